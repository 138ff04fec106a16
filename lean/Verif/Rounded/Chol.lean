/-
The Cholesky-based orthogonalisation routines in rounded arithmetic: contracts of the kernels, and the accuracy of
`cholQR1`, `cholQR2` and `shiftedcholQR2` for blocks that are not too ill-conditioned.
-/
import Verif.Rounded.CholLin
import Verif.Rounded.Ortho

namespace Verif
namespace Rounded

open Matrix Finset

/-! ### The routines -/

/-- The kernels of the Cholesky variants for `n` columns with `N` rows: the Gram matrix (`t_syherk`, with a reduction in
the distributed backend), `t_potrf`, `t_trsm`, and the shift of the diagonal (`computeDiagonalAbsSum`,
`shiftMatrixForQR`). -/
structure CholKern (K : Type*) (N n : ℕ) where
  gram : (ℕ → Fin N → K) → Matrix (Fin n) (Fin n) K
  potrf : Matrix (Fin n) (Fin n) K → ℤ × Matrix (Fin n) (Fin n) K
  trsm : Matrix (Fin n) (Fin n) K → (ℕ → Fin N → K) → ℕ → Fin N → K
  shift : Matrix (Fin n) (Fin n) K → Matrix (Fin n) (Fin n) K

section
variable {K : Type*} {N n : ℕ} (k : CholKern K N n)

/-- `cholQR1`: seq 314-335, dla 1145-1179. -/
def CholKern.qr1 (X : ℕ → Fin N → K) : ℤ × (ℕ → Fin N → K) :=
  let x := k.potrf (k.gram X)
  if x.1 ≠ 0 then (x.1, X) else (x.1, k.trsm x.2 X)

/-- `cholQR2`: seq 337-363, dla 1181-1227. -/
def CholKern.qr2 (X : ℕ → Fin N → K) : ℤ × (ℕ → Fin N → K) :=
  let x := k.potrf (k.gram X)
  if x.1 ≠ 0 then (x.1, X)
  else
    let X := k.trsm x.2 X
    let y := k.potrf (k.gram X)
    (y.1, k.trsm y.2 X)

/-- `shiftedcholQR2`: seq 365-399 (`v.early = false`, `v.lastInfo = true`), dla 1229-1306 (`v.early = true`,
`v.lastInfo = false`). -/
def CholKern.shifted (v : CholVariant) (X : ℕ → Fin N → K) : ℤ × (ℕ → Fin N → K) :=
  let x := k.potrf (k.shift (k.gram X))
  if x.1 ≠ 0 then (x.1, X)
  else
    let X := k.trsm x.2 X
    let y := k.potrf (k.gram X)
    if v.early = true ∧ y.1 ≠ 0 then (y.1, X)
    else
      let X := k.trsm y.2 X
      let z := k.potrf (k.gram X)
      (if v.lastInfo then z.1 else y.1, k.trsm z.2 X)
end

/-! ### Contracts -/

section
variable {K 𝕜 : Type*} [RCLike 𝕜] {N n : ℕ} (F : Fl K 𝕜)

/-- The upper triangle of a matrix: what `t_trsm('R', 'U', 'N', 'N', ..)` uses of its triangular matrix. -/
def upper (R : Matrix (Fin n) (Fin n) K) : Matrix (Fin n) (Fin n) 𝕜 := fun i j => if i ≤ j then F.val (R i j) else 0

/-- The Hermitian matrix which `t_potrf('U', ..)` takes from the upper triangle (of the diagonal the real parts). -/
def hpart (G : Matrix (Fin n) (Fin n) K) : Matrix (Fin n) (Fin n) 𝕜 := fun i j =>
  if i = j then (RCLike.re (F.val (G i i)) : 𝕜) else if i < j then F.val (G i j) else star (F.val (G j i))

/-- The matrix is positive definite, and after scaling its diagonal to one its smallest eigenvalue is at least `θ`. -/
def PosAbove (θ : ℝ) (G : Matrix (Fin n) (Fin n) K) : Prop :=
  (∀ j, 0 < RCLike.re (F.val (G j j))) ∧ ∀ b : Fin n → 𝕜,
    θ * ∑ j, ‖b j‖ ^ 2 * RCLike.re (F.val (G j j)) ≤ RCLike.re (∑ i, ∑ j, star (b i) * b j * hpart F G i j)

/-- **Contract of the kernels** with relative error `e`.

* `gram`: entries of the upper triangle of the Gram matrix (inner products in any order of operations);
* `potrf`: the backward error of a successful factorisation (Higham, Accuracy and Stability of Numerical Algorithms,
  Theorem 10.3);
* `succeeds`: no breakdown if the scaled matrix is positive definite enough (Demmel; Higham, Theorem 10.7);
* `trsm`: the backward error of the triangular solve, row by row (Higham, Theorem 8.5);
* `shift`: the diagonal is increased by `sqrt(N) eps` times its sum (seq 374-379, 572-588; dla 1250-1262). -/
structure CholAcc (k : CholKern K N n) (eps e : ℝ) : Prop where
  gram : ∀ X (i j : Fin n), i ≤ j → ‖F.val (k.gram X i j) - dotc (valV F (X i)) (valV F (X j))‖ ≤
    e * (Verif.nrm2 (valV F (X i)) * Verif.nrm2 (valV F (X j)))
  potrf : ∀ G, (k.potrf G).1 = 0 → (∀ j, F.val ((k.potrf G).2 j j) ≠ 0) ∧ ∀ i j : Fin n, i ≤ j →
    ‖((upper F (k.potrf G).2)ᴴ * upper F (k.potrf G).2) i j - hpart F G i j‖ ≤
      e * ∑ l, ‖upper F (k.potrf G).2 l i‖ * ‖upper F (k.potrf G).2 l j‖
  succeeds : ∀ G, PosAbove F (2 * n * e) G → (k.potrf G).1 = 0
  trsm : ∀ R X, (∀ j, F.val (R j j) ≠ 0) → ∀ (j : Fin n) (a : Fin N),
    ‖∑ l : Fin n, upper F R l j * F.val (k.trsm R X l a) - F.val (X j a)‖ ≤
      e * ∑ l : Fin n, ‖upper F R l j‖ * ‖F.val (k.trsm R X l a)‖
  shift : ∀ G, ∃ s : ℝ, |s - Real.sqrt N * eps * ∑ j, ‖F.val (G j j)‖| ≤ e * (Real.sqrt N * eps * ∑ j, ‖F.val (G j j)‖) ∧
    (∀ i j, i ≠ j → k.shift G i j = G i j) ∧
    ∀ j, |RCLike.re (F.val (k.shift G j j)) - (RCLike.re (F.val (G j j)) + s)| ≤ e * (|RCLike.re (F.val (G j j))| + |s|)

/-- The columns as vectors. -/
noncomputable def vecs (n : ℕ) (X : ℕ → Fin N → K) (j : Fin n) : EuclideanSpace 𝕜 (Fin N) := WithLp.toLp 2 (valV F (X j))

/-- **The condition of a block**: no column vanishes, and for the columns scaled to norm one the smallest singular value is
at least `σ`. -/
def Conditioned (σ : ℝ) (n : ℕ) (X : ℕ → Fin N → K) : Prop :=
  0 < σ ∧ (∀ j, j < n → valV F (X j) ≠ 0) ∧ ∀ b : ℕ → 𝕜,
    σ ^ 2 * ∑ j ∈ range n, ‖b j‖ ^ 2 * Verif.nrm2 (valV F (X j)) ^ 2 ≤
      Verif.nrm2 (∑ j ∈ range n, b j • valV F (X j)) ^ 2
end

/-! ### From the contracts to a step -/

section
variable {K 𝕜 : Type*} [RCLike 𝕜] {N n : ℕ} {F : Fl K 𝕜} {k : CholKern K N n} {eps e : ℝ}

theorem vecs_norm (X : ℕ → Fin N → K) (j : Fin n) : ‖vecs F n X j‖ = Verif.nrm2 (valV F (X j)) := (nrm2_eq_norm _).symm

theorem vecs_inner (X : ℕ → Fin N → K) (i j : Fin n) :
    (inner 𝕜 (vecs F n X i) (vecs F n X j) : 𝕜) = dotc (valV F (X i)) (valV F (X j)) := (dotc_inner _ _).symm

theorem vecs_comb (X : ℕ → Fin N → K) (b : Fin n → 𝕜) :
    comb (vecs F n X) b = WithLp.toLp 2 (fun a => ∑ l, b l * F.val (X l a)) := by
  unfold comb vecs
  ext a
  simp [valV]

theorem Conditioned.cond {σ : ℝ} {X : ℕ → Fin N → K} (h : Conditioned F σ n X) : CondOf (𝕜 := 𝕜) σ (vecs F n X) := by
  obtain ⟨h1, h2, h3⟩ := h
  refine ⟨h1, fun j h0 => h2 j j.isLt ?_, fun b => ?_⟩
  · have := congrArg WithLp.ofLp h0
    simpa [vecs] using this
  · have h4 := h3 fun j => if hj : j < n then b ⟨j, hj⟩ else 0
    have e1 : ∑ j ∈ range n, ‖(if hj : j < n then b ⟨j, hj⟩ else 0)‖ ^ 2 * Verif.nrm2 (valV F (X j)) ^ 2 =
        wsq (vecs F n X) b := by
      rw [Finset.sum_range]
      unfold wsq
      refine Finset.sum_congr rfl fun j _ => ?_
      rw [dif_pos j.isLt, vecs_norm, mul_pow]
    have e2 : Verif.nrm2 (∑ j ∈ range n, (if hj : j < n then b ⟨j, hj⟩ else 0) • valV F (X j)) = ‖comb (vecs F n X) b‖ := by
      rw [nrm2_eq_norm, Finset.sum_range]
      congr 1
      unfold comb vecs
      rw [WithLp.toLp_sum]
      refine Finset.sum_congr rfl fun j _ => ?_
      rw [dif_pos j.isLt, WithLp.toLp_smul]
    rw [e1, e2] at h4
    exact h4

/-- the norm of a vector with small entries -/
theorem nrm2_rows_le {m : ℕ} {v : Fin N → 𝕜} {c : Fin m → ℝ} {y : Fin m → Fin N → 𝕜} (hc : ∀ l, 0 ≤ c l)
    (h : ∀ a, ‖v a‖ ≤ ∑ l, c l * ‖y l a‖) : Verif.nrm2 v ≤ ∑ l, c l * Verif.nrm2 (y l) := by
  have h1 : Verif.nrm2 v ≤ Verif.nrm2 (∑ l, fun a => ((c l * ‖y l a‖ : ℝ) : 𝕜)) := by
    refine nrm2_le fun a => (h a).trans ?_
    rw [Finset.sum_apply]
    have : ‖∑ l, ((c l * ‖y l a‖ : ℝ) : 𝕜)‖ = ∑ l, c l * ‖y l a‖ := by
      rw [← RCLike.ofReal_sum, RCLike.norm_ofReal, abs_of_nonneg]
      exact Finset.sum_nonneg fun l _ => mul_nonneg (hc l) (norm_nonneg _)
    exact this.ge
  refine h1.trans ?_
  rw [nrm2_eq_norm, WithLp.toLp_sum]
  refine (norm_sum_le _ _).trans (Finset.sum_le_sum fun l _ => ?_)
  rw [← nrm2_eq_norm]
  have e1 : (fun a => ((c l * ‖y l a‖ : ℝ) : 𝕜)) = ((c l : ℝ) : 𝕜) • fun a => ((‖y l a‖ : ℝ) : 𝕜) := by
    funext a; simp
  rw [e1, nrm2_smul, RCLike.norm_ofReal, abs_of_nonneg (hc l)]
  refine mul_le_mul_of_nonneg_left (nrm2_le fun a => ?_) (hc l)
  simp

/-- **One step** of a Cholesky variant is a `CholStep`, for a Hermitian matrix close to the shifted Gram matrix. -/
theorem step_of (hk : CholAcc F k eps e) (he : 0 ≤ e) (he1 : 12 * e ≤ 1) {X : ℕ → Fin N → K} {G : Matrix (Fin n) (Fin n) K}
    {s : ℝ} (hsx : ∀ j, s ≤ ‖vecs F n X j‖ ^ 2)
    (hG : ∀ i j : Fin n, i ≤ j → ‖hpart F G i j - inner 𝕜 (vecs F n X i) (vecs F n X j) - (if i = j then (s : 𝕜) else 0)‖ ≤
      7 / 2 * e * (‖vecs F n X i‖ * ‖vecs F n X j‖)) (h0 : (k.potrf G).1 = 0) :
    CholStep (vecs F n X) (vecs F n (k.trsm (k.potrf G).2 X)) (upper F (k.potrf G).2) s e := by
  obtain ⟨hd, hp⟩ := hk.potrf G h0
  set R := (k.potrf G).2 with hR
  set U := upper F R with hU
  set x := vecs F n X with hx
  -- the columns of the factor
  set ρ : Fin n → ℝ := fun j => Real.sqrt (∑ l, ‖U l j‖ ^ 2) with hρ
  have hρ2 : ∀ j, ρ j ^ 2 = ∑ l, ‖U l j‖ ^ 2 := fun j => Real.sq_sqrt (Finset.sum_nonneg fun _ _ => by positivity)
  have hρ0 : ∀ j, 0 ≤ ρ j := fun j => Real.sqrt_nonneg _
  have hdiag : ∀ j, (Uᴴ * U) j j = ((ρ j ^ 2 : ℝ) : 𝕜) := fun j => by
    rw [hρ2, Matrix.mul_apply]
    push_cast
    exact Finset.sum_congr rfl fun l _ => by
      rw [Matrix.conjTranspose_apply, RCLike.star_def, RCLike.conj_mul]
  have hρx : ∀ j, ρ j ^ 2 ≤ 3 * ‖x j‖ ^ 2 := fun j => by
    have h1 := hp j j le_rfl
    have h2 := hG j j le_rfl
    rw [hdiag] at h1
    rw [if_pos rfl] at h2
    have e1 : (inner 𝕜 (x j) (x j) : 𝕜) = ((‖x j‖ ^ 2 : ℝ) : 𝕜) := by
      push_cast; exact inner_self_eq_norm_sq_to_K _
    have e2 : hpart F G j j = ((RCLike.re (F.val (G j j)) : ℝ) : 𝕜) := by unfold hpart; rw [if_pos rfl]
    have e3 : ∑ l, ‖U l j‖ * ‖U l j‖ = ρ j ^ 2 := by rw [hρ2]; exact Finset.sum_congr rfl fun l _ => by ring
    rw [e2, ← RCLike.ofReal_sub, RCLike.norm_ofReal, e3] at h1
    rw [e1, e2, ← RCLike.ofReal_sub, ← RCLike.ofReal_sub, RCLike.norm_ofReal] at h2
    have h3 := (abs_le.mp h1).2
    have h4 := (abs_le.mp h2).2
    have h5 := hsx j
    nlinarith [sq_nonneg (ρ j), sq_nonneg ‖x j‖]
  have hprod : ∀ i j, ρ i * ρ j ≤ 3 * (‖x i‖ * ‖x j‖) := fun i j => by
    refine le_of_sq_le_sq ?_ (by positivity)
    have := mul_le_mul (hρx i) (hρx j) (by positivity) (by positivity)
    nlinarith
  have hcs : ∀ (i j : Fin n), ∑ l, ‖U l i‖ * ‖U l j‖ ≤ ρ i * ρ j := fun i j => by
    have := Finset.sum_mul_sq_le_sq_mul_sq univ (fun l => ‖U l i‖) (fun l => ‖U l j‖)
    rw [← hρ2, ← hρ2] at this
    refine le_of_sq_le_sq ?_ (mul_nonneg (hρ0 i) (hρ0 j))
    rw [mul_pow]
    exact this
  constructor
  · have key : ∀ i j, i ≤ j → ‖(Uᴴ * U) i j - inner 𝕜 (x i) (x j) - (if i = j then (s : 𝕜) else 0)‖ ≤
        7 * e * (‖x i‖ * ‖x j‖) := by
      intro i j hij
      have h1 := (hp i j hij).trans (mul_le_mul_of_nonneg_left ((hcs i j).trans (hprod i j)) he)
      have h2 := hG i j hij
      have e1 : (Uᴴ * U) i j - inner 𝕜 (x i) (x j) - (if i = j then (s : 𝕜) else 0) = ((Uᴴ * U) i j - hpart F G i j) +
          (hpart F G i j - inner 𝕜 (x i) (x j) - (if i = j then (s : 𝕜) else 0)) := by abel
      rw [e1]
      have h3 : 0 ≤ e * (‖x i‖ * ‖x j‖) := by positivity
      refine (norm_add_le _ _).trans ?_
      linarith
    intro i j
    rcases le_total i j with hij | hij
    · exact key i j hij
    · have h1 := key j i hij
      have e1 : (Uᴴ * U) i j - inner 𝕜 (x i) (x j) - (if i = j then (s : 𝕜) else 0) =
          star ((Uᴴ * U) j i - inner 𝕜 (x j) (x i) - (if j = i then (s : 𝕜) else 0)) := by
        have t1 : (Uᴴ * U) i j = star ((Uᴴ * U) j i) := by
          have := congrFun (congrFun (Matrix.isHermitian_conjTranspose_mul_self U) i) j
          rw [Matrix.conjTranspose_apply] at this
          exact this.symm
        have t2 : (inner 𝕜 (x i) (x j) : 𝕜) = star (inner 𝕜 (x j) (x i) : 𝕜) := (inner_conj_symm _ _).symm
        rw [star_sub, star_sub, ← t1, ← t2]
        congr 1
        by_cases hh : i = j
        · subst hh; simp
        · rw [if_neg hh, if_neg (Ne.symm hh), star_zero]
      rw [e1, norm_star]
      linarith
  · intro j
    set Y := k.trsm R X with hY
    have h1 := hk.trsm R X hd j
    have h2 : ‖comb (vecs F n Y) (fun l => U l j) - x j‖ ≤ ∑ l, (e * ‖U l j‖) * Verif.nrm2 (valV F (Y l)) := by
      have e1 : comb (vecs F n Y) (fun l => U l j) - x j =
          WithLp.toLp 2 (fun a => ∑ l : Fin n, U l j * F.val (Y l a) - F.val (X j a)) := by
        rw [vecs_comb]
        rfl
      rw [e1, ← nrm2_eq_norm]
      refine nrm2_rows_le (y := fun l : Fin n => valV F (Y l)) (fun l => by positivity) fun a => (h1 a).trans ?_
      rw [Finset.mul_sum]
      exact Finset.sum_le_sum fun l _ => by rw [mul_assoc]; rfl
    refine h2.trans ?_
    have h3 : ∑ l, (e * ‖U l j‖) * Verif.nrm2 (valV F (Y l)) = e * ∑ l, ‖U l j‖ * ‖vecs F n Y l‖ := by
      rw [Finset.mul_sum]
      exact Finset.sum_congr rfl fun l _ => by rw [vecs_norm]; ring
    rw [h3]
    have h4 : ∑ l, ‖U l j‖ * ‖vecs F n Y l‖ ≤ ρ j * vfrob (vecs F n Y) := by
      have := Finset.sum_mul_sq_le_sq_mul_sq univ (fun l => ‖U l j‖) (fun l => ‖vecs F n Y l‖)
      refine le_of_sq_le_sq ?_ (mul_nonneg (hρ0 j) (Real.sqrt_nonneg _))
      rw [mul_pow, hρ2]
      unfold vfrob
      rw [Real.sq_sqrt (Finset.sum_nonneg fun _ _ => by positivity)]
      exact this
    have h5 : ρ j ≤ 2 * ‖x j‖ := by
      refine le_of_sq_le_sq ?_ (by positivity)
      nlinarith [hρx j, sq_nonneg ‖x j‖]
    have h6 : ρ j * vfrob (vecs F n Y) ≤ 2 * ‖x j‖ * vfrob (vecs F n Y) := mul_le_mul_of_nonneg_right h5 (Real.sqrt_nonneg _)
    have := mul_le_mul_of_nonneg_left (h4.trans h6) he
    linarith

theorem hpart_diag (G : Matrix (Fin n) (Fin n) K) (j : Fin n) :
    hpart F G j j = ((RCLike.re (F.val (G j j)) : ℝ) : 𝕜) := by unfold hpart; rw [if_pos rfl]

theorem hpart_lt {G : Matrix (Fin n) (Fin n) K} {i j : Fin n} (h : i < j) : hpart F G i j = F.val (G i j) := by
  unfold hpart; rw [if_neg (ne_of_lt h), if_pos h]

theorem hpart_star (G : Matrix (Fin n) (Fin n) K) (i j : Fin n) : hpart F G i j = star (hpart F G j i) := by
  unfold hpart
  rcases lt_trichotomy i j with h | h | h
  · rw [if_neg (ne_of_lt h), if_pos h, if_neg (ne_of_gt h), if_neg (not_lt_of_gt h), star_star]
  · subst h; simp
  · rw [if_neg (ne_of_gt h), if_neg (not_lt_of_gt h), if_neg (ne_of_lt h), if_pos h]

theorem inner_self_ofReal (v : EuclideanSpace 𝕜 (Fin N)) : (inner 𝕜 v v : 𝕜) = ((‖v‖ ^ 2 : ℝ) : 𝕜) := by
  push_cast; exact inner_self_eq_norm_sq_to_K _

/-- The diagonal of the Gram matrix. -/
theorem CholAcc.diag (hk : CholAcc F k eps e) (X : ℕ → Fin N → K) (j : Fin n) :
    |RCLike.re (F.val (k.gram X j j)) - ‖vecs F n X j‖ ^ 2| ≤ e * ‖vecs F n X j‖ ^ 2 ∧
      |‖F.val (k.gram X j j)‖ - ‖vecs F n X j‖ ^ 2| ≤ e * ‖vecs F n X j‖ ^ 2 := by
  have h := hk.gram X j j le_rfl
  rw [← vecs_inner, inner_self_ofReal, ← vecs_norm, ← sq] at h
  constructor
  · refine le_trans ?_ h
    have := RCLike.abs_re_le_norm (F.val (k.gram X j j) - ((‖vecs F n X j‖ ^ 2 : ℝ) : 𝕜))
    rwa [map_sub, RCLike.ofReal_re] at this
  · refine le_trans ?_ h
    have := abs_norm_sub_norm_le (F.val (k.gram X j j)) ((‖vecs F n X j‖ ^ 2 : ℝ) : 𝕜)
    rwa [RCLike.norm_ofReal, abs_of_nonneg (sq_nonneg ‖vecs F n X j‖)] at this

/-- The Gram matrix of the upper triangle. -/
theorem CholAcc.close (hk : CholAcc F k eps e) (X : ℕ → Fin N → K) (i j : Fin n) (hij : i ≤ j) :
    ‖hpart F (k.gram X) i j - inner 𝕜 (vecs F n X i) (vecs F n X j)‖ ≤ e * (‖vecs F n X i‖ * ‖vecs F n X j‖) := by
  rcases eq_or_lt_of_le hij with h | h
  · subst h
    rw [hpart_diag, inner_self_ofReal, ← RCLike.ofReal_sub, RCLike.norm_ofReal, ← sq]
    exact (hk.diag X i).1
  · rw [hpart_lt h, vecs_inner, vecs_norm, vecs_norm]
    exact hk.gram X i j hij

theorem CholAcc.close' (hk : CholAcc F k eps e) (X : ℕ → Fin N → K) (i j : Fin n) :
    ‖hpart F (k.gram X) i j - inner 𝕜 (vecs F n X i) (vecs F n X j)‖ ≤ e * (‖vecs F n X i‖ * ‖vecs F n X j‖) := by
  rcases le_total i j with h | h
  · exact hk.close X i j h
  · rw [hpart_star, ← inner_conj_symm, ← RCLike.star_def, ← star_sub, norm_star, mul_comm ‖vecs F n X i‖]
    exact hk.close X j i h

/-- **A step without shift.** -/
theorem CholAcc.plain (hk : CholAcc F k eps e) (he : 0 ≤ e) (he1 : 12 * e ≤ 1) (X : ℕ → Fin N → K)
    (h0 : (k.potrf (k.gram X)).1 = 0) :
    CholStep (vecs F n X) (vecs F n (k.trsm (k.potrf (k.gram X)).2 X)) (upper F (k.potrf (k.gram X)).2) 0 e := by
  refine step_of hk he he1 (s := 0) (fun j => by positivity) (fun i j hij => ?_) h0
  rw [RCLike.ofReal_zero, ite_self, sub_zero]
  have h1 := hk.close X i j hij
  have h2 : 0 ≤ e * (‖vecs F n X i‖ * ‖vecs F n X j‖) := by positivity
  linarith

/-- The shift for a block: `sqrt(N) eps` times the sum of the squares of the norms of the columns. -/
noncomputable def shiftOf (F : Fl K 𝕜) (eps : ℝ) (n : ℕ) (X : ℕ → Fin N → K) : ℝ :=
  Real.sqrt N * eps * ∑ j ∈ range n, Verif.nrm2 (valV F (X j)) ^ 2

/-- **A step with shift.** -/
theorem CholAcc.shiftedStep (hk : CholAcc F k eps e) (he : 0 ≤ e) (he1 : 12 * e ≤ 1) (heps : 0 ≤ eps)
    (X : ℕ → Fin N → K) (hsx : ∀ j, 2 * shiftOf F eps n X ≤ ‖vecs F n X j‖ ^ 2)
    (h0 : (k.potrf (k.shift (k.gram X))).1 = 0) :
    ∃ s, shiftOf F eps n X / 2 ≤ s ∧ s ≤ 2 * shiftOf F eps n X ∧
      CholStep (vecs F n X) (vecs F n (k.trsm (k.potrf (k.shift (k.gram X))).2 X))
        (upper F (k.potrf (k.shift (k.gram X))).2) s e := by
  obtain ⟨s, hs, hoff, hdiag⟩ := hk.shift (k.gram X)
  set t := shiftOf F eps n X with ht
  have hte : t = Real.sqrt N * eps * ∑ j : Fin n, ‖vecs F n X j‖ ^ 2 := by
    rw [ht]; unfold shiftOf
    rw [Finset.sum_range]
    congr 1
    exact Finset.sum_congr rfl fun j _ => by rw [vecs_norm]
  have ht0 : 0 ≤ t := by
    rw [hte]
    exact mul_nonneg (by positivity) (Finset.sum_nonneg fun _ _ => by positivity)
  set c := Real.sqrt N * eps with hc
  have hc0 : 0 ≤ c := by positivity
  have hT : |c * ∑ j, ‖F.val (k.gram X j j)‖ - t| ≤ e * t := by
    rw [hte, ← mul_sub, ← Finset.sum_sub_distrib, abs_mul, abs_of_nonneg hc0]
    have : |∑ j, (‖F.val (k.gram X j j)‖ - ‖vecs F n X j‖ ^ 2)| ≤ e * ∑ j, ‖vecs F n X j‖ ^ 2 := by
      rw [Finset.mul_sum]
      exact (Finset.abs_sum_le_sum_abs _ _).trans (Finset.sum_le_sum fun j _ => (hk.diag X j).2)
    have := mul_le_mul_of_nonneg_left this hc0
    linarith
  set T := c * ∑ j, ‖F.val (k.gram X j j)‖ with hTd
  have h1 := abs_le.mp hT
  have h2 := abs_le.mp hs
  have he2 : e ≤ 1 / 12 := by linarith
  have het : e * t ≤ 1 / 12 * t := mul_le_mul_of_nonneg_right he2 ht0
  have hT0 : 0 ≤ T := by linarith
  have heT : e * T ≤ 1 / 12 * T := mul_le_mul_of_nonneg_right he2 hT0
  have hlo : t / 2 ≤ s := by linarith
  have hhi : s ≤ 2 * t := by linarith
  have hs0 : 0 ≤ s := by linarith
  have hsx' : ∀ j, s ≤ ‖vecs F n X j‖ ^ 2 := fun j => hhi.trans (hsx j)
  refine ⟨s, hlo, hhi, step_of hk he he1 hsx' (fun i j hij => ?_) h0⟩
  rcases eq_or_lt_of_le hij with h | h
  · subst h
    rw [if_pos rfl, hpart_diag, inner_self_ofReal, ← RCLike.ofReal_sub, ← RCLike.ofReal_sub, RCLike.norm_ofReal, ← sq]
    have a1 := hdiag i
    have a2 := (hk.diag X i).1
    set z := RCLike.re (F.val (k.gram X i i)) with hz
    set w := ‖vecs F n X i‖ ^ 2 with hw
    have hw0 : 0 ≤ w := sq_nonneg _
    have hew : e * w ≤ 1 / 12 * w := mul_le_mul_of_nonneg_right he2 hw0
    have a3 : |z| ≤ 13 / 12 * w := by
      have := abs_le.mp a2
      rw [abs_le]
      constructor <;> linarith
    have a4 : e * (|z| + |s|) ≤ e * (25 / 12 * w) := by
      refine mul_le_mul_of_nonneg_left ?_ he
      rw [abs_of_nonneg hs0]
      have := hsx' i
      linarith
    have b1 := abs_le.mp (a1.trans a4)
    have b2 := abs_le.mp a2
    have hew0 : 0 ≤ e * w := mul_nonneg he hw0
    rw [abs_le]
    constructor <;> linarith
  · rw [if_neg (ne_of_lt h), sub_zero, hpart_lt h, hoff i j (ne_of_lt h), ← hpart_lt (F := F) h]
    have h1 := hk.close X i j hij
    have h2 : 0 ≤ e * (‖vecs F n X i‖ * ‖vecs F n X j‖) := by positivity
    linarith

/-- **No breakdown** for a well-conditioned block. -/
theorem CholAcc.noBreakdown (hk : CholAcc F k eps e) (he : 0 ≤ e) (he1 : 12 * e ≤ 1) {X : ℕ → Fin N → K} {σ : ℝ}
    (hc : CondOf (𝕜 := 𝕜) σ (vecs F n X)) (hσ : 5 * n * e ≤ σ ^ 2) : (k.potrf (k.gram X)).1 = 0 := by
  have he2 : e ≤ 1 / 12 := by linarith
  refine hk.succeeds _ ⟨fun j => ?_, fun b => ?_⟩
  · have h1 := (abs_le.mp (hk.diag X j).1).1
    have h2 : 0 < ‖vecs F n X j‖ ^ 2 := by have := norm_pos_iff.mpr (hc.ne j); positivity
    nlinarith
  · have h1 := form_le (x := vecs F n X) (M := Matrix.of fun i j => hpart F (k.gram X) i j -
      inner 𝕜 (vecs F n X i) (vecs F n X j)) he (hk.close' X) b
    have e1 : (∑ i, ∑ j, star (b i) * b j * (Matrix.of fun i j => hpart F (k.gram X) i j -
        inner 𝕜 (vecs F n X i) (vecs F n X j)) i j) = (∑ i, ∑ j, star (b i) * b j * hpart F (k.gram X) i j) -
          ((‖comb (vecs F n X) b‖ ^ 2 : ℝ) : 𝕜) := by
      rw [comb_sq_inner]
      simp only [Matrix.of_apply, mul_sub, Finset.sum_sub_distrib]
    rw [e1] at h1
    have h2 := (abs_le.mp ((RCLike.abs_re_le_norm _).trans h1)).1
    rw [map_sub, RCLike.ofReal_re] at h2
    have h3 := hc.low b
    have hW := wsq_nonneg (vecs F n X) b
    have h4 : ∑ j, ‖b j‖ ^ 2 * RCLike.re (F.val (k.gram X j j)) ≤ 2 * wsq (vecs F n X) b := by
      unfold wsq
      rw [Finset.mul_sum]
      refine Finset.sum_le_sum fun j _ => ?_
      have a1 := (abs_le.mp (hk.diag X j).1).2
      have a2 : RCLike.re (F.val (k.gram X j j)) ≤ 2 * ‖vecs F n X j‖ ^ 2 := by nlinarith [sq_nonneg ‖vecs F n X j‖]
      have := mul_le_mul_of_nonneg_left a2 (sq_nonneg ‖b j‖)
      nlinarith
    have h5 := mul_le_mul_of_nonneg_left h4 (show 0 ≤ 2 * n * e by positivity)
    have h6 := mul_le_mul_of_nonneg_right hσ hW
    nlinarith

/-! ### The three routines -/

theorem upper_low (R : Matrix (Fin n) (Fin n) K) {l j : Fin n} (h : j < l) : upper F R l j = 0 := by
  unfold upper; rw [if_neg (not_le_of_gt h)]
end

section
variable {𝕜 V : Type*} [RCLike 𝕜] [NormedAddCommGroup V] [InnerProductSpace 𝕜 V] {n : ℕ}

/-- Each vector is, up to the relative error `μ`, in the span of the `q` up to its index. -/
def SpanErr (𝕜 : Type*) [RCLike 𝕜] [InnerProductSpace 𝕜 V] (μ : ℝ) (x q : Fin n → V) : Prop :=
  ∀ j, ∃ v ∈ Submodule.span 𝕜 (q '' Set.Iic j), ‖x j - v‖ ≤ μ * ‖x j‖

/-- A step backwards. -/
theorem SpanErr.step {x y q : Fin n → V} {R : Matrix (Fin n) (Fin n) 𝕜} {s e σ μ : ℝ} (hq : SpanErr 𝕜 μ y q) (hμ : 0 ≤ μ)
    (h : CholStep x y R s e) (hf : Fits x σ s e) (hc : CondOf (𝕜 := 𝕜) σ x) (hsx : ∀ j, s ≤ ‖x j‖ ^ 2)
    (hR : ∀ l j, j < l → R l j = 0) (hy : ∀ j, ‖y j‖ ^ 2 ≤ 5) :
    SpanErr 𝕜 (6 * Real.sqrt n * e + 5 * Real.sqrt n * μ) x q := by
  intro j
  choose v hv hvn using hq
  refine ⟨∑ l, R l j • v l, Submodule.sum_mem _ fun l _ => ?_, ?_⟩
  · by_cases hl : j < l
    · rw [hR l j hl, zero_smul]; exact Submodule.zero_mem _
    · refine Submodule.smul_mem _ _ (Submodule.span_mono (Set.image_mono ?_) (hv l))
      exact Set.Iic_subset_Iic.mpr (not_lt.mp hl)
  · have h1 := step_span h hf hc j
    have h2 : ‖∑ l, R l j • (y l - v l)‖ ≤ 5 / 2 * μ * ∑ l, ‖R l j‖ := by
      rw [Finset.mul_sum]
      refine (norm_sum_le _ _).trans (Finset.sum_le_sum fun l _ => ?_)
      rw [norm_smul]
      have a1 : ‖y l‖ ≤ 5 / 2 := le_of_sq_le_sq ((hy l).trans (by norm_num)) (by norm_num)
      have a2 : ‖y l - v l‖ ≤ 5 / 2 * μ := (hvn l).trans (by nlinarith)
      have := mul_le_mul_of_nonneg_left a2 (norm_nonneg (R l j))
      linarith
    have h3 := mul_le_mul_of_nonneg_left (col_le h hf hc hsx j) (show 0 ≤ 5 / 2 * μ by positivity)
    have e1 : x j - ∑ l, R l j • v l = -(comb y (fun l => R l j) - x j) + ∑ l, R l j • (y l - v l) := by
      unfold comb
      simp only [smul_sub, Finset.sum_sub_distrib]
      abel
    rw [e1]
    refine (norm_add_le _ _).trans ?_
    rw [norm_neg]
    linarith
end

section
variable {K 𝕜 : Type*} [RCLike 𝕜] {N n : ℕ} {F : Fl K 𝕜} {k : CholKern K N n} {eps e : ℝ}

/-- From families to columns. -/
theorem qrOf_of {X Y : ℕ → Fin N → K} {q : Fin n → EuclideanSpace 𝕜 (Fin N)} {ε μ : ℝ} (hq : Orthonormal 𝕜 q)
    (h1 : ∀ j, ‖vecs F n Y j - q j‖ ≤ ε) (h2 : SpanErr 𝕜 μ (vecs F n X) q) (hμ : μ ≤ ε) :
    QrOf ε n (fun j => valV F (X j)) fun j => valV F (Y j) := by
  classical
  refine ⟨fun j => if h : j < n then WithLp.ofLp (q ⟨j, h⟩) else 0, fun i j hi hj => ?_, fun j hj => ⟨?_, ?_⟩⟩
  · dsimp only
    rw [dif_pos hi, dif_pos hj, dotc_inner]
    have := orthonormal_iff_ite.mp hq ⟨i, hi⟩ ⟨j, hj⟩
    simp only [Fin.mk.injEq] at this
    exact this
  · dsimp only
    rw [dif_pos hj, nrm2_eq_norm]
    exact h1 ⟨j, hj⟩
  · obtain ⟨v, hv, hvn⟩ := h2 ⟨j, hj⟩
    obtain ⟨l, hl, hlv⟩ := (Finsupp.mem_span_image_iff_linearCombination 𝕜).mp hv
    refine ⟨fun i => if h : i < n then l ⟨i, h⟩ else 0, ?_⟩
    have e1 : (∑ i ∈ range (j + 1), (if h : i < n then l ⟨i, h⟩ else 0) •
        (if h : i < n then WithLp.ofLp (q ⟨i, h⟩) else 0)) = WithLp.ofLp v := by
      have e2 : v = ∑ i : Fin n, l i • q i := by
        rw [← hlv, Finsupp.linearCombination_apply, Finsupp.sum_fintype _ _ (by simp)]
      rw [e2, WithLp.ofLp_sum, Finset.sum_subset (s₂ := range n) (by intro i; simp; omega), Finset.sum_range]
      · refine Finset.sum_congr rfl fun i _ => ?_
        rw [dif_pos i.isLt, dif_pos i.isLt]
        rfl
      · intro i hi hi'
        simp only [Finset.mem_range, not_lt] at hi hi'
        have : l ⟨i, hi⟩ = 0 := by
          by_contra hne
          have := hl (Finsupp.mem_support_iff.mpr hne)
          simp only [Set.mem_Iic, Fin.mk_le_mk] at this
          omega
        rw [dif_pos hi, this, zero_smul]
    rw [e1, nrm2_eq_norm, nrm2_eq_norm]
    refine le_trans ?_ (mul_le_mul_of_nonneg_right hμ (norm_nonneg _))
    exact hvn

/-- `n √n e`, the unit of the bounds -/
noncomputable def unit (n : ℕ) (e : ℝ) : ℝ := n * Real.sqrt n * e

theorem unit_facts (hn : 0 < n) (he : 0 ≤ e) :
    0 ≤ unit n e ∧ e ≤ unit n e ∧ n * e ≤ unit n e ∧ Real.sqrt n * e ≤ n * e ∧ Real.sqrt n * (n * e) = unit n e := by
  have h1 : (1 : ℝ) ≤ n := by exact_mod_cast hn
  have h2 : 1 ≤ Real.sqrt n := Real.one_le_sqrt.mpr h1
  have h3 : Real.sqrt n ≤ n := by
    rw [Real.sqrt_le_left (by positivity)]
    nlinarith
  have h4 : (n : ℝ) ≤ n * Real.sqrt n := by nlinarith
  unfold unit
  exact ⟨by positivity, by nlinarith, mul_le_mul_of_nonneg_right h4 he, mul_le_mul_of_nonneg_right h3 he, by ring⟩

/-- A step for a block of condition `1/2` or worse, without shift. -/
theorem fits_plain (hn : 0 < n) (he : 0 ≤ e) {σ : ℝ} {X : ℕ → Fin N → K} (hc : CondOf (𝕜 := 𝕜) σ (vecs F n X))
    (h : 176 * unit n e ≤ σ ^ 2) : Fits (vecs F n X) σ 0 e := by
  obtain ⟨u0, u1, u2, u3, u4⟩ := unit_facts hn he
  have hσ := hc.pos
  have hσ1 := hc.le_one hn
  refine ⟨he, ?_, le_rfl, fun j => ?_⟩
  · nlinarith
  · have : n * (7 * e) ≤ σ ^ 2 / 2 := by linarith
    have := mul_le_mul_of_nonneg_right this (sq_nonneg ‖vecs F n X j‖)
    linarith

/-- **`cholQR1`**: if it succeeds, on a block of condition `σ`. -/
theorem CholAcc.qr1 (hk : CholAcc F k eps e) (hn : 0 < n) (he : 0 ≤ e) {X : ℕ → Fin N → K} {σ ε : ℝ}
    (hc : Conditioned F σ n X) (h1 : 176 * unit n e ≤ σ ^ 2) (h2 : 132 * unit n e ≤ ε * σ ^ 2) (h0 : (k.qr1 X).1 = 0) :
    QrOf ε n (fun j => valV F (X j)) fun j => valV F ((k.qr1 X).2 j) := by
  obtain ⟨u0, u1, u2, u3, u4⟩ := unit_facts hn he
  have hc := hc.cond
  have hσ := hc.pos
  have hσ1 := hc.le_one hn
  have hσ2 : σ ^ 2 ≤ 1 := by nlinarith
  have hp : (k.potrf (k.gram X)).1 = 0 := by
    unfold CholKern.qr1 at h0
    by_contra hne
    rw [if_pos hne] at h0
    exact hne h0
  have e1 : k.qr1 X = (0, k.trsm (k.potrf (k.gram X)).2 X) := by
    unfold CholKern.qr1
    dsimp only
    rw [if_neg (by simp [hp]), hp]
  rw [e1]
  have hs := hk.plain he (by linarith) X hp
  have hf := fits_plain hn he hc h1
  have hσp : 0 < σ ^ 2 := by positivity
  have near := step_near hs hf hc hn (η := 44 * unit n e / σ ^ 2) (by
    rw [div_mul_cancel₀ _ hσp.ne']
    unfold unit
    linarith)
  have hη : 44 * unit n e / σ ^ 2 ≤ 1 / 4 := by rw [div_le_iff₀ hσp]; linarith
  obtain ⟨q, hq, hq1, hq2⟩ := near_gs hη near
  have hspan : SpanErr 𝕜 0 (vecs F n (k.trsm (k.potrf (k.gram X)).2 X)) q := fun j => ⟨_, hq2 j, by simp⟩
  have hε : 3 * (44 * unit n e / σ ^ 2) ≤ ε := by
    rw [← mul_div_assoc, div_le_iff₀ hσp]; linarith
  have hy := (near_cond hη near).2
  refine qrOf_of hq (fun j => (hq1 j).trans hε) (hspan.step le_rfl hs hf hc (fun j => by positivity)
    (fun l j h => upper_low _ h) fun j => (hy j).trans (by norm_num)) ?_
  refine le_trans ?_ hε
  rw [← mul_div_assoc, le_div_iff₀ hσp]
  have : 6 * Real.sqrt n * e + 5 * Real.sqrt n * 0 ≤ 6 * unit n e := by linarith
  nlinarith

/-- The two steps of `cholQR2`, as they occur in `shiftedcholQR2` too. -/
theorem CholAcc.twoSteps (hk : CholAcc F k eps e) (hn : 0 < n) (he : 0 ≤ e) {X : ℕ → Fin N → K} {σ : ℝ}
    (hc : CondOf (𝕜 := 𝕜) σ (vecs F n X)) (h1 : 704 * unit n e ≤ σ ^ 2) (hp : (k.potrf (k.gram X)).1 = 0) :
    let Y := k.trsm (k.potrf (k.gram X)).2 X
    (k.potrf (k.gram Y)).1 = 0 ∧ ∃ q : Fin n → EuclideanSpace 𝕜 (Fin N), Orthonormal 𝕜 q ∧
      (∀ j, ‖vecs F n (k.trsm (k.potrf (k.gram Y)).2 Y) j - q j‖ ≤ 528 * unit n e) ∧
      SpanErr 𝕜 (36 * (n * e)) (vecs F n X) q := by
  intro Y
  obtain ⟨u0, u1, u2, u3, u4⟩ := unit_facts hn he
  have hσ := hc.pos
  have hσ1 := hc.le_one hn
  have hσ2 : σ ^ 2 ≤ 1 := by nlinarith
  have hσp : 0 < σ ^ 2 := by positivity
  have hs := hk.plain he (by linarith) X hp
  have hf := fits_plain hn he hc (by linarith)
  have near := step_near hs hf hc hn (η := 1 / 16) (by unfold unit at h1; linarith)
  obtain ⟨hc1, hy⟩ := near_cond (by norm_num) near
  have hp1 : (k.potrf (k.gram Y)).1 = 0 := hk.noBreakdown he (by linarith) hc1 (by norm_num; linarith)
  refine ⟨hp1, ?_⟩
  have hs1 := hk.plain he (by linarith) Y hp1
  have hf1 : Fits (vecs F n Y) (1 / 2) 0 e := fits_plain hn he hc1 (by norm_num; linarith)
  have near1 := step_near hs1 hf1 hc1 hn (η := 176 * unit n e) (by unfold unit; linarith)
  obtain ⟨q, hq, hq1, hq2⟩ := near_gs (by linarith) near1
  have hy1 := (near_cond (by linarith) near1).2
  have sp1 : SpanErr 𝕜 0 (vecs F n (k.trsm (k.potrf (k.gram Y)).2 Y)) q := fun j => ⟨_, hq2 j, by simp⟩
  have sp2 := sp1.step le_rfl hs1 hf1 hc1 (fun j => by positivity) (fun l j h => upper_low _ h)
    fun j => (hy1 j).trans (by norm_num)
  have hsn : 0 ≤ Real.sqrt n * e := by positivity
  have sp3 := sp2.step (by linarith) hs hf hc (fun j => by positivity) (fun l j h => upper_low _ h)
    fun j => (hy j).trans (by norm_num)
  refine ⟨q, hq, fun j => (hq1 j).trans (by linarith), fun j => ?_⟩
  obtain ⟨v, hv, hvn⟩ := sp3 j
  refine ⟨v, hv, hvn.trans (mul_le_mul_of_nonneg_right ?_ (norm_nonneg _))⟩
  have hss : Real.sqrt n * Real.sqrt n = n := Real.mul_self_sqrt (Nat.cast_nonneg n)
  have : 5 * Real.sqrt n * (6 * Real.sqrt n * e + 5 * Real.sqrt n * 0) = 30 * (n * e) := by
    calc _ = 30 * (Real.sqrt n * Real.sqrt n) * e := by ring
      _ = _ := by rw [hss]; ring
  rw [this]
  linarith

/-- **`cholQR2`** on a block that is not too ill-conditioned: if the first factorisation succeeds the second does, and the
result is accurate independently of the condition. -/
theorem CholAcc.qr2 (hk : CholAcc F k eps e) (hn : 0 < n) (he : 0 ≤ e) {X : ℕ → Fin N → K} {σ ε : ℝ}
    (hc : Conditioned F σ n X) (h1 : 704 * unit n e ≤ σ ^ 2) (h2 : 528 * unit n e ≤ ε) :
    ((k.qr2 X).1 = 0 ∧ QrOf ε n (fun j => valV F (X j)) fun j => valV F ((k.qr2 X).2 j)) ∨
      ((k.qr2 X).1 ≠ 0 ∧ (k.qr2 X).2 = X) := by
  obtain ⟨u0, u1, u2, u3, u4⟩ := unit_facts hn he
  by_cases hp : (k.potrf (k.gram X)).1 = 0
  · left
    obtain ⟨hp1, q, hq, hq1, hq2⟩ := hk.twoSteps hn he hc.cond h1 hp
    have e1 : k.qr2 X = (0, k.trsm (k.potrf (k.gram (k.trsm (k.potrf (k.gram X)).2 X))).2
        (k.trsm (k.potrf (k.gram X)).2 X)) := by
      unfold CholKern.qr2
      dsimp only
      rw [if_neg (by simp [hp]), hp1]
    rw [e1]
    exact ⟨rfl, qrOf_of hq (fun j => (hq1 j).trans h2) hq2 (by linarith)⟩
  · right
    have e1 : k.qr2 X = ((k.potrf (k.gram X)).1, X) := by
      unfold CholKern.qr2
      dsimp only
      rw [if_pos hp]
    rw [e1]
    exact ⟨hp, rfl⟩

/-- **`shiftedcholQR2`**: the same with a condition that may be much worse. -/
theorem CholAcc.shifted (hk : CholAcc F k eps e) (hn : 0 < n) (he : 0 ≤ e) (heps : 0 ≤ eps) (v : CholVariant)
    {X : ℕ → Fin N → K} {σ ω ε : ℝ} (hc : Conditioned F σ n X) (hω : ω ≤ 1)
    (hsx : ∀ j, j < n → 2 * shiftOf F eps n X ≤ ω * Verif.nrm2 (valV F (X j)) ^ 2)
    (hlo : ∀ j, j < n → 14 * n * e * Verif.nrm2 (valV F (X j)) ^ 2 ≤ σ ^ 2 * Verif.nrm2 (valV F (X j)) ^ 2 + shiftOf F eps n X)
    (h1 : 14080 * unit n e * (σ ^ 2 + ω + 7 * n * e) ≤ σ ^ 2) (h2 : 528 * unit n e ≤ ε) :
    ((k.shifted v X).1 = 0 ∧ QrOf ε n (fun j => valV F (X j)) fun j => valV F ((k.shifted v X).2 j)) ∨
      ((k.shifted v X).1 ≠ 0 ∧ (k.shifted v X).2 = X) := by
  obtain ⟨u0, u1, u2, u3, u4⟩ := unit_facts hn he
  have hc := hc.cond
  have hσ := hc.pos
  have hσ1 := hc.le_one hn
  have hσ2 : σ ^ 2 ≤ 1 := by nlinarith
  have hσp : 0 < σ ^ 2 := by positivity
  have hn1 : (1 : ℝ) ≤ n := by exact_mod_cast hn
  by_cases hp : (k.potrf (k.shift (k.gram X))).1 = 0
  · left
    have ht0 : 0 ≤ shiftOf F eps n X := by
      unfold shiftOf
      exact mul_nonneg (by positivity) (Finset.sum_nonneg fun _ _ => by positivity)
    have hx : ∀ j : Fin n, 2 * shiftOf F eps n X ≤ ω * ‖vecs F n X j‖ ^ 2 := fun j => by
      rw [vecs_norm]; exact hsx j j.isLt
    have hω0 : 0 ≤ ω := by
      have a1 := hx ⟨0, hn⟩
      have a2 : 0 < ‖vecs F n X ⟨0, hn⟩‖ ^ 2 := by have := norm_pos_iff.mpr (hc.ne ⟨0, hn⟩); positivity
      by_contra hneg
      have := mul_neg_of_neg_of_pos (not_le.mp hneg) a2
      linarith
    have hne0 : 0 ≤ n * e := by positivity
    have ha : 14080 * unit n e ≤ 1 := by
      have b1 : 14080 * unit n e * σ ^ 2 ≤ 14080 * unit n e * (σ ^ 2 + ω + 7 * n * e) :=
        mul_le_mul_of_nonneg_left (by linarith) (by positivity)
      have b2 : 14080 * unit n e * σ ^ 2 ≤ 1 * σ ^ 2 := by linarith
      exact le_of_mul_le_mul_right b2 hσp
    have hb : (300 * (n * e)) ^ 2 ≤ σ ^ 2 := by
      have b1 : 14080 * (n * e) * (7 * n * e) ≤ 14080 * unit n e * (σ ^ 2 + ω + 7 * n * e) :=
        mul_le_mul (by linarith) (by nlinarith) (by positivity) (by positivity)
      nlinarith
    have hb' : 300 * (n * e) ≤ σ := le_of_sq_le_sq hb hσ.le
    have hx1 : ∀ j : Fin n, 2 * shiftOf F eps n X ≤ ‖vecs F n X j‖ ^ 2 := fun j =>
      (hx j).trans (by nlinarith [sq_nonneg ‖vecs F n X j‖])
    obtain ⟨s, hs1, hs2, hs⟩ := hk.shiftedStep he (by linarith) heps X hx1 hp
    have hf : Fits (vecs F n X) σ s e := by
      refine ⟨he, by linarith, by linarith, fun j => ?_⟩
      have := hlo j j.isLt
      rw [← vecs_norm (F := F)] at this
      linarith
    set σ' := Real.sqrt (σ ^ 2 / (20 * (σ ^ 2 + ω + 7 * n * e))) with hσ'
    have hden : 0 < 20 * (σ ^ 2 + ω + 7 * n * e) := by nlinarith
    have hσ'2 : σ' ^ 2 = σ ^ 2 / (20 * (σ ^ 2 + ω + 7 * n * e)) := Real.sq_sqrt (by positivity)
    have hσ'0 : 0 < σ' := Real.sqrt_pos.mpr (by positivity)
    obtain ⟨hc1, hy⟩ := step_cond hs hf hc hω0 (fun j => hs2.trans (hx j)) hσ'0 (by
      rw [hσ'2, show 20 * (σ ^ 2 + (ω + n * (7 * e))) = 20 * (σ ^ 2 + ω + 7 * n * e) by ring, mul_div_cancel₀ _ hden.ne'])
    have h704 : 704 * unit n e ≤ σ' ^ 2 := by
      rw [hσ'2, le_div_iff₀ hden]
      linarith
    set Y := k.trsm (k.potrf (k.shift (k.gram X))).2 X with hY
    have hp1 : (k.potrf (k.gram Y)).1 = 0 := hk.noBreakdown he (by linarith) hc1 (by linarith)
    obtain ⟨hp2, q, hq, hq1, hq2⟩ := hk.twoSteps hn he hc1 h704 hp1
    have sp := hq2.step (by positivity) hs hf hc (fun j => hs2.trans (hx1 j)) (fun l j h => upper_low _ h) hy
    have e1 : k.shifted v X = (0, k.trsm (k.potrf (k.gram (k.trsm (k.potrf (k.gram Y)).2 Y))).2
        (k.trsm (k.potrf (k.gram Y)).2 Y)) := by
      unfold CholKern.shifted
      dsimp only
      rw [if_neg (by simp [hp]), ← hY, if_neg (by simp [hp1]), hp1, hp2, ite_self]
    rw [e1]
    refine ⟨rfl, qrOf_of hq (fun j => (hq1 j).trans h2) sp ?_⟩
    have : 5 * Real.sqrt n * (36 * (n * e)) = 180 * unit n e := by rw [← u4]; ring
    rw [this]
    linarith
  · right
    have e1 : k.shifted v X = ((k.potrf (k.shift (k.gram X))).1, X) := by
      unfold CholKern.shifted
      dsimp only
      rw [if_pos hp]
    rw [e1]
    exact ⟨hp, rfl⟩
end
end Rounded
end Verif
