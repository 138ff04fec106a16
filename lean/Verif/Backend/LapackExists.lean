/-
The specification `Lapack.Ok` can be met: an ideal LAPACK exists, for real and complex scalars.
Used to show that theorems with the hypothesis `Lapack.Ok` are not vacuous.
-/
import Verif.Backend.Dense
import Mathlib.Analysis.Matrix.Spectrum
import Mathlib.Analysis.Matrix.PosDef
import Mathlib.Analysis.InnerProductSpace.GramSchmidtOrtho
import Mathlib.Data.Fin.Tuple.Sort
import Mathlib.LinearAlgebra.Matrix.Block

namespace Verif

open Matrix
open scoped ComplexOrder

variable {K : Type*} [RCLike K]

/-- Eigen-decomposition with ascending eigenvalues. -/
theorem exists_eig {n : ℕ} (A : Matrix (Fin n) (Fin n) K) (hA : A.IsHermitian) :
    ∃ (w : Fin n → ℝ) (Z : Matrix (Fin n) (Fin n) K), Zᴴ * Z = 1 ∧
      A * Z = Z * diagonal (fun i => (w i : K)) ∧ Monotone w := by
  set U : Matrix (Fin n) (Fin n) K := ↑(hA.eigenvectorUnitary) with hU
  have hUU : Uᴴ * U = 1 := Unitary.coe_star_mul_self hA.eigenvectorUnitary
  set σ := Tuple.sort hA.eigenvalues
  refine ⟨hA.eigenvalues ∘ σ, U.submatrix id σ, ?_, ?_, Tuple.monotone_sort _⟩
  · ext i j
    have := congrFun (congrFun hUU (σ i)) (σ j)
    rw [Matrix.mul_apply] at this ⊢
    simpa [Matrix.one_apply] using this
  · ext i j
    rw [Matrix.mul_diagonal, Matrix.mul_apply]
    have := congrFun (hA.mulVec_eigenvectorBasis (σ j)) i
    simp only [Matrix.mulVec, dotProduct, Pi.smul_apply, RCLike.real_smul_eq_coe_mul] at this
    simp only [Matrix.submatrix_apply, id, hU, Matrix.IsHermitian.eigenvectorUnitary_apply,
      Function.comp_apply]
    rw [this, mul_comm]

/-- QR decomposition. -/
theorem exists_qr {m n : ℕ} (V : Matrix (Fin m) (Fin n) K) (hn : n ≤ m) :
    ∃ (Q : Matrix (Fin m) (Fin n) K) (R : Matrix (Fin n) (Fin n) K), Qᴴ * Q = 1 ∧ Q * triu R = V := by
  classical
  let f : Fin m → EuclideanSpace K (Fin m) := fun j =>
    if h : j.val < n then WithLp.toLp 2 (fun i => V i ⟨j, h⟩) else 0
  let b := InnerProductSpace.gramSchmidtOrthonormalBasis (𝕜 := K) (E := EuclideanSpace K (Fin m))
    (by simp) f
  let ι : Fin n → Fin m := Fin.castLE hn
  refine ⟨Matrix.of fun i j => (b (ι j) i : K), Matrix.of fun i j => inner K (b (ι i)) (f (ι j)), ?_, ?_⟩
  · ext i j
    have h := orthonormal_iff_ite.mp b.orthonormal (ι i) (ι j)
    rw [Matrix.mul_apply, Matrix.one_apply]
    simp only [Matrix.conjTranspose_apply, Matrix.of_apply]
    rw [EuclideanSpace.inner_eq_star_dotProduct] at h
    simp only [dotProduct, Pi.star_apply] at h
    have e : (ι i = ι j) = (i = j) := by simp [ι]
    simp only [e] at h
    rw [← h]
    exact Finset.sum_congr rfl fun x _ => mul_comm _ _
  · ext i j
    have h := b.sum_repr (f (ι j))
    have h2 := congrArg (fun v : EuclideanSpace K (Fin m) => v i) h
    have e1 : (f (ι j)) i = V i j := by
      show (if h : (ι j).val < n then WithLp.toLp 2 (fun i => V i ⟨ι j, h⟩) else 0 :
        EuclideanSpace K (Fin m)) i = V i j
      rw [dif_pos (show (ι j).val < n from j.isLt)]
      rfl
    simp only [e1] at h2
    rw [← h2, Matrix.mul_apply]
    have e2 : (∑ x : Fin m, b.repr (f (ι j)) x • b x : EuclideanSpace K (Fin m)) i =
        ∑ x : Fin m, b.repr (f (ι j)) x * b x i := by simp
    rw [e2]
    have hz : ∀ x : Fin m, n ≤ x.val → b.repr (f (ι j)) x * b x i = 0 := by
      intro x hx
      have : ι j < x := by
        rw [Fin.lt_def]; exact lt_of_lt_of_le j.isLt hx
      rw [InnerProductSpace.gramSchmidtOrthonormalBasis_inv_triangular' _ _ this, zero_mul]
    have hsum : ∑ x : Fin m, b.repr (f (ι j)) x * b x i =
        ∑ x : Fin n, b.repr (f (ι j)) (ι x) * b (ι x) i := by
      symm
      apply Finset.sum_of_injOn ι
      · intro a _ c _ h; exact Fin.castLE_injective hn h
      · intro a _; simp
      · intro x _ hx
        apply hz
        by_contra hlt
        push Not at hlt
        exact hx ⟨⟨x, hlt⟩, by simp, rfl⟩
      · intro a _; rfl
    rw [hsum]
    refine Finset.sum_congr rfl fun x _ => ?_
    unfold triu
    simp only [Matrix.of_apply]
    split_ifs with hx
    · rw [b.repr_apply_apply, mul_comm]
    · push Not at hx
      rw [mul_zero]
      have : ι j < ι x := by rw [Fin.lt_def]; exact hx
      rw [InnerProductSpace.gramSchmidtOrthonormalBasis_inv_triangular' _ _ this, zero_mul]

/-- Cholesky factorisation. -/
theorem exists_chol {n : ℕ} (A : Matrix (Fin n) (Fin n) K) (hA : A.PosDef) :
    ∃ U : Matrix (Fin n) (Fin n) K, (triu U)ᴴ * triu U = A ∧ ∀ i, U i i ≠ 0 := by
  obtain ⟨w, Z, hZ, hAZ, -⟩ := exists_eig A hA.isHermitian
  have hZ' : Z * Zᴴ = 1 := mul_eq_one_comm.mp hZ
  have hw : ∀ i, 0 ≤ w i := by
    intro i
    have h1 : (Zᴴ * A * Z) = diagonal (fun i => (w i : K)) := by
      rw [Matrix.mul_assoc, hAZ, ← Matrix.mul_assoc, hZ, Matrix.one_mul]
    have h2 : (Zᴴ * A * Z).PosSemidef := hA.posSemidef.conjTranspose_mul_mul_same Z
    have h3 := h2.diag_nonneg (i := i)
    rw [h1, Matrix.diagonal_apply_eq] at h3
    exact_mod_cast h3
  set B : Matrix (Fin n) (Fin n) K := diagonal (fun i => ((Real.sqrt (w i) : ℝ) : K)) * Zᴴ with hB
  have hBB : Bᴴ * B = A := by
    have hd : (diagonal (fun i => ((Real.sqrt (w i) : ℝ) : K)))ᴴ *
        diagonal (fun i => ((Real.sqrt (w i) : ℝ) : K)) = diagonal (fun i => (w i : K)) := by
      rw [Matrix.diagonal_conjTranspose, Matrix.diagonal_mul_diagonal]
      congr 1
      funext i
      simp only [Pi.star_apply, RCLike.star_def, RCLike.conj_ofReal]
      rw [← RCLike.ofReal_mul, Real.mul_self_sqrt (hw i)]
    rw [hB, Matrix.conjTranspose_mul, Matrix.conjTranspose_conjTranspose, Matrix.mul_assoc,
      ← Matrix.mul_assoc _ _ Zᴴ, hd, ← Matrix.mul_assoc, ← hAZ, Matrix.mul_assoc, hZ', Matrix.mul_one]
  obtain ⟨Q, R, hQ, hR⟩ := exists_qr B le_rfl
  have hRR : (triu R)ᴴ * triu R = A := by
    rw [← hBB, ← hR, Matrix.conjTranspose_mul, Matrix.mul_assoc, ← Matrix.mul_assoc Qᴴ, hQ,
      Matrix.one_mul]
  refine ⟨R, hRR, fun i hi => ?_⟩
  have hdet : (triu R).det = 0 := by
    rw [Matrix.det_of_isUpperTriangular]
    · apply Finset.prod_eq_zero (Finset.mem_univ i)
      unfold triu
      rw [if_pos le_rfl, hi]
    · intro a b hab
      unfold triu
      exact if_neg (not_le.mpr hab)
  have : A.det = 0 := by rw [← hRR, Matrix.det_mul, hdet, mul_zero]
  exact ((Matrix.isUnit_iff_isUnit_det _).mp hA.isUnit).ne_zero this

/-- The real symmetric tridiagonal matrix with diagonal `d` and off-diagonal `e`. -/
def tridiag (M : ℕ) (d e : ℕ → ℝ) : Matrix (Fin M) (Fin M) ℝ := fun i j =>
  if i = j then d i else if j.val = i.val + 1 then e i else if i.val = j.val + 1 then e j else 0

theorem tridiag_isHermitian (M : ℕ) (d e : ℕ → ℝ) : (tridiag M d e).IsHermitian := by
  ext i j
  simp only [Matrix.conjTranspose_apply, tridiag, star_trivial]
  by_cases h : i = j
  · subst h; rfl
  · rw [if_neg h, if_neg (Ne.symm h)]
    split_ifs <;> first | rfl | omega

theorem tridiag_mul (M : ℕ) (d e : ℕ → ℝ) (z : ℕ → ℝ) (i : Fin M) :
    ∑ j : Fin M, tridiag M d e i j * z j = d i * z i
      + (if i.val + 1 < M then e i * z (i + 1) else 0)
      + (if 0 < i.val then e (i - 1) * z (i - 1) else 0) := by
  have hp : ∀ j : Fin M, tridiag M d e i j * z j =
      (if j = i then d i * z i else 0) + (if j.val = i.val + 1 then e i * z (i + 1) else 0)
        + (if j.val + 1 = i.val then e (i - 1) * z (i - 1) else 0) := by
    intro j
    unfold tridiag
    by_cases h1 : i = j
    · subst h1; simp
    · rw [if_neg h1, if_neg (Ne.symm h1)]
      by_cases h2 : j.val = i.val + 1
      · rw [if_pos h2, if_pos h2, if_neg (by omega), h2]; ring
      · rw [if_neg h2, if_neg h2]
        by_cases h3 : i.val = j.val + 1
        · rw [if_pos h3, if_pos h3.symm, show i.val - 1 = j.val by omega]; ring
        · rw [if_neg h3, if_neg (by omega)]; ring
  rw [Finset.sum_congr rfl fun j _ => hp j, Finset.sum_add_distrib, Finset.sum_add_distrib]
  congr 1
  · congr 1
    · simp
    · split_ifs with h
      · rw [Finset.sum_eq_single (⟨i + 1, h⟩ : Fin M)]
        · simp
        · intro b _ hb
          rw [if_neg fun hc => hb (Fin.ext hc)]
        · simp
      · exact Finset.sum_eq_zero fun b _ => if_neg (by omega)
  · split_ifs with h
    · rw [Finset.sum_eq_single (⟨i - 1, by omega⟩ : Fin M)]
      · rw [if_pos (by show i.val - 1 + 1 = i.val; omega)]
      · intro b _ hb
        rw [if_neg fun hc => hb (Fin.ext (by show b.val = i.val - 1; omega))]
      · simp
    · exact Finset.sum_eq_zero fun b _ => if_neg (by omega)

/-- Tridiagonal eigen-decomposition, eigenvectors stored column major. -/
theorem exists_stemr (M : ℕ) (d e : ℕ → ℝ) : ∃ p : (ℕ → ℝ) × (ℕ → ℝ),
    (∀ i j, i ≤ j → j < M → p.1 i ≤ p.1 j) ∧
    (∀ k l, k < M → l < M → ∑ i ∈ Finset.range M,
      p.2 (i + k * M) * p.2 (i + l * M) = if k = l then 1 else 0) ∧
    (∀ k i, k < M → i < M → d i * p.2 (i + k * M)
        + (if i + 1 < M then e i * p.2 (i + 1 + k * M) else 0)
        + (if 0 < i then e (i - 1) * p.2 (i - 1 + k * M) else 0) = p.1 k * p.2 (i + k * M)) := by
  obtain ⟨w, Z, hZ, hAZ, hm⟩ := exists_eig (tridiag M d e) (tridiag_isHermitian M d e)
  let z : ℕ → ℝ := fun a => if h : 0 < M ∧ a / M < M then Z ⟨a % M, Nat.mod_lt _ h.1⟩ ⟨a / M, h.2⟩
    else 0
  have hz : ∀ i k (hi : i < M) (hk : k < M), z (i + k * M) = Z ⟨i, hi⟩ ⟨k, hk⟩ := by
    intro i k hi hk
    have h0 : 0 < M := by omega
    have h1 : (i + k * M) / M = k := by
      rw [Nat.add_mul_div_right _ _ h0, Nat.div_eq_of_lt hi, Nat.zero_add]
    have h2 : (i + k * M) % M = i := by rw [Nat.add_mul_mod_self_right, Nat.mod_eq_of_lt hi]
    show (if h : 0 < M ∧ (i + k * M) / M < M then _ else _) = _
    rw [dif_pos ⟨h0, by rw [h1]; exact hk⟩]
    congr 1 <;> exact Fin.ext (by assumption)
  refine ⟨(fun i => if h : i < M then w ⟨i, h⟩ else 0, z), ?_, ?_, ?_⟩
  · intro i j hij hj
    show (if h : i < M then w ⟨i, h⟩ else 0) ≤ (if h : j < M then w ⟨j, h⟩ else 0)
    rw [dif_pos hj, dif_pos (by omega)]
    exact hm hij
  · intro k l hk hl
    have := congrFun (congrFun hZ ⟨k, hk⟩) ⟨l, hl⟩
    rw [Matrix.mul_apply, Matrix.one_apply] at this
    simp only [Matrix.conjTranspose_apply, star_trivial, Fin.mk.injEq] at this
    rw [← this, Finset.sum_range]
    exact Finset.sum_congr rfl fun i _ => by
      show z _ * z _ = _
      rw [hz _ _ i.isLt hk, hz _ _ i.isLt hl]
  · intro k i hk hi
    have := congrFun (congrFun hAZ ⟨i, hi⟩) ⟨k, hk⟩
    rw [Matrix.mul_diagonal, Matrix.mul_apply] at this
    have h2 := tridiag_mul M d e (fun a => z (a + k * M)) ⟨i, hi⟩
    dsimp only at h2 ⊢
    rw [← h2, dif_pos hk, hz i k hi hk]
    have h3 : ∑ j : Fin M, tridiag M d e ⟨i, hi⟩ j * z (j + k * M) =
        ∑ j : Fin M, tridiag M d e ⟨i, hi⟩ j * Z j ⟨k, hk⟩ :=
      Finset.sum_congr rfl fun j _ => by rw [hz _ _ j.isLt hk]
    rw [h3, this]
    simp [mul_comm]

open Classical in
/-- An ideal LAPACK. -/
noncomputable def Lapack.ideal (K : Type*) [RCLike K] (randn : ℕ → ℕ → K) (probe : ℕ → K) (eps : ℝ) :
    Lapack K where
  randn := randn
  probe := probe
  potrf := fun {n} A => if h : A.PosDef then (0, (exists_chol A h).choose) else ((n : ℤ), 1)
  hhqr := fun {m n} V => if h : n ≤ m then (exists_qr V h).choose else 0
  heevd := fun A => if h : A.IsHermitian then
    ((exists_eig A h).choose, (exists_eig A h).choose_spec.choose) else (0, 0)
  stemr := fun M d e => (exists_stemr M d e).choose
  eps := eps

theorem Lapack.ideal_ok (randn : ℕ → ℕ → K) (probe : ℕ → K) (eps : ℝ) :
    (Lapack.ideal K randn probe eps).Ok where
  potrf := by
    intro n A hA
    by_cases h : A.PosDef
    · left
      have e : (Lapack.ideal K randn probe eps).potrf A = (0, (exists_chol A h).choose) := dif_pos h
      rw [e]
      exact ⟨rfl, (exists_chol A h).choose_spec⟩
    · right
      have e : (Lapack.ideal K randn probe eps).potrf A = ((n : ℤ), 1) := dif_neg h
      rcases n with _ | n
      · exact absurd (Matrix.PosDef.of_dotProduct_mulVec_pos hA fun x hx =>
          absurd (Subsingleton.elim x 0) hx) h
      · refine ⟨n, le_rfl, by rw [e]; push_cast; rfl, fun i _ => by rw [e]; simp, ?_⟩
        exact h
  hhqr := by
    intro m n V h
    have e : (Lapack.ideal K randn probe eps).hhqr V = (exists_qr V h).choose := dif_pos h
    rw [e]
    obtain ⟨R, h1, h2⟩ := (exists_qr V h).choose_spec
    exact ⟨h1, R, h2⟩
  heevd := by
    intro n A h
    have e : (Lapack.ideal K randn probe eps).heevd A =
      ((exists_eig A h).choose, (exists_eig A h).choose_spec.choose) := dif_pos h
    rw [e]
    exact (exists_eig A h).choose_spec.choose_spec
  stemr := fun M d e => (exists_stemr M d e).choose_spec

end Verif
