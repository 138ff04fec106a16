/-
Linear algebra for orthonormality up to rounding errors: perturbed orthonormal systems, and what a Rayleigh-Ritz step
with inexact orthogonalisation, eigenvectors and products makes of them.
-/
import Mathlib.Algebra.Order.Chebyshev
import Mathlib.Analysis.InnerProductSpace.PiL2
import Verif.Rounded.Error

namespace Verif
namespace Rounded

open Matrix Finset

/-! ### In an inner product space -/

section
variable {𝕜 V : Type*} [RCLike 𝕜] [NormedAddCommGroup V] [InnerProductSpace 𝕜 V]

/-- A combination of orthonormal vectors with coefficients of an orthonormal system is again orthonormal. -/
theorem combo_ortho {b : ℕ} {q : Fin b → V} (hq : Orthonormal 𝕜 q) {W : Matrix (Fin b) (Fin b) 𝕜}
    (hW : Wᴴ * W = 1) : Orthonormal 𝕜 fun j => ∑ k, W k j • q k := by
  classical
  rw [orthonormal_iff_ite]
  intro i j
  rw [hq.inner_sum]
  have := congrFun (congrFun hW i) j
  simpa [Matrix.mul_apply, Matrix.one_apply] using this

/-- The norm of a combination of orthonormal vectors. -/
theorem combo_norm_sq {b : ℕ} {q : Fin b → V} (hq : Orthonormal 𝕜 q) (a : Fin b → 𝕜) :
    ‖∑ k, a k • q k‖ ^ 2 = ∑ k, ‖a k‖ ^ 2 := by
  have h := hq.inner_sum a a univ
  have h1 : (inner 𝕜 (∑ k, a k • q k) (∑ k, a k • q k) : 𝕜) = ((‖∑ k, a k • q k‖ : 𝕜)) ^ 2 := inner_self_eq_norm_sq_to_K _
  rw [h1] at h
  have h2 : ∀ k, (starRingEnd 𝕜) (a k) * a k = ((‖a k‖ ^ 2 : ℝ) : 𝕜) := fun k => by
    rw [RCLike.conj_mul]; push_cast; rfl
  simp only [h2] at h
  exact_mod_cast h

theorem combo_norm {b : ℕ} {q : Fin b → V} (hq : Orthonormal 𝕜 q) (a : Fin b → 𝕜) :
    ‖∑ k, a k • q k‖ = Verif.nrm2 a := by
  unfold Verif.nrm2
  rw [← combo_norm_sq hq, Real.sqrt_sq (norm_nonneg _)]

/-- the sum of the absolute values and the norm -/
theorem sum_norm_le {b : ℕ} (a : Fin b → 𝕜) : ∑ k, ‖a k‖ ≤ Real.sqrt b * Verif.nrm2 a := by
  unfold Verif.nrm2
  have h := sq_sum_le_card_mul_sum_sq (s := (univ : Finset (Fin b))) (f := fun k => ‖a k‖)
  rw [Finset.card_univ, Fintype.card_fin] at h
  rw [← Real.sqrt_mul (Nat.cast_nonneg b)]
  exact Real.le_sqrt_of_sq_le h

/-- **Rotation of a nearly orthonormal system**: vectors `x` within `ε` of the orthonormal `q`, coefficients `Z` within
`δ` of the unitary `W`, combinations computed with relative error `γ`. -/
theorem rotate_near {b : ℕ} {q x y : Fin b → V} (hq : Orthonormal 𝕜 q) {W Z : Matrix (Fin b) (Fin b) 𝕜}
    {ε δ γ : ℝ} (hε : 0 ≤ ε) (hγ : 0 ≤ γ) (hx : ∀ k, ‖x k - q k‖ ≤ ε) (hW : Wᴴ * W = 1)
    (hZ : ∀ j, Verif.nrm2 (fun k => Z k j - W k j) ≤ δ)
    (hy : ∀ j, ‖y j - ∑ k, Z k j • x k‖ ≤ γ * ∑ k, ‖Z k j‖ * ‖x k‖) (j : Fin b) :
    ‖y j - ∑ k, W k j • q k‖ ≤ (γ * (1 + ε) + ε) * ((1 + δ) * Real.sqrt b) + δ := by
  have hWj : Verif.nrm2 (fun k => W k j) = 1 := by
    have h1 : ‖∑ k, W k j • q k‖ = 1 := (combo_ortho hq hW).1 j
    rw [← h1, combo_norm hq]
  have hZj : Verif.nrm2 (fun k => Z k j) ≤ 1 + δ := by
    have := nrm2_add_le (fun k => W k j) (fun k => Z k j - W k j)
    have e : ((fun k => W k j) + fun k => Z k j - W k j) = fun k => Z k j := by funext k; simp
    rw [e, hWj] at this
    linarith [hZ j]
  have hs : ∑ k, ‖Z k j‖ ≤ (1 + δ) * Real.sqrt b := by
    refine (sum_norm_le _).trans ?_
    rw [mul_comm]
    exact mul_le_mul_of_nonneg_right hZj (Real.sqrt_nonneg _)
  have hxn : ∀ k, ‖x k‖ ≤ 1 + ε := fun k => by
    have h1 := norm_add_le (q k) (x k - q k)
    rw [add_sub_cancel, hq.1 k] at h1
    linarith [hx k]
  have h1 : γ * ∑ k, ‖Z k j‖ * ‖x k‖ ≤ γ * (1 + ε) * ∑ k, ‖Z k j‖ := by
    rw [mul_assoc, Finset.mul_sum (s := univ) (f := fun k => ‖Z k j‖) (a := 1 + ε)]
    refine mul_le_mul_of_nonneg_left (Finset.sum_le_sum fun k _ => ?_) hγ
    rw [mul_comm]
    exact mul_le_mul_of_nonneg_right (hxn k) (norm_nonneg _)
  have h2 : ‖∑ k, Z k j • (x k - q k)‖ ≤ ε * ∑ k, ‖Z k j‖ := by
    refine (norm_sum_le _ _).trans ?_
    rw [Finset.mul_sum]
    refine Finset.sum_le_sum fun k _ => ?_
    rw [norm_smul, mul_comm]
    exact mul_le_mul_of_nonneg_right (hx k) (norm_nonneg _)
  have h3 : ‖∑ k, (Z k j - W k j) • q k‖ ≤ δ := by
    rw [combo_norm hq (fun k => Z k j - W k j)]
    exact hZ j
  have e : y j - ∑ k, W k j • q k = (y j - ∑ k, Z k j • x k) + ∑ k, Z k j • (x k - q k) +
      ∑ k, (Z k j - W k j) • q k := by
    simp only [smul_sub, sub_smul, Finset.sum_sub_distrib]
    abel
  rw [e]
  have h4 := mul_le_mul_of_nonneg_left hs (show 0 ≤ γ * (1 + ε) + ε by positivity)
  have h5 := norm_add₃_le (a := y j - ∑ k, Z k j • x k) (b := ∑ k, Z k j • (x k - q k))
    (c := ∑ k, (Z k j - W k j) • q k)
  nlinarith [hy j]

/-- Vectors close to orthonormal ones. -/
theorem near_pair {y y' g g' : V} {τ : ℝ} (hg : ‖g‖ = 1) (hg' : ‖g'‖ = 1) (ho : (inner 𝕜 g g' : 𝕜) = 0)
    (h : ‖y - g‖ ≤ τ) (h' : ‖y' - g'‖ ≤ τ) : ‖(inner 𝕜 y y' : 𝕜)‖ ≤ 2 * τ * (1 + τ) := by
  have hτ : 0 ≤ τ := (norm_nonneg _).trans h
  have hy : ‖y‖ ≤ 1 + τ := by
    have := norm_add_le g (y - g)
    rw [add_sub_cancel, hg] at this
    linarith
  have e : (inner 𝕜 y y' : 𝕜) = inner 𝕜 y (y' - g') + inner 𝕜 (y - g) g' := by
    rw [inner_sub_right, inner_sub_left, ho]; ring
  rw [e]
  refine (norm_add_le _ _).trans ?_
  have h1 := norm_inner_le_norm (𝕜 := 𝕜) y (y' - g')
  have h2 := norm_inner_le_norm (𝕜 := 𝕜) (y - g) g'
  rw [hg', mul_one] at h2
  have h3 : ‖y‖ * ‖y' - g'‖ ≤ (1 + τ) * τ := mul_le_mul hy h' (norm_nonneg _) (by linarith)
  nlinarith

/-- A vector of norm about one that is nearly orthogonal to `g`, and a vector close to `g`. -/
theorem near_cross {x y g : V} {ε τ : ℝ} (hg : ‖g‖ = 1) (hε : ε ≤ τ) (hx : ‖x‖ ≤ 1 + τ)
    (ho : ‖(inner 𝕜 x g : 𝕜)‖ ≤ ε * ‖x‖ * ‖g‖) (h : ‖y - g‖ ≤ τ) :
    ‖(inner 𝕜 x y : 𝕜)‖ ≤ 2 * τ * (1 + τ) := by
  have hτ : 0 ≤ τ := (norm_nonneg _).trans h
  have e : (inner 𝕜 x y : 𝕜) = inner 𝕜 x g + inner 𝕜 x (y - g) := by rw [inner_sub_right]; ring
  rw [e]
  refine (norm_add_le _ _).trans ?_
  have h1 := norm_inner_le_norm (𝕜 := 𝕜) x (y - g)
  rw [hg, mul_one] at ho
  have h2 : ε * ‖x‖ ≤ τ * (1 + τ) := (mul_le_mul_of_nonneg_right hε (norm_nonneg _)).trans
    (mul_le_mul_of_nonneg_left hx hτ)
  have h3 : ‖x‖ * ‖y - g‖ ≤ (1 + τ) * τ := mul_le_mul hx h (norm_nonneg _) (by linarith)
  nlinarith
end

/-! ### Columns -/

section
variable {𝕜 : Type*} [RCLike 𝕜] {N : ℕ}

theorem dotc_inner (x y : Fin N → 𝕜) : dotc x y = inner 𝕜 (WithLp.toLp 2 x) (WithLp.toLp 2 y) := by
  rw [EuclideanSpace.inner_toLp_toLp, dotc, dotProduct]
  exact Finset.sum_congr rfl fun i _ => mul_comm _ _

/-- **Orthonormal up to `τ`**: the norms of the first `n` columns are within `τ` of one, and the inner products of
different ones are at most `2 τ (1 + τ)`. -/
def NearOrtho (τ : ℝ) (n : ℕ) (X : ℕ → Fin N → 𝕜) : Prop :=
  (∀ i, i < n → |Verif.nrm2 (X i) - 1| ≤ τ) ∧
    ∀ i j, i < n → j < n → i ≠ j → ‖dotc (X i) (X j)‖ ≤ 2 * τ * (1 + τ)

/-- **`Y` is an accurate orthonormal factor of `X`** (first `n` columns): there are exactly orthonormal columns `Q` such
that each column of `Y` is within `ε` of that of `Q`, and each column of `X` is, up to a relative error of `ε`, a
combination of the columns of `Q` up to its own index.  (This is what the analysis of Householder QR gives.) -/
def QrOf (ε : ℝ) (n : ℕ) (X Y : ℕ → Fin N → 𝕜) : Prop :=
  ∃ Q : ℕ → Fin N → 𝕜, OrthoOn n Q ∧ ∀ j, j < n → Verif.nrm2 (Y j - Q j) ≤ ε ∧
    ∃ t : ℕ → 𝕜, Verif.nrm2 (X j - ∑ i ∈ range (j + 1), t i • Q i) ≤ ε * Verif.nrm2 (X j)

/-- After the orthogonalisation with `l` locked columns: the columns from `l` on are close to orthonormal ones, and
whatever these span is nearly orthogonal to the locked columns. -/
def ReadyOrtho (ε : ℝ) (l n : ℕ) (X : ℕ → Fin N → 𝕜) : Prop :=
  ∃ q : Fin (n - l) → EuclideanSpace 𝕜 (Fin N), Orthonormal 𝕜 q ∧ (∀ k : Fin (n - l), ‖WithLp.toLp 2 (X (l + k)) - q k‖ ≤ ε) ∧
    ∀ i, i < l → ∀ a : Fin (n - l) → 𝕜,
      ‖(inner 𝕜 (WithLp.toLp 2 (X i)) (∑ k, a k • q k) : 𝕜)‖ ≤ ε * ‖WithLp.toLp 2 (X i)‖ * ‖∑ k, a k • q k‖

theorem NearOrtho.congr {τ : ℝ} {n : ℕ} {X Y : ℕ → Fin N → 𝕜} (h : NearOrtho τ n X) (e : ∀ i, i < n → Y i = X i) :
    NearOrtho τ n Y := by
  refine ⟨fun i hi => ?_, fun i j hi hj hij => ?_⟩
  · rw [e i hi]; exact h.1 i hi
  · rw [e i hi, e j hj]; exact h.2 i j hi hj hij

theorem NearOrtho.mono {τ : ℝ} {n m : ℕ} {X : ℕ → Fin N → 𝕜} (h : NearOrtho τ n X) (e : m ≤ n) :
    NearOrtho τ m X :=
  ⟨fun i hi => h.1 i (by omega), fun i j hi hj hij => h.2 i j (by omega) (by omega) hij⟩

theorem NearOrtho.comp {τ : ℝ} {n : ℕ} {X : ℕ → Fin N → 𝕜} (h : NearOrtho τ n X) {σ : ℕ → ℕ}
    (hσ : Function.Injective σ) (hn : ∀ i, i < n → σ i < n) : NearOrtho τ n (X ∘ σ) :=
  ⟨fun i hi => h.1 _ (hn i hi), fun i j hi hj hij => h.2 _ _ (hn i hi) (hn j hj) fun e => hij (hσ e)⟩

/-- An accurate factorisation, with the first `l` columns put back. -/
theorem QrOf.ready {ε : ℝ} {l n : ℕ} {X Y C : ℕ → Fin N → 𝕜} (h : QrOf ε n X Y) (hl : l ≤ n)
    (h1 : ∀ i, i < l → C i = X i) (h2 : ∀ i, l ≤ i → i < n → C i = Y i) : ReadyOrtho ε l n C := by
  obtain ⟨Q, hQ, h⟩ := h
  have ho : ∀ i j, i < n → j < n → (inner 𝕜 (WithLp.toLp 2 (Q i)) (WithLp.toLp 2 (Q j)) : 𝕜) = if i = j then 1 else 0 :=
    fun i j hi hj => by rw [← dotc_inner]; exact hQ i j hi hj
  refine ⟨fun k => WithLp.toLp 2 (Q (l + k)), ?_, fun k => ?_, fun i hi a => ?_⟩
  · rw [orthonormal_iff_ite]
    intro i j
    rw [ho _ _ (by omega) (by omega)]
    simp [Fin.ext_iff]
  · rw [h2 _ (by omega) (by omega)]
    have := (h (l + k) (by omega)).1
    rw [nrm2_eq_norm, WithLp.toLp_sub] at this
    exact this
  · rw [h1 i hi]
    obtain ⟨t, ht⟩ := (h i (by omega)).2
    rw [nrm2_eq_norm, nrm2_eq_norm, WithLp.toLp_sub] at ht
    set S : EuclideanSpace 𝕜 (Fin N) := WithLp.toLp 2 (∑ j ∈ range (i + 1), t j • Q j) with hS
    set g := ∑ k, a k • (WithLp.toLp 2 (Q (l + k)) : EuclideanSpace 𝕜 (Fin N)) with hg
    have e0 : (inner 𝕜 S g : 𝕜) = 0 := by
      rw [hS, WithLp.toLp_sum, sum_inner]
      refine Finset.sum_eq_zero fun j hj => ?_
      rw [hg, inner_sum]
      refine Finset.sum_eq_zero fun k _ => ?_
      have hj := Finset.mem_range.mp hj
      rw [WithLp.toLp_smul, inner_smul_left, inner_smul_right, ho _ _ (by omega) (by omega), if_neg (by omega)]
      ring
    have e1 : (inner 𝕜 (WithLp.toLp 2 (X i)) g : 𝕜) = inner 𝕜 (WithLp.toLp 2 (X i) - S) g := by
      rw [inner_sub_left, e0, sub_zero]
    rw [e1]
    exact (norm_inner_le_norm _ _).trans (mul_le_mul_of_nonneg_right ht (norm_nonneg _))

/-- The bound reached after a Rayleigh-Ritz step: orthogonalisation within `ε`, eigenvectors of the small matrix within
`δ`, products with relative error `γ`, at most `n` columns. -/
noncomputable def tau (n : ℕ) (ε δ γ : ℝ) : ℝ := (γ * (1 + ε) + ε) * ((1 + δ) * Real.sqrt n) + δ

/-- **A Rayleigh-Ritz step**: the locked columns stay, the others are rotated. -/
theorem ReadyOrtho.rr {ε δ γ : ℝ} {l n : ℕ} {X Y : ℕ → Fin N → 𝕜} (hε : 0 ≤ ε) (hδ : 0 ≤ δ) (hγ : 0 ≤ γ)
    (h : ReadyOrtho ε l n X) (hl : l ≤ n) (hnear : NearOrtho (tau n ε δ γ) l X) {W Z : Matrix (Fin (n - l)) (Fin (n - l)) 𝕜}
    (hW : Wᴴ * W = 1) (hZ : ∀ j, Verif.nrm2 (fun k => Z k j - W k j) ≤ δ)
    (h1 : ∀ i, i < l → Y i = X i)
    (h2 : ∀ j : Fin (n - l), Verif.nrm2 (Y (l + j) - ∑ k : Fin (n - l), Z k j • X (l + k)) ≤
      γ * ∑ k : Fin (n - l), ‖Z k j‖ * Verif.nrm2 (X (l + k))) : NearOrtho (tau n ε δ γ) n Y := by
  obtain ⟨q, hq, hx, hc⟩ := h
  set τ := tau n ε δ γ with hτ
  have hg := combo_ortho hq hW
  set g := fun j => ∑ k, W k j • q k with hgdef
  have hy : ∀ j : Fin (n - l), ‖WithLp.toLp 2 (Y (l + j)) - g j‖ ≤ τ := by
    intro j
    refine (rotate_near (x := fun k : Fin (n - l) => WithLp.toLp 2 (X (l + k)))
      (y := fun k : Fin (n - l) => WithLp.toLp 2 (Y (l + k))) hq hε hγ hx hW hZ (fun j => ?_) j).trans ?_
    · have := h2 j
      simp only [nrm2_eq_norm] at this
      rw [WithLp.toLp_sub, WithLp.toLp_sum] at this
      exact this
    · rw [hτ, tau]
      have h3 : Real.sqrt ((n - l : ℕ) : ℝ) ≤ Real.sqrt n := Real.sqrt_le_sqrt (by exact_mod_cast Nat.sub_le n l)
      have h4 : 0 ≤ γ * (1 + ε) + ε := by positivity
      have h5 := mul_le_mul_of_nonneg_left (mul_le_mul_of_nonneg_left h3 (show 0 ≤ 1 + δ by linarith)) h4
      linarith
  have hετ : l < n → ε ≤ τ := by
    intro hln
    have h3 : 1 ≤ Real.sqrt n := by
      rw [Real.one_le_sqrt]
      exact_mod_cast (by omega : 1 ≤ n)
    have h4 : ε * 1 ≤ (γ * (1 + ε) + ε) * ((1 + δ) * Real.sqrt n) := by
      refine mul_le_mul (by nlinarith [mul_nonneg hγ (show 0 ≤ 1 + ε by linarith)]) ?_ zero_le_one (by positivity)
      nlinarith
    rw [hτ, tau]
    linarith
  have idx : ∀ i, l ≤ i → i < n → ∃ k : Fin (n - l), i = l + k := fun i a b => ⟨⟨i - l, by omega⟩, by simp; omega⟩
  have cross : ∀ i, i < l → ∀ j : Fin (n - l), ‖dotc (X i) (Y (l + j))‖ ≤ 2 * τ * (1 + τ) := by
    intro i hi j
    rw [dotc_inner]
    refine near_cross (hg.1 j) (hετ (by have := j.isLt; omega)) ?_ (hc i hi fun k => W k j) (hy j)
    have := (abs_le.mp (hnear.1 i hi)).2
    rw [nrm2_eq_norm] at this
    linarith
  refine ⟨fun i hi => ?_, fun i j hi hj hij => ?_⟩
  · by_cases hil : i < l
    · rw [h1 i hil]; exact hnear.1 i hil
    · obtain ⟨k, rfl⟩ := idx i (by omega) hi
      rw [nrm2_eq_norm, ← hg.1 k]
      exact (abs_norm_sub_norm_le _ _).trans (hy k)
  · by_cases hil : i < l
    · by_cases hjl : j < l
      · rw [h1 i hil, h1 j hjl]; exact hnear.2 i j hil hjl hij
      · obtain ⟨k, rfl⟩ := idx j (by omega) hj
        rw [h1 i hil]
        exact cross i hil k
    · obtain ⟨k, rfl⟩ := idx i (by omega) hi
      by_cases hjl : j < l
      · rw [h1 j hjl, ← dotc_star, norm_star]
        exact cross j hjl k
      · obtain ⟨k', rfl⟩ := idx j (by omega) hj
        rw [dotc_inner]
        exact near_pair (hg.1 k) (hg.1 k') (hg.2 fun e => hij (by rw [e])) (hy k) (hy k')

end
end Rounded
end Verif
