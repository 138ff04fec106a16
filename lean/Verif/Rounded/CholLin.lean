/-
Linear algebra for the Cholesky-based orthogonalisation in rounded arithmetic: the Gram-Schmidt vectors of a nearly
orthonormal system, and what one step "Gram matrix, Cholesky factor, triangular solve" makes of a system of vectors.
-/
import Mathlib.Analysis.InnerProductSpace.GramSchmidtOrtho
import Verif.Rounded.OrthoLin

namespace Verif
namespace Rounded

open Matrix Finset

section
variable {𝕜 V : Type*} [RCLike 𝕜] [NormedAddCommGroup V] [InnerProductSpace 𝕜 V] {n : ℕ}

/-- the sum of the squares of the absolute values -/
def nsq (a : Fin n → 𝕜) : ℝ := ∑ k, ‖a k‖ ^ 2

/-- a combination of vectors -/
def comb (x : Fin n → V) (a : Fin n → 𝕜) : V := ∑ k, a k • x k

theorem nsq_nonneg (a : Fin n → 𝕜) : 0 ≤ nsq a := Finset.sum_nonneg fun _ _ => by positivity

theorem nsq_smul (c : 𝕜) (a : Fin n → 𝕜) : nsq (fun k => c * a k) = ‖c‖ ^ 2 * nsq a := by
  unfold nsq
  rw [Finset.mul_sum]
  exact Finset.sum_congr rfl fun k _ => by rw [norm_mul]; ring

theorem nsq_single (j : Fin n) : nsq (Pi.single j (1 : 𝕜)) = 1 := by
  classical
  unfold nsq
  rw [Finset.sum_eq_single j]
  · simp
  · intro k _ hk; simp [Pi.single_eq_of_ne hk]
  · simp

theorem comb_single (x : Fin n → V) (j : Fin n) : comb x (Pi.single j (1 : 𝕜)) = x j := by
  classical
  unfold comb
  rw [Finset.sum_eq_single j]
  · simp
  · intro k _ hk; simp [Pi.single_eq_of_ne hk]
  · simp

/-- **The Gram-Schmidt vectors of a nearly orthonormal system** are close to it. -/
theorem near_gs {y : Fin n → V} {η : ℝ} (h1 : η ≤ 1 / 4)
    (h : ∀ a : Fin n → 𝕜, |‖comb y a‖ ^ 2 - nsq a| ≤ η * nsq a) :
    ∃ q : Fin n → V, Orthonormal 𝕜 q ∧ (∀ j, ‖y j - q j‖ ≤ 3 * η) ∧
      ∀ j, y j ∈ Submodule.span 𝕜 (q '' Set.Iic j) := by
  classical
  rcases Nat.eq_zero_or_pos n with hn | hn
  · subst hn
    exact ⟨fun j => j.elim0, ⟨fun j => j.elim0, fun i => i.elim0⟩, fun j => j.elim0, fun j => j.elim0⟩
  have h0 : 0 ≤ η := by
    have := (abs_nonneg _).trans (h (Pi.single ⟨0, hn⟩ 1))
    rwa [nsq_single, mul_one] at this
  have hlow : ∀ a : Fin n → 𝕜, (1 - η) * nsq a ≤ ‖comb y a‖ ^ 2 := fun a => by linarith [(abs_le.mp (h a)).1]
  have hup : ∀ a : Fin n → 𝕜, ‖comb y a‖ ^ 2 ≤ (1 + η) * nsq a := fun a => by linarith [(abs_le.mp (h a)).2]
  have hli : LinearIndependent 𝕜 y := by
    rw [Fintype.linearIndependent_iff]
    intro a ha k
    have e := hlow a
    rw [show comb y a = 0 from ha, norm_zero] at e
    have e1 : nsq a ≤ 0 := by nlinarith [nsq_nonneg a]
    have e2 : ‖a k‖ ^ 2 ≤ nsq a := Finset.single_le_sum (f := fun k => ‖a k‖ ^ 2) (fun _ _ => by positivity) (mem_univ k)
    have e3 : ‖a k‖ = 0 := by nlinarith [norm_nonneg (a k)]
    simpa using e3
  refine ⟨InnerProductSpace.gramSchmidtNormed 𝕜 y, InnerProductSpace.gramSchmidtNormed_orthonormal hli, fun j => ?_,
    fun j => ?_⟩
  · set w := InnerProductSpace.gramSchmidt 𝕜 y j with hw
    have hd := InnerProductSpace.gramSchmidt_def'' 𝕜 y j
    set p := ∑ i ∈ Iio j, ((inner 𝕜 (InnerProductSpace.gramSchmidt 𝕜 y i) (y j) : 𝕜) /
      (‖InnerProductSpace.gramSchmidt 𝕜 y i‖ : 𝕜) ^ 2) • InnerProductSpace.gramSchmidt 𝕜 y i with hp
    have hyw : y j = w + p := hd
    have hpspan : p ∈ Submodule.span 𝕜 (y '' Set.Iio j) := by
      rw [← InnerProductSpace.span_gramSchmidt_Iio]
      exact Submodule.sum_mem _ fun i hi => Submodule.smul_mem _ _ (Submodule.subset_span ⟨i, by simpa using hi, rfl⟩)
    have hwp : (inner 𝕜 p w : 𝕜) = 0 := by
      rw [hp, sum_inner]
      refine Finset.sum_eq_zero fun i hi => ?_
      rw [inner_smul_left, InnerProductSpace.gramSchmidt_orthogonal 𝕜 y (ne_of_lt (by simpa using hi)), mul_zero]
    obtain ⟨l, hl, hlp⟩ := (Finsupp.mem_span_image_iff_linearCombination 𝕜).mp hpspan
    have hlp' : comb y l = p := by
      rw [← hlp, Finsupp.linearCombination_apply, Finsupp.sum_fintype _ _ (by simp)]; rfl
    have hlj : l j = 0 := by
      by_contra hne
      have := hl (Finsupp.mem_support_iff.mpr hne)
      simp at this
    -- the square of the norm of `y j + c p`
    have hcomb : ∀ c : ℝ, comb y (fun k => (Pi.single j (1 : 𝕜) : Fin n → 𝕜) k + (c : 𝕜) * l k) = y j + (c : 𝕜) • p := by
      intro c
      rw [← comb_single (𝕜 := 𝕜) y j, ← hlp']
      unfold comb
      rw [Finset.smul_sum, ← Finset.sum_add_distrib]
      exact Finset.sum_congr rfl fun k _ => by rw [add_smul, mul_smul]
    have hnsq : ∀ c : ℝ, nsq (fun k => (Pi.single j (1 : 𝕜) : Fin n → 𝕜) k + (c : 𝕜) * l k) = 1 + c ^ 2 * nsq l := by
      intro c
      rw [← nsq_single (𝕜 := 𝕜) j]
      unfold nsq
      rw [Finset.mul_sum, ← Finset.sum_add_distrib]
      refine Finset.sum_congr rfl fun k _ => ?_
      by_cases hk : k = j
      · subst hk; simp [hlj]
      · simp [Pi.single_eq_of_ne hk, mul_pow]
    have hpy : RCLike.re (inner 𝕜 (y j) p : 𝕜) = ‖p‖ ^ 2 := by
      rw [hyw, inner_add_left, inner_eq_zero_symm.mp hwp, zero_add]
      exact inner_self_eq_norm_sq (𝕜 := 𝕜) p
    have hsq : ∀ c : ℝ, ‖y j + (c : 𝕜) • p‖ ^ 2 = ‖y j‖ ^ 2 + 2 * c * ‖p‖ ^ 2 + c ^ 2 * ‖p‖ ^ 2 := by
      intro c
      rw [norm_add_sq (𝕜 := 𝕜), inner_smul_right, RCLike.re_ofReal_mul, hpy, norm_smul, RCLike.norm_ofReal, mul_pow,
        sq_abs]
      ring
    have hpl : (1 - η) * nsq l ≤ ‖p‖ ^ 2 := by rw [← hlp']; exact hlow l
    have hc : ∀ c : ℝ, 4 * c * ‖p‖ ^ 2 ≤ 2 * η * (1 + c ^ 2 * nsq l) := by
      intro c
      have e1 := hup fun k => (Pi.single j (1 : 𝕜) : Fin n → 𝕜) k + ((c : ℝ) : 𝕜) * l k
      have e2 := hlow fun k => (Pi.single j (1 : 𝕜) : Fin n → 𝕜) k + ((-c : ℝ) : 𝕜) * l k
      rw [hcomb, hnsq, hsq] at e1 e2
      nlinarith
    have hyj : |‖y j‖ ^ 2 - 1| ≤ η := by
      have := h (Pi.single j 1)
      rwa [comb_single, nsq_single, mul_one] at this
    -- `‖p‖ ≤ 1.2 η`
    have hpn : ‖p‖ ≤ 6 / 5 * η := by
      by_cases hp0 : ‖p‖ = 0
      · rw [hp0]; positivity
      have hpp : 0 < ‖p‖ := lt_of_le_of_ne (norm_nonneg _) (Ne.symm hp0)
      by_cases hη : η = 0
      · exfalso
        have := hc 1
        rw [hη] at this
        nlinarith
      have hη' : 0 < η := lt_of_le_of_ne h0 (Ne.symm hη)
      have hl' : nsq l ≤ 4 / 3 * ‖p‖ ^ 2 := by nlinarith [nsq_nonneg l]
      have e := hc (6 / (7 * ‖p‖))
      have e1 : 4 * (6 / (7 * ‖p‖)) * ‖p‖ ^ 2 = 24 / 7 * ‖p‖ := by field_simp; ring
      have e2 : (6 / (7 * ‖p‖)) ^ 2 * nsq l ≤ 48 / 49 := by
        calc (6 / (7 * ‖p‖)) ^ 2 * nsq l ≤ (6 / (7 * ‖p‖)) ^ 2 * (4 / 3 * ‖p‖ ^ 2) :=
              mul_le_mul_of_nonneg_left hl' (by positivity)
          _ = 48 / 49 := by field_simp; norm_num
      rw [e1] at e
      nlinarith
    have hwn : ‖y j‖ ^ 2 = ‖w‖ ^ 2 + ‖p‖ ^ 2 := by
      rw [hyw, norm_add_sq (𝕜 := 𝕜), inner_eq_zero_symm.mp hwp]; simp
    have hpn2 : ‖p‖ ^ 2 ≤ 9 / 25 * η := by nlinarith [norm_nonneg p]
    have hw2 : |‖w‖ ^ 2 - 1| ≤ 34 / 25 * η := by
      have := abs_le.mp hyj
      rw [abs_le]
      constructor <;> nlinarith [sq_nonneg ‖p‖]
    have hw1 : |‖w‖ - 1| ≤ 34 / 25 * η := by
      have e : |‖w‖ ^ 2 - 1| = |‖w‖ - 1| * (‖w‖ + 1) := by
        rw [show ‖w‖ ^ 2 - 1 = (‖w‖ - 1) * (‖w‖ + 1) by ring, abs_mul, abs_of_nonneg (show 0 ≤ ‖w‖ + 1 by positivity)]
      rw [e] at hw2
      nlinarith [abs_nonneg (‖w‖ - 1), norm_nonneg w]
    have hwpos : 0 < ‖w‖ := by
      have := abs_le.mp hw1
      linarith
    have hq : InnerProductSpace.gramSchmidtNormed 𝕜 y j = ((‖w‖ : 𝕜)⁻¹) • w := rfl
    rw [hq]
    have e : y j - ((‖w‖ : 𝕜)⁻¹) • w = p + (((‖w‖ - 1) / ‖w‖ : ℝ) : 𝕜) • w := by
      have hne : (‖w‖ : 𝕜) ≠ 0 := by exact_mod_cast hwpos.ne'
      rw [hyw]
      have : ((((‖w‖ - 1) / ‖w‖ : ℝ) : 𝕜)) = 1 - (‖w‖ : 𝕜)⁻¹ := by
        push_cast
        field_simp
      rw [this, sub_smul, one_smul]
      abel
    rw [e]
    refine (norm_add_le _ _).trans ?_
    rw [norm_smul, RCLike.norm_ofReal, abs_div, abs_of_pos hwpos, div_mul_cancel₀ _ hwpos.ne']
    linarith
  · rw [InnerProductSpace.span_gramSchmidtNormed, InnerProductSpace.span_gramSchmidt_Iic]
    exact Submodule.subset_span ⟨j, by simp, rfl⟩

/-! ### One step -/

/-- the sum of the squares of the coefficients weighted with the norms of the vectors -/
def wsq (x : Fin n → V) (b : Fin n → 𝕜) : ℝ := ∑ k, (‖b k‖ * ‖x k‖) ^ 2

/-- the square root of the sum of the squares of the norms -/
noncomputable def vfrob (y : Fin n → V) : ℝ := Real.sqrt (∑ k, ‖y k‖ ^ 2)

/-- `y` results from `x` by a Cholesky step with factor `R`, shift `s` and relative errors `e`. -/
structure CholStep (x y : Fin n → V) (R : Matrix (Fin n) (Fin n) 𝕜) (s e : ℝ) : Prop where
  gram : ∀ i j, ‖(Rᴴ * R) i j - inner 𝕜 (x i) (x j) - (if i = j then (s : 𝕜) else 0)‖ ≤ 7 * e * (‖x i‖ * ‖x j‖)
  solve : ∀ j, ‖comb y (fun k => R k j) - x j‖ ≤ 2 * e * vfrob y * ‖x j‖

/-- `σ` is a lower bound of the smallest singular value of the vectors, scaled to norm one. -/
structure CondOf (σ : ℝ) (x : Fin n → V) : Prop where
  pos : 0 < σ
  ne : ∀ j, x j ≠ 0
  low : ∀ b : Fin n → 𝕜, σ ^ 2 * wsq x b ≤ ‖comb x b‖ ^ 2

theorem wsq_nonneg (x : Fin n → V) (b : Fin n → 𝕜) : 0 ≤ wsq x b := Finset.sum_nonneg fun _ _ => by positivity

/-- sums of weighted absolute values -/
theorem wsum_sq_le (x : Fin n → V) (b : Fin n → 𝕜) : (∑ k, ‖b k‖ * ‖x k‖) ^ 2 ≤ n * wsq x b := by
  have h := sq_sum_le_card_mul_sum_sq (s := (univ : Finset (Fin n))) (f := fun k => ‖b k‖ * ‖x k‖)
  rwa [Finset.card_univ, Fintype.card_fin] at h

theorem comb_norm_le (x : Fin n → V) (b : Fin n → 𝕜) : ‖comb x b‖ ≤ ∑ k, ‖b k‖ * ‖x k‖ := by
  refine (norm_sum_le _ _).trans (Finset.sum_le_sum fun k _ => ?_)
  rw [norm_smul]

theorem comb_sq_le (x : Fin n → V) (b : Fin n → 𝕜) : ‖comb x b‖ ^ 2 ≤ n * wsq x b :=
  (pow_le_pow_left₀ (norm_nonneg _) (comb_norm_le x b) 2).trans (wsum_sq_le x b)

theorem comb_sq_inner (x : Fin n → V) (b : Fin n → 𝕜) :
    ((‖comb x b‖ ^ 2 : ℝ) : 𝕜) = ∑ i, ∑ j, star (b i) * b j * inner 𝕜 (x i) (x j) := by
  have h : (inner 𝕜 (comb x b) (comb x b) : 𝕜) = ((‖comb x b‖ : 𝕜)) ^ 2 := inner_self_eq_norm_sq_to_K _
  push_cast
  rw [← h]
  unfold comb
  rw [sum_inner]
  refine Finset.sum_congr rfl fun i _ => ?_
  rw [inner_sum]
  refine Finset.sum_congr rfl fun j _ => ?_
  rw [inner_smul_left, inner_smul_right]
  simp only [RCLike.star_def]
  ring

theorem nsq_star (a : Fin n → 𝕜) : ((nsq a : ℝ) : 𝕜) = ∑ k, star (a k) * a k := by
  unfold nsq
  push_cast
  refine Finset.sum_congr rfl fun k _ => ?_
  rw [RCLike.star_def, RCLike.conj_mul]

theorem nsq_mulVec (R : Matrix (Fin n) (Fin n) 𝕜) (b : Fin n → 𝕜) :
    ((nsq (R *ᵥ b) : ℝ) : 𝕜) = ∑ i, ∑ j, star (b i) * b j * (Rᴴ * R) i j := by
  rw [nsq_star]
  have e1 : ∀ k, star ((R *ᵥ b) k) * (R *ᵥ b) k = ∑ i, ∑ j, star (b i) * b j * (star (R k i) * R k j) := by
    intro k
    simp only [Matrix.mulVec, dotProduct, star_sum, star_mul']
    rw [Finset.sum_mul_sum]
    exact Finset.sum_congr rfl fun i _ => Finset.sum_congr rfl fun j _ => by ring
  simp only [e1]
  rw [Finset.sum_comm]
  refine Finset.sum_congr rfl fun i _ => ?_
  rw [Finset.sum_comm]
  refine Finset.sum_congr rfl fun j _ => ?_
  rw [← Finset.mul_sum, Matrix.mul_apply]
  rfl

/-- A quadratic form with small entries. -/
theorem form_le {x : Fin n → V} {M : Matrix (Fin n) (Fin n) 𝕜} {β : ℝ} (hβ : 0 ≤ β)
    (h : ∀ i j, ‖M i j‖ ≤ β * (‖x i‖ * ‖x j‖)) (b : Fin n → 𝕜) :
    ‖∑ i, ∑ j, star (b i) * b j * M i j‖ ≤ n * β * wsq x b := by
  have h1 : ‖∑ i, ∑ j, star (b i) * b j * M i j‖ ≤ ∑ i, ∑ j, β * ((‖b i‖ * ‖x i‖) * (‖b j‖ * ‖x j‖)) := by
    refine (norm_sum_le _ _).trans (Finset.sum_le_sum fun i _ => (norm_sum_le _ _).trans (Finset.sum_le_sum fun j _ => ?_))
    rw [norm_mul, norm_mul, norm_star]
    have := mul_le_mul_of_nonneg_left (h i j) (show 0 ≤ ‖b i‖ * ‖b j‖ by positivity)
    linarith
  have h2 : ∑ i, ∑ j, β * ((‖b i‖ * ‖x i‖) * (‖b j‖ * ‖x j‖)) = β * (∑ k, ‖b k‖ * ‖x k‖) ^ 2 := by
    rw [sq, Finset.sum_mul_sum, Finset.mul_sum]
    exact Finset.sum_congr rfl fun i _ => by rw [Finset.mul_sum]
  rw [h2] at h1
  nlinarith [wsum_sq_le x b]

/-- The norm of `R b` and that of the combination of the vectors. -/
theorem CholStep.factor {x y : Fin n → V} {R : Matrix (Fin n) (Fin n) 𝕜} {s e : ℝ} (h : CholStep x y R s e) (he : 0 ≤ e)
    (b : Fin n → 𝕜) : |nsq (R *ᵥ b) - ‖comb x b‖ ^ 2 - s * nsq b| ≤ n * (7 * e) * wsq x b := by
  have h1 := form_le (x := x) (M := Matrix.of fun i j => (Rᴴ * R) i j - inner 𝕜 (x i) (x j) - (if i = j then (s : 𝕜) else 0))
    (β := 7 * e) (by positivity) h.gram b
  have e1 : (∑ i, ∑ j, star (b i) * b j * (Matrix.of fun i j => (Rᴴ * R) i j - inner 𝕜 (x i) (x j) -
      (if i = j then (s : 𝕜) else 0)) i j) = ((nsq (R *ᵥ b) - ‖comb x b‖ ^ 2 - s * nsq b : ℝ) : 𝕜) := by
    rw [RCLike.ofReal_sub, RCLike.ofReal_sub, RCLike.ofReal_mul, nsq_mulVec, comb_sq_inner, nsq_star]
    simp only [Matrix.of_apply, mul_sub, Finset.sum_sub_distrib]
    congr 1
    rw [Finset.mul_sum]
    refine Finset.sum_congr rfl fun i _ => ?_
    rw [Finset.sum_eq_single i]
    · rw [if_pos rfl]; ring
    · intro j _ hj; rw [if_neg (Ne.symm hj), mul_zero]
    · simp
  rw [e1, RCLike.norm_ofReal] at h1
  exact h1

/-- The error of the solve, for combinations. -/
theorem CholStep.diff {x y : Fin n → V} {R : Matrix (Fin n) (Fin n) 𝕜} {s e : ℝ} (h : CholStep x y R s e) (he : 0 ≤ e)
    (b : Fin n → 𝕜) : ‖comb y (R *ᵥ b) - comb x b‖ ^ 2 ≤ n * (2 * e * vfrob y) ^ 2 * wsq x b := by
  have hY : 0 ≤ vfrob y := Real.sqrt_nonneg _
  have e1 : comb y (R *ᵥ b) - comb x b = ∑ j, b j • (comb y (fun k => R k j) - x j) := by
    simp only [comb, smul_sub, Finset.sum_sub_distrib, Finset.smul_sum, Matrix.mulVec, dotProduct, Finset.sum_smul]
    congr 1
    rw [Finset.sum_comm]
    exact Finset.sum_congr rfl fun j _ => Finset.sum_congr rfl fun k _ => by rw [smul_smul, mul_comm]
  have h1 : ‖comb y (R *ᵥ b) - comb x b‖ ≤ 2 * e * vfrob y * ∑ k, ‖b k‖ * ‖x k‖ := by
    rw [e1, Finset.mul_sum]
    refine (norm_sum_le _ _).trans (Finset.sum_le_sum fun j _ => ?_)
    rw [norm_smul]
    have := mul_le_mul_of_nonneg_left (h.solve j) (norm_nonneg (b j))
    linarith
  have h2 := pow_le_pow_left₀ (norm_nonneg _) h1 2
  rw [mul_pow] at h2
  have h3 := mul_le_mul_of_nonneg_left (wsum_sq_le x b) (show 0 ≤ (2 * e * vfrob y) ^ 2 by positivity)
  linarith

/-- The conditions under which a step can be analysed. -/
structure Fits (x : Fin n → V) (σ s e : ℝ) : Prop where
  e_nonneg : 0 ≤ e
  e_small : 12 * n * e ≤ σ
  s_nonneg : 0 ≤ s
  shift : ∀ j, n * (7 * e) * ‖x j‖ ^ 2 ≤ σ ^ 2 / 2 * ‖x j‖ ^ 2 + s

section
variable {x y : Fin n → V} {R : Matrix (Fin n) (Fin n) 𝕜} {s e σ : ℝ}

theorem CondOf.le_one (h : CondOf (𝕜 := 𝕜) σ x) (hn : 0 < n) : σ ≤ 1 := by
  have h1 := h.low (Pi.single ⟨0, hn⟩ 1)
  have e1 : wsq x (Pi.single ⟨0, hn⟩ (1 : 𝕜)) = ‖x ⟨0, hn⟩‖ ^ 2 := by
    classical
    unfold wsq
    rw [Finset.sum_eq_single ⟨0, hn⟩]
    · simp
    · intro k _ hk; simp [Pi.single_eq_of_ne hk]
    · simp
  rw [e1, comb_single] at h1
  have h2 : 0 < ‖x ⟨0, hn⟩‖ ^ 2 := by have := norm_pos_iff.mpr (h.ne ⟨0, hn⟩); positivity
  have h3 : σ ^ 2 ≤ 1 := by nlinarith
  nlinarith [h.pos]

/-- The factor is not much smaller than the vectors. -/
theorem factor_low (h : CholStep x y R s e) (hf : Fits x σ s e) (hc : CondOf (𝕜 := 𝕜) σ x) (b : Fin n → 𝕜) :
    ‖comb x b‖ ^ 2 ≤ 2 * nsq (R *ᵥ b) := by
  have h1 := (abs_le.mp (h.factor hf.e_nonneg b)).1
  have h2 : n * (7 * e) * wsq x b ≤ σ ^ 2 / 2 * wsq x b + s * nsq b := by
    unfold wsq nsq
    rw [Finset.mul_sum, Finset.mul_sum, Finset.mul_sum, ← Finset.sum_add_distrib]
    refine Finset.sum_le_sum fun k _ => ?_
    have := mul_le_mul_of_nonneg_left (hf.shift k) (show 0 ≤ ‖b k‖ ^ 2 by positivity)
    nlinarith
  nlinarith [hc.low b]

theorem factor_up (h : CholStep x y R s e) (hf : Fits x σ s e) (hc : CondOf (𝕜 := 𝕜) σ x) {ω : ℝ}
    (hω : ∀ j, s ≤ ω * ‖x j‖ ^ 2) (b : Fin n → 𝕜) :
    nsq (R *ᵥ b) ≤ ‖comb x b‖ ^ 2 + (ω + n * (7 * e)) * wsq x b := by
  have h1 := (abs_le.mp (h.factor hf.e_nonneg b)).2
  have h2 : s * nsq b ≤ ω * wsq x b := by
    unfold wsq nsq
    rw [Finset.mul_sum, Finset.mul_sum]
    refine Finset.sum_le_sum fun k _ => ?_
    have := mul_le_mul_of_nonneg_left (hω k) (show 0 ≤ ‖b k‖ ^ 2 by positivity)
    nlinarith
  linarith

theorem wsq_le (h : CholStep x y R s e) (hf : Fits x σ s e) (hc : CondOf (𝕜 := 𝕜) σ x) (b : Fin n → 𝕜) :
    σ ^ 2 * wsq x b ≤ 2 * nsq (R *ᵥ b) := (hc.low b).trans (factor_low h hf hc b)

/-- The factor is invertible. -/
theorem factor_surj (h : CholStep x y R s e) (hf : Fits x σ s e) (hc : CondOf (𝕜 := 𝕜) σ x) (a : Fin n → 𝕜) :
    ∃ b, R *ᵥ b = a := by
  have hinj : Function.Injective R.mulVecLin := by
    rw [← LinearMap.ker_eq_bot, LinearMap.ker_eq_bot']
    intro b hb
    have h1 := wsq_le h hf hc b
    rw [show R *ᵥ b = 0 from hb] at h1
    have e0 : nsq (0 : Fin n → 𝕜) = 0 := by simp [nsq]
    rw [e0] at h1
    have h2 : 0 < σ ^ 2 := by have := hc.pos; positivity
    have h3 : wsq x b ≤ 0 := by nlinarith
    funext k
    have h4 : (‖b k‖ * ‖x k‖) ^ 2 ≤ wsq x b :=
      Finset.single_le_sum (f := fun k => (‖b k‖ * ‖x k‖) ^ 2) (fun _ _ => by positivity) (mem_univ k)
    have h5 : ‖b k‖ * ‖x k‖ = 0 := by nlinarith [mul_nonneg (norm_nonneg (b k)) (norm_nonneg (x k))]
    rcases mul_eq_zero.mp h5 with h6 | h6
    · simpa using h6
    · exact absurd (norm_eq_zero.mp h6) (hc.ne k)
  obtain ⟨b, hb⟩ := (LinearMap.injective_iff_surjective.mp hinj) a
  exact ⟨b, hb⟩

/-- The results are bounded. -/
theorem vfrob_le (h : CholStep x y R s e) (hf : Fits x σ s e) (hc : CondOf (𝕜 := 𝕜) σ x) :
    vfrob y ≤ 3 * Real.sqrt n := by
  set t := vfrob y with ht
  have hY : 0 ≤ t := Real.sqrt_nonneg _
  have hσ := hc.pos
  have he := hf.e_nonneg
  have hn : (0 : ℝ) ≤ n := Nat.cast_nonneg n
  -- each vector
  have hk : ∀ k, ‖y k‖ ^ 2 ≤ 4 + n * (4 * (2 * e * t) ^ 2 / σ ^ 2) := by
    intro k
    obtain ⟨b, hb⟩ := factor_surj h hf hc (Pi.single k 1)
    have h1 := factor_low h hf hc b
    have h2 := wsq_le h hf hc b
    have h3 := h.diff he b
    rw [hb, nsq_single] at h1 h2
    rw [hb, comb_single, ← ht] at h3
    have h4 : ‖y k‖ ≤ ‖comb x b‖ + ‖y k - comb x b‖ := by
      have := norm_add_le (comb x b) (y k - comb x b)
      rwa [add_sub_cancel] at this
    have h5 : ‖y k‖ ^ 2 ≤ 2 * ‖comb x b‖ ^ 2 + 2 * ‖y k - comb x b‖ ^ 2 := by
      have := pow_le_pow_left₀ (norm_nonneg _) h4 2
      nlinarith [sq_nonneg (‖comb x b‖ - ‖y k - comb x b‖)]
    have h6 : wsq x b ≤ 2 / σ ^ 2 := by
      rw [le_div_iff₀ (by positivity)]; linarith
    have h7 : n * (2 * e * t) ^ 2 * wsq x b ≤ n * (2 * e * t) ^ 2 * (2 / σ ^ 2) :=
      mul_le_mul_of_nonneg_left h6 (by positivity)
    have h8 : n * (4 * (2 * e * t) ^ 2 / σ ^ 2) = 2 * (n * (2 * e * t) ^ 2 * (2 / σ ^ 2)) := by ring
    rw [h8]
    linarith
  have h9 : t ^ 2 ≤ n * (4 + n * (4 * (2 * e * t) ^ 2 / σ ^ 2)) := by
    have e1 : t ^ 2 = ∑ k, ‖y k‖ ^ 2 := Real.sq_sqrt (Finset.sum_nonneg fun _ _ => by positivity)
    rw [e1]
    refine (Finset.sum_le_sum fun k _ => hk k).trans ?_
    rw [Finset.sum_const, Finset.card_univ, Fintype.card_fin, nsmul_eq_mul]
  have h10 : n * (n * (4 * (2 * e * t) ^ 2 / σ ^ 2)) ≤ t ^ 2 / 9 := by
    have e1 : n * (n * (4 * (2 * e * t) ^ 2 / σ ^ 2)) = (12 * n * e) ^ 2 * t ^ 2 / (9 * σ ^ 2) := by
      field_simp
      ring
    rw [e1, div_le_div_iff₀ (by positivity) (by positivity)]
    have e2 : (12 * n * e) ^ 2 ≤ σ ^ 2 := pow_le_pow_left₀ (by positivity) hf.e_small 2
    nlinarith [mul_le_mul_of_nonneg_right e2 (sq_nonneg t)]
  have h11 : t ^ 2 ≤ (3 * Real.sqrt n) ^ 2 := by
    rw [mul_pow, Real.sq_sqrt hn]
    nlinarith
  exact le_of_sq_le_sq h11 (by positivity)

theorem wsq_single (x : Fin n → V) (j : Fin n) : wsq x (Pi.single j (1 : 𝕜)) = ‖x j‖ ^ 2 := by
  classical
  unfold wsq
  rw [Finset.sum_eq_single j]
  · simp
  · intro k _ hk; simp [Pi.single_eq_of_ne hk]
  · simp

theorem mulVec_single_col (R : Matrix (Fin n) (Fin n) 𝕜) (j : Fin n) : R *ᵥ Pi.single j 1 = fun k => R k j := by
  funext k; simp [Matrix.mulVec, dotProduct, Pi.single_apply]

theorem diff_small (h : CholStep x y R s e) (hf : Fits x σ s e) (hc : CondOf (𝕜 := 𝕜) σ x) (b : Fin n → 𝕜) :
    ‖comb y (R *ᵥ b) - comb x b‖ ^ 2 ≤ (6 * n * e) ^ 2 * wsq x b := by
  have he := hf.e_nonneg
  refine (h.diff he b).trans (mul_le_mul_of_nonneg_right ?_ (wsq_nonneg _ _))
  have h1 : (2 * e * vfrob y) ^ 2 ≤ (2 * e * (3 * Real.sqrt n)) ^ 2 :=
    pow_le_pow_left₀ (mul_nonneg (by positivity) (Real.sqrt_nonneg _))
      (mul_le_mul_of_nonneg_left (vfrob_le h hf hc) (by positivity)) 2
  have h2 : (2 * e * (3 * Real.sqrt n)) ^ 2 = 36 * e ^ 2 * n := by
    have := Real.sq_sqrt (Nat.cast_nonneg (α := ℝ) n)
    calc _ = 36 * e ^ 2 * (Real.sqrt n) ^ 2 := by ring
      _ = _ := by rw [this]
  rw [h2] at h1
  have := mul_le_mul_of_nonneg_left h1 (Nat.cast_nonneg (α := ℝ) n)
  nlinarith

theorem diff_half (h : CholStep x y R s e) (hf : Fits x σ s e) (hc : CondOf (𝕜 := 𝕜) σ x) (b : Fin n → 𝕜) :
    ‖comb y (R *ᵥ b) - comb x b‖ ≤ 1 / 2 * ‖comb x b‖ := by
  have h1 := diff_small h hf hc b
  have h2 : (12 * n * e) ^ 2 ≤ σ ^ 2 := by
    have := hf.e_nonneg
    exact pow_le_pow_left₀ (by positivity) hf.e_small 2
  have h3 := hc.low b
  have h4 := mul_le_mul_of_nonneg_right h2 (wsq_nonneg x b)
  refine le_of_sq_le_sq ?_ (by positivity)
  nlinarith

/-- **The results of a step with shift**: bounded, and better conditioned. -/
theorem step_cond (h : CholStep x y R s e) (hf : Fits x σ s e) (hc : CondOf (𝕜 := 𝕜) σ x) {ω σ' : ℝ}
    (hω0 : 0 ≤ ω) (hω : ∀ j, s ≤ ω * ‖x j‖ ^ 2) (hσ' : 0 < σ') (hs : 20 * (σ ^ 2 + (ω + n * (7 * e))) * σ' ^ 2 ≤ σ ^ 2) :
    CondOf (𝕜 := 𝕜) σ' y ∧ ∀ k, ‖y k‖ ^ 2 ≤ 5 := by
  have hσ := hc.pos
  have he := hf.e_nonneg
  have hn : (0 : ℝ) ≤ n := Nat.cast_nonneg n
  have hlow : ∀ a : Fin n → 𝕜, 5 * σ' ^ 2 * nsq a ≤ ‖comb y a‖ ^ 2 := by
    intro a
    obtain ⟨b, rfl⟩ := factor_surj h hf hc a
    have h1 := factor_up h hf hc hω b
    have h2 := diff_half h hf hc b
    have h3 : 1 / 2 * ‖comb x b‖ ≤ ‖comb y (R *ᵥ b)‖ := by
      have := norm_sub_le (comb y (R *ᵥ b)) (comb y (R *ᵥ b) - comb x b)
      rw [sub_sub_cancel] at this
      linarith
    have h4 : 1 / 4 * ‖comb x b‖ ^ 2 ≤ ‖comb y (R *ᵥ b)‖ ^ 2 := by
      have := pow_le_pow_left₀ (by positivity) h3 2
      nlinarith
    have h5 := hc.low b
    have h6 : σ ^ 2 * nsq (R *ᵥ b) ≤ (σ ^ 2 + (ω + n * (7 * e))) * ‖comb x b‖ ^ 2 := by
      have t1 := mul_le_mul_of_nonneg_left h1 (sq_nonneg σ)
      have t2 := mul_le_mul_of_nonneg_left h5 (show 0 ≤ ω + n * (7 * e) by positivity)
      nlinarith
    have h7 := mul_le_mul_of_nonneg_left h6 (show 0 ≤ 5 * σ' ^ 2 by positivity)
    have h8 := mul_le_mul_of_nonneg_right hs (sq_nonneg ‖comb x b‖)
    have h9 : σ ^ 2 * (5 * σ' ^ 2 * nsq (R *ᵥ b)) ≤ σ ^ 2 * ‖comb y (R *ᵥ b)‖ ^ 2 := by
      have := mul_le_mul_of_nonneg_left h4 (sq_nonneg σ)
      nlinarith
    exact le_of_mul_le_mul_left h9 (by positivity)
  have hk : ∀ k, ‖y k‖ ^ 2 ≤ 5 := by
    intro k
    obtain ⟨b, hb⟩ := factor_surj h hf hc (Pi.single k 1)
    have h1 := factor_low h hf hc b
    have h3 := diff_half h hf hc b
    rw [hb, nsq_single] at h1
    rw [hb, comb_single] at h3
    have h4 : ‖y k‖ ≤ ‖comb x b‖ + ‖y k - comb x b‖ := by
      have := norm_add_le (comb x b) (y k - comb x b)
      rwa [add_sub_cancel] at this
    have h5 : ‖y k‖ ≤ 3 / 2 * ‖comb x b‖ := by linarith
    have h6 := pow_le_pow_left₀ (norm_nonneg _) h5 2
    nlinarith
  refine ⟨⟨hσ', fun j h0 => ?_, fun a => ?_⟩, hk⟩
  · have := hlow (Pi.single j 1)
    rw [nsq_single, comb_single, h0, norm_zero] at this
    nlinarith [pow_pos hσ' 2]
  · refine le_trans ?_ (hlow a)
    have : wsq y a ≤ 5 * nsq a := by
      unfold wsq nsq
      rw [Finset.mul_sum]
      refine Finset.sum_le_sum fun k _ => ?_
      rw [mul_pow]
      have := mul_le_mul_of_nonneg_left (hk k) (sq_nonneg ‖a k‖)
      linarith
    nlinarith [mul_le_mul_of_nonneg_left this (sq_nonneg σ')]

/-- **The results of a step without shift** are nearly orthonormal. -/
theorem step_near (h : CholStep x y R 0 e) (hf : Fits x σ 0 e) (hc : CondOf (𝕜 := 𝕜) σ x) (hn1 : 0 < n) {η : ℝ}
    (hη : 44 * n * Real.sqrt n * e ≤ η * σ ^ 2) (a : Fin n → 𝕜) : |‖comb y a‖ ^ 2 - nsq a| ≤ η * nsq a := by
  have hσ := hc.pos
  have he := hf.e_nonneg
  have hn : (1 : ℝ) ≤ n := by exact_mod_cast hn1
  have hsn : 1 ≤ Real.sqrt n := Real.one_le_sqrt.mpr hn
  obtain ⟨b, rfl⟩ := factor_surj h hf hc a
  have h1 := h.factor he b
  rw [zero_mul, sub_zero] at h1
  set W := wsq x b with hW
  have hW0 : 0 ≤ W := wsq_nonneg x b
  have h2 : ‖comb y (R *ᵥ b) - comb x b‖ ≤ 6 * n * e * Real.sqrt W := by
    refine le_of_sq_le_sq ?_ (by positivity)
    rw [mul_pow, Real.sq_sqrt hW0]
    exact diff_small h hf hc b
  have h3 := diff_half h hf hc b
  have h4 : ‖comb x b‖ ≤ Real.sqrt n * Real.sqrt W := by
    refine le_of_sq_le_sq ?_ (by positivity)
    rw [mul_pow, Real.sq_sqrt hW0, Real.sq_sqrt (by positivity)]
    exact comb_sq_le x b
  set D := ‖comb y (R *ᵥ b) - comb x b‖ with hD
  set X := ‖comb x b‖ with hX
  set Y := ‖comb y (R *ᵥ b)‖ with hY
  have hD0 : 0 ≤ D := norm_nonneg _
  have hX0 : 0 ≤ X := norm_nonneg _
  have hY0 : 0 ≤ Y := norm_nonneg _
  have h5 : Y ≤ X + D := by
    have := norm_add_le (comb x b) (comb y (R *ᵥ b) - comb x b)
    rwa [add_sub_cancel] at this
  have h6 : X ≤ Y + D := by
    have := norm_sub_le (comb y (R *ᵥ b)) (comb y (R *ᵥ b) - comb x b)
    rwa [sub_sub_cancel] at this
  have h7 : |Y ^ 2 - X ^ 2| ≤ 5 / 2 * (D * X) := by
    rw [abs_le]
    constructor <;> nlinarith
  have h8 : D * X ≤ 6 * n * e * Real.sqrt n * W := by
    calc D * X ≤ (6 * n * e * Real.sqrt W) * (Real.sqrt n * Real.sqrt W) := mul_le_mul h2 h4 hX0 (by positivity)
      _ = 6 * n * e * Real.sqrt n * (Real.sqrt W * Real.sqrt W) := by ring
      _ = _ := by rw [Real.mul_self_sqrt hW0]
  have h9 : n * (7 * e) * W ≤ 7 * n * e * Real.sqrt n * W := by
    have : (n * (7 * e) * W) * 1 ≤ (n * (7 * e) * W) * Real.sqrt n := mul_le_mul_of_nonneg_left hsn (by positivity)
    linarith
  have h10 : |Y ^ 2 - nsq (R *ᵥ b)| ≤ 22 * n * e * Real.sqrt n * W := by
    have t1 := abs_le.mp h1
    have t2 := abs_le.mp h7
    rw [abs_le]
    constructor <;> linarith
  refine h10.trans ?_
  have h11 := wsq_le h hf hc b
  have hη0 : 0 ≤ η := by
    by_contra hneg
    have : η * σ ^ 2 < 0 := mul_neg_of_neg_of_pos (not_le.mp hneg) (by positivity)
    have : 0 ≤ 44 * n * Real.sqrt n * e := by positivity
    linarith
  have h12 : 22 * n * e * Real.sqrt n * W ≤ 1 / 2 * η * σ ^ 2 * W := by
    have := mul_le_mul_of_nonneg_right hη hW0
    linarith
  have h13 := mul_le_mul_of_nonneg_left h11 hη0
  linarith

/-- The vectors are combinations of the results, up to a relative error. -/
theorem step_span (h : CholStep x y R s e) (hf : Fits x σ s e) (hc : CondOf (𝕜 := 𝕜) σ x) (j : Fin n) :
    ‖comb y (fun k => R k j) - x j‖ ≤ 6 * Real.sqrt n * e * ‖x j‖ := by
  refine (h.solve j).trans (mul_le_mul_of_nonneg_right ?_ (norm_nonneg _))
  have := mul_le_mul_of_nonneg_left (vfrob_le h hf hc) (show 0 ≤ 2 * e by have := hf.e_nonneg; positivity)
  linarith

/-- The columns of the factor. -/
theorem col_le (h : CholStep x y R s e) (hf : Fits x σ s e) (hc : CondOf (𝕜 := 𝕜) σ x)
    (hω : ∀ j, s ≤ ‖x j‖ ^ 2) (j : Fin n) : ∑ k, ‖R k j‖ ≤ 2 * Real.sqrt n * ‖x j‖ := by
  have hn1 : 0 < n := lt_of_le_of_lt (Nat.zero_le _) j.isLt
  have h1 := factor_up h hf hc (ω := 1) (fun j => by rw [one_mul]; exact hω j) (Pi.single j 1)
  rw [mulVec_single_col, comb_single, wsq_single] at h1
  have h2 : 12 * n * e ≤ 1 := hf.e_small.trans (hc.le_one hn1)
  have h3 : nsq (fun k => R k j) ≤ (2 * ‖x j‖) ^ 2 := by nlinarith [sq_nonneg ‖x j‖]
  have h4 := sum_norm_le (fun k => R k j)
  refine h4.trans ?_
  have h5 : Verif.nrm2 (fun k => R k j) ≤ 2 * ‖x j‖ := by
    unfold Verif.nrm2
    exact Real.sqrt_le_iff.mpr ⟨by positivity, h3⟩
  nlinarith [mul_le_mul_of_nonneg_left h5 (Real.sqrt_nonneg n)]

/-- Nearly orthonormal vectors are well conditioned. -/
theorem near_cond {η : ℝ} (hη : η ≤ 1 / 4) (h : ∀ a : Fin n → 𝕜, |‖comb y a‖ ^ 2 - nsq a| ≤ η * nsq a) :
    CondOf (𝕜 := 𝕜) (1 / 2) y ∧ ∀ k, ‖y k‖ ^ 2 ≤ 5 / 4 := by
  have hlow : ∀ a : Fin n → 𝕜, 3 / 4 * nsq a ≤ ‖comb y a‖ ^ 2 := fun a => by
    nlinarith [(abs_le.mp (h a)).1, nsq_nonneg a]
  have hk : ∀ k, ‖y k‖ ^ 2 ≤ 5 / 4 := fun k => by
    have := (abs_le.mp (h (Pi.single k 1))).2
    rw [comb_single, nsq_single] at this
    linarith
  refine ⟨⟨by norm_num, fun j h0 => ?_, fun a => ?_⟩, hk⟩
  · have := hlow (Pi.single j 1)
    rw [nsq_single, comb_single, h0, norm_zero] at this
    norm_num at this
  · refine le_trans ?_ (hlow a)
    have : wsq y a ≤ 5 / 4 * nsq a := by
      unfold wsq nsq
      rw [Finset.mul_sum]
      refine Finset.sum_le_sum fun k _ => ?_
      rw [mul_pow]
      have := mul_le_mul_of_nonneg_left (hk k) (sq_nonneg ‖a k‖)
      linarith
    nlinarith [nsq_nonneg a]
end

end
end Rounded
end Verif
