/-
The growth of filtered eigenvectors against the condition estimate of the solver: real analysis and linear
algebra for C88.
-/
import Verif.Solver.DegreeEffect
import Verif.Solver.WatchReach
import Verif.Backend.SubspaceApi

open Polynomial Finset

namespace Verif

/-! ### Chebyshev values -/

/-- `|T_d(t)|` -/
noncomputable def chebAbs (d : ℕ) (t : ℝ) : ℝ := |(Chebyshev.T ℝ d).eval t|

theorem one_le_growth {t : ℝ} (ht : 1 ≤ |t|) : 1 ≤ growth t := by
  unfold growth
  have := Real.sqrt_nonneg (t ^ 2 - 1)
  linarith

theorem growth_mono {s t : ℝ} (h : |s| ≤ |t|) : growth s ≤ growth t := by
  unfold growth
  have : s ^ 2 ≤ t ^ 2 := sq_le_sq.mpr h
  have := Real.sqrt_le_sqrt (show s ^ 2 - 1 ≤ t ^ 2 - 1 by linarith)
  linarith

theorem half_inv_le {x : ℝ} (hx : 1 ≤ x) : (x + x⁻¹) / 2 ≤ x := by
  have : x⁻¹ ≤ 1 := inv_le_one_of_one_le₀ hx
  linarith

theorem chebAbs_eq {t : ℝ} (ht : 1 ≤ |t|) (d : ℕ) :
    chebAbs d t = (growth t ^ d + (growth t ^ d)⁻¹) / 2 := by
  unfold chebAbs
  rw [growth_is_chebyshev ht, inv_pow]

theorem half_inv_mono {x y : ℝ} (hx : 1 ≤ x) (hxy : x ≤ y) : (x + x⁻¹) / 2 ≤ (y + y⁻¹) / 2 := by
  have hx0 : 0 < x := by linarith
  have hy0 : 0 < y := by linarith
  have e : y + y⁻¹ - (x + x⁻¹) = (y - x) * (1 - (x * y)⁻¹) := by
    field_simp
    ring
  have : (x * y)⁻¹ ≤ 1 := inv_le_one_of_one_le₀ (by nlinarith)
  have : 0 ≤ (y - x) * (1 - (x * y)⁻¹) := mul_nonneg (by linarith) (by linarith)
  linarith

/-- The heart of the estimate, in terms of the growth factors `a` (numerator), `k` (first active value), `g`
(scaling point) and the degrees. -/
theorem estimate_core {a k g g' : ℝ} {dA dB d0 dm : ℕ} (ha : 1 ≤ a) (hak : a ≤ k) (hkg : k ≤ g) (hgg : g ≤ g')
    (h0 : d0 ≤ dA) (hA : dA ≤ dm) (hB : dB ≤ dm) :
    (a ^ dA + (a ^ dA)⁻¹) / 2 * ((g ^ dB + (g ^ dB)⁻¹) / 2) ≤
      k ^ d0 * g' ^ (dm - d0) * ((g ^ dA + (g ^ dA)⁻¹) / 2) := by
  have hk : 1 ≤ k := ha.trans hak
  have hg : 1 ≤ g := hk.trans hkg
  have hg' : 1 ≤ g' := hg.trans hgg
  have hx : 1 ≤ a ^ dA := one_le_pow₀ ha
  have hy : 1 ≤ g ^ dA := one_le_pow₀ hg
  have hz : 1 ≤ g ^ dB := one_le_pow₀ hg
  have h1 : a ^ dA ≤ k ^ d0 * g ^ (dA - d0) := by
    calc a ^ dA ≤ k ^ dA := pow_le_pow_left₀ (by linarith) hak _
      _ = k ^ d0 * k ^ (dA - d0) := by rw [← pow_add]; congr 1; omega
      _ ≤ k ^ d0 * g ^ (dA - d0) :=
        mul_le_mul_of_nonneg_left (pow_le_pow_left₀ (by linarith) hkg _) (by positivity)
  have hyy : 0 < (g ^ dA + (g ^ dA)⁻¹) / 2 := by positivity
  rcases le_total dB dA with hd | hd
  · have h2 : k ^ d0 * g ^ (dA - d0) ≤ k ^ d0 * g' ^ (dm - d0) := by
      refine mul_le_mul_of_nonneg_left ?_ (by positivity)
      exact (pow_le_pow_left₀ (by linarith) hgg _).trans (pow_le_pow_right₀ hg' (by omega))
    have h3 : (g ^ dB + (g ^ dB)⁻¹) / 2 ≤ (g ^ dA + (g ^ dA)⁻¹) / 2 :=
      half_inv_mono hz (pow_le_pow_right₀ hg hd)
    exact mul_le_mul ((half_inv_le hx).trans (h1.trans h2)) h3 (by positivity) (by positivity)
  · have h2 : a ^ dA * g ^ (dB - dA) ≤ k ^ d0 * g' ^ (dm - d0) := by
      calc a ^ dA * g ^ (dB - dA) ≤ k ^ d0 * g ^ (dA - d0) * g ^ (dB - dA) :=
            mul_le_mul_of_nonneg_right h1 (by positivity)
        _ = k ^ d0 * g ^ (dB - d0) := by
            rw [mul_assoc, ← pow_add]; congr 2; omega
        _ ≤ k ^ d0 * g' ^ (dm - d0) := by
            refine mul_le_mul_of_nonneg_left ?_ (by positivity)
            exact (pow_le_pow_left₀ (by linarith) hgg _).trans (pow_le_pow_right₀ hg' (by omega))
    have hw : 1 ≤ g ^ (dB - dA) := one_le_pow₀ hg
    have e : g ^ dB = g ^ dA * g ^ (dB - dA) := by rw [← pow_add]; congr 1; omega
    have h3 : (g ^ dB + (g ^ dB)⁻¹) / 2 ≤ g ^ (dB - dA) * ((g ^ dA + (g ^ dA)⁻¹) / 2) := by
      rw [e]
      generalize g ^ (dB - dA) = w at *
      generalize g ^ dA = y at *
      rw [mul_inv]
      have hwi : w⁻¹ ≤ w := (inv_le_one_of_one_le₀ hw).trans hw
      have : y⁻¹ * w⁻¹ ≤ y⁻¹ * w := mul_le_mul_of_nonneg_left hwi (by positivity)
      nlinarith
    calc (a ^ dA + (a ^ dA)⁻¹) / 2 * ((g ^ dB + (g ^ dB)⁻¹) / 2)
        ≤ a ^ dA * (g ^ (dB - dA) * ((g ^ dA + (g ^ dA)⁻¹) / 2)) :=
          mul_le_mul (half_inv_le hx) h3 (by positivity) (by positivity)
      _ = a ^ dA * g ^ (dB - dA) * ((g ^ dA + (g ^ dA)⁻¹) / 2) := by ring
      _ ≤ _ := mul_le_mul_of_nonneg_right h2 hyy.le

theorem condRho_outside {t : ℝ} (ht : 1 ≤ |t|) : condRho t = growth t := by
  have h1 : 1 ≤ t * t := by
    have : 1 ≤ |t| ^ 2 := one_le_pow₀ ht
    rw [sq_abs] at this
    nlinarith
  rw [← codeRho_outside ht]
  unfold condRho codeRho
  rw [abs_of_nonneg (show 0 ≤ t * t - 1 by linarith)]

theorem normPoint_abs {x lower upper : ℝ} (h : lower < upper) (hx : x ≤ lower) :
    1 ≤ |normPoint x lower upper| ∧ |normPoint x lower upper| = ((lower + upper) / 2 - x) / halfWidth lower upper := by
  have he : 0 < halfWidth lower upper := by unfold halfWidth; linarith
  have hn : normPoint x lower upper ≤ -1 := by
    unfold normPoint
    rw [div_le_iff₀ he]
    unfold centre halfWidth
    linarith
  refine ⟨by rw [le_abs]; right; linarith, ?_⟩
  rw [abs_of_nonpos (by linarith)]
  unfold normPoint
  rw [← neg_div]
  congr 1
  unfold centre
  ring

theorem growth_point_mono {x y lower upper : ℝ} (h : lower < upper) (hxy : x ≤ y) (hy : y ≤ lower) :
    growth (normPoint y lower upper) ≤ growth (normPoint x lower upper) := by
  apply growth_mono
  have he : 0 < halfWidth lower upper := by unfold halfWidth; linarith
  rw [(normPoint_abs h hy).2, (normPoint_abs h (hxy.trans hy)).2]
  apply div_le_div_of_nonneg_right _ he.le
  linarith

/-- The factors of any two eigenvectors between the first active value and the damped interval. -/
theorem estimate_ratio {lower upper ritz0 ritzk lambda x y : ℝ} {dA dB d0 dm : ℕ} (h : lower < upper)
    (h0 : ritz0 ≤ lambda) (h1 : lambda ≤ ritzk) (hx : ritzk ≤ x) (hx' : x ≤ lower) (hy : y ≤ lower)
    (hd0 : d0 ≤ dA) (hA : dA ≤ dm) (hB : dB ≤ dm) :
    |(filterPoly lambda lower upper dA).eval x| ≤
      realCondEst upper lower ritz0 ritzk d0 dm * |(filterPoly lambda lower upper dB).eval y| := by
  have hk : ritzk ≤ lower := hx.trans hx'
  have hl : lambda ≤ lower := h1.trans hk
  have e : realCondEst upper lower ritz0 ritzk d0 dm =
      growth (normPoint ritzk lower upper) ^ d0 * growth (normPoint ritz0 lower upper) ^ (dm - d0) := by
    have hc : ∀ z, (z - (upper + lower) / 2) / ((upper - lower) / 2) = normPoint z lower upper := by
      intro z
      unfold normPoint centre halfWidth
      rw [add_comm upper lower]
    unfold realCondEst
    dsimp only
    rw [hc, hc, condRho_outside (normPoint_abs h hk).1, condRho_outside (normPoint_abs h (h0.trans hl)).1]
  rw [filterPoly_eval, filterPoly_eval, abs_div, abs_div, e]
  change chebAbs dA (normPoint x lower upper) / chebAbs dA (normPoint lambda lower upper) ≤
    _ * (chebAbs dB (normPoint y lower upper) / chebAbs dB (normPoint lambda lower upper))
  have hg := (normPoint_abs h hl).1
  have hTy : 1 ≤ chebAbs dB (normPoint y lower upper) :=
    Chebyshev.one_le_abs_eval_T_real (dB : ℤ) (normPoint_abs h hy).1
  have hTA : 1 ≤ chebAbs dA (normPoint lambda lower upper) := Chebyshev.one_le_abs_eval_T_real (dA : ℤ) hg
  have hTB : 1 ≤ chebAbs dB (normPoint lambda lower upper) := Chebyshev.one_le_abs_eval_T_real (dB : ℤ) hg
  have core := estimate_core (dA := dA) (dB := dB) (d0 := d0) (dm := dm)
    (one_le_growth (normPoint_abs h hx').1) (growth_point_mono h hx hx')
    (growth_point_mono h h1 hk) (growth_point_mono h h0 hl) hd0 hA hB
  rw [← chebAbs_eq (normPoint_abs h hx').1, ← chebAbs_eq hg, ← chebAbs_eq hg] at core
  rw [div_le_iff₀ (by linarith), mul_div_assoc', div_mul_eq_mul_div, le_div_iff₀ (by linarith)]
  refine core.trans ?_
  have hc0 : 0 ≤ growth (normPoint ritzk lower upper) ^ d0 * growth (normPoint ritz0 lower upper) ^ (dm - d0) := by
    have a := one_le_growth (normPoint_abs h hk).1
    have b := one_le_growth (normPoint_abs h (h0.trans hl)).1
    positivity
  calc _ ≤ growth (normPoint ritzk lower upper) ^ d0 * growth (normPoint ritz0 lower upper) ^ (dm - d0) *
        (chebAbs dB (normPoint y lower upper) * chebAbs dA (normPoint lambda lower upper)) := by
        refine mul_le_mul_of_nonneg_left ?_ hc0
        nlinarith
    _ = _ := by ring

/-! ### Columns -/

variable {K : Type*} [RCLike K] {N : ℕ}

/-- The condition number of the columns `[lo, hi)` of `X` is at most `c`: of two combinations with
coefficients of the same size one is at most `c` times as long as the other. -/
def CondAtMost (c : ℝ) (lo hi : ℕ) (X : ℕ → Fin N → K) : Prop :=
  ∀ b b' : ℕ → K, ∑ j ∈ Ico lo hi, ‖b j‖ ^ 2 = ∑ j ∈ Ico lo hi, ‖b' j‖ ^ 2 →
    nrm2 (∑ j ∈ Ico lo hi, b j • X j) ≤ c * nrm2 (∑ j ∈ Ico lo hi, b' j • X j)

/-- Pythagoras. -/
theorem nrm2_combination {lo hi : ℕ} {X : ℕ → Fin N → K}
    (ho : ∀ i j, lo ≤ i → i < hi → lo ≤ j → j < hi → dotc (X i) (X j) = if i = j then 1 else 0) (b : ℕ → K) :
    nrm2 (∑ j ∈ Ico lo hi, b j • X j) ^ 2 = ∑ j ∈ Ico lo hi, ‖b j‖ ^ 2 := by
  have h : (((nrm2 (∑ j ∈ Ico lo hi, b j • X j)) ^ 2 : ℝ) : K) = ((∑ j ∈ Ico lo hi, ‖b j‖ ^ 2 : ℝ) : K) := by
    rw [RCLike.ofReal_pow, ← dotc_self_nrm2, dotc_sum_right, RCLike.ofReal_sum]
    refine Finset.sum_congr rfl fun j hj => ?_
    obtain ⟨h1, h2⟩ := Finset.mem_Ico.mp hj
    rw [dotc_sum_left, Finset.sum_eq_single j]
    · rw [dotc_smul_left, dotc_smul_right, ho j j h1 h2 h1 h2, if_pos rfl, mul_one, RCLike.ofReal_pow]
      exact RCLike.conj_mul (b j)
    · intro i hi hij
      obtain ⟨h3, h4⟩ := Finset.mem_Ico.mp hi
      rw [dotc_smul_left, dotc_smul_right, ho i j h3 h4 h1 h2, if_neg hij, mul_zero, mul_zero]
    · intro hn
      exact absurd hj hn
  exact_mod_cast h

/-- Orthonormal columns, each multiplied by a number. -/
theorem condAtMost_of_scaled {c : ℝ} {lo hi : ℕ} {X U : ℕ → Fin N → K} {r : ℕ → ℝ} (hc : 0 ≤ c)
    (ho : ∀ i j, lo ≤ i → i < hi → lo ≤ j → j < hi → dotc (U i) (U j) = if i = j then 1 else 0)
    (hX : ∀ j, lo ≤ j → j < hi → X j = (r j : K) • U j)
    (hr : ∀ i j, lo ≤ i → i < hi → lo ≤ j → j < hi → |r i| ≤ c * |r j|) : CondAtMost c lo hi X := by
  intro b b' hb
  have e : ∀ b : ℕ → K, nrm2 (∑ j ∈ Ico lo hi, b j • X j) ^ 2 = ∑ j ∈ Ico lo hi, ‖b j‖ ^ 2 * |r j| ^ 2 := by
    intro b
    rw [Finset.sum_congr rfl fun j hj => by
      rw [hX j (Finset.mem_Ico.mp hj).1 (Finset.mem_Ico.mp hj).2, smul_smul]]
    rw [nrm2_combination ho (fun j => b j * (r j : K))]
    refine Finset.sum_congr rfl fun j _ => ?_
    rw [norm_mul, RCLike.norm_ofReal, mul_pow]
  have hn : ∀ v : Fin N → K, 0 ≤ nrm2 v := fun v => Real.sqrt_nonneg _
  refine le_of_sq_le_sq ?_ (mul_nonneg hc (hn _))
  rw [mul_pow, e, e]
  set s := ∑ j ∈ Ico lo hi, ‖b' j‖ ^ 2 with hs
  have hs0 : 0 ≤ s := Finset.sum_nonneg fun _ _ => by positivity
  have key : (∑ i ∈ Ico lo hi, ‖b i‖ ^ 2 * |r i| ^ 2) * s ≤
      (c ^ 2 * ∑ j ∈ Ico lo hi, ‖b' j‖ ^ 2 * |r j| ^ 2) * s := by
    calc (∑ i ∈ Ico lo hi, ‖b i‖ ^ 2 * |r i| ^ 2) * s
        = ∑ i ∈ Ico lo hi, ∑ j ∈ Ico lo hi, ‖b i‖ ^ 2 * ‖b' j‖ ^ 2 * |r i| ^ 2 := by
          rw [hs, Finset.sum_mul_sum]
          refine Finset.sum_congr rfl fun i _ => Finset.sum_congr rfl fun j _ => by ring
      _ ≤ ∑ i ∈ Ico lo hi, ∑ j ∈ Ico lo hi, ‖b i‖ ^ 2 * ‖b' j‖ ^ 2 * (c * |r j|) ^ 2 := by
          refine Finset.sum_le_sum fun i hi' => Finset.sum_le_sum fun j hj => ?_
          obtain ⟨h1, h2⟩ := Finset.mem_Ico.mp hi'
          obtain ⟨h3, h4⟩ := Finset.mem_Ico.mp hj
          exact mul_le_mul_of_nonneg_left (pow_le_pow_left₀ (abs_nonneg _) (hr i j h1 h2 h3 h4) 2) (by positivity)
      _ = (c ^ 2 * ∑ j ∈ Ico lo hi, ‖b' j‖ ^ 2 * |r j| ^ 2) * ∑ i ∈ Ico lo hi, ‖b i‖ ^ 2 := by
          rw [Finset.mul_sum]
          refine Finset.sum_congr rfl fun i _ => ?_
          rw [Finset.mul_sum, Finset.sum_mul]
          exact Finset.sum_congr rfl fun j _ => by ring
      _ = _ := by rw [hb]
  rcases hs0.eq_or_lt with h0 | h0
  · have hz : ∀ j ∈ Ico lo hi, ‖b j‖ ^ 2 = 0 :=
      (Finset.sum_eq_zero_iff_of_nonneg fun _ _ => by positivity).mp (hb.trans h0.symm)
    rw [Finset.sum_eq_zero fun j hj => by rw [hz j hj, zero_mul]]
    positivity
  · exact le_of_mul_le_mul_right key h0

/-- The same for the images of other orthonormal columns of the same space. -/
theorem condAtMost_of_mixed {c : ℝ} {lo hi : ℕ} {X Y U : ℕ → Fin N → K} {r : ℕ → ℝ} (f : (Fin N → K) →ₗ[K] (Fin N → K))
    (hc : 0 ≤ c)
    (ho : ∀ i j, lo ≤ i → i < hi → lo ≤ j → j < hi → dotc (U i) (U j) = if i = j then 1 else 0)
    (hoX : ∀ i j, lo ≤ i → i < hi → lo ≤ j → j < hi → dotc (X i) (X j) = if i = j then 1 else 0)
    (hs : ∀ j, lo ≤ j → j < hi → X j ∈ Submodule.span K (U '' {i | lo ≤ i ∧ i < hi}))
    (hY : ∀ j, lo ≤ j → j < hi → Y j = f (X j))
    (hU : ∀ j, lo ≤ j → j < hi → f (U j) = (r j : K) • U j)
    (hr : ∀ i j, lo ≤ i → i < hi → lo ≤ j → j < hi → |r i| ≤ c * |r j|) : CondAtMost c lo hi Y := by
  have key : ∀ b : ℕ → K, ∃ d : ℕ → K, ∑ j ∈ Ico lo hi, ‖d j‖ ^ 2 = ∑ j ∈ Ico lo hi, ‖b j‖ ^ 2 ∧
      ∑ j ∈ Ico lo hi, b j • Y j = ∑ j ∈ Ico lo hi, d j • f (U j) := by
    intro b
    have hm : ∑ j ∈ Ico lo hi, b j • X j ∈ Submodule.span K (U '' ((Ico lo hi : Finset ℕ) : Set ℕ)) := by
      refine Submodule.sum_mem _ fun j hj => Submodule.smul_mem _ _ ?_
      have h := Finset.mem_Ico.mp hj
      have := hs j h.1 h.2
      rwa [show ((Ico lo hi : Finset ℕ) : Set ℕ) = {i | lo ≤ i ∧ i < hi} by ext; simp]
    obtain ⟨d, hd⟩ : ∃ d : ℕ → K, ∑ j ∈ Ico lo hi, d j • U j = ∑ j ∈ Ico lo hi, b j • X j := by
      obtain ⟨d, hd⟩ := (Submodule.mem_span_image_finset_iff_exists_fun K).mp hm
      refine ⟨fun j => if h : j ∈ Ico lo hi then d ⟨j, h⟩ else 0, ?_⟩
      rw [← hd, ← Finset.sum_coe_sort (Ico lo hi)]
      exact Finset.sum_congr rfl fun j _ => by dsimp only; rw [dif_pos j.2]
    refine ⟨d, ?_, ?_⟩
    · rw [← nrm2_combination ho, hd, nrm2_combination hoX]
    · rw [← Finset.sum_congr rfl fun j _ => map_smul f (d j) (U j), ← map_sum, hd, map_sum]
      refine Finset.sum_congr rfl fun j hj => ?_
      have h := Finset.mem_Ico.mp hj
      rw [hY j h.1 h.2, map_smul]
  intro b b' hb
  obtain ⟨d, h1, h2⟩ := key b
  obtain ⟨d', h1', h2'⟩ := key b'
  rw [h2, h2']
  exact condAtMost_of_scaled (X := fun j => f (U j)) hc ho hU hr d d' (by rw [h1, h1', hb])

end Verif
