/-
Rounding errors in the three-term recurrence of the Chebyshev polynomials: what local errors amount to in the end.
-/
import Verif.Rounded.Residual
import Verif.Backend.SubspaceLin
import Mathlib.Analysis.SpecialFunctions.Trigonometric.Chebyshev.RootsExtrema

namespace Verif
namespace Rounded

open Matrix Polynomial

/-! ### Values of the polynomials -/

section Values

/-- `T_k` at `θ`. -/
noncomputable def chebT (k : ℕ) (θ : ℝ) : ℝ := (Chebyshev.T ℝ k).eval θ

variable {θ : ℝ}

theorem chebT_cosh (hθ : 1 ≤ θ) (k : ℕ) : chebT k θ = Real.cosh (k * Real.arcosh θ) := by
  have := Chebyshev.T_real_cosh (Real.arcosh θ) (k : ℤ)
  rw [Real.cosh_arcosh hθ] at this
  exact_mod_cast this

theorem one_le_chebT (hθ : 1 ≤ θ) (k : ℕ) : 1 ≤ chebT k θ := Chebyshev.one_le_eval_T_real _ hθ

theorem chebT_mono (hθ : 1 ≤ θ) {j k : ℕ} (h : j ≤ k) : chebT j θ ≤ chebT k θ := by
  rw [chebT_cosh hθ, chebT_cosh hθ, Real.cosh_le_cosh]
  have h0 := Real.arcosh_nonneg hθ
  have : (j : ℝ) ≤ k := by exact_mod_cast h
  rw [abs_of_nonneg (by positivity), abs_of_nonneg (by positivity)]
  exact mul_le_mul_of_nonneg_right this h0

theorem chebT_mul (hθ : 1 ≤ θ) (j k : ℕ) : chebT j θ * chebT k θ ≤ chebT (j + k) θ := by
  rw [chebT_cosh hθ, chebT_cosh hθ, chebT_cosh hθ]
  have h0 := Real.arcosh_nonneg hθ
  push_cast
  rw [add_mul, Real.cosh_add]
  have h1 : 0 ≤ Real.sinh (j * Real.arcosh θ) := Real.sinh_nonneg_iff.mpr (by positivity)
  have h2 : 0 ≤ Real.sinh (k * Real.arcosh θ) := Real.sinh_nonneg_iff.mpr (by positivity)
  nlinarith [mul_nonneg h1 h2]

theorem abs_chebT_le (hθ : 1 ≤ θ) {x : ℝ} (hx : |x| ≤ θ) (k : ℕ) : |(Chebyshev.T ℝ k).eval x| ≤ chebT k θ := by
  rcases le_total |x| 1 with h | h
  · exact (Chebyshev.abs_eval_T_real_le_one _ h).trans (one_le_chebT hθ k)
  · have e : |(Chebyshev.T ℝ k).eval x| = |chebT k (abs x)| := by
      unfold chebT
      rcases abs_choice x with h | h
      · rw [h]
      · rw [h, Chebyshev.T_eval_neg, abs_mul, Int.cast_negOnePow, abs_zpow]
        simp
    rw [e, abs_of_nonneg (by linarith [one_le_chebT h k]), chebT_cosh h, chebT_cosh hθ, Real.cosh_le_cosh]
    have h0 := Real.arcosh_nonneg h
    have h1 := Real.arcosh_nonneg hθ
    rw [abs_of_nonneg (mul_nonneg (Nat.cast_nonneg k) h0), abs_of_nonneg (mul_nonneg (Nat.cast_nonneg k) h1)]
    exact mul_le_mul_of_nonneg_left ((Real.arcosh_le_arcosh (by linarith) (by linarith)).mpr hx) (Nat.cast_nonneg k)

theorem abs_chebU_le (hθ : 1 ≤ θ) {x : ℝ} (hx : |x| ≤ θ) (k : ℕ) :
    |(Chebyshev.U ℝ k).eval x| ≤ (k + 1) * chebT k θ := by
  induction k using Nat.twoStepInduction with
  | zero => simp [chebT]
  | one =>
    have e : chebT 1 θ = θ := by simp [chebT]
    rw [e]
    push_cast
    rw [Chebyshev.U_one]
    simp only [eval_mul, eval_ofNat, eval_X, abs_mul, Nat.abs_ofNat]
    linarith
  | more k ih _ =>
    push_cast
    rw [Chebyshev.U_eq_two_mul_T_add_U]
    simp only [eval_add, eval_mul, eval_ofNat]
    have h1 := abs_chebT_le hθ hx (k + 2)
    push_cast at h1
    have h2 := chebT_mono hθ (show k ≤ k + 2 by omega)
    have h3 : |2 * (Chebyshev.T ℝ (k + 2)).eval x + (Chebyshev.U ℝ k).eval x| ≤
        2 * |(Chebyshev.T ℝ (k + 2)).eval x| + |(Chebyshev.U ℝ k).eval x| := by
      refine (abs_add_le _ _).trans ?_
      rw [abs_mul, Nat.abs_ofNat]
    have h4 : ((k : ℝ) + 1) * chebT k θ ≤ (k + 1) * chebT (k + 2) θ := mul_le_mul_of_nonneg_left h2 (by positivity)
    linarith

end Values

/-! ### Polynomials of a Hermitian matrix -/

section Matrix
variable {𝕜 : Type*} [RCLike 𝕜] {N : ℕ}

/-- A polynomial that is bounded at the eigenvalues is bounded as an operator. -/
theorem nrm2_aeval_le {H : Matrix (Fin N) (Fin N) 𝕜} (hH : H.IsHermitian) {p : ℝ[X]} {c : ℝ} (hc : 0 ≤ c)
    (hp : ∀ μ, IsEigenvalue H μ → |p.eval μ| ≤ c) (v : Fin N → 𝕜) :
    nrm2 ((aeval H p).mulVec v) ≤ c * nrm2 v := by
  obtain ⟨w, Z, hZ, hHZ, -⟩ := exists_eig H hH
  refine le_of_sq_le_sq ?_ (mul_nonneg hc (nrm2_nonneg _))
  rw [mul_pow, nrm2_sq, nrm2_sq, ← norm_sq_unitary hZ, ← norm_sq_unitary hZ v, Finset.mul_sum]
  refine Finset.sum_le_sum fun i _ => ?_
  rw [eig_coord_aeval hZ hHZ hH, norm_mul, mul_pow, RCLike.norm_ofReal]
  have := hp _ (eig_isEigenvalue hZ hHZ i)
  have h0 := abs_nonneg (p.eval (w i))
  gcongr

theorem nrm2_smul_real (a : ℝ) (x : Fin N → 𝕜) : nrm2 (a • x) = |a| * nrm2 x := by
  have : a • x = (a : 𝕜) • x := by
    funext i
    simp [RCLike.real_smul_eq_coe_mul]
  rw [this, nrm2_smul, RCLike.norm_ofReal]

theorem nrm2_zero : nrm2 (0 : Fin N → 𝕜) = 0 := by simp [nrm2]

theorem nrm2_sum_le {ι : Type*} (s : Finset ι) (f : ι → Fin N → 𝕜) : nrm2 (∑ i ∈ s, f i) ≤ ∑ i ∈ s, nrm2 (f i) := by
  classical
  induction s using Finset.induction_on with
  | empty => simp [nrm2_zero]
  | insert a s ha ih =>
    rw [Finset.sum_insert ha, Finset.sum_insert ha]
    exact (nrm2_add_le _ _).trans (by linarith)

/-! ### The recurrence -/

/-- The product of `s (j + 1)`, …, `s k`. -/
def scale (s : ℕ → ℝ) (j k : ℕ) : ℝ := ∏ i ∈ Finset.Ico j k, s (i + 1)

theorem scale_self (s : ℕ → ℝ) (k : ℕ) : scale s k k = 1 := by simp [scale]

theorem scale_succ (s : ℕ → ℝ) {j k : ℕ} (h : j ≤ k) : scale s j (k + 1) = scale s j k * s (k + 1) :=
  Finset.prod_Ico_succ_top h _

theorem scale_mul (s : ℕ → ℝ) {i j k : ℕ} (h : i ≤ j) (h' : j ≤ k) : scale s i j * scale s j k = scale s i k :=
  Finset.prod_Ico_consecutive _ h h'

/-- Chebyshev polynomials of a matrix. -/
noncomputable def matT (M : Matrix (Fin N) (Fin N) 𝕜) (k : ℕ) : Matrix (Fin N) (Fin N) 𝕜 := aeval M (Chebyshev.T ℝ k)
noncomputable def matU (M : Matrix (Fin N) (Fin N) 𝕜) (k : ℕ) : Matrix (Fin N) (Fin N) 𝕜 := aeval M (Chebyshev.U ℝ k)

theorem matT_zero (M : Matrix (Fin N) (Fin N) 𝕜) : matT M 0 = 1 := by simp [matT]
theorem matT_one (M : Matrix (Fin N) (Fin N) 𝕜) : matT M 1 = M := by simp [matT]
theorem matT_rec (M : Matrix (Fin N) (Fin N) 𝕜) (k : ℕ) : matT M (k + 2) = (2 : ℝ) • (M * matT M (k + 1)) - matT M k := by
  unfold matT
  push_cast
  rw [Chebyshev.T_add_two, map_sub, map_mul, map_mul, aeval_X, map_ofNat, mul_assoc]
  congr 1
  rw [Algebra.smul_def, map_ofNat]
theorem matU_zero (M : Matrix (Fin N) (Fin N) 𝕜) : matU M 0 = 1 := by simp [matU]
theorem matU_one (M : Matrix (Fin N) (Fin N) 𝕜) : matU M 1 = (2 : ℝ) • M := by
  unfold matU
  push_cast
  rw [Chebyshev.U_one, map_mul, aeval_X, map_ofNat, Algebra.smul_def, map_ofNat]
theorem matU_rec (M : Matrix (Fin N) (Fin N) 𝕜) (k : ℕ) : matU M (k + 2) = (2 : ℝ) • (M * matU M (k + 1)) - matU M k := by
  unfold matU
  push_cast
  rw [Chebyshev.U_add_two, map_sub, map_mul, map_mul, aeval_X, map_ofNat, mul_assoc]
  congr 1
  rw [Algebra.smul_def, map_ofNat]

/-- The local errors of a sequence of vectors that should follow the scaled recurrence. -/
noncomputable def localErr (M : Matrix (Fin N) (Fin N) 𝕜) (s : ℕ → ℝ) (w : ℕ → Fin N → 𝕜) : ℕ → Fin N → 𝕜
  | 0 => 0
  | 1 => w 1 - s 1 • M.mulVec (w 0)
  | k + 2 => w (k + 2) - ((2 * s (k + 2)) • M.mulVec (w (k + 1)) - (s (k + 1) * s (k + 2)) • w k)

/-- **Error of the recurrence** in terms of the local errors. -/
theorem recurrence_error (M : Matrix (Fin N) (Fin N) 𝕜) (s : ℕ → ℝ) (w : ℕ → Fin N → 𝕜) (k : ℕ) :
    w k - scale s 0 k • (matT M k).mulVec (w 0) =
      ∑ j ∈ Finset.range k, scale s (j + 1) k • (matU M (k - 1 - j)).mulVec (localErr M s w (j + 1)) := by
  induction k using Nat.twoStepInduction with
  | zero => simp [scale_self, matT_zero]
  | one =>
    have e : scale s 0 1 = s 1 := by simp [scale]
    simp [scale_self, matT_one, matU_zero, localErr, e]
  | more k ih1 ih2 =>
    have e0 : w (k + 2) - scale s 0 (k + 2) • (matT M (k + 2)).mulVec (w 0) =
        localErr M s w (k + 2) +
          ((2 * s (k + 2)) • M.mulVec (w (k + 1) - scale s 0 (k + 1) • (matT M (k + 1)).mulVec (w 0)) -
          (s (k + 1) * s (k + 2)) • (w k - scale s 0 k • (matT M k).mulVec (w 0))) := by
      rw [scale_succ s (by omega : 0 ≤ k + 1), scale_succ s (Nat.zero_le k), matT_rec]
      simp only [localErr, Matrix.sub_mulVec, Matrix.smul_mulVec, ← Matrix.mulVec_mulVec, Matrix.mulVec_sub,
        Matrix.mulVec_smul]
      module
    rw [e0, ih1, ih2, Finset.sum_range_succ _ (k + 1), Finset.sum_range_succ _ k]
    rw [scale_self, show k + 2 - 1 - (k + 1) = 0 by omega, matU_zero, Matrix.one_mulVec, one_smul]
    rw [Finset.sum_range_succ _ k, show k + 1 - 1 - k = 0 by omega, matU_zero, Matrix.one_mulVec, scale_self, one_smul,
      show k + 2 - 1 - k = 1 by omega, matU_one, scale_succ s (le_refl (k + 1)), scale_self]
    have e1 : ∀ j ∈ Finset.range k, scale s (j + 1) (k + 2) • (matU M (k + 2 - 1 - j)).mulVec (localErr M s w (j + 1)) =
        (2 * s (k + 2)) • M.mulVec (scale s (j + 1) (k + 1) • (matU M (k + 1 - 1 - j)).mulVec (localErr M s w (j + 1))) -
        (s (k + 1) * s (k + 2)) • (scale s (j + 1) k • (matU M (k - 1 - j)).mulVec (localErr M s w (j + 1))) := by
      intro j hj
      have hj := Finset.mem_range.mp hj
      obtain ⟨i, rfl⟩ : ∃ i, k = j + 1 + i := ⟨k - 1 - j, by omega⟩
      rw [show j + 1 + i + 2 - 1 - j = i + 2 by omega, show j + 1 + i + 1 - 1 - j = i + 1 by omega,
        show j + 1 + i - 1 - j = i by omega, matU_rec, scale_succ s (show j + 1 ≤ j + 1 + i + 1 by omega),
        scale_succ s (show j + 1 ≤ j + 1 + i by omega)]
      simp only [Matrix.sub_mulVec, Matrix.smul_mulVec, ← Matrix.mulVec_mulVec, Matrix.mulVec_smul]
      module
    rw [Finset.sum_congr rfl e1, Finset.sum_sub_distrib, Matrix.mulVec_add, Matrix.mulVec_sum, Finset.smul_sum,
      smul_add, Finset.smul_sum]
    simp only [Matrix.smul_mulVec]
    module

/-- **Stability of the recurrence**: local errors of relative size `a` in the products and `ε` in the rest. -/
theorem recurrence_bound {M : Matrix (Fin N) (Fin N) 𝕜} {s : ℕ → ℝ} {w : ℕ → Fin N → 𝕜} {θ a ε : ℝ} {d : ℕ}
    (hθ : 1 ≤ θ) (ha : 0 ≤ a) (hε : 0 ≤ ε)
    (hT : ∀ k v, nrm2 ((matT M k).mulVec v) ≤ chebT k θ * nrm2 v)
    (hU : ∀ k v, nrm2 ((matU M k).mulVec v) ≤ (k + 1) * chebT k θ * nrm2 v)
    (h1 : 1 ≤ d → nrm2 (localErr M s w 1) ≤ |s 1| * (a * nrm2 (w 0)))
    (h2 : ∀ k, k + 2 ≤ d → nrm2 (localErr M s w (k + 2)) ≤
      |s (k + 2)| * (2 * a * nrm2 (w (k + 1)) + |s (k + 1)| * (ε * nrm2 (w k))))
    (hd : d * (d + 1) * (2 * a / θ + ε) ≤ 1) :
    nrm2 (w d - scale s 0 d • (matT M d).mulVec (w 0)) ≤
      d * (d + 1) * (2 * a / θ + ε) * (|scale s 0 d| * chebT d θ * nrm2 (w 0)) := by
  have hθ0 : 0 < θ := by linarith
  set η := 2 * a / θ + ε with hη
  have hη0 : 0 ≤ η := by positivity
  have haθ : 2 * a = (η - ε) * θ := by rw [hη]; field_simp; ring
  have hx := nrm2_nonneg (w 0)
  have hτ0 : ∀ k, 0 ≤ chebT k θ := fun k => by linarith [one_le_chebT hθ k]
  have hτ1 : chebT 1 θ = θ := by simp [chebT]
  -- both the bound of the vectors and that of the errors
  suffices H : ∀ k, k ≤ d → nrm2 (w k - scale s 0 k • (matT M k).mulVec (w 0)) ≤
      k * (k + 1) * η * (|scale s 0 k| * chebT k θ * nrm2 (w 0)) ∧
      nrm2 (w k) ≤ 2 * (|scale s 0 k| * chebT k θ * nrm2 (w 0)) from (H d le_rfl).1
  intro k
  induction k using Nat.strong_induction_on with
  | _ k ih =>
    intro hk
    -- the local errors
    have hr : ∀ j, j < k → nrm2 (localErr M s w (j + 1)) ≤
        2 * η * (|scale s 0 (j + 1)| * chebT (j + 1) θ * nrm2 (w 0)) := by
      intro j hj
      rcases j with _ | j
      · refine (h1 (by omega)).trans ?_
        rw [zero_add, scale_succ s le_rfl, scale_self, one_mul, zero_add, hτ1]
        have : a ≤ 2 * η * θ := by nlinarith
        calc |s 1| * (a * nrm2 (w 0)) ≤ |s 1| * (2 * η * θ * nrm2 (w 0)) := by gcongr
          _ = _ := by ring
      · refine (h2 j (by omega)).trans ?_
        have b1 := (ih (j + 1) (by omega) (by omega)).2
        have b2 := (ih j (by omega) (by omega)).2
        have m1 : θ * chebT (j + 1) θ ≤ chebT (j + 2) θ := by
          have := chebT_mul hθ 1 (j + 1)
          rw [hτ1, show 1 + (j + 1) = j + 2 by omega] at this
          exact this
        have m2 : chebT j θ ≤ chebT (j + 2) θ := chebT_mono hθ (by omega)
        have sc1 : |scale s 0 (j + 2)| = |scale s 0 (j + 1)| * |s (j + 2)| := by
          rw [scale_succ s (Nat.zero_le _), abs_mul]
        have sc2 : |scale s 0 (j + 1)| = |scale s 0 j| * |s (j + 1)| := by
          rw [scale_succ s (Nat.zero_le _), abs_mul]
        have ηε : 0 ≤ η - ε := by rw [hη]; have : 0 ≤ 2 * a / θ := by positivity
                                  linarith
        have t1 : 2 * a * nrm2 (w (j + 1)) ≤ 2 * (η - ε) * (|scale s 0 (j + 1)| * chebT (j + 2) θ * nrm2 (w 0)) := by
          calc 2 * a * nrm2 (w (j + 1)) ≤ 2 * a * (2 * (|scale s 0 (j + 1)| * chebT (j + 1) θ * nrm2 (w 0))) := by gcongr
            _ = 2 * (η - ε) * (|scale s 0 (j + 1)| * (θ * chebT (j + 1) θ) * nrm2 (w 0)) := by rw [haθ]; ring
            _ ≤ _ := by gcongr
        have t2 : |s (j + 1)| * (ε * nrm2 (w j)) ≤ 2 * ε * (|scale s 0 (j + 1)| * chebT (j + 2) θ * nrm2 (w 0)) := by
          calc |s (j + 1)| * (ε * nrm2 (w j)) ≤ |s (j + 1)| * (ε * (2 * (|scale s 0 j| * chebT j θ * nrm2 (w 0)))) := by
                gcongr
            _ = 2 * ε * (|scale s 0 (j + 1)| * chebT j θ * nrm2 (w 0)) := by rw [sc2]; ring
            _ ≤ _ := by gcongr
        calc |s (j + 2)| * (2 * a * nrm2 (w (j + 1)) + |s (j + 1)| * (ε * nrm2 (w j)))
            ≤ |s (j + 2)| * (2 * (η - ε) * (|scale s 0 (j + 1)| * chebT (j + 2) θ * nrm2 (w 0)) +
              2 * ε * (|scale s 0 (j + 1)| * chebT (j + 2) θ * nrm2 (w 0))) :=
              mul_le_mul_of_nonneg_left (add_le_add t1 t2) (abs_nonneg _)
          _ = _ := by rw [show j + 1 + 1 = j + 2 from rfl, sc1]; ring
    -- their sum
    have hsum : nrm2 (w k - scale s 0 k • (matT M k).mulVec (w 0)) ≤
        k * (k + 1) * η * (|scale s 0 k| * chebT k θ * nrm2 (w 0)) := by
      rw [recurrence_error]
      refine (nrm2_sum_le _ _).trans ?_
      have each : ∀ j ∈ Finset.range k,
          nrm2 (scale s (j + 1) k • (matU M (k - 1 - j)).mulVec (localErr M s w (j + 1))) ≤
          ((k - 1 - j : ℕ) + 1 : ℝ) * (2 * η * (|scale s 0 k| * chebT k θ * nrm2 (w 0))) := by
        intro j hj
        have hj := Finset.mem_range.mp hj
        rw [nrm2_smul_real]
        have m := chebT_mul hθ (k - 1 - j) (j + 1)
        rw [show k - 1 - j + (j + 1) = k by omega] at m
        have sc : |scale s 0 k| = |scale s 0 (j + 1)| * |scale s (j + 1) k| := by
          rw [← abs_mul, scale_mul s (Nat.zero_le _) (by omega)]
        calc |scale s (j + 1) k| * nrm2 ((matU M (k - 1 - j)).mulVec (localErr M s w (j + 1)))
            ≤ |scale s (j + 1) k| * (((k - 1 - j : ℕ) + 1) * chebT (k - 1 - j) θ *
              (2 * η * (|scale s 0 (j + 1)| * chebT (j + 1) θ * nrm2 (w 0)))) := by
              refine mul_le_mul_of_nonneg_left ((hU _ _).trans ?_) (abs_nonneg _)
              exact mul_le_mul_of_nonneg_left (hr j hj) (mul_nonneg (by positivity) (hτ0 _))
          _ = ((k - 1 - j : ℕ) + 1) * (2 * η * (|scale s 0 k| * (chebT (k - 1 - j) θ * chebT (j + 1) θ) * nrm2 (w 0))) := by
              rw [sc]; ring
          _ ≤ _ := by gcongr
      refine (Finset.sum_le_sum each).trans ?_
      rw [← Finset.sum_mul]
      have gs : ∀ k : ℕ, ∑ j ∈ Finset.range k, (((k - 1 - j : ℕ) : ℝ) + 1) = k * (k + 1) / 2 := by
        intro k
        have : ∑ j ∈ Finset.range k, (((k - 1 - j : ℕ) : ℝ) + 1) = ∑ j ∈ Finset.range k, ((j : ℝ) + 1) :=
          Finset.sum_range_reflect (fun j => (j : ℝ) + 1) k
        rw [this]
        induction k with
        | zero => simp
        | succ k ih' =>
          rw [Finset.sum_range_succ, ih' (Finset.sum_range_reflect (fun j => (j : ℝ) + 1) k)]
          push_cast
          ring
      rw [gs]
      exact le_of_eq (by ring)
    refine ⟨hsum, ?_⟩
    have hkd : (k : ℝ) * (k + 1) * η ≤ 1 := by
      refine le_trans ?_ hd
      have : (k : ℝ) ≤ d := by exact_mod_cast hk
      gcongr
    have hB : 0 ≤ |scale s 0 k| * chebT k θ * nrm2 (w 0) := mul_nonneg (mul_nonneg (abs_nonneg _) (hτ0 k)) hx
    have hmain : nrm2 (scale s 0 k • (matT M k).mulVec (w 0)) ≤ |scale s 0 k| * chebT k θ * nrm2 (w 0) := by
      rw [nrm2_smul_real, mul_assoc]
      exact mul_le_mul_of_nonneg_left (hT _ _) (abs_nonneg _)
    have tri : nrm2 (w k) ≤ nrm2 (w k - scale s 0 k • (matT M k).mulVec (w 0)) +
        nrm2 (scale s 0 k • (matT M k).mulVec (w 0)) := by
      have := nrm2_add_le (w k - scale s 0 k • (matT M k).mulVec (w 0)) (scale s 0 k • (matT M k).mulVec (w 0))
      rwa [sub_add_cancel] at this
    nlinarith

end Matrix
end Rounded
end Verif
