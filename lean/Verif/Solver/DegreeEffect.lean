/-
C18: the degree chosen by the degree optimisation is large enough.  Exact arithmetic.
-/
import Verif.Solver.DegreesProps
import Verif.Solver.LoopProof
import Verif.Solver.RealPlat
import Verif.Backend.FilterProps

namespace Verif

open Polynomial

/-! ### Specification -/

/-- Growth factor of the Chebyshev polynomials at a point outside of `[-1, 1]`. -/
noncomputable def growth (t : ℝ) : ℝ := |t| + Real.sqrt (t ^ 2 - 1)

/-- The growth factor deserves its name: `|T_d(t)| = (rho^d + rho^-d) / 2`. -/
theorem growth_is_chebyshev {t : ℝ} (ht : 1 ≤ |t|) (d : ℕ) :
    |(Chebyshev.T ℝ d).eval t| = (growth t ^ d + (growth t)⁻¹ ^ d) / 2 := by
  have hs : 0 ≤ t ^ 2 - 1 := by
    have : 1 ≤ |t| ^ 2 := one_le_pow₀ ht
    rw [sq_abs] at this
    linarith
  have hsq := Real.sq_sqrt hs
  have h0 := Real.sqrt_nonneg (t ^ 2 - 1)
  have hg : 0 < growth t := by unfold growth; linarith
  have hinv : (growth t)⁻¹ = |t| - Real.sqrt (t ^ 2 - 1) := by
    symm
    apply eq_inv_of_mul_eq_one_left
    unfold growth
    have : |t| ^ 2 = t ^ 2 := sq_abs t
    nlinarith
  have hsum : growth t + (growth t)⁻¹ = 2 * |t| := by rw [hinv]; unfold growth; ring
  have hprod : growth t * (growth t)⁻¹ = 1 := mul_inv_cancel₀ hg.ne'
  have key : ∀ d : ℕ, (Chebyshev.T ℝ d).eval |t| = (growth t ^ d + (growth t)⁻¹ ^ d) / 2 := by
    intro d
    induction d using Nat.strong_induction_on with
    | _ d ih =>
      match d with
      | 0 => simp
      | 1 => simp [hsum]
      | d + 2 =>
        have h1 := ih (d + 1) (by omega)
        have h2 := ih d (by omega)
        have e : Chebyshev.T ℝ ((d + 2 : ℕ) : ℤ) = 2 * X * Chebyshev.T ℝ ((d + 1 : ℕ) : ℤ) -
            Chebyshev.T ℝ (d : ℤ) := by
          push_cast
          exact Chebyshev.T_add_two ℝ d
        rw [e]
        simp only [eval_sub, eval_mul, eval_X, eval_ofNat]
        rw [h1, h2, show (2 : ℝ) * |t| = growth t + (growth t)⁻¹ from hsum.symm]
        have e2 : growth t ^ (d + 1) * (growth t)⁻¹ = growth t ^ d := by
          rw [pow_succ, mul_assoc, hprod, mul_one]
        have e3 : (growth t)⁻¹ ^ (d + 1) * growth t = (growth t)⁻¹ ^ d := by
          rw [pow_succ, mul_assoc, mul_comm (growth t)⁻¹, hprod, mul_one]
        have : growth t ^ (d + 2) = growth t ^ (d + 1) * growth t := pow_succ _ _
        have : (growth t)⁻¹ ^ (d + 2) = (growth t)⁻¹ ^ (d + 1) * (growth t)⁻¹ := pow_succ _ _
        linarith
  rcases abs_choice t with h | h
  · rw [h] at key
    rw [key d, abs_of_pos]
    positivity
  · have h2 : (Chebyshev.T ℝ d).eval t = (-1) ^ d * (Chebyshev.T ℝ d).eval |t| := by
      have := Chebyshev.T_eval_neg ℝ d (-t)
      rw [neg_neg] at this
      rw [this, h]
      simp
    rw [h2, abs_mul, abs_pow, abs_neg, abs_one, one_pow, one_mul, key d, abs_of_pos]
    positivity

theorem one_lt_growth {t : ℝ} (ht : 1 < |t|) : 1 < growth t := by
  unfold growth
  have := Real.sqrt_nonneg (t ^ 2 - 1)
  linarith

/-! ### The code's formula -/

theorem codeRho_eq (t : ℝ) : codeRho t = |t| + Real.sqrt |t * t - 1| := by
  unfold codeRho
  have h0 := Real.sqrt_nonneg (|t * t - 1|)
  generalize Real.sqrt |t * t - 1| = r at *
  rcases abs_cases t with ⟨a, b⟩ | ⟨a, b⟩
  · rw [a, abs_of_nonneg (show 0 ≤ t + r by linarith)]
    apply max_eq_right
    rw [abs_le]
    constructor <;> linarith
  · rw [a, abs_of_neg (show t - r < 0 by linarith), max_eq_left]
    · ring
    · rw [abs_le]
      constructor <;> linarith

theorem codeRho_outside {t : ℝ} (ht : 1 ≤ |t|) : codeRho t = growth t := by
  rw [codeRho_eq, growth]
  have : 1 ≤ |t| ^ 2 := one_le_pow₀ ht
  rw [sq_abs] at this
  rw [abs_of_nonneg (show 0 ≤ t * t - 1 by nlinarith), pow_two]

/-- The code's growth factor is 1 (and the needed degree infinite) exactly at the ends and in the
middle of the interval. -/
theorem codeRho_eq_one_iff (t : ℝ) : codeRho t = 1 ↔ t = -1 ∨ t = 0 ∨ t = 1 := by
  rw [codeRho_eq]
  constructor
  · intro h
    have h0 := Real.sqrt_nonneg (|t * t - 1|)
    have h1 : |t| ≤ 1 := by linarith
    have h2 : |t| * |t| = t * t := abs_mul_abs_self t
    have h3 : |t * t - 1| = 1 - t * t := by
      rw [abs_of_nonpos]
      · ring
      · nlinarith [abs_nonneg t]
    have h4 := Real.mul_self_sqrt (abs_nonneg (t * t - 1))
    have h5 : Real.sqrt |t * t - 1| = 1 - |t| := by linarith
    rw [h5, h3] at h4
    have h6 : |t| * (|t| - 1) = 0 := by nlinarith
    rcases mul_eq_zero.mp h6 with h7 | h7
    · right; left; exact abs_eq_zero.mp h7
    · have : |t| = 1 := by linarith
      rcases (abs_eq zero_le_one).mp this with h8 | h8
      · right; right; exact h8
      · left; exact h8
  · rintro (rfl | rfl | rfl) <;> norm_num

theorem one_le_codeRho (t : ℝ) : 1 ≤ codeRho t := by
  rw [codeRho_eq]
  have h0 := Real.sqrt_nonneg (|t * t - 1|)
  have h4 := Real.mul_self_sqrt (abs_nonneg (t * t - 1))
  have h2 : |t| * |t| = t * t := abs_mul_abs_self t
  have h1 := abs_nonneg t
  by_contra hcon
  have h3 : |t| < 1 := by linarith
  have h5 : |t * t - 1| = 1 - t * t := by
    rw [abs_of_nonpos]
    · ring
    · nlinarith
  rw [h5] at h4 h0
  rw [h5] at hcon
  generalize Real.sqrt (1 - t * t) = r at *
  nlinarith

/-- **C18** (domain) The needed degree is a number exactly if the interval is not degenerate, residual
and tolerance are positive, and the Ritz value is neither at an end nor in the middle of the
interval.  Otherwise the C++ code converts an infinity or NaN to an integer. -/
theorem C18_defined_iff (ritzv lower upper resid tol : ℝ) :
    realDegNeeded ritzv (centre lower upper) (halfWidth lower upper) resid tol ≠ none ↔
      lower ≠ upper ∧ 0 < resid ∧ 0 < tol ∧ ritzv ≠ lower ∧ ritzv ≠ upper ∧
        ritzv ≠ (lower + upper) / 2 := by
  unfold realDegNeeded
  have hlog : ∀ t, Real.log (codeRho t) = 0 ↔ codeRho t = 1 := by
    intro t
    have := one_le_codeRho t
    rw [Real.log_eq_zero]
    constructor
    · rintro (h | h | h) <;> linarith
    · intro h; right; left; exact h
  have he : halfWidth lower upper = 0 ↔ lower = upper := by
    unfold halfWidth
    constructor <;> intro h <;> linarith
  by_cases hlu : lower = upper
  · rw [if_pos (Or.inl (he.mpr hlu))]
    simp [hlu]
  · have he' : halfWidth lower upper ≠ 0 := fun h => hlu (he.mp h)
    have hrho : Real.log (codeRho ((ritzv - centre lower upper) / halfWidth lower upper)) = 0 ↔
        ritzv = lower ∨ ritzv = (lower + upper) / 2 ∨ ritzv = upper := by
      rw [hlog, codeRho_eq_one_iff, div_eq_iff he', div_eq_iff he', div_eq_iff he']
      unfold centre halfWidth
      constructor
      · rintro (h | h | h)
        · left; linarith
        · right; left; linarith
        · right; right; linarith
      · rintro (h | h | h)
        · left; linarith
        · right; left; linarith
        · right; right; linarith
    split_ifs with h
    · simp only [ne_eq, not_true_eq_false, false_iff, not_and]
      intro _ h1 h2 h3 h4 h5
      rcases h with h | h | h | h
      · exact he' h
      · linarith
      · linarith
      · rcases hrho.mp h with h | h | h
        · exact h3 h
        · exact h5 h
        · exact h4 h
    · rw [hrho] at h
      simp only [not_or, not_le] at h
      obtain ⟨-, h1, h2, h3, h4, h5⟩ := h
      simp only [ne_eq, reduceCtorEq, not_false_eq_true, true_iff]
      exact ⟨hlu, h1, h2, h3, h5, h4⟩

/-- The needed degree suffices: `resid / rho^k ≤ tol`. -/
theorem realDegNeeded_suffices {ritzv lower upper resid tol : ℝ} {k : ℕ}
    (hout : 1 < |normPoint ritzv lower upper|)
    (h : realDegNeeded ritzv (centre lower upper) (halfWidth lower upper) resid tol = some k) :
    resid / growth (normPoint ritzv lower upper) ^ k ≤ tol := by
  unfold realDegNeeded at h
  split_ifs at h with hc
  simp only [not_or, not_le] at hc
  obtain ⟨-, h1, h2, h3⟩ := hc
  have hk : ⌈|Real.log (resid / tol) / Real.log (codeRho (normPoint ritzv lower upper))|⌉₊ = k := by
    have := Option.some.inj h
    exact this
  rw [codeRho_outside hout.le] at hk
  have hg := one_lt_growth hout
  have hl := Real.log_pos hg
  set g := growth (normPoint ritzv lower upper)
  have hgk : 0 < g ^ k := by positivity
  rw [div_le_iff₀ hgk]
  have hkk : Real.log (resid / tol) / Real.log g ≤ k := by
    rw [← hk]
    exact (le_abs_self _).trans (Nat.le_ceil _)
  rw [div_le_iff₀ hl] at hkk
  have h5 : resid / tol ≤ g ^ k := by
    rw [← Real.log_le_log_iff (by positivity) hgk, Real.log_pow]
    exact hkk
  rw [div_le_iff₀ h2] at h5
  linarith

/-- **C18** After a successful degree optimisation with real arithmetic, every pair that was a wanted
(not a guard) column, whose Ritz value lies outside of the damped interval and whose degree is below
`MaxDeg`, has a degree that suffices to bring its residual below the tolerance at its Chebyshev growth
rate.  `σ` is where the pairs came from: the guard columns are the last `nex` ones of the old order. -/
theorem C18_degree_large_enough {S V : Type*} (maxVal : ℝ) (gauss : ℝ → ℝ) (ops : Chase ℝ S)
    (cols : S → ℕ → V) (cfg : Config ℝ) {u nex locked deg : ℕ} {upper lower tol : ℝ}
    {p p' : Pairs ℝ S} (hswap : SwapsColumns ops cols (locked + u))
    (h : calcDegrees (realPlat maxVal gauss) ops cfg u nex upper lower tol locked p = .ok (deg, p')) :
    ∃ σ : Equiv.Perm ℕ, PermOn locked (locked + u) σ ∧ p'.ritzv = p.ritzv ∘ σ ∧
      p'.resid = p.resid ∘ σ ∧ cols p'.be = cols p.be ∘ σ ∧
      ∀ i, i < u → σ (locked + i) < locked + (u - nex) →
        lower < upper → (p'.ritzv (locked + i) < lower ∨ upper < p'.ritzv (locked + i)) →
        p'.degrees (locked + i) < cfg.maxDeg →
        p'.resid (locked + i) /
          growth (normPoint (p'.ritzv (locked + i)) lower upper) ^ p'.degrees (locked + i) ≤ tol := by
  obtain ⟨σ, hσ, h1, h2, -, h4, h5, -⟩ := C17_degrees_permute_pairs (realPlat maxVal gauss) ops cols cfg
    hswap h
  refine ⟨σ, hσ, h1, h2, h4, fun i hi hw hlu hout hcap => ?_⟩
  obtain ⟨j, hj, ej, k, hk, hev⟩ := h5 i hi
  have hmin : min j (u - nex - 1) = j := by omega
  rw [hmin] at hk
  have er : p'.ritzv (locked + i) = p.ritzv (locked + j) := by rw [h1, Function.comp, ej]
  have es : p'.resid (locked + i) = p.resid (locked + j) := by rw [h2, Function.comp, ej]
  rw [er] at hout ⊢
  rw [es]
  have hn : 1 < |normPoint (p.ritzv (locked + j)) lower upper| := by
    unfold normPoint centre halfWidth
    rw [lt_abs]
    rcases hout with h | h
    · right
      rw [← neg_div, lt_div_iff₀ (by linarith)]
      linarith
    · left
      rw [lt_div_iff₀ (by linarith)]
      linarith
  have hs := realDegNeeded_suffices hn hk
  have hkd : k ≤ p'.degrees (locked + i) := by
    have := hev.1.2
    have h3 : min (k + cfg.degExtra) cfg.maxDeg ≠ cfg.maxDeg := by
      intro h
      omega
    omega
  have hg := one_lt_growth hn
  have hr : 0 ≤ p.resid (locked + j) := by
    have := (C18_defined_iff (p.ritzv (locked + j)) lower upper (p.resid (locked + j)) tol).mp
      (by rw [show realDegNeeded _ (centre lower upper) (halfWidth lower upper) _ _ = some k from hk]
          simp)
    exact this.2.1.le
  refine le_trans ?_ hs
  apply div_le_div_of_nonneg_left hr (by positivity)
  exact pow_le_pow_right₀ hg.le hkd

/-- **C18** (meaning of the growth rate) A filter of degree `d` damps every point of the interval,
relative to a point `v` outside of it, by at least `2 / rho(v)^d`. -/
theorem C18_filter_gain (lambda1 lower upper v x : ℝ) (hlu : lower < upper)
    (hv : v < lower ∨ upper < v)
    (hx1 : lower ≤ x) (hx2 : x ≤ upper) (d : ℕ) :
    |(filterPoly lambda1 lower upper d).eval x| ≤
      2 / growth (normPoint v lower upper) ^ d * |(filterPoly lambda1 lower upper d).eval v| := by
  have key : ∀ y, (filterPoly lambda1 lower upper d).eval y =
      1 / (Chebyshev.T ℝ d).eval (normPoint lambda1 lower upper) *
        (Chebyshev.T ℝ d).eval (normPoint y lower upper) := by
    intro y
    unfold filterPoly normPoint
    simp only [eval_mul, eval_C, eval_comp, eval_sub, eval_X]
    congr 2
    field_simp
  have habs : ∀ y, (y < lower ∨ upper < y) → 1 < |normPoint y lower upper| := by
    intro y hy
    unfold normPoint centre halfWidth
    rw [lt_abs]
    rcases hy with h | h
    · right
      rw [← neg_div, lt_div_iff₀ (by linarith)]
      linarith
    · left
      rw [lt_div_iff₀ (by linarith)]
      linarith
  have hxn : |normPoint x lower upper| ≤ 1 := by
    unfold normPoint centre halfWidth
    rw [abs_le]
    constructor
    · rw [le_div_iff₀ (by linarith)]; linarith
    · rw [div_le_iff₀ (by linarith)]; linarith
  rw [key, key, abs_mul, abs_mul]
  have hg := one_lt_growth (habs v hv)
  have hT := growth_is_chebyshev (habs v hv).le d
  have hTx : |(Chebyshev.T ℝ d).eval (normPoint x lower upper)| ≤ 1 :=
    Chebyshev.abs_eval_T_real_le_one (d : ℤ) hxn
  set g := growth (normPoint v lower upper)
  have hgd : 0 < g ^ d := by positivity
  have h3 : 1 ≤ 2 / g ^ d * |(Chebyshev.T ℝ d).eval (normPoint v lower upper)| := by
    rw [hT, div_mul_eq_mul_div, le_div_iff₀ hgd]
    have : 0 ≤ g⁻¹ ^ d := by positivity
    linarith
  have h0 := abs_nonneg (1 / (Chebyshev.T ℝ d).eval (normPoint lambda1 lower upper))
  calc _ ≤ |1 / (Chebyshev.T ℝ d).eval (normPoint lambda1 lower upper)| * 1 :=
        mul_le_mul_of_nonneg_left hTx h0
    _ ≤ |1 / (Chebyshev.T ℝ d).eval (normPoint lambda1 lower upper)| *
        (2 / g ^ d * |(Chebyshev.T ℝ d).eval (normPoint v lower upper)|) :=
        mul_le_mul_of_nonneg_left h3 h0
    _ = _ := by ring

/-- **C18** (finding) Without guard columns (`nex = 0`) the degree optimisation is undefined as soon as
the lower end of the interval is taken from the Ritz values: the last wanted pair then sits at the end
of the interval, where the needed degree is infinite. -/
theorem C18_no_guard_columns_undefined {S : Type*} (maxVal : ℝ) (gauss : ℝ → ℝ) (ops : Chase ℝ S)
    (cfg : Config ℝ) (hnex : cfg.nex = 0) (hopt : cfg.optimization = true) (st : St ℝ S)
    (hit : st.iteration ≠ 0) (hu0 : 0 < st.unconverged) (hu : st.unconverged < cfg.nev + cfg.nex)
    (hres : ∀ i, i < st.unconverged → st.resid (st.locked + i) ≤ 1 / 2) :
    ∃ e, iter (realPlat maxVal gauss) ops cfg st = .error e := by
  have hlow : (updateBounds (cfg.nev + cfg.nex) st).lowerb =
      if st.ritzv (st.locked + (st.unconverged - 1)) > st.upperb then st.upperb
      else st.ritzv (st.locked + (st.unconverged - 1)) := by
    unfold updateBounds
    dsimp only
    rw [if_pos (c := _ ∧ _)]
    refine ⟨hu, ?_⟩
    rw [List.all_eq_true]
    intro i hi
    have := hres i (List.mem_range.mp hi)
    simpa using this
  have hnone : realDegNeeded (st.ritzv (st.locked + (st.unconverged - 1)))
      (centre (updateBounds (cfg.nev + cfg.nex) st).lowerb st.upperb)
      (halfWidth (updateBounds (cfg.nev + cfg.nex) st).lowerb st.upperb)
      (st.resid (st.locked + (st.unconverged - 1))) cfg.tol = none := by
    by_contra hcon
    obtain ⟨h1, -, -, h4, -⟩ := (C18_defined_iff _ _ _ _ _).mp hcon
    rw [hlow] at h1 h4
    split_ifs at h1 h4
    · exact h1 rfl
    · exact h4 rfl
  cases hit' : iter (realPlat maxVal gauss) ops cfg st with
  | error e => exact ⟨e, rfl⟩
  | ok st' =>
    obtain ⟨st1, av, be2, h1, -, -⟩ := iter_ok hit'
    unfold optimise at h1
    rw [if_pos ⟨hopt, hit⟩] at h1
    split at h1
    · cases h1
    · rename_i deg p hc
      have := ((C16_succeeds_iff _ _ _).mp ⟨_, hc⟩).2 (st.unconverged - 1)
        (show st.unconverged - 1 < st.unconverged - cfg.nex by omega)
      exact absurd hnone this

/-! Non-vacuity: three unconverged pairs, one of them a guard column, with Ritz values below the
interval `[5, 10]`. The optimisation succeeds for every backend, and the degrees are below the cap. -/

example {S : Type*} (ops : Chase ℝ S) (be : S) : ∃ deg p',
    calcDegrees (realPlat 1 id) ops (Config.mk' .d 100 3 1) 3 1 10 5 (1/10) 1
      { degrees := fun _ => 20, ritzv := fun _ => -185/2, resid := fun _ => 1, residLast := fun _ => 1,
        be := be } = .ok (deg, p') ∧
    ∀ i, i < 3 → p'.degrees (1 + i) < (Config.mk' .d 100 3 1 : Config ℝ).maxDeg ∧
      p'.ritzv (1 + i) < 5 := by
  have hsome : ∀ k, realDegNeeded (-185/2) ((10 + 5) / 2) ((10 - 5) / 2) 1 (1/10) = some k → k ≤ 1 := by
    intro k hk
    unfold realDegNeeded at hk
    split_ifs at hk with hc
    rw [← Option.some.inj hk, Nat.ceil_le]
    have ht : ((-185 / 2 - (10 + 5) / 2) / ((10 - 5) / 2) : ℝ) = -40 := by norm_num
    rw [ht]
    have hg : (40 : ℝ) ≤ codeRho (-40) := by
      rw [codeRho_eq]
      have := Real.sqrt_nonneg |(-40 : ℝ) * -40 - 1|
      have : |(-40 : ℝ)| = 40 := by norm_num
      linarith
    have h1 : 0 < Real.log (codeRho (-40)) := Real.log_pos (by linarith)
    have h2 : 0 ≤ Real.log (1 / (1 / 10)) := Real.log_nonneg (by norm_num)
    rw [abs_of_nonneg (by positivity), Nat.cast_one, div_le_one h1]
    exact Real.log_le_log (by norm_num) (by linarith)
  obtain ⟨⟨deg, p'⟩, h⟩ := (C16_succeeds_iff (realPlat 1 id) ops (Config.mk' .d 100 3 1) (u := 3) (nex := 1)
    (locked := 1) (upperb := 10) (lowerb := 5) (tol := 1/10)
    (p := { degrees := fun _ => 20, ritzv := fun _ => -185/2, resid := fun _ => 1,
            residLast := fun _ => 1, be := be })).mpr
    ⟨by omega, fun i _ => (C18_defined_iff (-185/2) 5 10 1 (1/10)).mpr (by norm_num)⟩
  refine ⟨deg, p', h, fun i hi => ?_⟩
  obtain ⟨σ, -, h1, -, -, -, h5, -⟩ := C17_degrees_permute_pairs _ ops (fun _ _ => ()) _
    (fun _ _ _ _ _ => rfl) h
  obtain ⟨j, hj, ej, k, hk, hev⟩ := h5 i hi
  have hk1 := hsome k hk
  have hmd : (Config.mk' .d 100 3 1 : Config ℝ).maxDeg = 36 := rfl
  have hde : (Config.mk' .d 100 3 1 : Config ℝ).degExtra = 2 := rfl
  refine ⟨?_, ?_⟩
  · have := hev.2 (show 4 ∈ {k_1 | Even k_1 ∧ min (k + (Config.mk' .d 100 3 1 : Config ℝ).degExtra)
      (Config.mk' .d 100 3 1 : Config ℝ).maxDeg ≤ k_1} from ⟨by decide, by rw [hmd, hde]; omega⟩)
    omega
  · rw [h1]
    show (-185/2 : ℝ) < 5
    norm_num

end Verif
