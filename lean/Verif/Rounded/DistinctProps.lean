/-
C85 in floating-point arithmetic: the returned values stand for different eigenvalues of the matrix handed in, up to the
returned residuals and rounding errors.
-/
import Verif.Rounded.OrthoProps
import Verif.Backend.DistinctProps

set_option linter.unusedSectionVars false

namespace Verif
namespace Rounded

open Matrix Finset

/-- Bounds for the norm of a combination of `n` vectors that are orthonormal up to `τ`. -/
noncomputable def lowB (τ : ℝ) (n : ℕ) : ℝ := Real.sqrt ((1 - τ) ^ 2 - 2 * τ * (1 + τ) * n)
noncomputable def highB (τ : ℝ) (n : ℕ) : ℝ := Real.sqrt ((1 + τ) ^ 2 + 2 * τ * (1 + τ) * n)

/-- The distance for `n` vectors orthonormal up to `τ`, residuals with sum of squares `ρ²` and values whose differences
are at most `2D`. -/
noncomputable def distB (τ : ℝ) (n : ℕ) (ρ D : ℝ) : ℝ := (ρ + (highB τ n - lowB τ n) * D) / lowB τ n

section
variable {𝕜 : Type*} [RCLike 𝕜] {N : ℕ}

/-- The norm of a combination of nearly orthonormal vectors. -/
theorem NearOrtho.comb {τ : ℝ} {n : ℕ} {X : ℕ → Fin N → 𝕜} (h : NearOrtho τ n X) (hτ : 0 ≤ τ) (hτ1 : τ ≤ 1)
    (c : EuclideanSpace 𝕜 (range n)) :
    |‖∑ i : range n, c i • (WithLp.toLp 2 (X i) : EuclideanSpace 𝕜 (Fin N))‖ ^ 2 -
        ∑ i : range n, ‖c i‖ ^ 2 * Verif.nrm2 (X i) ^ 2| ≤ 2 * τ * (1 + τ) * n * ‖c‖ ^ 2 := by
  classical
  set q : range n → EuclideanSpace 𝕜 (Fin N) := fun i => WithLp.toLp 2 (X i) with hq
  have e1 : ((‖∑ i, c i • q i‖ ^ 2 : ℝ) : 𝕜) - ((∑ i, ‖c i‖ ^ 2 * Verif.nrm2 (X i) ^ 2 : ℝ) : 𝕜) =
      ∑ i, ∑ j ∈ univ.erase i, star (c i) * (c j * inner 𝕜 (q i) (q j)) := by
    have : ((‖∑ i, c i • q i‖ ^ 2 : ℝ) : 𝕜) = ∑ i, ∑ j, star (c i) * (c j * inner 𝕜 (q i) (q j)) := by
      push_cast
      rw [← inner_self_eq_norm_sq_to_K (𝕜 := 𝕜), sum_inner]
      refine Finset.sum_congr rfl fun i _ => ?_
      rw [inner_sum]
      refine Finset.sum_congr rfl fun j _ => ?_
      rw [inner_smul_left, inner_smul_right]
      rfl
    rw [this]
    push_cast
    rw [← Finset.sum_sub_distrib]
    refine Finset.sum_congr rfl fun i _ => ?_
    rw [← Finset.add_sum_erase univ _ (mem_univ i), inner_self_eq_norm_sq_to_K, nrm2_eq_norm]
    have : star (c i) * c i = (‖c i‖ : 𝕜) ^ 2 := RCLike.conj_mul _
    rw [← mul_assoc, this]
    simp only [hq, add_sub_cancel_left]
  have e2 : ∀ i j : range n, i ≠ j → ‖(inner 𝕜 (q i) (q j) : 𝕜)‖ ≤ 2 * τ * (1 + τ) := by
    intro i j hij
    have := h.2 i j (mem_range.mp i.2) (mem_range.mp j.2) fun e => hij (Subtype.ext e)
    rwa [dotc_inner] at this
  have e3 : ‖∑ i, ∑ j ∈ univ.erase i, star (c i) * (c j * inner 𝕜 (q i) (q j))‖ ≤
      ∑ i, ∑ j, 2 * τ * (1 + τ) * (‖c i‖ * ‖c j‖) := by
    refine (norm_sum_le _ _).trans (Finset.sum_le_sum fun i _ => (norm_sum_le _ _).trans ?_)
    refine le_trans (Finset.sum_le_sum fun j hj => ?_)
      (Finset.sum_le_sum_of_subset_of_nonneg (Finset.erase_subset i univ) fun j _ _ => by positivity)
    rw [norm_mul, norm_mul, norm_star]
    have := e2 i j (Finset.ne_of_mem_erase hj).symm
    nlinarith [mul_le_mul_of_nonneg_left this (mul_nonneg (norm_nonneg (c i)) (norm_nonneg (c j)))]
  have e4 : ∑ i : range n, ∑ j : range n, 2 * τ * (1 + τ) * (‖c i‖ * ‖c j‖) ≤ 2 * τ * (1 + τ) * n * ‖c‖ ^ 2 := by
    have : ∑ i : range n, ∑ j : range n, 2 * τ * (1 + τ) * (‖c i‖ * ‖c j‖) = 2 * τ * (1 + τ) * (∑ i, ‖c i‖) ^ 2 := by
      rw [sq, Finset.sum_mul_sum, Finset.mul_sum]
      exact Finset.sum_congr rfl fun i _ => (Finset.mul_sum _ _ _).symm
    rw [this, mul_assoc (2 * τ * (1 + τ)), EuclideanSpace.norm_sq_eq]
    refine mul_le_mul_of_nonneg_left ?_ (by positivity)
    have := sq_sum_le_card_mul_sum_sq (s := (univ : Finset (range n))) (f := fun i => ‖c i‖)
    simpa using this
  rw [← RCLike.norm_ofReal (K := 𝕜)]
  push_cast
  push_cast at e1
  rw [e1]
  exact e3.trans e4

theorem NearOrtho.low {τ : ℝ} {n : ℕ} {X : ℕ → Fin N → 𝕜} (h : NearOrtho τ n X) (hτ : 0 ≤ τ) (hτ1 : τ ≤ 1)
    (c : EuclideanSpace 𝕜 (range n)) :
    lowB τ n * ‖c‖ ≤ ‖∑ i : range n, c i • (WithLp.toLp 2 (X i) : EuclideanSpace 𝕜 (Fin N))‖ := by
  have key := (abs_le.mp (h.comb hτ hτ1 c)).1
  have h1 : (1 - τ) ^ 2 * ‖c‖ ^ 2 ≤ ∑ i : range n, ‖c i‖ ^ 2 * Verif.nrm2 (X i) ^ 2 := by
    rw [EuclideanSpace.norm_sq_eq, Finset.mul_sum]
    refine Finset.sum_le_sum fun i _ => ?_
    have := (abs_le.mp (h.1 i (mem_range.mp i.2))).1
    rw [mul_comm]
    exact mul_le_mul_of_nonneg_left (pow_le_pow_left₀ (by linarith) (by linarith) 2) (sq_nonneg _)
  refine le_of_sq_le_sq ?_ (norm_nonneg _)
  rw [mul_pow]
  unfold lowB
  by_cases hp : 0 ≤ (1 - τ) ^ 2 - 2 * τ * (1 + τ) * n
  · rw [Real.sq_sqrt hp]
    nlinarith
  · rw [Real.sqrt_eq_zero_of_nonpos (le_of_not_ge hp)]
    simp

theorem NearOrtho.high {τ : ℝ} {n : ℕ} {X : ℕ → Fin N → 𝕜} (h : NearOrtho τ n X) (hτ : 0 ≤ τ) (hτ1 : τ ≤ 1)
    (c : EuclideanSpace 𝕜 (range n)) :
    ‖∑ i : range n, c i • (WithLp.toLp 2 (X i) : EuclideanSpace 𝕜 (Fin N))‖ ≤ highB τ n * ‖c‖ := by
  have key := (abs_le.mp (h.comb hτ hτ1 c)).2
  have h1 : ∑ i : range n, ‖c i‖ ^ 2 * Verif.nrm2 (X i) ^ 2 ≤ (1 + τ) ^ 2 * ‖c‖ ^ 2 := by
    rw [EuclideanSpace.norm_sq_eq, Finset.mul_sum]
    refine Finset.sum_le_sum fun i _ => ?_
    have := (abs_le.mp (h.1 i (mem_range.mp i.2))).2
    rw [mul_comm]
    exact mul_le_mul_of_nonneg_right (pow_le_pow_left₀ (show 0 ≤ Verif.nrm2 (X i) from Real.sqrt_nonneg _) (by linarith) 2)
      (sq_nonneg _)
  refine le_of_sq_le_sq ?_ (mul_nonneg (Real.sqrt_nonneg _) (norm_nonneg _))
  rw [mul_pow]
  unfold highB
  rw [Real.sq_sqrt (by positivity)]
  nlinarith

/-- Nearly orthonormal vectors with residuals. -/
theorem standFor_near {H : Matrix (Fin N) (Fin N) 𝕜} (hH : H.IsHermitian) {τ D ρ : ℝ} {n : ℕ} {X : ℕ → Fin N → 𝕜}
    {vals : ℕ → ℝ} (h : NearOrtho τ n X) (hτ : 0 ≤ τ) (hpos : 2 * τ + 2 * τ * (1 + τ) * n < 1) (hρ : 0 ≤ ρ)
    (hr : ∑ i ∈ range n, Verif.nrm2 (H.mulVec (X i) - (vals i : 𝕜) • X i) ^ 2 ≤ ρ ^ 2)
    (hD : ∀ i j, i < n → j < n → |vals i - vals j| ≤ 2 * D) :
    StandForDifferent H (range n) vals (distB τ n ρ D) := by
  classical
  intro w hw
  obtain ⟨b, hb⟩ := hw.basis hH
  have hn0 : (0 : ℝ) ≤ n := Nat.cast_nonneg n
  have hk : 0 ≤ 2 * τ * (1 + τ) * n := by positivity
  have hτ1 : τ ≤ 1 := by linarith
  have ha : 0 < lowB τ n := Real.sqrt_pos.mpr (by nlinarith)
  have hab : lowB τ n ≤ highB τ n := Real.sqrt_le_sqrt (by nlinarith)
  have hres : ∑ i : range n, ‖Matrix.toEuclideanLin H (WithLp.toLp 2 (X i)) -
      (vals i : 𝕜) • (WithLp.toLp 2 (X i) : EuclideanSpace 𝕜 (Fin N))‖ ^ 2 ≤ ρ ^ 2 := by
    refine le_trans (le_of_eq ?_) hr
    rw [← Finset.sum_attach (range n), Finset.univ_eq_attach]
    refine Finset.sum_congr rfl fun i _ => ?_
    rw [nrm2_eq_norm]
    congr 2
  obtain ⟨f, hf, hd⟩ := Distinct.exists_eigenvalues hb (q := fun i : range n => WithLp.toLp 2 (X i))
    (θ := fun i => vals i) (D := D) (h.low hτ hτ1) (h.high hτ hτ1) hres hρ ha hab
    fun i j => hD i j (mem_range.mp i.2) (mem_range.mp j.2)
  exact ⟨f, hf, hd⟩

/-- From residuals with a relative and an absolute error to their root sum of squares. -/
theorem root_sum {n : ℕ} {r a : ℕ → ℝ} {c : ℝ} (hr : ∀ i, i < n → 0 ≤ r i) (hc : 0 ≤ c) (h : ∀ i, i < n → r i ≤ |a i| + c) :
    ∑ i ∈ range n, r i ^ 2 ≤ (Real.sqrt (∑ i ∈ range n, a i ^ 2) + Real.sqrt n * c) ^ 2 := by
  have h0 : 0 ≤ ∑ i ∈ range n, a i ^ 2 := Finset.sum_nonneg fun _ _ => sq_nonneg _
  have h1 : ∑ i ∈ range n, |a i| ≤ Real.sqrt n * Real.sqrt (∑ i ∈ range n, a i ^ 2) := by
    rw [← Real.sqrt_mul (Nat.cast_nonneg _)]
    refine Real.le_sqrt_of_sq_le ?_
    have := sq_sum_le_card_mul_sum_sq (s := range n) (f := fun i => |a i|)
    simpa using this
  calc ∑ i ∈ range n, r i ^ 2 ≤ ∑ i ∈ range n, (|a i| + c) ^ 2 :=
        Finset.sum_le_sum fun i hi => pow_le_pow_left₀ (hr i (mem_range.mp hi)) (h i (mem_range.mp hi)) 2
    _ = ∑ i ∈ range n, a i ^ 2 + 2 * c * ∑ i ∈ range n, |a i| + n * c ^ 2 := by
        rw [Finset.mul_sum, ← Finset.sum_add_distrib]
        simp only [add_sq, sq_abs]
        rw [Finset.sum_add_distrib]
        simp only [Finset.sum_const, card_range, nsmul_eq_mul]
        congr 1
        exact Finset.sum_congr rfl fun _ _ => by ring
    _ ≤ _ := by
        rw [add_sq, Real.sq_sqrt h0, mul_pow, Real.sq_sqrt (Nat.cast_nonneg _)]
        nlinarith [mul_le_mul_of_nonneg_left h1 hc]

theorem PermOn.sum_range {nev m : ℕ} (h : nev ≤ m) {σ : Equiv.Perm ℕ} (hσ : PermOn 0 nev σ) (f : ℕ → ℝ) :
    ∑ i ∈ range m, f (σ i) = ∑ i ∈ range m, f i := by
  refine Finset.sum_equiv σ (fun i => ?_) fun _ _ => rfl
  rw [mem_range, mem_range]
  by_cases hi : i < nev
  · have := (hσ.mem (Nat.zero_le _) hi).2
    omega
  · rw [hσ i (by omega)]

theorem slack_mono {u : ℝ} {d n : ℕ} {f C x V : ℝ} (hu : 0 ≤ u) (hx : |x| ≤ V) : slack u d n f C x ≤ slack u d n f C V := by
  unfold slack
  have h1 : 0 ≤ (1 + u) ^ (d + 2) - 1 := gam_nonneg hu (d + 2)
  have h2 : |x| ≤ |V| := hx.trans (le_abs_self V)
  have := mul_le_mul_of_nonneg_left h2 h1
  simp only
  nlinarith

/-- The common end of the proofs: from what C73 and C84 give. -/
theorem standFor_run {H : Matrix (Fin N) (Fin N) 𝕜} (hH : H.IsHermitian) {τ ν D V u C : ℝ} {d it nev n m : ℕ}
    {X : ℕ → Fin N → 𝕜} {vals resid : ℕ → ℝ} (h : NearOrtho τ n X) (hτ : 0 ≤ τ) (hu : 0 ≤ u) (hC : 0 ≤ C)
    (hpos : 2 * τ + 2 * τ * (1 + τ) * n < 1) (hν : 0 ≤ ν) (hν1 : ν < 1) (hm1 : nev ≤ m) (hm2 : m ≤ n)
    {σ : Equiv.Perm ℕ} (hσ : PermOn 0 nev σ)
    (hr : ∀ i, i < n → |resid (σ i) - Verif.nrm2 (H.mulVec (X i) - (vals i : 𝕜) • X i)| ≤
      ν * Verif.nrm2 (H.mulVec (X i) - (vals i : 𝕜) • X i) +
        (1 + ν) * (slack u d it (frob H) C (vals i) * Verif.nrm2 (X i)))
    (hV : ∀ i, i < n → |vals i| ≤ V) (hD : ∀ i j, i < n → j < n → |vals i - vals j| ≤ 2 * D) :
    StandForDifferent H (range m) vals (distB τ m ((Real.sqrt (∑ i ∈ range m, resid i ^ 2) +
      Real.sqrt m * ((1 + ν) * (1 + τ) * slack u d it (frob H) C V)) / (1 - ν)) D) := by
  have hs : 0 ≤ slack u d it (frob H) C V := slack_nonneg hu hC (frob_nonneg _)
  have hm0 : (m : ℝ) ≤ n := Nat.cast_le.mpr hm2
  have hmn : 0 ≤ 2 * τ * (1 + τ) := by positivity
  refine standFor_near hH (h.mono hm2) hτ (by nlinarith) (div_nonneg (by positivity) (by linarith)) ?_
    fun i j hi hj => hD i j (by omega) (by omega)
  have hb : ∀ i, i < m → (1 - ν) * Verif.nrm2 (H.mulVec (X i) - (vals i : 𝕜) • X i) ≤
      |resid (σ i)| + (1 + ν) * (1 + τ) * slack u d it (frob H) C V := by
    intro i hi
    have h1 := (abs_le.mp (hr i (by omega))).1
    have h2 := (abs_le.mp (h.1 i (by omega))).2
    have h3 := slack_mono (d := d) (n := it) (f := frob H) (C := C) hu (hV i (by omega))
    have h4 : slack u d it (frob H) C (vals i) * Verif.nrm2 (X i) ≤ slack u d it (frob H) C V * (1 + τ) :=
      mul_le_mul h3 (by linarith) (Real.sqrt_nonneg _) hs
    have h5 := mul_le_mul_of_nonneg_left h4 (show 0 ≤ 1 + ν by linarith)
    have h6 := le_abs_self (resid (σ i))
    nlinarith
  have hk := root_sum (r := fun i => (1 - ν) * Verif.nrm2 (H.mulVec (X i) - (vals i : 𝕜) • X i))
    (a := fun i => resid (σ i)) (c := (1 + ν) * (1 + τ) * slack u d it (frob H) C V) (n := m)
    (fun i _ => mul_nonneg (by linarith) (Real.sqrt_nonneg _)) (by positivity) hb
  rw [PermOn.sum_range hm1 hσ fun i => resid i ^ 2] at hk
  simp only [mul_pow] at hk
  rw [← Finset.mul_sum] at hk
  rw [div_pow, le_div_iff₀ (by have : 0 < 1 - ν := by linarith
                               positivity), mul_comm]
  exact hk

end

theorem tau_nonneg {n d : ℕ} {ε δ u : ℝ} (hε : 0 ≤ ε) (hδ : 0 ≤ δ) (hu : 0 ≤ u) : 0 ≤ tau n ε δ (gam u d) := by
  have := gam_nonneg hu d
  unfold tau
  positivity

section
variable {K 𝕜 R : Type*} [RCLike 𝕜] {N : ℕ} {F : Fl K 𝕜} {valR : R → ℝ} {A : Arith K R N} {E : Params} {d d' : ℕ}
  {ε δ ν : ℝ}
variable [Add R] [Sub R] [Mul R] [Div R] [Neg R] [Zero R] [One R] [NatCast R] [LT R] [DecidableLT R]

/-- **C85 in floating-point arithmetic**, single-process CPU backend (partial).  With the accuracy of the kernels of
`C73_residual_partial` and `C84_orthonormal_partial`, the returned values stand for different eigenvalues of the matrix
handed in.  With `V` a bound for the returned values, `2D` one for their differences, `C` one for the shifts of the
run, `τ` the loss of orthogonality of C84 and `slack` the term of C73, the distance is
`(ρ + (b - a) D) / a` where `ρ = (√(Σ resid²) + √m (1 + ν) (1 + τ) slack) / (1 - ν)` and `a`, `b` (`lowB`, `highB`) tend to one
with `τ` to zero.  For the wanted values (`m = nev`) and for all (`m = nev + nex`). -/
theorem C85_rounded_partial (hA : OrthoKernels F A E.nevex d δ) (hε : 0 ≤ ε) (hδ : 0 ≤ δ)
    (hacc : Accurate F valR A d' ν) (hν : 0 ≤ ν) (hν1 : ν < 1) (P : Plat R)
    (hP : PermutesIndices P) (cfg : Config R) (hN : cfg.N = N) (hsz : cfg.nev + cfg.nex = E.nevex)
    (hmax : Even cfg.maxDeg) (ritzv0 resid0 : ℕ → R) (s : Seq.St K N) (hH : (valM F s.H).IsHermitian)
    (out : Outcome R (Seq.St K N × List (Call R)))
    (h : solve P (traced (ops A E)) cfg ritzv0 resid0 (s, []) = .ok out)
    (hsym : cfg.symCheck = true → A.symCheck s.H = true) (hit : 0 < out.iterations)
    (hq : QrAvoids P (ops A E) cfg ritzv0 resid0 s fun k c t => Inaccurate F A E ε k c t.C)
    {C V D : ℝ} (hC : ∀ c ∈ shiftsOf out.be.2, |valR c| ≤ C)
    (hV : ∀ i, i < cfg.nev + cfg.nex → |valR (out.ritzv i)| ≤ V)
    (hD : ∀ i j, i < cfg.nev + cfg.nex → j < cfg.nev + cfg.nex → |valR (out.ritzv i) - valR (out.ritzv j)| ≤ 2 * D)
    (m : ℕ) (hm : m = cfg.nev ∨ m = cfg.nev + cfg.nex) :
    let n := cfg.nev + cfg.nex
    let τ := tau n ε δ (gam F.u d)
    let ρ := (Real.sqrt (∑ i ∈ range m, valR (out.resid i) ^ 2) +
      Real.sqrt m * ((1 + ν) * (1 + τ) * slack F.u d' out.iterations (frob (valM F s.H)) C V)) / (1 - ν)
    2 * τ + 2 * τ * (1 + τ) * n < 1 →
    StandForDifferent (valM F s.H) (range m) (fun i => valR (out.ritzv i)) (distB τ m ρ D) := by
  intro n τ ρ hpos
  obtain ⟨σ, hσ, hr⟩ := C73_residual_partial hacc hν P hP cfg hN hsz hmax ritzv0 resid0 s hH out h hsym hit hC
  have hn : NearOrtho τ n fun j => valV F (out.be.1.C j) := by
    have h1 := solve_sim (traced_sim (ops A E)) P cfg ritzv0 resid0 (be := (s, [])) (be' := s) rfl
    rw [h] at h1
    cases hw : solve P (ops A E) cfg ritzv0 resid0 s with
    | error e => rw [hw] at h1; cases h1
    | ok o =>
      rw [hw] at h1
      cases h1 with
      | ok h1 =>
        have e : out.be.1 = o.be := h1.be
        rw [e]
        exact C84_orthonormal_partial hA hε hδ P hP cfg hN hsz hmax ritzv0 resid0 s o hw hsym
          (by rw [← h1.iterations]; exact hit) hq
  have hC0 : 0 ≤ C := by
    obtain ⟨ys, hy1, hy2, -⟩ := matrix_at_end P hP cfg ritzv0 resid0 s out h hsym
    cases ys with
    | nil => simp at hy1; omega
    | cons y ys => exact (abs_nonneg _).trans (hC (-y) (by rw [hy2]; simp [pairsOf]))
  exact standFor_run (vals := fun i => valR (out.ritzv i)) (resid := fun i => valR (out.resid i)) hH hn
    (tau_nonneg hε hδ F.u_nonneg) F.u_nonneg hC0 hpos hν hν1 (by omega) (by omega) hσ hr hV hD

end

namespace Par
open Verif.Spmd
open Mpi (Layout GSt RunsOk scatter)
open Mpi.Spmd (Pos Own EndsWith)

section
variable {K R 𝕜 : Type} [RCLike 𝕜] [LinearOrder R] [Add R] [Sub R] [Mul R] [Div R] [Neg R] [Zero R] [One R] [NatCast R]
  {N : ℕ} {r c : Layout N} {T : Red1 K R r c} {E : DEnv K R} {F : Fl K 𝕜} {FR : Fl R ℝ} {d e d' : ℕ} {ε δ μ : ℝ}

/-- **C85 in floating-point arithmetic**, distributed CPU backend (partial), reductions that give the same bits on
every communicator: as `C85_rounded_partial`. -/
theorem C85_rounded_mpi_partial (hA : OrthoPar F r E E.nevex d' δ) (hε : 0 ≤ ε) (hδ : 0 ≤ δ)
    (hacc : AccuratePar F FR T E d e μ) (hμ : 0 ≤ μ) (hν1 : nu FR.u μ e < 1)
    (hE : Ascends E) (P : Plat R) (hP : SortsIndices P) (hkeep : SortKeepsSorted P)
    (cfg : Config R) (hN : cfg.N = N) (hsz : cfg.nev + cfg.nex = E.nevex) (hmax : Even cfg.maxDeg)
    (ritzv0 resid0 : ℕ → R) (g : GSt K N) (hH : (valM F g.H).IsHermitian)
    (out : Outcome R (GSt K N × List (Call R)))
    (h : solve P (traced (gOps T E)) cfg ritzv0 resid0 (g, []) = .ok out)
    (hsym : cfg.symCheck = true → symCheckG T E g.H = true) (hit : 0 < out.iterations)
    (hq : QrAvoids P (gOps T E) cfg ritzv0 resid0 g fun k x t => Inaccurate F (distArith T E) E.toParams ε k x t.C)
    {C V D : ℝ} (hC : ∀ x ∈ shiftsOf out.be.2, |FR.val x| ≤ C)
    (hV : ∀ i, i < cfg.nev + cfg.nex → |FR.val (out.ritzv i)| ≤ V)
    (hD : ∀ i j, i < cfg.nev + cfg.nex → j < cfg.nev + cfg.nex → |FR.val (out.ritzv i) - FR.val (out.ritzv j)| ≤ 2 * D)
    (m : ℕ) (hm : m = cfg.nev ∨ m = cfg.nev + cfg.nex) :
    let n := cfg.nev + cfg.nex
    let τ := tau n ε δ (gam F.u d')
    let ν := nu FR.u μ e
    let ρ := (Real.sqrt (∑ i ∈ range m, FR.val (out.resid i) ^ 2) +
      Real.sqrt m * ((1 + ν) * (1 + τ) * slack F.u (d + e) out.iterations (frob (valM F g.H)) C V)) / (1 - ν)
    2 * τ + 2 * τ * (1 + τ) * n < 1 →
    StandForDifferent (valM F g.H) (range m) (fun i => FR.val (out.ritzv i)) (distB τ m ρ D) := by
  intro n τ ν ρ hpos
  obtain ⟨σ, hσ, -, hr⟩ := C73_residual_mpi_partial hacc hμ hE P hP hkeep cfg hN hsz hmax ritzv0 resid0 g hH out h
    hsym hit hC
  have hn : NearOrtho τ n fun j => valV F (out.be.1.C j) := by
    have h1 := solve_sim (traced_sim (gOps T E)) P cfg ritzv0 resid0 (be := (g, [])) (be' := g) rfl
    rw [h] at h1
    cases hw : solve P (gOps T E) cfg ritzv0 resid0 g with
    | error e => rw [hw] at h1; cases h1
    | ok o =>
      rw [hw] at h1
      cases h1 with
      | ok h1 =>
        have e : out.be.1 = o.be := h1.be
        rw [e]
        exact C84_orthonormal_mpi_partial hA hε hδ hE P hP cfg hN hsz hmax ritzv0 resid0 g o hw hsym
          (by rw [← h1.iterations]; exact hit) hq
  have hC0 : 0 ≤ C := by
    obtain ⟨ys, hy1, hy2, -⟩ := matrix_at_end T E P hP.permutes cfg ritzv0 resid0 g out h hsym
    cases ys with
    | nil => simp at hy1; omega
    | cons y ys => exact (abs_nonneg _).trans (hC (-y) (by rw [hy2]; simp [pairsOf]))
  have hν : 0 ≤ nu FR.u μ e := by
    have := FR.u_nonneg
    have h1 : 1 ≤ (1 + FR.u) ^ (e + 1) := one_le_pow₀ (by linarith)
    unfold nu
    nlinarith
  have hn' := hn.comp (σ := σ) σ.injective fun i hi => by
    by_cases hlt : i < cfg.nev
    · have := (hσ.mem (Nat.zero_le _) hlt).2
      omega
    · rw [hσ i (by omega)]; exact hi
  exact standFor_run (vals := fun i => FR.val (out.ritzv i)) (resid := fun i => FR.val (out.resid i)) hH hn'
    (tau_nonneg hε hδ F.u_nonneg) F.u_nonneg hC0 hpos hν hν1 (by omega) (by omega) hσ hr hV hD

end
end Par
/-! ### Runs that meet the hypotheses -/

theorem tau_tiny : tau 2 ((1 / 2) ^ 40) 0 (gam ((1 / 2) ^ 53) 3) < 1 / 100 := by
  have h : Real.sqrt ((2 : ℕ) : ℝ) ≤ 2 := Real.sqrt_le_iff.mpr ⟨by norm_num, by norm_num⟩
  have hc : (((1 + (1 / 2 : ℝ) ^ 53) ^ 3 - 1) * (1 + (1 / 2) ^ 40) + (1 / 2) ^ 40) < 1 / 400 := by norm_num
  have hc0 : 0 ≤ (((1 + (1 / 2 : ℝ) ^ 53) ^ 3 - 1) * (1 + (1 / 2) ^ 40) + (1 / 2) ^ 40) := by norm_num
  unfold tau gam
  generalize (((1 + (1 / 2 : ℝ) ^ 53) ^ 3 - 1) * (1 + (1 / 2) ^ 40) + (1 / 2) ^ 40) = x at *
  generalize Real.sqrt ((2 : ℕ) : ℝ) = y at *
  nlinarith

/-- Bounds for finitely many numbers exist. -/
theorem exists_bounds (l : List ℝ) (v : ℕ → ℝ) (n : ℕ) : ∃ C V D : ℝ, (∀ x ∈ l, |x| ≤ C) ∧ (∀ i, i < n → |v i| ≤ V) ∧
    ∀ i j, i < n → j < n → |v i - v j| ≤ 2 * D := by
  have hC : ∃ C : ℝ, ∀ x ∈ l, |x| ≤ C := by
    induction l with
    | nil => exact ⟨0, by simp⟩
    | cons a l ih =>
      obtain ⟨C, hC⟩ := ih
      refine ⟨max |a| C, fun x hx => ?_⟩
      rcases List.mem_cons.mp hx with rfl | hx
      · exact le_max_left _ _
      · exact (hC x hx).trans (le_max_right _ _)
  obtain ⟨C, hC⟩ := hC
  have hV : ∀ i, i < n → |v i| ≤ ∑ i ∈ range n, |v i| := fun i hi =>
    Finset.single_le_sum (f := fun i => |v i|) (fun _ _ => abs_nonneg _) (mem_range.mpr hi)
  refine ⟨C, ∑ i ∈ range n, |v i|, ∑ i ∈ range n, |v i|, hC, hV, fun i j hi hj => ?_⟩
  have := abs_sub (v i) (v j)
  linarith [hV i hi, hV j hj]

/-- Non-vacuity of `C85_rounded_partial`: double precision, a Householder QR with error `2^-40`. -/
example : ∃ (out : Outcome (Fp 53) (Seq.St (Fp 53) 2 × List (Call (Fp 53)))) (C V D : ℝ),
    solve (Two.plat 53) (traced (ops Two.arithQ Two.params)) (Two.cfg 53) (Two.ritzv0 53) (fun _ => 0)
      (Two.start 53, []) = .ok out ∧ 0 < out.iterations ∧
    (∀ c ∈ shiftsOf out.be.2, |c.toReal| ≤ C) ∧ (∀ i, i < 2 → |(out.ritzv i).toReal| ≤ V) ∧
    (let τ := tau 2 ((1 / 2) ^ 40) 0 (gam (Fp.fl 53).u 3)
     let ρ := (Real.sqrt (∑ i ∈ range 2, (out.resid i).toReal ^ 2) + Real.sqrt (2 : ℕ) *
       ((1 + 1 / 2) * (1 + τ) * slack (Fp.fl 53).u 2 out.iterations (frob (valM (Fp.fl 53) (Two.start 53).H)) C V)) / (1 - 1 / 2)
     StandForDifferent (valM (Fp.fl 53) (Two.start 53).H) (range 2) (fun i => (out.ritzv i).toReal) (distB τ 2 ρ D)) := by
  have hq : ∀ X, QrOf ((1 / 2) ^ 40) Two.params.nevex (fun j => valV (Fp.fl 53) (X j))
      fun j => valV (Fp.fl 53) (Two.arithQ.hhQR X j) := fun X => hhqr_ok le_rfl X
  obtain ⟨out, h1, h2⟩ := C51_approx_solve_defined (Two.plat 53) (traced (ops Two.arithQ Two.params)) (Two.cfg 53) rfl
    (by decide) (by decide) (by decide) (by decide) (by decide) (by decide) (by decide) (by intro h; cases h)
    (Two.ritzv0 53) (fun _ => 0) (Two.start 53, [])
  have hit := h2 (fun _ => rfl) (by decide)
  obtain ⟨C, V, D, hC, hV, hD⟩ := exists_bounds ((shiftsOf out.be.2).map Fp.toReal) (fun i => (out.ritzv i).toReal) 2
  have hC' : ∀ c ∈ shiftsOf out.be.2, |c.toReal| ≤ C := fun c hc => hC _ (List.mem_map_of_mem hc)
  have ht := tau_tiny
  have h0 : 0 ≤ tau 2 ((1 / 2) ^ 40) 0 (gam ((1 / 2) ^ 53) 3) := tau_nonneg (by positivity) le_rfl (by positivity)
  refine ⟨out, C, V, D, h1, hit, hC', hV, C85_rounded_partial Two.orthoKernels (by positivity) le_rfl Two.accurateQ
    (by norm_num) (by norm_num) (Two.plat 53) (Two.plat_permutes 53) (Two.cfg 53) rfl rfl (by decide) _ _ _
    (Two.start_hermitian 53) out h1 (fun _ => rfl) hit
    (householder_avoids rfl hq (fun s : Seq.St (Fp 53) 2 => s.C) _ _ _ _ _ _) hC' hV hD 2 (Or.inr rfl) ?_⟩
  show 2 * tau 2 ((1 / 2) ^ 40) 0 (gam ((1 / 2) ^ 53) 3) + 2 * tau 2 ((1 / 2) ^ 40) 0 (gam ((1 / 2) ^ 53) 3) *
    (1 + tau 2 ((1 / 2) ^ 40) 0 (gam ((1 / 2) ^ 53) 3)) * ((2 : ℕ) : ℝ) < 1
  generalize tau 2 ((1 / 2) ^ 40) 0 (gam ((1 / 2) ^ 53) 3) = x at *
  push_cast
  nlinarith

namespace Par
namespace Four
open Verif.Spmd
open Mpi (Layout GSt RunsOk scatter)
open Stuck (rowL colL sum)

/-- Non-vacuity of `C85_rounded_mpi_partial`: double precision on a grid of two times three processes. -/
example : ∃ (out : Outcome (Fp 53) (GSt (Fp 53) 4 × List (Call (Fp 53)))) (C V D : ℝ),
    solve Stuck.plat (traced (gOps red envQ)) cfg2 Stuck.val0 (fun _ => 0) (Stuck.glob, []) = .ok out ∧
    0 < out.iterations ∧ (∀ x ∈ shiftsOf out.be.2, |(Fp.fl 53).val x| ≤ C) ∧
    (∀ i, i < 2 → |(Fp.fl 53).val (out.ritzv i)| ≤ V) ∧
    (let τ := tau 2 ((1 / 2) ^ 40) 0 (gam (Fp.fl 53).u 3)
     let ν := nu (Fp.fl 53).u ((1 / 2) ^ 53) 3
     let ρ := (Real.sqrt (∑ i ∈ range 2, (Fp.fl 53).val (out.resid i) ^ 2) + Real.sqrt (2 : ℕ) *
       ((1 + ν) * (1 + τ) * slack (Fp.fl 53).u (3 + 3) out.iterations (frob (valM (Fp.fl 53) Stuck.glob.H)) C V)) / (1 - ν)
     StandForDifferent (valM (Fp.fl 53) Stuck.glob.H) (range 2) (fun i => (Fp.fl 53).val (out.ritzv i)) (distB τ 2 ρ D)) := by
  obtain ⟨out, h1, h2⟩ := C51_approx_solve_defined Stuck.plat (traced (gOps red envQ)) cfg2 rfl (by decide) (by decide)
    (by decide) (by decide) (by decide) (by decide) (by decide) (by intro h; cases h) Stuck.val0 (fun _ => 0) (Stuck.glob, [])
  have hit := h2 (by intro h; cases h) (by decide)
  obtain ⟨C, V, D, hC, hV, hD⟩ := exists_bounds ((shiftsOf out.be.2).map (Fp.fl 53).val) (fun i => (Fp.fl 53).val (out.ritzv i)) 2
  have hC' : ∀ c ∈ shiftsOf out.be.2, |(Fp.fl 53).val c| ≤ C := fun c hc => hC _ (List.mem_map_of_mem hc)
  have ht := tau_tiny
  have h0 : 0 ≤ tau 2 ((1 / 2) ^ 40) 0 (gam ((1 / 2) ^ 53) 3) := tau_nonneg (by positivity) le_rfl (by positivity)
  have hν1 : nu (Fp.fl 53).u ((1 / 2) ^ 53) 3 < 1 := by
    show (1 + (1 / 2 : ℝ) ^ 53) * (1 + (1 / 2) ^ 53) ^ 4 - 1 < 1
    norm_num
  refine ⟨out, C, V, D, h1, hit, hC', hV, C85_rounded_mpi_partial orthoPar (by positivity) le_rfl accurateParQ (by positivity)
    hν1 (fun b M i j h => ascends b M i j h) Stuck.plat plat_sorts plat_keeps cfg2 rfl rfl (by decide) _ _ _ hermitian out h1
    (by intro h; cases h) hit
    (householder_avoids (E := envQ.toParams) rfl qr_ok (fun g : GSt (Fp 53) 4 => g.C) _ _ _ _ _ _) hC' hV hD 2 (Or.inr rfl) ?_⟩
  show 2 * tau 2 ((1 / 2) ^ 40) 0 (gam ((1 / 2) ^ 53) 3) + 2 * tau 2 ((1 / 2) ^ 40) 0 (gam ((1 / 2) ^ 53) 3) *
    (1 + tau 2 ((1 / 2) ^ 40) 0 (gam ((1 / 2) ^ 53) 3)) * ((2 : ℕ) : ℝ) < 1
  generalize tau 2 ((1 / 2) ^ 40) 0 (gam ((1 / 2) ^ 53) 3) = x at *
  push_cast
  nlinarith

end Four
end Par
end Rounded
end Verif
