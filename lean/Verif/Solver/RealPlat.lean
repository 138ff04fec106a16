/-
The library functions of `Plat` over the real numbers (exact arithmetic).
-/
import Verif.Solver.Spec
import Mathlib.Analysis.SpecialFunctions.Log.Basic
import Mathlib.Analysis.Real.Sqrt
import Mathlib.Data.Fin.Tuple.Sort
import Mathlib.Algebra.Order.Floor.Semiring

namespace Verif

/-- `rho` of `calc_degrees`: algorithm.inc 35-37. -/
noncomputable def codeRho (t : ℝ) : ℝ :=
  max (abs (t - Real.sqrt (abs (t * t - 1)))) (abs (t + Real.sqrt (abs (t * t - 1))))

/-- `ceil(abs(log(resid/tol) / log(rho)))`: algorithm.inc 33-40, in exact arithmetic.  The result is not
a number that can be converted to `size_t` if the interval is empty (`e = 0`), if the residual is not
positive (logarithm of 0), if the tolerance is not positive, or if `rho = 1`. Numbers too large for
`size_t` are not treated. -/
noncomputable def realDegNeeded (ritzv c e resid tol : ℝ) : Option ℕ :=
  open Classical in
  if e = 0 ∨ resid ≤ 0 ∨ tol ≤ 0 ∨ Real.log (codeRho ((ritzv - c) / e)) = 0 then none
  else some ⌈|Real.log (resid / tol) / Real.log (codeRho ((ritzv - c) / e))|⌉₊

/-- `rho_1`, `rho_k` of `solve`: algorithm.inc 500-503.  The root of a negative number is 0 here, NaN in
C++. -/
noncomputable def condRho (t : ℝ) : ℝ :=
  max |t - Real.sqrt (t * t - 1)| |t + Real.sqrt (t * t - 1)|

/-- Estimate of the condition number: algorithm.inc 494-509. -/
noncomputable def realCondEst (upperb lowerb ritz0 ritzk : ℝ) (d0 dmax : ℕ) : ℝ :=
  let cc := (upperb + lowerb) / 2
  let ee := (upperb - lowerb) / 2
  condRho ((ritzk - cc) / ee) ^ d0 * condRho ((ritz0 - cc) / ee) ^ (dmax - d0)

/-- A stable sort of `[0, u)` by key. -/
noncomputable def realSortIdx (u : ℕ) (key : ℕ → ℝ) (k : ℕ) : ℕ :=
  if h : k < u then (Tuple.sort (fun i : Fin u => key i) ⟨k, h⟩).val else k

/-- The library functions in exact arithmetic; the largest number and the error function are
parameters. -/
noncomputable def realPlat (maxVal : ℝ) (gauss : ℝ → ℝ) : Plat ℝ where
  maxVal := maxVal
  degNeeded := realDegNeeded
  condEst := realCondEst
  sortIdx := realSortIdx
  gauss := gauss

theorem realPlat_sorts (maxVal : ℝ) (gauss : ℝ → ℝ) : SortsIndices (realPlat maxVal gauss) := by
  intro u key
  refine ⟨fun k hk => ?_, fun k l hk hl h => ?_, fun k l hkl hl => ?_⟩
  · show realSortIdx u key k < u
    rw [realSortIdx, dif_pos hk]
    exact Fin.isLt _
  · have h' : realSortIdx u key k = realSortIdx u key l := h
    rw [realSortIdx, realSortIdx, dif_pos hk, dif_pos hl] at h'
    have := (Tuple.sort (fun i : Fin u => key i)).injective (Fin.ext h')
    exact congrArg Fin.val this
  · show key (realSortIdx u key k) ≤ key (realSortIdx u key l)
    rw [realSortIdx, realSortIdx, dif_pos (by omega), dif_pos hl]
    exact Tuple.monotone_sort (fun i : Fin u => key i) (show (⟨k, by omega⟩ : Fin u) ≤ ⟨l, hl⟩ from hkl)

theorem realPlat_keeps (maxVal : ℝ) (gauss : ℝ → ℝ) : SortKeepsSorted (realPlat maxVal gauss) := by
  intro u key hs k hk
  show realSortIdx u key k = k
  rw [realSortIdx, dif_pos hk]
  have : Tuple.sort (fun i : Fin u => key i) = Equiv.refl _ := by
    rw [Tuple.sort_eq_refl_iff_monotone]
    intro a b hab
    exact hs a b (Nat.zero_le _) hab b.2
  rw [this]
  rfl

end Verif
