/-
Specification of the Chebyshev filter, and the contract of a backend that multiplies between two
buffers.  Exact arithmetic; the scalars are real or complex numbers (`RCLike`).
-/
import Verif.Solver.Model
import Mathlib.RingTheory.Polynomial.Chebyshev
import Mathlib.Analysis.RCLike.Basic
import Mathlib.LinearAlgebra.Matrix.Hermitian

namespace Verif

open Polynomial

/-- Centre of the damped interval. -/
noncomputable def centre (lower upper : ℝ) : ℝ := (upper + lower) / 2

/-- Half width of the damped interval. -/
noncomputable def halfWidth (lower upper : ℝ) : ℝ := (upper - lower) / 2

/-- The filter polynomial of degree `d`: `p_d(x) = T_d((x-c)/e) / T_d((lambda_1-c)/e)` with
`T_d` the Chebyshev polynomial of the first kind. -/
noncomputable def filterPoly (lambda1 lower upper : ℝ) (d : ℕ) : ℝ[X] :=
  C (1 / (Chebyshev.T ℝ d).eval ((lambda1 - centre lower upper) / halfWidth lower upper)) *
    (Chebyshev.T ℝ d).comp (C (1 / halfWidth lower upper) * (X - C (centre lower upper)))

/-- Contract of a backend that multiplies from a source buffer `x` to a target buffer `y`, which then
change roles.  `mat` is the matrix, `nl` the number of locked columns (multiplications start behind
them), `good` a condition on the state under which the contract holds. -/
structure TwoBuffer {S K : Type*} [RCLike K] {N : ℕ} (ops : Chase ℝ S)
    (mat : S → Matrix (Fin N) (Fin N) K) (x y : S → ℕ → Fin N → K) (nl : S → ℕ)
    (good : S → Prop) : Prop where
  shift : ∀ c b s, good s → good (ops.shift c b s) ∧
    mat (ops.shift c b s) = mat s + c • (1 : Matrix (Fin N) (Fin N) K) ∧
    x (ops.shift c b s) = x s ∧ y (ops.shift c b s) = y s ∧ nl (ops.shift c b s) = nl s
  hemm : ∀ n α β off s, good s → good (ops.hemm n α β off s) ∧
    mat (ops.hemm n α β off s) = mat s ∧ nl (ops.hemm n α β off s) = nl s ∧
    y (ops.hemm n α β off s) = x s ∧
    ∀ j, x (ops.hemm n α β off s) j =
      if nl s + off ≤ j ∧ j < nl s + off + n then α • (mat s).mulVec (x s j) + β • y s j
      else y s j

end Verif
