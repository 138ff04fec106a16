/-
A tiny concrete backend over the rationals, used only in `example`s (non-vacuity checks).
The search space is a list of column labels; Rayleigh-Ritz and residuals are scripted.
-/
import Verif.Solver.Spec
import Mathlib.Data.Rat.Defs
import Mathlib.Algebra.Field.Rat
import Mathlib.Data.Rat.Lemmas
import Mathlib.Algebra.Order.Ring.Unbundled.Rat

namespace Verif.Toy

open Verif

/-- Insertion of an index into a list sorted by key (after equal keys). -/
def ins (key : ℕ → ℚ) (x : ℕ) : List ℕ → List ℕ
  | [] => [x]
  | y :: ys => if key x < key y then x :: y :: ys else y :: ins key x ys

/-- A stable sort of `[0, u)`. -/
def sortList (u : ℕ) (key : ℕ → ℚ) : List ℕ :=
  (List.range u).foldl (fun l x => ins key x l) []

/-- Library functions for the examples. -/
def plat : Plat ℚ where
  maxVal := 1000000
  degNeeded := fun ritz _ _ resid _ => if resid = 0 then none else some (resid.num.toNat + ritz.num.toNat)
  condEst := fun _ _ _ _ _ _ => 1
  sortIdx := fun u key k => (sortList u key)[k]?.getD 0
  gauss := fun _ => 1 / 2

/-- State of the toy backend: the columns (each a number) and the number of locked ones. -/
structure TS where
  cols : ℕ → ℚ
  nl : ℕ

/-- A toy backend: Rayleigh-Ritz overwrites the unlocked columns by the scripted numbers
`vals block` and returns them as values; the residual of a pair is a function of its value. -/
def ops (vals : ℕ → ℕ → ℚ) (resOf : ℚ → ℚ) (sym : Bool) : Chase ℚ TS where
  checkSymmetryEasy := fun s => (sym, s)
  start := fun s => { s with nl := 0 }
  finish := id
  initVecs := fun _ s => s
  qr := fun _ _ s => s
  lanczos1 := fun _ s => (10, s)
  lanczosN := fun m _ s =>
    ({ upperb := 10, theta := fun i => ((i % m : ℕ) : ℚ), tau := fun _ => 1 / 4, ritzV := fun _ => 0 }, s)
  lanczosDos := fun _ _ _ s => s
  shift := fun _ _ s => s
  hemm := fun _ _ _ _ s => s
  rr := fun b s => (vals b, { s with cols := writeAt s.cols s.nl b (vals b) })
  resd := fun f _ s => (fun i => resOf (f i), s)
  lock := fun k s => { s with nl := s.nl + k }
  swap := fun i j s => { s with cols := swapAt s.cols i j }

theorem ops_swaps (vals : ℕ → ℕ → ℚ) (resOf : ℚ → ℚ) (sym : Bool) (n : ℕ) :
    SwapsColumns (ops vals resOf sym) TS.cols n := fun _ _ _ _ _ => rfl

/-- Start columns of the toy backend. -/
def start : TS := { cols := fun i => i, nl := 0 }

end Verif.Toy
