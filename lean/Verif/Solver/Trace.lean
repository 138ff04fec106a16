/-
Recording the calls that the solver makes on the interface.  Part of the specification: the trace is
what an observer of the backend sees.
-/
import Verif.Solver.Sim

namespace Verif

variable {R S : Type*}

/-- Calls on the interface `chase::Chase<T>` (algorithm/interface.hpp), with their arguments. -/
inductive Call (R : Type*) where
  | checkSymmetryEasy
  | start
  | finish
  | initVecs (random : Bool)
  | qr (fixednev : ℕ) (cond : R)
  | lanczos1 (m : ℕ)
  | lanczosN (m numvec : ℕ)
  | lanczosDos (idx m : ℕ)
  | shift (c : R) (isunshift : Bool)
  | hemm (block : ℕ) (alpha beta : R) (offset : ℕ)
  | rr (block : ℕ)
  | resd (fixednev : ℕ)
  | lock (newConverged : ℕ)
  | swap (i j : ℕ)
  deriving DecidableEq

/-- A backend together with a recorder of all calls (oldest call first). -/
def traced (ops : Chase R S) : Chase R (S × List (Call R)) where
  checkSymmetryEasy := fun s => ((ops.checkSymmetryEasy s.1).1,
    ((ops.checkSymmetryEasy s.1).2, s.2 ++ [.checkSymmetryEasy]))
  start := fun s => (ops.start s.1, s.2 ++ [.start])
  finish := fun s => (ops.finish s.1, s.2 ++ [.finish])
  initVecs := fun b s => (ops.initVecs b s.1, s.2 ++ [.initVecs b])
  qr := fun k c s => (ops.qr k c s.1, s.2 ++ [.qr k c])
  lanczos1 := fun m s => ((ops.lanczos1 m s.1).1, ((ops.lanczos1 m s.1).2, s.2 ++ [.lanczos1 m]))
  lanczosN := fun m k s =>
    ((ops.lanczosN m k s.1).1, ((ops.lanczosN m k s.1).2, s.2 ++ [.lanczosN m k]))
  lanczosDos := fun i m z s => (ops.lanczosDos i m z s.1, s.2 ++ [.lanczosDos i m])
  shift := fun c b s => (ops.shift c b s.1, s.2 ++ [.shift c b])
  hemm := fun n a b o s => (ops.hemm n a b o s.1, s.2 ++ [.hemm n a b o])
  rr := fun b s => ((ops.rr b s.1).1, ((ops.rr b s.1).2, s.2 ++ [.rr b]))
  resd := fun f k s => ((ops.resd f k s.1).1, ((ops.resd f k s.1).2, s.2 ++ [.resd k]))
  lock := fun k s => (ops.lock k s.1, s.2 ++ [.lock k])
  swap := fun i j s => (ops.swap i j s.1, s.2 ++ [.swap i j])

/-- Recording does not influence the run. -/
theorem traced_sim (ops : Chase R S) : Sim (traced ops) ops (fun p s => p.1 = s) := by
  constructor <;> intros <;> subst_vars <;> simp [traced]

/-- Number of Rayleigh-Ritz calls. -/
def rrCalls : List (Call R) → ℕ
  | [] => 0
  | .rr _ :: t => rrCalls t + 1
  | _ :: t => rrCalls t

/-- Sum of the arguments of all `Lock` calls. -/
def lockSum : List (Call R) → ℕ
  | [] => 0
  | .lock k :: t => lockSum t + k
  | _ :: t => lockSum t

/-- Sum of the block sizes of all `HEMM` calls. -/
def hemmSum : List (Call R) → ℕ
  | [] => 0
  | .hemm n _ _ _ :: t => hemmSum t + n
  | _ :: t => hemmSum t

theorem rrCalls_append (a b : List (Call R)) : rrCalls (a ++ b) = rrCalls a + rrCalls b := by
  induction a with
  | nil => simp [rrCalls]
  | cons c t ih => cases c <;> simp [rrCalls, ih] <;> omega

theorem lockSum_append (a b : List (Call R)) : lockSum (a ++ b) = lockSum a + lockSum b := by
  induction a with
  | nil => simp [lockSum]
  | cons c t ih => cases c <;> simp [lockSum, ih] <;> omega

theorem hemmSum_append (a b : List (Call R)) : hemmSum (a ++ b) = hemmSum a + hemmSum b := by
  induction a with
  | nil => simp [hemmSum]
  | cons c t ih => cases c <;> simp [hemmSum, ih] <;> omega

end Verif
