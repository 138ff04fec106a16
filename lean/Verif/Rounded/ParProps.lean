/-
C77: in any arithmetic, the processes of the distributed CPU backend make the same decisions, end together and agree in
their results, provided that a reduction gives the same bits on every communicator.  The numbers in this file are
arbitrary: nothing is assumed about the kernels, the type of the reals or its order.
-/
import Verif.Rounded.ParProof
import Verif.Rounded.Fp
import Verif.Backend.MpiSpmdProps

namespace Verif
namespace Rounded
namespace Par

open Verif.Spmd
open Mpi (Layout RunsOk GSt scatter cyclicLayout)
open Mpi.Spmd (Pos Own EndsWith)

variable {K R : Type} {N : ℕ} {r c : Layout N}

/-- The same contributions give the same sum on every communicator: on all columns of the grid, and on all rows. -/
structure Reproducible (red : Reds K R r c) : Prop where
  colK : ∀ j j' {ι : Type} (x : Fin r.procs → ι → K), red.colK j x = red.colK j' x
  rowK : ∀ i i' {ι : Type} (x : Fin c.procs → ι → K), red.rowK i x = red.rowK i' x
  colR : ∀ j j' {ι : Type} (x : Fin r.procs → ι → R), red.colR j x = red.colR j' x
  rowR : ∀ i i' {ι : Type} (x : Fin c.procs → ι → R), red.rowR i x = red.rowR i' x

theorem Reproducible.const (T : Red1 K R r c) : Reproducible T.const :=
  ⟨fun _ _ _ _ => rfl, fun _ _ _ _ => rfl, fun _ _ _ _ => rfl, fun _ _ _ _ => rfl⟩

/-- The reduction of all communicators is that of those of process `p`. -/
theorem Reproducible.eq_const {red : Reds K R r c} (h : Reproducible red) (p : Pos r c) :
    red = Red1.const ⟨red.colK p.2, red.rowK p.1, red.colR p.2, red.rowR p.1⟩ := by
  obtain ⟨h1, h2, h3, h4⟩ := h
  cases red with
  | mk a b a' b' =>
    unfold Red1.const
    congr 1
    · funext j ι x; exact h1 j p.2 x
    · funext i ι x; exact h2 i p.1 x
    · funext j ι x; exact h3 j p.2 x
    · funext i ι x; exact h4 i p.1 x

variable {red : Reds K R r c} {E : DEnv K R}

/-! ### Any sequence of calls -/

/-- Some schedule of any sequence of calls ends with the same answer on every process. -/
theorem calls_give [Neg R] [Zero R] (hc : RunsOk r c E.cRuns) (hb : RunsOk c r E.bRuns) (hred : Reproducible red)
    {α : Type} (t : Script R α) (g : GSt K N) :
    (∃ (a : α) (g' : GSt K N), Gives (fun p : Pos r c => prog red E p t (scatter r c g p.1 p.2))
      fun p => (a, scatter r c g' p.1 p.2)) ∨ IsEmpty (Pos r c) := by
  rcases isEmpty_or_nonempty (Pos r c) with h | ⟨⟨p⟩⟩
  · exact Or.inr h
  · rw [hred.eq_const p]
    exact Or.inl ⟨_, _, prog_gives _ E hc hb t g⟩

variable [Add R] [Sub R] [Mul R] [Div R] [Neg R] [Zero R] [One R] [NatCast R] [LT R] [DecidableLT R]
  (P : Plat R) (cfg : Config R) (ritzv0 resid0 : ℕ → R)

/-- **C77** (no process waits for ever) For every arithmetic and all kernels, if the reductions are reproducible and
the processes start with their parts of one matrix and one block of vectors: in whatever order the groups of processes
advance, some group can go on until all processes have returned from the solve. -/
theorem C77_no_deadlock_partial (hc : RunsOk r c E.cRuns) (hb : RunsOk c r E.bRuns) (hred : Reproducible red)
    (g : GSt K N) {n : ℕ} {u : Conf fun p => Except Err (Outcome R Unit) × Own K r c p}
    (hr : Runs (fun p : Pos r c => solveProg red E P cfg ritzv0 resid0 p (scatter r c g p.1 p.2)) n u) :
    Final u ∨ ∃ v, Move u v := by
  rcases calls_give hc hb hred (solveT P cfg ritzv0 resid0) g with ⟨a, g', m, h1⟩ | h
  · exact no_deadlock h1 (fun p => ⟨_, rfl⟩) hr
  · exact Or.inl fun p => (h.false p).elim

/-- **C77** (every schedule ends) Some number of moves is the length of every complete schedule, and no schedule is
longer. -/
theorem C77_runs_end_partial (hc : RunsOk r c E.cRuns) (hb : RunsOk c r E.bRuns) (hred : Reproducible red)
    (g : GSt K N) :
    ∃ n, ∀ m u, Runs (fun p : Pos r c => solveProg red E P cfg ritzv0 resid0 p (scatter r c g p.1 p.2)) m u →
      m ≤ n ∧ (Final u → m = n) := by
  rcases calls_give hc hb hred (solveT P cfg ritzv0 resid0) g with ⟨a, g', n, h1⟩ | h
  · refine ⟨n, fun m u hr => ?_⟩
    obtain ⟨n', rfl, h2⟩ := unique_end h1 (fun p => ⟨_, rfl⟩) hr
    refine ⟨Nat.le_add_right _ _, fun hu => ?_⟩
    cases h2 with
    | stop => rfl
    | more hm _ => exact absurd hm hu.no_move
  · refine ⟨0, fun m u hr => ?_⟩
    cases hr with
    | stop => exact ⟨le_rfl, fun _ => rfl⟩
    | more hm _ => obtain ⟨p, -⟩ := hm; exact (h.false p).elim

/-- **C77** (all processes agree) There is one outcome, with which every process ends in every complete schedule: the
same values, residuals, number of rounds and number of converged pairs, bit by bit, or the same failure; and the
vectors and matrices left on the processes are the parts of one block and one matrix. -/
theorem C77_same_results_partial (hc : RunsOk r c E.cRuns) (hb : RunsOk c r E.bRuns) (hred : Reproducible red)
    (g : GSt K N) :
    ∃ x : Except Err (Outcome R (GSt K N)), ∀ n u,
      Runs (fun p : Pos r c => solveProg red E P cfg ritzv0 resid0 p (scatter r c g p.1 p.2)) n u → Final u →
      ∀ p, EndsWith (fun g' p => scatter r c g' p.1 p.2) x p (u p) := by
  rcases calls_give hc hb hred (solveT P cfg ritzv0 resid0) g with ⟨a, g', n, h1⟩ | h
  · rcases a with e | o
    · refine ⟨.error e, fun m u hr hu p => ?_⟩
      rw [same_end h1 (fun p => ⟨_, rfl⟩) hr hu]
      exact ⟨_, rfl⟩
    · refine ⟨.ok ⟨o.ritzv, o.resid, o.iterations, o.locked, g'⟩, fun m u hr hu p => ?_⟩
      rw [same_end h1 (fun p => ⟨_, rfl⟩) hr hu]
      rfl
  · exact ⟨.error .oob, fun m u hr hu p => (h.false p).elim⟩

/-- The outcome is that of `solve` on the backend `gOps`, a single program on global vectors; so what is proved of
`solve` for every backend holds for the processes, whatever the arithmetic. -/
theorem C77_outcome_partial (hc : RunsOk r c E.cRuns) (hb : RunsOk c r E.bRuns) (T : Red1 K R r c) (g : GSt K N)
    {n : ℕ} {u : Conf fun p => Except Err (Outcome R Unit) × Own K r c p}
    (hr : Runs (fun p : Pos r c => solveProg T.const E P cfg ritzv0 resid0 p (scatter r c g p.1 p.2)) n u)
    (hu : Final u) (p : Pos r c) :
    EndsWith (fun g' p => scatter r c g' p.1 p.2) (solve P (gOps T E) cfg ritzv0 resid0 g) p (u p) := by
  obtain ⟨m, h1⟩ := prog_gives T E hc hb (solveT P cfg ritzv0 resid0) g
  rw [same_end h1 (fun p => ⟨_, rfl⟩) hr hu, ← solveT_run]
  rcases (solveT P cfg ritzv0 resid0).run (gOps T E) g with ⟨e | o, s'⟩
  · exact ⟨_, rfl⟩
  · rfl

end Par
end Rounded
end Verif
