/-
C77 for the multi-GPU backend, staged and CUDA-aware: in any arithmetic, the processes make the same decisions, end
together and agree in their results, provided that a reduction gives the same bits on every communicator.  Nothing is
assumed about the kernels, and nothing about what the processes' other buffers hold when the solver is called.
-/
import Verif.Rounded.ParGpuGlobal
import Verif.Rounded.ParStuck

namespace Verif
namespace Rounded
namespace ParGpu

open Verif.Spmd
open Mpi (Layout RunsOk GSt)
open Mpi.Spmd (Pos)
open Par (Reds Red1 Reproducible)

variable {K R : Type} {N : ℕ} {r c : Layout N} {red : Reds K R r c} {E : GEnv K R}

/-- Process `p` ended with the outcome `x` of a solve: the values, residuals and numbers `Solve` hands back, and the
process's part of the data; or the failure. -/
def EndsWith (x : Except Err (Outcome R (GG K R r c))) (p : Pos r c)
    (t : Prog (fun p => Except Err (Outcome R Unit) × GOwn K R r c p) p) : Prop :=
  match x with
  | .ok out => t = .ret (.ok ⟨out.ritzv, out.resid, out.iterations, out.locked, ()⟩, out.be.part p)
  | .error e => ∃ d, t = .ret (.error e, d)

/-- Some schedule of any sequence of calls ends with the same answer on every process. -/
theorem calls_give [Neg R] [Zero R] (hc : RunsOk r c E.cRuns) (hb : RunsOk c r E.bRuns) (hred : Reproducible red)
    {α : Type} (t : Script R α) (s : GG K R r c) :
    (∃ (a : α) (s' : GG K R r c), Gives (fun p : Pos r c => prog red E p t (s.part p)) fun p => (a, s'.part p)) ∨
      IsEmpty (Pos r c) := by
  rcases isEmpty_or_nonempty (Pos r c) with h | ⟨⟨p⟩⟩
  · exact Or.inr h
  · rw [hred.eq_const p]
    exact Or.inl ⟨_, _, prog_gives _ E hc hb t s⟩

variable [Add R] [Sub R] [Mul R] [Div R] [Neg R] [Zero R] [One R] [NatCast R] [LT R] [DecidableLT R]
  (P : Plat R) (cfg : Config R) (ritzv0 resid0 : ℕ → R)

/-- **C77**, multi-GPU (no process waits for ever).  The processes start with their parts of one matrix and one block
of vectors behind the pointers, and anything in their other buffers. -/
theorem C77_mgpu_no_deadlock_partial (hc : RunsOk r c E.cRuns) (hb : RunsOk c r E.bRuns) (hred : Reproducible red)
    (s : GG K R r c) {n : ℕ} {u : Conf fun p => Except Err (Outcome R Unit) × GOwn K R r c p}
    (hr : Runs (fun p : Pos r c => solveProg red E P cfg ritzv0 resid0 p (s.part p)) n u) :
    Final u ∨ ∃ v, Move u v := by
  rcases calls_give hc hb hred (solveT P cfg ritzv0 resid0) s with ⟨a, g', m, h1⟩ | h
  · exact no_deadlock h1 (fun p => ⟨_, rfl⟩) hr
  · exact Or.inl fun p => (h.false p).elim

/-- **C77**, multi-GPU (every schedule ends). -/
theorem C77_mgpu_runs_end_partial (hc : RunsOk r c E.cRuns) (hb : RunsOk c r E.bRuns) (hred : Reproducible red)
    (s : GG K R r c) :
    ∃ n, ∀ m u, Runs (fun p : Pos r c => solveProg red E P cfg ritzv0 resid0 p (s.part p)) m u →
      m ≤ n ∧ (Final u → m = n) := by
  rcases calls_give hc hb hred (solveT P cfg ritzv0 resid0) s with ⟨a, g', n, h1⟩ | h
  · refine ⟨n, fun m u hr => ?_⟩
    obtain ⟨n', rfl, h2⟩ := unique_end h1 (fun p => ⟨_, rfl⟩) hr
    refine ⟨Nat.le_add_right _ _, fun hu => ?_⟩
    cases h2 with
    | stop => rfl
    | more hm _ => exact absurd hm hu.no_move
  · refine ⟨0, fun m u hr => ?_⟩
    cases hr with
    | stop => exact ⟨le_rfl, fun _ => rfl⟩
    | more hm _ => obtain ⟨p, -⟩ := hm; exact (h.false p).elim

/-- **C77**, multi-GPU (all processes agree): one outcome, bit by bit, for every process in every complete schedule;
the vectors behind the pointers and the matrices are the parts of one block and one matrix. -/
theorem C77_mgpu_same_results_partial (hc : RunsOk r c E.cRuns) (hb : RunsOk c r E.bRuns) (hred : Reproducible red)
    (s : GG K R r c) :
    ∃ x : Except Err (Outcome R (GG K R r c)), ∀ n u,
      Runs (fun p : Pos r c => solveProg red E P cfg ritzv0 resid0 p (s.part p)) n u → Final u →
      ∀ p, EndsWith x p (u p) := by
  rcases calls_give hc hb hred (solveT P cfg ritzv0 resid0) s with ⟨a, g', n, h1⟩ | h
  · rcases a with e | o
    · refine ⟨.error e, fun m u hr hu p => ?_⟩
      rw [same_end h1 (fun p => ⟨_, rfl⟩) hr hu]
      exact ⟨_, rfl⟩
    · refine ⟨.ok ⟨o.ritzv, o.resid, o.iterations, o.locked, g'⟩, fun m u hr hu p => ?_⟩
      rw [same_end h1 (fun p => ⟨_, rfl⟩) hr hu]
      rfl
  · exact ⟨.error .oob, fun m u hr hu p => (h.false p).elim⟩

/-- The outcome is that of `solve` on the backend `ggOps`, a single program on global vectors. -/
theorem C77_mgpu_outcome_partial (hc : RunsOk r c E.cRuns) (hb : RunsOk c r E.bRuns) (T : Red1 K R r c)
    (s : GG K R r c) {n : ℕ} {u : Conf fun p => Except Err (Outcome R Unit) × GOwn K R r c p}
    (hr : Runs (fun p : Pos r c => solveProg T.const E P cfg ritzv0 resid0 p (s.part p)) n u) (hu : Final u)
    (p : Pos r c) : EndsWith (solve P (ggOps T E) cfg ritzv0 resid0 s) p (u p) := by
  obtain ⟨m, h1⟩ := prog_gives T E hc hb (solveT P cfg ritzv0 resid0) s
  rw [same_end h1 (fun p => ⟨_, rfl⟩) hr hu, ← solveT_run]
  rcases (solveT P cfg ritzv0 resid0).run (ggOps T E) s with ⟨e | o, s'⟩
  · exact ⟨_, rfl⟩
  · rfl

/-! ### A run -/

namespace Two
open Par.Stuck (rowL colL)

/-- The environment of `Par.Stuck` on devices; the kernel for residuals subtracts nothing. -/
noncomputable def env (aware : Bool) : GEnv (Fp 53) (Fp 53) :=
  { Par.Stuck.env with aware := aware, copyDone := true, residual := fun _ b _ => Par.Stuck.env.kern.normp2 b }

/-- The problem of `Par.Stuck`; the other buffers hold different numbers on different processes, and so does the flag
of the Householder QR. -/
def start : GG (Fp 53) (Fp 53) rowL colL where
  g := Par.Stuck.glob
  dH := fun _ _ => 0
  oth := fun p => ⟨fun _ _ => if p.2.val = 0 then 0 else 1, fun _ _ => 1, fun _ _ => if p.1.val = 0 then 1 else 0,
    fun _ _ => 0⟩
  ritz := fun _ => 1
  hh := fun p => decide (p.1.val = 0)

/-- Non-vacuity: double precision on two times three processes, in both variants; a complete schedule exists, all
processes return successfully after the same positive number of rounds, and they start with different buffers. -/
example (aware : Bool) : Reproducible Par.Stuck.left.const ∧ RunsOk rowL colL (env aware).cRuns ∧
    RunsOk colL rowL (env aware).bRuns ∧ (start.part ((0 : Fin 2), (0 : Fin 3))).oth.B 0 = (fun _ => 1) ∧
    (start.part ((1 : Fin 2), (0 : Fin 3))).oth.B 0 = (fun _ => 0) ∧
    ∃ n u, Runs (fun p : Pos rowL colL => solveProg Par.Stuck.left.const (env aware) Par.Stuck.plat
      (Par.Stuck.cfg1 Par.Stuck.tol) Par.Stuck.val0 (fun _ => 0) p (start.part p)) n u ∧ Final u ∧
    ∃ k, 0 < k ∧ ∀ p, ∃ out d, u p = .ret (.ok out, d) ∧ out.iterations = k := by
  obtain ⟨out, ho, hpos⟩ := C51_approx_solve_defined Par.Stuck.plat (ggOps Par.Stuck.left (env aware))
    (Par.Stuck.cfg1 Par.Stuck.tol) rfl (by decide) (by decide) (by decide) (by decide) (by decide) (by decide) (by decide)
    (fun h => absurd h (by decide)) Par.Stuck.val0 (fun _ => 0) start
  obtain ⟨n, h⟩ := prog_gives Par.Stuck.left (env aware) Par.Stuck.envRuns.1 Par.Stuck.envRuns.2
    (solveT Par.Stuck.plat (Par.Stuck.cfg1 Par.Stuck.tol) Par.Stuck.val0 fun _ => 0) start
  refine ⟨.const _, Par.Stuck.envRuns.1, Par.Stuck.envRuns.2, rfl, rfl, n, _, h, fun p => ⟨_, rfl⟩, out.iterations,
    hpos (fun h => absurd h (by decide)) (by decide), fun p => ?_⟩
  have he := C77_mgpu_outcome_partial (E := env aware) Par.Stuck.plat (Par.Stuck.cfg1 Par.Stuck.tol) Par.Stuck.val0
    (fun _ => 0) Par.Stuck.envRuns.1 Par.Stuck.envRuns.2 Par.Stuck.left start h (fun p => ⟨_, rfl⟩) p
  rw [ho] at he
  exact ⟨_, _, he, rfl⟩

end Two
end ParGpu
end Rounded
end Verif
