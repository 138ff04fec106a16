/-
C49 and C56 for a whole solve on the distributed CPU backend: every process runs the algorithm itself, on
its own data, and meets the others in collective operations only (Backend/MpiSpmd).  No schedule gets
stuck, all schedules have the same length, and all of them end with the same results, which are those of
`solve` on the backend that treats the data of all processes at once (Backend/Mpi); what the other
theorems say about `solve` therefore holds for every schedule.
-/
import Verif.Backend.MpiSpmdProof

namespace Verif
namespace Mpi
namespace Spmd

open Verif.Spmd

variable {K : Type} [RCLike K] {N : ℕ} {r c : Layout N} {E : MEnv K}

omit [RCLike K] in
/-- What it means that process `p` ended with the outcome `x` of a solve: the values, residuals and numbers
`Solve` hands back, and the process's part of the data; or the failure. -/
def EndsWith {R s : Type} (part : s → ∀ p : Pos r c, Own K r c p) (x : Except Err (Outcome R s)) (p : Pos r c)
    (t : Prog (fun p => Except Err (Outcome R Unit) × Own K r c p) p) : Prop :=
  match x with
  | .ok out => t = .ret (.ok ⟨out.ritzv, out.resid, out.iterations, out.locked, ()⟩, part out.be p)
  | .error e => ∃ d, t = .ret (.error e, d)

/-! ### Any sequence of calls -/

/-- C56 for any program of calls: each process calls the interface with arguments that depend on the
answers it got so far.  All schedules that come to an end do so with the same results, those of the calls
performed one after another on the data of all processes. -/
theorem C56_calls (hc : RunsOk r c E.cRuns) (hb : RunsOk c r E.bRuns) {α : Type} (t : Script ℝ α)
    {s : Fam K r c} {g : GSt K N} (h : Rep s g) {n : ℕ} {u : Conf fun p => α × Own K r c p}
    (hr : Runs (fun p : Pos r c => prog E p t (s p.1 p.2)) n u) (hu : Final u) (i : Fin r.procs)
    (j : Fin c.procs) :
    ∀ p, u p = .ret ((t.run (opsAt E i j) s).1, (t.run (opsAt E i j) s).2 p.1 p.2) := by
  obtain ⟨x, s', ⟨n', h1⟩, h2⟩ := prog_gives hc hb t h
  intro p
  rw [same_end h1 (fun p => ⟨_, rfl⟩) hr hu, h2 i j]

/-- C49 for any program of calls: no process waits for ever. -/
theorem C49_calls_no_deadlock (hc : RunsOk r c E.cRuns) (hb : RunsOk c r E.bRuns) {α : Type}
    (t : Script ℝ α) {s : Fam K r c} {g : GSt K N} (h : Rep s g) {n : ℕ}
    {u : Conf fun p => α × Own K r c p}
    (hr : Runs (fun p : Pos r c => prog E p t (s p.1 p.2)) n u) : Final u ∨ ∃ v, Move u v := by
  obtain ⟨x, s', ⟨n', h1⟩, -⟩ := prog_gives hc hb t h
  exact no_deadlock h1 (fun p => ⟨_, rfl⟩) hr

/-! ### A solve -/

variable (P : Plat ℝ) (cfg : Config ℝ) (ritzv0 resid0 : ℕ → ℝ)

/-- C49 for a solve: whatever the schedule, some group of processes can go on until all have returned. -/
theorem C49_solve_no_deadlock (hc : RunsOk r c E.cRuns) (hb : RunsOk c r E.bRuns) {s : Fam K r c}
    {g : GSt K N} (h : Rep s g) {n : ℕ}
    {u : Conf fun p => Except Err (Outcome ℝ Unit) × Own K r c p}
    (hr : Runs (fun p : Pos r c => solveProg E P cfg ritzv0 resid0 p (s p.1 p.2)) n u) :
    Final u ∨ ∃ v, Move u v :=
  C49_calls_no_deadlock hc hb _ h hr

/-- C49 for a solve: some number of moves is the length of every complete schedule, and no schedule is
longer. -/
theorem C49_solve_runs_end (hc : RunsOk r c E.cRuns) (hb : RunsOk c r E.bRuns) {s : Fam K r c}
    {g : GSt K N} (h : Rep s g) :
    ∃ n, ∀ m u, Runs (fun p : Pos r c => solveProg E P cfg ritzv0 resid0 p (s p.1 p.2)) m u →
      m ≤ n ∧ (Final u → m = n) := by
  obtain ⟨x, s', ⟨n, h1⟩, -⟩ := prog_gives hc hb (solveT P cfg ritzv0 resid0) h
  refine ⟨n, fun m u hr => ?_⟩
  obtain ⟨n', rfl, h2⟩ := unique_end h1 (fun p => ⟨_, rfl⟩) hr
  refine ⟨Nat.le_add_right _ _, fun hu => ?_⟩
  cases h2 with
  | stop => rfl
  | more hm _ => exact absurd hm hu.no_move

/-- C56 for a solve: whatever the schedule, every process ends with the outcome that `solve` has on the
data of all processes, and with its part of the resulting data; so all processes get the same values,
residuals, number of rounds and number of converged pairs, or the same failure. -/
theorem C56_solve (hc : RunsOk r c E.cRuns) (hb : RunsOk c r E.bRuns) {s : Fam K r c} {g : GSt K N}
    (h : Rep s g) {n : ℕ} {u : Conf fun p => Except Err (Outcome ℝ Unit) × Own K r c p}
    (hr : Runs (fun p : Pos r c => solveProg E P cfg ritzv0 resid0 p (s p.1 p.2)) n u) (hu : Final u)
    (i : Fin r.procs) (j : Fin c.procs) (p : Pos r c) :
    EndsWith (fun (s' : Fam K r c) p => s' p.1 p.2) (solve P (opsAt E i j) cfg ritzv0 resid0 s) p (u p) := by
  have h1 := C56_calls hc hb _ h hr hu i j p
  rw [← solveT_run, h1]
  rcases (solveT P cfg ritzv0 resid0).run (opsAt E i j) s with ⟨e | o, s'⟩
  · exact ⟨_, rfl⟩
  · rfl

/-! ### The hypotheses are met, and matter -/

section example_

/-- On a 3 x 2 grid with different block sizes a solve of a matrix that is not diagonal has a complete
schedule, at whose end process (2, 1) has performed at least one round. -/
example : ∃ (g : GSt ℂ 7) (n : ℕ) (u : Conf _) (out : Outcome ℝ Unit) (d : _),
    g.H = exMat ℂ ∧ Rep (scatter (cyclicLayout exRow) (cyclicLayout exCol) g) g ∧
    Runs (fun p => solveProg (exMEnv ℂ) (realPlat 1 id) (exCfg 4) (fun _ => 0) (fun _ => 0) p
      (scatter (cyclicLayout exRow) (cyclicLayout exCol) g p.1 p.2)) n u ∧ Final u ∧
    u ((2 : Fin 3), (1 : Fin 2)) = .ret (.ok out, d) ∧ 0 < out.iterations := by
  let g : GSt ℂ 7 := ⟨⟨exMat ℂ, fun _ _ => 0, fun _ _ => 0, fun _ _ => 0, fun _ _ => 0, .bAc, 0, true⟩, true⟩
  obtain ⟨out, ho, hpos⟩ := C51_approx_solve_defined (realPlat 1 id)
    (opsAt (r := cyclicLayout exRow) (c := cyclicLayout exCol) (exMEnv ℂ) (2 : Fin 3) (1 : Fin 2)) (exCfg 4) rfl
    (by decide) (by decide) (by decide) (by decide) (by decide) (by decide) (by decide)
    (fun h => absurd h (by decide)) (fun _ => 0) (fun _ => 0) (scatter _ _ g)
  have hpos := hpos (fun _ => C09_mpi_hermitian_accepted (exRuns ℂ).1 (exRuns ℂ).2 (fun _ _ _ _ => rfl)
    exMat_hermitian (le_refl _)) (by decide)
  obtain ⟨x, s', ⟨n, h1⟩, -⟩ := prog_gives (exRuns ℂ).1 (exRuns ℂ).2
    (solveT (realPlat 1 id) (exCfg 4) (fun _ => 0) (fun _ => 0))
    (scatter_rep (cyclicLayout exRow) (cyclicLayout exCol) g)
  have he := C56_solve (realPlat 1 id) (exCfg 4) (fun _ => 0) (fun _ => 0) (exRuns ℂ).1 (exRuns ℂ).2
    (scatter_rep (cyclicLayout exRow) (cyclicLayout exCol) g) h1 (fun p => ⟨_, rfl⟩) (2 : Fin 3) (1 : Fin 2)
    ((2 : Fin 3), (1 : Fin 2))
  rw [ho] at he
  exact ⟨g, n, _, _, _, rfl, scatter_rep _ _ _, h1, fun p => ⟨_, rfl⟩, he, hpos⟩

/-- Programs that do not agree can wait for ever: if one process of a column leaves before the reduction,
the other one is stuck. -/
example : ∃ u : Conf (fun _ : Pos (cyclicLayout exRow) (cyclicLayout exCol) => ℕ), ¬ Final u ∧ ∀ v, ¬ Move u v := by
  let u : Conf (fun _ : Pos (cyclicLayout exRow) (cyclicLayout exCol) => ℕ) := fun p =>
    if p.1.val = 0 then .ret 0 else .op (sumCol fun _ => ℕ) (1 : ℕ) fun x => .ret x
  have h0 : ∀ j : Fin (cyclicLayout exCol).procs, u ((0 : Fin 3), j) = .ret 0 := fun j => if_pos rfl
  have h1 : ∀ p : Pos (cyclicLayout exRow) (cyclicLayout exCol), p.1.val ≠ 0 →
    u p = .op (sumCol fun _ => ℕ) (1 : ℕ) fun x => .ret x := fun p hp => if_neg hp
  refine ⟨u, fun hf => ?_, ?_⟩
  · obtain ⟨a, ha⟩ := hf ((1 : Fin 3), (0 : Fin 2))
    rw [h1 _ (by decide)] at ha
    cases ha
  · rintro v ⟨p, M, A, cc, m, k, hs, -, -⟩
    have hp := hs p (cc.equiv.refl p)
    by_cases hp0 : p.1.val = 0
    · rw [show u p = .ret 0 from if_pos hp0] at hp
      cases hp
    · rw [h1 p hp0] at hp
      injection hp with hM hA hcc _ _
      subst hM hA
      have hcc := eq_of_heq hcc
      subst hcc
      have := hs ((0 : Fin 3), p.2) rfl
      rw [h0] at this
      cases this

end example_

end Spmd
end Mpi
end Verif
