/-
A build with assertions: a call of the backend in which `assert` meets a false condition ends the program.
-/
import Verif.Solver.Script
import Verif.Solver.Props
import Verif.Solver.Sim
import Verif.Solver.Watch

set_option linter.unusedSectionVars false

namespace Verif

variable {R : Type} {S : Type*} {α : Type}

/-- The program performed on a backend in a build with assertions.  `fails q s`: during the call `q` of
the interface, made in the state `s`, an assertion does not hold; then the program is ended by `abort()`
(`none`). -/
noncomputable def Script.runAsserting (ops : Chase R S) (fails : Req R → S → Prop) :
    Script R α → S → Option (α × S)
  | .ret a, s => some (a, s)
  | .ask q k, s =>
    open Classical in
    if fails q s then none
    else (k (q.run ops s).1).runAsserting ops fails (q.run ops s).2

/-- A run that reaches its end met no failing assertion; it is a run of every backend that does the same
in calls without a failing assertion. -/
theorem Script.runAsserting_some {ops ops' : Chase R S} {fails : Req R → S → Prop}
    (ha : ∀ q s, ¬ fails q s → q.run ops s = q.run ops' s) {t : Script R α} {s : S} {x : α × S}
    (h : t.runAsserting ops fails s = some x) : t.run ops' s = x := by
  induction t generalizing s with
  | ret a =>
    rw [Script.runAsserting] at h
    exact Option.some.inj h
  | ask q k ih =>
    rw [Script.runAsserting] at h
    by_cases hf : fails q s
    · rw [if_pos hf] at h; cases h
    · rw [if_neg hf, ha q s hf] at h
      exact ih _ h

/-- Without failing assertions the run is the one of a build without assertions. -/
theorem Script.runAsserting_never {ops : Chase R S} {fails : Req R → S → Prop}
    (hn : ∀ q s, ¬ fails q s) (t : Script R α) (s : S) :
    t.runAsserting ops fails s = some (t.run ops s) := by
  induction t generalizing s with
  | ret a => rfl
  | ask q k ih =>
    rw [Script.runAsserting, if_neg (hn q s)]
    exact ih _ _

/-- Watching does not influence whether a run is aborted. -/
theorem Script.runAsserting_watch {ops : Chase R S} {fails : Req R → S → Prop} {bad : ℕ → R → S → Prop}
    {t : Script R α} {s : S} {p : Prop} {x : α × S} (h : t.runAsserting ops fails s = some x) :
    ∃ y, t.runAsserting (watch bad ops) (fun q s => fails q s.1) (s, p) = some y := by
  induction t generalizing s p with
  | ret a => exact ⟨_, rfl⟩
  | ask q k ih =>
    rw [Script.runAsserting] at h ⊢
    by_cases hf : fails q s
    · rw [if_pos hf] at h; cases h
    · rw [if_neg hf] at h
      rw [if_neg (show ¬ fails q (s, p).1 from hf)]
      have e : (q.run (watch bad ops) (s, p)).1 = (q.run ops s).1 ∧
          (q.run (watch bad ops) (s, p)).2.1 = (q.run ops s).2 := by cases q <;> exact ⟨rfl, rfl⟩
      obtain ⟨y, hy⟩ := ih (q.run ops s).1 (p := (q.run (watch bad ops) (s, p)).2.2) h
      rw [e.1]
      exact ⟨y, by rw [← hy, ← e.2]⟩

section
variable [Add R] [Sub R] [Mul R] [Div R] [Neg R] [Zero R] [One R] [NatCast R] [LT R] [DecidableLT R]

/-- `Solve` in a build with assertions (`asserts = true`) or in one compiled with `NDEBUG`
(`asserts = false`), where `assert` does nothing.  `none`: the program is aborted. -/
noncomputable def solveBuild (asserts : Bool) (P : Plat R) (ops : Chase R S) (fails : Req R → S → Prop)
    (cfg : Config R) (ritzv0 resid0 : ℕ → R) (be : S) : Option (Except Err (Outcome R S)) :=
  if asserts then
    ((solveT P cfg ritzv0 resid0).runAsserting ops fails be).map (Script.joinE Outcome.with)
  else some (solve P ops cfg ritzv0 resid0 be)

/-- A solve that is not aborted is a solve of every backend that does the same in calls without a failing
assertion. -/
theorem solveBuild_some {P : Plat R} {ops ops' : Chase R S} {fails : Req R → S → Prop}
    {cfg : Config R} {ritzv0 resid0 : ℕ → R} {be : S} {x : Except Err (Outcome R S)}
    (ha : ∀ q s, ¬ fails q s → q.run ops s = q.run ops' s)
    (h : solveBuild true P ops fails cfg ritzv0 resid0 be = some x) :
    solve P ops' cfg ritzv0 resid0 be = x := by
  rw [solveBuild, if_pos rfl, Option.map_eq_some_iff] at h
  obtain ⟨y, hy, rfl⟩ := h
  rw [← solveT_run, Script.runAsserting_some ha hy]

/-- A solve that is not aborted avoids the same situations on both backends. -/
theorem solveBuild_avoids {P : Plat R} {ops ops' : Chase R S} {fails : Req R → S → Prop}
    {bad : ℕ → R → S → Prop} {cfg : Config R} {ritzv0 resid0 : ℕ → R} {be : S}
    {x : Except Err (Outcome R S)} (ha : ∀ q s, ¬ fails q s → q.run ops s = q.run ops' s)
    (h : solveBuild true P ops fails cfg ritzv0 resid0 be = some x)
    (hq : QrAvoids P ops cfg ritzv0 resid0 be bad) : QrAvoids P ops' cfg ritzv0 resid0 be bad := by
  rw [solveBuild, if_pos rfl, Option.map_eq_some_iff] at h
  obtain ⟨y, hy, -⟩ := h
  obtain ⟨z, hz⟩ := Script.runAsserting_watch (bad := bad) (p := False) hy
  have h1 : solveBuild true P (watch bad ops) (fun q s => fails q s.1) cfg ritzv0 resid0 (be, False) =
      some (Script.joinE Outcome.with z) := by
    rw [solveBuild, if_pos rfl, hz]; rfl
  have e1 := solveBuild_some (ops' := watch bad ops) (fun _ _ _ => rfl) h1
  have e2 := solveBuild_some (ops' := watch bad ops') (fun q s hs => by
    have := ha q s.1 hs
    cases q
    case checkSymmetryEasy | lanczos1 | lanczosN | rr | resd =>
      exact congrArg (fun w => (w.1, (w.2, s.2))) this
    case qr k c => exact congrArg (fun w => ((), (w.2, s.2 ∨ bad k c s.1))) this
    all_goals exact congrArg (fun w => ((), (w.2, s.2))) this) h1
  intro o ho
  exact hq o (by rw [e1, ← e2, ho])

/-- Without failing assertions both builds do the same. -/
theorem solveBuild_never {P : Plat R} {ops : Chase R S} {fails : Req R → S → Prop}
    (hn : ∀ q s, ¬ fails q s) (asserts : Bool) (cfg : Config R) (ritzv0 resid0 : ℕ → R) (be : S) :
    solveBuild asserts P ops fails cfg ritzv0 resid0 be = some (solve P ops cfg ritzv0 resid0 be) := by
  cases asserts
  · rfl
  · rw [solveBuild, if_pos rfl, Script.runAsserting_never hn, Option.map_some, solveT_run]

end
end Verif
