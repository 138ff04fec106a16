/-
C51: solves that never meet undefined behaviour.
-/
import Verif.Solver.FilterProps
import Verif.Solver.Props

set_option linter.unusedSectionVars false

namespace Verif

variable {R S : Type*} [Add R] [Sub R] [Mul R] [Div R] [Neg R] [Zero R] [One R] [NatCast R] [LT R] [DecidableLT R]

/-- One round succeeds if the degree formula always gives a number. -/
theorem iter_succeeds (P : Plat R) (ops : Chase R S) (cfg : Config R)
    (hmax : Even cfg.maxDeg) (h1 : 1 ≤ cfg.N) (h2 : 1 ≤ cfg.deg) (h3 : 2 ≤ cfg.maxDeg)
    (h4 : 1 ≤ cfg.degExtra)
    (hopt : cfg.optimization = true → ∀ a b c d e, P.degNeeded a b c d e ≠ none)
    {ritzv0 resid0 : ℕ → R} {be : S} {st : St R S}
    (hr : Reach P ops cfg ritzv0 resid0 be st) (hrun : running cfg st) :
    ∃ st', iter P ops cfg st = .ok st' := by
  have ho : ∃ st1, optimise P ops cfg (updateBounds (cfg.nev + cfg.nex) st) = .ok st1 := by
    unfold optimise
    split_ifs with h
    · obtain ⟨r, hc⟩ := (C16_succeeds_iff P ops cfg).mpr
        ⟨(show cfg.nex < (updateBounds (cfg.nev + cfg.nex) st).unconverged from hrun.1),
          fun i _ => hopt h.1 _ _ _ _ _⟩
      rw [hc]
      exact ⟨_, rfl⟩
    · exact ⟨_, rfl⟩
  obtain ⟨st1, ho⟩ := ho
  obtain ⟨r, hf⟩ := C15_solve_filter_safe_partial P ops cfg hmax h1 h2 h3 h4 ritzv0 resid0 be st st1
    hr hrun ho
  unfold iter
  rw [ho]
  dsimp only
  rw [hf]
  exact ⟨_, rfl⟩

theorem solveLoop_succeeds (P : Plat R) (ops : Chase R S) (cfg : Config R)
    {ritzv0 resid0 : ℕ → R} {be : S}
    (hit : ∀ st, Reach P ops cfg ritzv0 resid0 be st → running cfg st →
      ∃ st', iter P ops cfg st = .ok st') (n : ℕ) :
    ∀ st, Reach P ops cfg ritzv0 resid0 be st → cfg.maxIter - st.iteration ≤ n →
      ∃ st', solveLoop P ops cfg st = .ok st' := by
  induction n with
  | zero =>
    intro st _ hn
    rw [solveLoop, dif_neg (fun h => by have := h.2; omega)]
    exact ⟨_, rfl⟩
  | succ n ih =>
    intro st hr hn
    rw [solveLoop]
    by_cases h : running cfg st
    · rw [dif_pos h]
      obtain ⟨st', hs⟩ := hit st hr h
      have := iter_iteration _ _ _ _ _ hs
      split
      · rename_i e he; rw [hs] at he; cases he
      · rename_i st'' he
        rw [hs] at he
        cases he
        exact ih st' (.step hr ⟨h, hs⟩) (by omega)
    · rw [dif_neg h]; exact ⟨_, rfl⟩

/-- A solve whose initialisation succeeds, succeeds. -/
theorem solve_succeeds (P : Plat R) (ops : Chase R S) (cfg : Config R)
    (hmax : Even cfg.maxDeg) (h1 : 1 ≤ cfg.N) (h2 : 1 ≤ cfg.deg) (h3 : 2 ≤ cfg.maxDeg)
    (h4 : 1 ≤ cfg.degExtra) (h5 : 1 ≤ cfg.nev)
    (hopt : cfg.optimization = true → ∀ a b c d e, P.degNeeded a b c d e ≠ none)
    (ritzv0 resid0 : ℕ → R) (be : S)
    (hinit : ∃ st, initState P ops cfg ritzv0 resid0
      (if cfg.symCheck then (ops.checkSymmetryEasy be).2 else be) = .ok st) :
    ∃ out, solve P ops cfg ritzv0 resid0 be = .ok out ∧
      ((cfg.symCheck = true → (ops.checkSymmetryEasy be).1 = true) → 1 ≤ cfg.maxIter →
        0 < out.iterations) := by
  obtain ⟨st0, h0⟩ := hinit
  obtain ⟨st, hst⟩ := solveLoop_succeeds P ops cfg (fun st hr hrun =>
    iter_succeeds P ops cfg hmax h1 h2 h3 h4 hopt hr hrun) (cfg.maxIter - st0.iteration) st0
    (.init h0) le_rfl
  have hne : cfg.nev ≠ 0 := by omega
  have hex : ∃ out, solve P ops cfg ritzv0 resid0 be = .ok out := by
    unfold solve
    by_cases hc : cfg.symCheck = true
    · simp only [hc, if_true] at h0 ⊢
      split_ifs
      · exact ⟨_, rfl⟩
      · rw [h0]; dsimp only; rw [hst]; exact ⟨_, rfl⟩
    · simp only [hc] at h0 ⊢
      simp only [Bool.false_eq_true, if_false, Bool.true_eq_false] at h0 ⊢
      rw [h0]; dsimp only; rw [hst]; dsimp only; rw [if_neg hne]; exact ⟨_, rfl⟩
  obtain ⟨out, ho⟩ := hex
  refine ⟨out, ho, fun hsym hit => ?_⟩
  obtain ⟨g1, g2⟩ := C01_stops_within_maxIter P ops cfg ritzv0 resid0 be out hsym ho
  by_contra hcon
  have h00 : out.iterations = 0 := by omega
  have hl := g2 (by omega)
  obtain ⟨be0, st0', st', -, k0, kst, -, -, rfl⟩ := solve_ok ho hsym
  dsimp only at h00 hl
  have hz : ∀ st, Reach P ops cfg ritzv0 resid0 be0 st → st.iteration = 0 → st.locked = 0 := by
    intro st hr
    cases hr with
    | init hi =>
      obtain ⟨be1, l, -, -, -, rfl⟩ := initState_ok hi
      exact fun _ => rfl
    | step hr hs =>
      have := iter_iteration _ _ _ _ _ hs.2
      omega
  have := hz st' (steps_reach (.init k0) kst) h00
  omega

/-- **C51** A solve in approximation mode (the user supplies start vectors) meets no undefined behaviour
and makes at least one round, for every backend: sizes `N ≥ 2`, `nev ≥ 1`, at least one Lanczos step,
`Deg ≥ 1`, `DegExtra ≥ 1`, an even `MaxDeg ≥ 2` (the setter makes it even), and, if degree optimisation
is on, a degree formula whose value is always a number. -/
theorem C51_approx_solve_defined (P : Plat R) (ops : Chase R S) (cfg : Config R)
    (happ : cfg.approx = true) (hmax : Even cfg.maxDeg) (h1 : 2 ≤ cfg.N) (h2 : 1 ≤ cfg.deg)
    (h3 : 2 ≤ cfg.maxDeg) (h4 : 1 ≤ cfg.degExtra) (h5 : 1 ≤ cfg.nev) (h6 : 1 ≤ cfg.lanczosIter)
    (hopt : cfg.optimization = true → ∀ a b c d e, P.degNeeded a b c d e ≠ none)
    (ritzv0 resid0 : ℕ → R) (be : S) :
    ∃ out, solve P ops cfg ritzv0 resid0 be = .ok out ∧
      ((cfg.symCheck = true → (ops.checkSymmetryEasy be).1 = true) → 1 ≤ cfg.maxIter →
        0 < out.iterations) := by
  refine solve_succeeds P ops cfg hmax (by omega) h2 h3 h4 h5 hopt ritzv0 resid0 be ?_
  generalize (if cfg.symCheck then (ops.checkSymmetryEasy be).2 else be) = be0
  unfold initState
  simp only [happ, Bool.not_true]
  unfold lanczos
  rw [if_neg (by omega), if_pos rfl]
  dsimp only
  rw [if_neg (by omega)]
  exact ⟨_, rfl⟩

/-- Non-vacuity: a configuration reachable by the setters. -/
example : ∃ cfg : Config ℚ, cfg = Config.run .d 10 2 1 [.approx true, .opt false] ∧
    cfg.approx = true ∧ Even cfg.maxDeg ∧ 2 ≤ cfg.N ∧ 1 ≤ cfg.deg ∧ 2 ≤ cfg.maxDeg ∧
    1 ≤ cfg.degExtra ∧ 1 ≤ cfg.nev ∧ 1 ≤ cfg.lanczosIter ∧ cfg.optimization = false ∧
    1 ≤ cfg.maxIter := by
  refine ⟨_, rfl, ?_⟩
  decide +kernel

end Verif
