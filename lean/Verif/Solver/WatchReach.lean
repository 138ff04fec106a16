/-
The states reached by a run without a bad QR call are reached on every backend whose QR agrees outside the bad
situations.
-/
import Verif.Solver.Watch
import Verif.Solver.ReachSim

namespace Verif

variable {R S : Type*} [Add R] [Sub R] [Mul R] [Div R] [Neg R] [Zero R] [One R] [NatCast R] [LT R] [DecidableLT R] {bad : ℕ → R → S → Prop}
  {ops : Chase R S} {q : ℕ → R → S → S}

/-- The local variables of a solve, without the mark. -/
def St.bare (st : St R (S × Prop)) : St R S :=
  ⟨st.ritzv, st.resid, st.residLast, st.degrees, st.deg, st.lowerb, st.upperb, st.lambda, st.locked,
    st.unconverged, st.iteration, st.be.1⟩

theorem St.Rel.eq_bare {p : St R (S × Prop)} {p' : St R S} (h : St.Rel (fun p s => p.1 = s) p p') :
    p' = p.bare := by
  obtain ⟨h1, h2, h3, h4, h5, h6, h7, h8, h9, h10, h11, h12⟩ := h
  cases p'
  dsimp only at *
  subst h1 h2 h3 h4 h5 h6 h7 h8 h9 h10 h11 h12
  rfl

theorem St.rel_bare (p : St R (S × Prop)) : St.Rel (fun (p : S × Prop) (s : S) => p.1 = s) p p.bare :=
  ⟨rfl, rfl, rfl, rfl, rfl, rfl, rfl, rfl, rfl, rfl, rfl, rfl⟩

theorem reach_watch (hq : ∀ k c s, ¬ bad k c s → q k c s = ops.qr k c s) {P : Plat R} {cfg : Config R}
    {r0 s0 : ℕ → R} {be : S × Prop} {st : St R (S × Prop)} (h : Reach P (watch bad ops) cfg r0 s0 be st)
    (hn : ¬ st.be.2) : Reach P (watch bad (ops.withQr q)) cfg r0 s0 be st := by
  induction h with
  | init hi => exact .init (initState_watch (q := q) hq hi hn)
  | step _ h2 ih =>
    obtain ⟨h3, h4⟩ := iter_watch (q := q) hq h2.2 hn
    exact .step (ih h4) ⟨h2.1, h3⟩

/-- A state reached without a bad QR call, and the next one. -/
theorem reach_withQr (hq : ∀ k c s, ¬ bad k c s → q k c s = ops.qr k c s) {P : Plat R} {cfg : Config R}
    {r0 s0 : ℕ → R} {be : S} {st : St R (S × Prop)} (h : Reach P (watch bad ops) cfg r0 s0 (be, False) st)
    (hn : ¬ st.be.2) : Reach P (ops.withQr q) cfg r0 s0 be st.bare := by
  obtain ⟨st', h1, h2⟩ := reach_sim (watch_sim bad (ops.withQr q)) P cfg (s := (be, False)) (s' := be) rfl
    (reach_watch (q := q) hq h hn)
  rw [← h2.eq_bare]
  exact h1

theorem step_withQr (hq : ∀ k c s, ¬ bad k c s → q k c s = ops.qr k c s) {P : Plat R} {cfg : Config R}
    {st st' : St R (S × Prop)} (h : Step P (watch bad ops) cfg st st') (hn : ¬ st'.be.2) :
    Step P (ops.withQr q) cfg st.bare st'.bare ∧ ¬ st.be.2 := by
  obtain ⟨h3, h4⟩ := iter_watch (q := q) hq h.2 hn
  obtain ⟨st'', h1, h2⟩ := step_sim (watch_sim bad (ops.withQr q)) P cfg (St.rel_bare st) ⟨h.1, h3⟩
  exact ⟨h2.eq_bare ▸ h1, h4⟩

theorem init_withQr (hq : ∀ k c s, ¬ bad k c s → q k c s = ops.qr k c s) {P : Plat R} {cfg : Config R}
    {r0 s0 : ℕ → R} {be : S} {st : St R (S × Prop)}
    (h : initState P (watch bad ops) cfg r0 s0 (be, False) = .ok st) (hn : ¬ st.be.2) :
    initState P (ops.withQr q) cfg r0 s0 be = .ok st.bare := by
  obtain ⟨st', h1, h2⟩ := init_sim (watch_sim bad (ops.withQr q)) P cfg (s := (be, False)) (s' := be) rfl
    (initState_watch (q := q) hq h hn)
  rw [← h2.eq_bare]
  exact h1

theorem filterRuns_withQr {P : Plat R} {cfg : Config R} {st : St R (S × Prop)} {I : Interval R}
    (h : FilterRuns P (watch bad ops) cfg st I) : FilterRuns P (ops.withQr q) cfg st.bare I := by
  obtain ⟨h1, st1, h2, h3⟩ := filterRuns_sim (watch_sim bad ops) P cfg (St.rel_bare st) h
  exact ⟨h1, st1, h2, h3⟩

/-- Without a mark later there was none at the start. -/
theorem reach_mark {P : Plat R} {cfg : Config R} {r0 s0 : ℕ → R} {be : S × Prop} {st0 st : St R (S × Prop)}
    (h0 : initState P (watch bad ops) cfg r0 s0 be = .ok st0) (h : Reach P (watch bad ops) cfg r0 s0 be st)
    (hn : ¬ st.be.2) : ¬ st0.be.2 := by
  induction h with
  | init hi =>
    have := h0.symm.trans hi
    cases this
    exact hn
  | step _ h2 ih => exact ih (iter_watch (q := ops.qr) (fun _ _ _ _ => rfl) h2.2 hn).2

end Verif
