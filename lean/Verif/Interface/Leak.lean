/-
Histories that finalise before they initialise again lose no object.
-/
import Verif.Interface.Proof

namespace Verif
namespace Iface

variable {R β : Type}

/-- `Tight` for a state whose live cells and pointers come from a tight one, except on one slot. -/
theorem Tight.upd {A : Slot → Abs R β} {σ σ' : State R β} (t : Tight A σ) (s : Slot) (v : Abs R β)
    (hptr : ∀ s', s' ≠ s → ptr σ' s' = ptr σ s')
    (hprops : ∀ sc, (⟨.dist, sc⟩ : Slot) ≠ s → σ'.props sc = σ.props sc)
    (hcell : ∀ a, (σ'.heap a).alive → (σ.heap a).alive ∨
      ((∃ p cfg st, v = .live p cfg st) ∧ (ptr σ' s = some a ∨ (s.kind = .dist ∧ σ'.props s.sc = some a))))
    (hold : ∀ a, (σ'.heap a).alive → (∃ p cfg st, A s = .live p cfg st) →
      (ptr σ s = some a ∨ (s.kind = .dist ∧ σ.props s.sc = some a)) →
      (∃ p cfg st, v = .live p cfg st) ∧ (ptr σ' s = some a ∨ (s.kind = .dist ∧ σ'.props s.sc = some a))) :
    Tight (Function.update A s v) σ' := by
  intro a ha
  have key : ((∃ p cfg st, v = .live p cfg st) ∧
      (ptr σ' s = some a ∨ (s.kind = .dist ∧ σ'.props s.sc = some a))) →
      ∃ s' p cfg st, Function.update A s v s' = .live p cfg st ∧
        (ptr σ' s' = some a ∨ (s'.kind = .dist ∧ σ'.props s'.sc = some a)) := by
    rintro ⟨⟨p, cfg, st, rfl⟩, hx⟩
    exact ⟨s, p, cfg, st, by rw [Function.update_self], hx⟩
  rcases hcell a ha with h | h
  · obtain ⟨s', p, cfg, st, h1, h2⟩ := t a h
    by_cases e : s' = s
    · subst e
      exact key (hold a ha ⟨p, cfg, st, h1⟩ h2)
    · refine ⟨s', p, cfg, st, by rw [Function.update_of_ne e]; exact h1, ?_⟩
      rcases h2 with h2 | ⟨hk, h2⟩
      · exact Or.inl (by rw [hptr s' e]; exact h2)
      · refine Or.inr ⟨hk, ?_⟩
        rw [hprops s'.sc ?_]; exact h2
        intro hh; apply e; rw [← hh]; cases s'; cases hk; rfl
  · exact key h

theorem tight_solve {A : Slot → Abs R β} {σ σ' : State R β} {own : ℕ → Slot} {W : World R β}
    {s : Slot} {x : SolveArgs R} {o : Out R β} {p : Problem} {cfg cfg' : Config R} {st st' : β}
    (t : Tight A σ) (hA : A s = .live p cfg st)
    (h : solveAt W σ s.sc (ptr σ s) x = .ok (σ', o)) :
    Tight (Function.update A s (.live p cfg' st')) σ' := by
  cases hp : ptr σ s with
  | none => rw [hp] at h; simp [solveAt, State.derefSolver, bind, Except.bind] at h
  | some a =>
    rw [hp] at h
    cases hc : σ.heap a with
    | unused => simp [solveAt, State.derefSolver, bind, Except.bind, hc] at h
    | freed => simp [solveAt, State.derefSolver, bind, Except.bind, hc] at h
    | props q => simp [solveAt, State.derefSolver, bind, Except.bind, hc] at h
    | solver y =>
      simp only [solveAt, State.derefSolver, bind, Except.bind, hc, Except.ok.injEq, Prod.mk.injEq] at h
      obtain ⟨rfl, _⟩ := h
      refine t.upd s _ (fun _ _ => rfl) (fun _ _ => rfl) (fun b hb => ?_) (fun b _ _ hb => ?_)
      · left
        by_cases e : b = a
        · subst e; rw [hc]; trivial
        · simpa [Function.update_of_ne e] using hb
      · exact ⟨⟨_, _, _, rfl⟩, hb⟩

theorem tight_delete {A : Slot → Abs R β} {σ σ' : State R β} {own : ℕ → Slot} (r : Rel A σ own)
    {s : Slot} {p : Problem} {cfg : Config R} {st : β} (t : Tight A σ) (hA : A s = .live p cfg st)
    (h : σ.deleteSolver (ptr σ s) = .ok σ') :
    Tight (Function.update A s .dead) σ' := by
  have hs := r.slot s
  rw [hA] at hs
  obtain ⟨a, o, h1, h2, h3, h4⟩ := hs
  rw [h1] at h
  obtain ⟨kd, sc⟩ := s
  cases kd with
  | seq =>
    obtain ⟨rfl, _⟩ := h3 rfl
    simp only [State.deleteSolver, h2, State.deleteProps, Except.ok.injEq] at h
    subst h
    refine t.upd _ _ (fun _ _ => rfl) (fun _ _ => rfl) (fun b hb => ?_) (fun b hb _ hx => ?_)
    · left
      by_cases e : b = a
      · subst e; rw [h2]; trivial
      · simpa [Function.update_of_ne e] using hb
    · exfalso
      rcases hx with hx | ⟨hx, _⟩
      · rw [h1] at hx; cases hx
        simp [Cell.alive] at hb
      · cases hx
  | dist =>
    obtain ⟨ap, q, e1, e2, e3, e4⟩ := h4 rfl
    subst e1
    have hne : ap ≠ a := by rintro rfl; rw [h2] at e4; cases e4
    simp only [State.deleteSolver, h2, State.deleteProps, Function.update_of_ne hne, e4,
      Except.ok.injEq] at h
    subst h
    refine t.upd _ _ (fun _ _ => rfl) (fun _ _ => rfl) (fun b hb => ?_) (fun b hb _ hx => ?_)
    · left
      by_cases e : b = ap
      · subst e; rw [e4]; trivial
      · by_cases e' : b = a
        · subst e'; rw [h2]; trivial
        · simpa [Function.update_of_ne e, Function.update_of_ne e'] using hb
    · exfalso
      rcases hx with hx | ⟨_, hx⟩
      · rw [h1] at hx; cases hx
        simp [Function.update_of_ne hne.symm, Cell.alive] at hb
      · rw [e2] at hx; cases hx
        simp [Cell.alive] at hb

variable [Div R] [One R] [NatCast R]

theorem tight_distNew (W : World R β) {A : Slot → Abs R β} {σ σ' : State R β} {o : Out R β}
    (t : Tight A σ) (sc : Scalar) (q : Props) (H ldh V ritzv : ℕ) (p : Problem) (cfg : Config R) (st : β)
    (hn : ∀ p cfg st, A ⟨.dist, sc⟩ ≠ .live p cfg st)
    (h : distNew W σ sc q H ldh V ritzv = .ok (σ', o)) :
    Tight (Function.update A ⟨.dist, sc⟩ (.live p cfg st)) σ' := by
  simp only [distNew, Except.ok.injEq, Prod.mk.injEq] at h
  obtain ⟨rfl, _⟩ := h
  refine t.upd _ _ ?_ ?_ (fun b hb => ?_) (fun b _ hx _ => ?_)
  · rintro ⟨k, u⟩ hu
    cases k
    · rfl
    · have : u ≠ sc := fun e => hu (by simp [e])
      simp [ptr, State.alloc, Function.update_of_ne this]
  · intro u hu
    have : u ≠ sc := fun e => hu (by simp [e])
    simp [State.alloc, Function.update_of_ne this]
  · by_cases e : b = σ.next + 1
    · exact Or.inr ⟨⟨_, _, _, rfl⟩, Or.inl (by simp [ptr, State.alloc, e])⟩
    · by_cases e' : b = σ.next
      · exact Or.inr ⟨⟨_, _, _, rfl⟩, Or.inr ⟨rfl, by simp [State.alloc, e']⟩⟩
      · left
        simpa [State.alloc, Function.update_of_ne e, Function.update_of_ne e'] using hb
  · obtain ⟨p, cfg, st, hx⟩ := hx
    exact (hn _ _ _ hx).elim

theorem tight_call (W : World R β) {A A' : Slot → Abs R β} {σ σ' : State R β} {own : ℕ → Slot}
    {o o' : Out R β} (r : Rel A σ own) (t : Tight A σ) (c : Call R)
    (hA : astep W A c = some (A', o)) (hc : call W σ c = .ok (σ', o'))
    (hn : c.isInit = true → ∀ p cfg st, A c.slot ≠ .live p cfg st) : Tight A' σ' := by
  cases c with
  | seqInit sc x =>
    simp only [astep, Abs.step, Call.problem, Option.map_some, Option.some.injEq, Prod.mk.injEq] at hA
    obtain ⟨rfl, _⟩ := hA
    simp only [call, seqInit, Except.ok.injEq, Prod.mk.injEq] at hc
    obtain ⟨rfl, _⟩ := hc
    refine t.upd _ _ ?_ (fun _ _ => rfl) (fun b hb => ?_) (fun b _ hx _ => ?_)
    · rintro ⟨k, u⟩ hu
      cases k
      · have : u ≠ sc := fun e => hu (by simp [Call.slot, e])
        simp [ptr, State.alloc, Function.update_of_ne this]
      · rfl
    · by_cases e : b = σ.next
      · exact Or.inr ⟨⟨_, _, _, rfl⟩, Or.inl (by simp [ptr, Call.slot, State.alloc, e])⟩
      · left
        simpa [State.alloc, Function.update_of_ne e] using hb
    · obtain ⟨p, cfg, st, hx⟩ := hx
      exact (hn rfl _ _ _ hx).elim
  | distInit sc x =>
    simp only [astep, Abs.step, Call.problem, Option.map_some, Option.some.injEq, Prod.mk.injEq] at hA
    obtain ⟨rfl, _⟩ := hA
    exact tight_distNew W t sc _ _ _ _ _ _ _ _ (hn rfl) hc
  | distInitCyclic sc x =>
    simp only [astep, Abs.step, Call.problem, Option.map_some, Option.some.injEq, Prod.mk.injEq] at hA
    obtain ⟨rfl, _⟩ := hA
    exact tight_distNew W t sc _ _ _ _ _ _ _ _ (hn rfl) hc
  | seqSolve sc x =>
    cases hv : A ⟨.seq, sc⟩ with
    | null => simp [astep, Abs.step, Call.problem, Call.solveArgs, Call.slot, hv] at hA
    | dead => simp [astep, Abs.step, Call.problem, Call.solveArgs, Call.slot, hv] at hA
    | live p cfg st =>
      simp only [astep, Abs.step, Call.problem, Call.solveArgs, Call.slot, hv, Option.map_some,
        Option.some.injEq, Prod.mk.injEq] at hA
      obtain ⟨rfl, _⟩ := hA
      exact tight_solve (own := own) (s := ⟨.seq, sc⟩) t hv hc
  | distSolve sc x =>
    cases hv : A ⟨.dist, sc⟩ with
    | null => simp [astep, Abs.step, Call.problem, Call.solveArgs, Call.slot, hv] at hA
    | dead => simp [astep, Abs.step, Call.problem, Call.solveArgs, Call.slot, hv] at hA
    | live p cfg st =>
      simp only [astep, Abs.step, Call.problem, Call.solveArgs, Call.slot, hv, Option.map_some,
        Option.some.injEq, Prod.mk.injEq] at hA
      obtain ⟨rfl, _⟩ := hA
      exact tight_solve (own := own) (s := ⟨.dist, sc⟩) t hv hc
  | seqFinalize sc =>
    have hp : ptr σ ⟨.seq, sc⟩ = σ.seq sc := rfl
    cases hd : σ.deleteSolver (σ.seq sc) with
    | error e => simp [call, seqFinalize, hd, bind, Except.bind] at hc
    | ok τ =>
      simp only [call, seqFinalize, hd, bind, Except.bind, Except.ok.injEq, Prod.mk.injEq] at hc
      obtain ⟨rfl, _⟩ := hc
      cases hv : A ⟨.seq, sc⟩ with
      | dead => simp [astep, Abs.step, Call.problem, Call.solveArgs, Call.slot, hv] at hA
      | null =>
        simp only [astep, Abs.step, Call.problem, Call.solveArgs, Call.slot, hv, Option.map_some,
          Option.some.injEq, Prod.mk.injEq] at hA
        obtain ⟨rfl, _⟩ := hA
        have hs := r.slot ⟨.seq, sc⟩
        rw [hv] at hs
        rw [← hp, hs.1] at hd
        simp only [State.deleteSolver, Except.ok.injEq] at hd
        subst hd
        rw [← hv, Function.update_eq_self]; exact t
      | live p cfg st =>
        simp only [astep, Abs.step, Call.problem, Call.solveArgs, Call.slot, hv, Option.map_some,
          Option.some.injEq, Prod.mk.injEq] at hA
        obtain ⟨rfl, _⟩ := hA
        exact tight_delete r t hv hd
  | distFinalize sc =>
    have hp : ptr σ ⟨.dist, sc⟩ = σ.dist sc := rfl
    cases hd : σ.deleteSolver (σ.dist sc) with
    | error e => simp [call, distFinalize, hd, bind, Except.bind] at hc
    | ok τ =>
      simp only [call, distFinalize, hd, bind, Except.bind, Except.ok.injEq, Prod.mk.injEq] at hc
      obtain ⟨rfl, _⟩ := hc
      cases hv : A ⟨.dist, sc⟩ with
      | dead => simp [astep, Abs.step, Call.problem, Call.solveArgs, Call.slot, hv] at hA
      | null =>
        simp only [astep, Abs.step, Call.problem, Call.solveArgs, Call.slot, hv, Option.map_some,
          Option.some.injEq, Prod.mk.injEq] at hA
        obtain ⟨rfl, _⟩ := hA
        have hs := r.slot ⟨.dist, sc⟩
        rw [hv] at hs
        rw [← hp, hs.1] at hd
        simp only [State.deleteSolver, Except.ok.injEq] at hd
        subst hd
        rw [← hv, Function.update_eq_self]; exact t
      | live p cfg st =>
        simp only [astep, Abs.step, Call.problem, Call.solveArgs, Call.slot, hv, Option.map_some,
          Option.some.injEq, Prod.mk.injEq] at hA
        obtain ⟨rfl, _⟩ := hA
        exact tight_delete r t hv hd
  | distIO sc w f H =>
    cases hd : σ.derefProps (σ.props sc) with
    | error e => simp [call, distIO, hd, bind, Except.bind] at hc
    | ok q =>
      simp only [call, distIO, hd, bind, Except.bind, Except.ok.injEq, Prod.mk.injEq] at hc
      obtain ⟨rfl, _⟩ := hc
      cases hv : A ⟨.dist, sc⟩ with
      | dead => simp [astep, Abs.step, Call.problem, Call.solveArgs, Call.slot, hv] at hA
      | null => simp [astep, Abs.step, Call.problem, Call.solveArgs, Call.slot, hv] at hA
      | live p cfg st =>
        simp only [astep, Abs.step, Call.problem, Call.solveArgs, Call.slot, hv] at hA
        cases hp : p.props with
        | none => simp [hp] at hA
        | some q' =>
          simp only [hp, Option.map_some, Option.some.injEq, Prod.mk.injEq] at hA
          obtain ⟨rfl, _⟩ := hA
          rw [← hv, Function.update_eq_self]; exact t

/-- A legal and bracketed history leaves only reachable live objects. -/
theorem tight_run (W : World R β) (h : List (Call R)) (hl : Legal h) (hb : Bracketed h)
    {σ : State R β} {os : List (Out R β)} (hr : run W h = .ok (σ, os)) : Tight (absOf W h) σ := by
  induction h using List.reverseRecOn generalizing σ os with
  | nil =>
    simp only [run, runFrom, Except.ok.injEq, Prod.mk.injEq] at hr
    obtain ⟨rfl, _⟩ := hr
    intro a ha; exact ha.elim
  | append_singleton h c ih =>
    have hl' := (legal_snoc h c).1 hl
    have hs := (step_isSome W h c).2 hl'.2
    obtain ⟨vo, hvo⟩ := Option.isSome_iff_exists.1 hs
    obtain ⟨τ, own, h1, r⟩ := (run_spec W h).1 hl'.1
    have ht := ih hl'.1 (fun h₁ d h₂ e => hb h₁ d (h₂ ++ [c]) (by rw [e]; simp)) h1
    have hn : c.isInit = true → ∀ p cfg st, absOf W h c.slot ≠ .live p cfg st := by
      intro hi p cfg st e
      exact hb h c [] rfl hi ((live_iff W h c.slot).2 ⟨p, cfg, st, e⟩)
    unfold run at hr h1
    rw [runFrom_append, h1] at hr
    simp only [Except.bind, runFrom, bind] at hr
    cases hc : call W τ c with
    | error e => rw [hc] at hr; simp at hr
    | ok q =>
      rw [hc] at hr
      simp only [Except.ok.injEq, Prod.mk.injEq] at hr
      obtain ⟨rfl, _⟩ := hr
      have hA : astep W (absOf W h) c = some (Function.update (absOf W h) c.slot vo.1, vo.2) := by
        simp [astep, hvo]
      have : absOf W (h ++ [c]) = Function.update (absOf W h) c.slot vo.1 := by
        funext s
        rw [absOf_snoc]
        by_cases e : c.slot = s
        · subst e; simp [next, hvo]
        · rw [if_neg e, Function.update_of_ne (Ne.symm e)]
      rw [this]
      exact tight_call W r ht c hA hc hn

end Iface
end Verif
