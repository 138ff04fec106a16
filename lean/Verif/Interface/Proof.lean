/-
The heap of the C interface refines eight independent slots.
-/
import Verif.Interface.Spec
import Mathlib.Data.List.Induction

namespace Verif
namespace Iface

variable {R β : Type}

/-- One slot, seen abstractly. -/
inductive Abs (R β : Type) where
  | null
  | live (prob : Problem) (cfg : Config R) (st : β)
  | dead

/-- The result of one call on its slot. -/
def Abs.step [Div R] [One R] [NatCast R] (W : World R β) (v : Abs R β) (c : Call R) : Option (Abs R β × Out R β) :=
  match c.problem with
  | some p => some (.live p (Config.mk' c.slot.sc p.N p.nev p.nex) (W.fresh c.slot.sc p), .flag 1)
  | none =>
    match c.solveArgs, v with
    | some x, .live p cfg st =>
        some (.live p (configure cfg x) (W.run c.slot.sc p (configure cfg x) st), .ran p (configure cfg x) st)
    | some _, _ => none
    | none, v =>
      match c, v with
      | .distIO _ w f H, .live p cfg st => p.props.map fun q => (.live p cfg st, .io w q f H)
      | .distIO _ _ _ _, _ => none
      | _, .live _ _ _ => some (.dead, .flag 0)
      | _, .null => some (.null, .flag 0)
      | _, .dead => none

/-- The static solver pointer of a slot. -/
def ptr (σ : State R β) (s : Slot) : Option ℕ :=
  match s.kind with
  | .seq => σ.seq s.sc
  | .dist => σ.dist s.sc

/-- What the state looks like on one slot. -/
def SlotRel (σ : State R β) (s : Slot) : Abs R β → Prop
  | .null => ptr σ s = none ∧ (s.kind = .dist → σ.props s.sc = none)
  | .dead => (∃ a, ptr σ s = some a ∧ σ.heap a = .freed) ∧
      (s.kind = .dist → ∃ a, σ.props s.sc = some a ∧ σ.heap a = .freed)
  | .live p cfg st => ∃ a o, ptr σ s = some a ∧ σ.heap a = .solver ⟨p, cfg, o, st⟩ ∧
      (s.kind = .seq → o = none ∧ p.props = none) ∧
      (s.kind = .dist → ∃ ap q, o = some ap ∧ σ.props s.sc = some ap ∧ p.props = some q ∧ σ.heap ap = .props q)

/-- The state refines the slots; `own` says which slot an address belongs to. -/
structure Rel (A : Slot → Abs R β) (σ : State R β) (own : ℕ → Slot) : Prop where
  slot : ∀ s, SlotRel σ s (A s)
  ownPtr : ∀ s a, ptr σ s = some a → own a = s ∧ a < σ.next
  ownProps : ∀ sc a, σ.props sc = some a → own a = ⟨.dist, sc⟩ ∧ a < σ.next
  fresh : ∀ a, σ.next ≤ a → σ.heap a = .unused

/-- The cell holds a live object. -/
def Cell.alive : Cell R β → Prop
  | .solver _ => True
  | .props _ => True
  | _ => False

/-- Every live object can still be released: it is the solver of a live slot or the properties object that
solver owns. -/
def Tight (A : Slot → Abs R β) (σ : State R β) : Prop :=
  ∀ a, (σ.heap a).alive → ∃ s p cfg st, A s = .live p cfg st ∧
    (ptr σ s = some a ∨ (s.kind = .dist ∧ σ.props s.sc = some a))

theorem SlotRel.congr {σ σ' : State R β} {s : Slot} {v : Abs R β} (h : SlotRel σ s v)
    (hp : ptr σ' s = ptr σ s) (hq : s.kind = .dist → σ'.props s.sc = σ.props s.sc)
    (hh : ∀ a, ptr σ s = some a → σ'.heap a = σ.heap a)
    (hh' : s.kind = .dist → ∀ a, σ.props s.sc = some a → σ'.heap a = σ.heap a) : SlotRel σ' s v := by
  cases v with
  | null =>
    obtain ⟨h1, h2⟩ := h
    exact ⟨by rw [hp, h1], fun k => by rw [hq k, h2 k]⟩
  | dead =>
    obtain ⟨⟨a, h1, h2⟩, h3⟩ := h
    refine ⟨⟨a, by rw [hp, h1], by rw [hh a h1, h2]⟩, fun k => ?_⟩
    obtain ⟨b, h4, h5⟩ := h3 k
    exact ⟨b, by rw [hq k, h4], by rw [hh' k b h4, h5]⟩
  | live p cfg st =>
    obtain ⟨a, o, h1, h2, h3, h4⟩ := h
    refine ⟨a, o, by rw [hp, h1], by rw [hh a h1, h2], h3, fun k => ?_⟩
    obtain ⟨ap, q, h5, h6, h7, h8⟩ := h4 k
    exact ⟨ap, q, h5, by rw [hq k, h6], h7, by rw [hh' k ap h6, h8]⟩

/-- Effect of a call on the family of slots. -/
def astep [Div R] [One R] [NatCast R] (W : World R β) (A : Slot → Abs R β) (c : Call R) :
    Option ((Slot → Abs R β) × Out R β) :=
  ((A c.slot).step W c).map fun r => (Function.update A c.slot r.1, r.2)

theorem Rel.upd {A : Slot → Abs R β} {σ σ' : State R β} {own own' : ℕ → Slot} (r : Rel A σ own)
    (s : Slot) (v : Abs R β) (hslot : SlotRel σ' s v)
    (hptr : ∀ s', s' ≠ s → ptr σ' s' = ptr σ s')
    (hprops : ∀ sc, (⟨.dist, sc⟩ : Slot) ≠ s → σ'.props sc = σ.props sc)
    (hheap : ∀ a, a < σ.next → own a ≠ s → σ'.heap a = σ.heap a)
    (hown : ∀ a, a < σ.next → own' a = own a)
    (hnext : σ.next ≤ σ'.next)
    (hs : ∀ a, ptr σ' s = some a → own' a = s ∧ a < σ'.next)
    (hsp : ∀ sc a, (⟨.dist, sc⟩ : Slot) = s → σ'.props sc = some a → own' a = s ∧ a < σ'.next)
    (hfresh : ∀ a, σ'.next ≤ a → σ'.heap a = .unused) :
    Rel (Function.update A s v) σ' own' := by
  refine ⟨fun s' => ?_, fun s' a h => ?_, fun sc a h => ?_, hfresh⟩
  · by_cases e : s' = s
    · subst e; rw [Function.update_self]; exact hslot
    · rw [Function.update_of_ne e]
      refine (r.slot s').congr (hptr s' e) (fun k => ?_) (fun a ha => ?_) (fun k a ha => ?_)
      · apply hprops
        intro h; apply e; rw [← h]; cases s'; cases k; rfl
      · have := r.ownPtr s' a ha
        exact hheap a this.2 (by rw [this.1]; exact e)
      · have := r.ownProps s'.sc a ha
        refine hheap a this.2 ?_
        rw [this.1]
        intro h; apply e; rw [← h]; cases s'; cases k; rfl
  · by_cases e : s' = s
    · subst e; exact hs a h
    · rw [hptr s' e] at h
      have := r.ownPtr s' a h
      exact ⟨by rw [hown a this.2, this.1], lt_of_lt_of_le this.2 hnext⟩
  · by_cases e : (⟨.dist, sc⟩ : Slot) = s
    · have := hsp sc a e h
      exact ⟨by rw [this.1, e], this.2⟩
    · rw [hprops sc e] at h
      have := r.ownProps sc a h
      exact ⟨by rw [hown a this.2, this.1], lt_of_lt_of_le this.2 hnext⟩

variable [Div R] [One R] [NatCast R]

theorem rel_seqInit (W : World R β) {A : Slot → Abs R β} {σ : State R β} {own : ℕ → Slot}
    (r : Rel A σ own) (sc : Scalar) (x : SeqArgs) :
    ∃ A' σ' o own', astep W A (.seqInit sc x) = some (A', o) ∧ call W σ (.seqInit sc x) = .ok (σ', o) ∧
      Rel A' σ' own' := by
  refine ⟨_, _, _, Function.update own σ.next ⟨.seq, sc⟩, rfl, rfl, ?_⟩
  refine r.upd _ _ ?_ ?_ ?_ ?_ ?_ ?_ ?_ ?_ ?_
  · exact ⟨σ.next, none, by simp [ptr, Call.slot, State.alloc], by simp [newSeq, State.alloc, Call.slot],
      fun _ => ⟨rfl, rfl⟩, fun k => by cases k⟩
  · rintro ⟨k, t⟩ h
    cases k
    · have : t ≠ sc := fun e => h (by simp [Call.slot, e])
      simp [ptr, State.alloc, Function.update_of_ne this]
    · rfl
  · intro t _; rfl
  · intro a ha _
    simp [State.alloc, Function.update_of_ne (Nat.ne_of_lt ha)]
  · intro a ha; rw [Function.update_of_ne (Nat.ne_of_lt ha)]
  · simp [State.alloc]
  · intro a h
    simp [ptr, Call.slot, State.alloc] at h
    subst h; simp [Call.slot, State.alloc]
  · intro t a h; simp [Call.slot] at h
  · intro a h
    simp only [State.alloc] at h ⊢
    rw [Function.update_of_ne (by omega)]; exact r.fresh a (by omega)

theorem rel_distNew (W : World R β) {A : Slot → Abs R β} {σ : State R β} {own : ℕ → Slot}
    (r : Rel A σ own) (sc : Scalar) (q : Props) (H ldh V ritzv : ℕ) :
    ∃ σ' own', distNew W σ sc q H ldh V ritzv = .ok (σ', .flag 1) ∧
      Rel (Function.update A ⟨.dist, sc⟩
        (.live ⟨q.N, q.nev, q.nex, H, ldh, V, ritzv, some q⟩ (Config.mk' sc q.N q.nev q.nex)
          (W.fresh sc ⟨q.N, q.nev, q.nex, H, ldh, V, ritzv, some q⟩))) σ' own' := by
  refine ⟨_, Function.update (Function.update own σ.next ⟨.dist, sc⟩) (σ.next + 1) ⟨.dist, sc⟩, rfl, ?_⟩
  refine r.upd _ _ ?_ ?_ ?_ ?_ ?_ ?_ ?_ ?_ ?_
  · refine ⟨σ.next + 1, some σ.next, by simp [ptr, State.alloc], by simp [newDist, State.alloc],
      fun k => (by cases k), fun _ => ⟨σ.next, q, rfl, by simp [State.alloc], rfl, ?_⟩⟩
    simp [State.alloc]
  · rintro ⟨k, t⟩ h
    cases k
    · rfl
    · have : t ≠ sc := fun e => h (by simp [e])
      simp [ptr, State.alloc, Function.update_of_ne this]
  · intro t ht
    have : t ≠ sc := fun e => ht (by simp [e])
    simp [State.alloc, Function.update_of_ne this]
  · intro a ha _
    simp [State.alloc, Function.update_of_ne (Nat.ne_of_lt ha),
      Function.update_of_ne (show a ≠ σ.next + 1 by omega)]
  · intro a ha
    rw [Function.update_of_ne (by omega), Function.update_of_ne (by omega)]
  · simp [State.alloc]; omega
  · intro a h
    simp [ptr, State.alloc] at h
    subst h; simp [State.alloc]
  · intro t a h h'
    have : t = sc := by simpa using h
    subst this
    simp [State.alloc] at h'
    subst h'; simp [State.alloc]; omega
  · intro a h
    simp only [State.alloc] at h ⊢
    rw [Function.update_of_ne (by omega), Function.update_of_ne (by omega)]; exact r.fresh a (by omega)

/-- The solver pointer of a slot and its abstract value, for a solve. -/
theorem rel_solve (W : World R β) {A : Slot → Abs R β} {σ : State R β} {own : ℕ → Slot}
    (r : Rel A σ own) (s : Slot) (x : SolveArgs R) :
    match A s with
    | .live p cfg st => ∃ σ', solveAt W σ s.sc (ptr σ s) x = .ok (σ', .ran p (configure cfg x) st) ∧
        Rel (Function.update A s (.live p (configure cfg x) (W.run s.sc p (configure cfg x) st))) σ' own
    | _ => ∃ e, solveAt W σ s.sc (ptr σ s) x = .error e := by
  have hs := r.slot s
  cases hv : A s with
  | null =>
    rw [hv] at hs
    exact ⟨.nullDeref, by rw [hs.1]; rfl⟩
  | dead =>
    rw [hv] at hs
    obtain ⟨⟨a, h1, h2⟩, _⟩ := hs
    exact ⟨.useAfterFree, by rw [h1]; simp [solveAt, State.derefSolver, h2, bind, Except.bind]⟩
  | live p cfg st =>
    rw [hv] at hs
    obtain ⟨a, o, h1, h2, h3, h4⟩ := hs
    have ha := r.ownPtr s a h1
    have hne : ∀ b, σ.heap b ≠ .solver ⟨p, cfg, o, st⟩ → b ≠ a := by
      rintro b hb rfl; exact hb h2
    refine ⟨{ σ with heap := Function.update σ.heap a (.solver ⟨p, configure cfg x, o, W.run s.sc p (configure cfg x) st⟩) }, ?_, ?_⟩
    · simp [solveAt, State.derefSolver, h1, h2, bind, Except.bind]
    · refine r.upd s _ ?_ (fun _ _ => rfl) (fun _ _ => rfl) ?_ (fun _ _ => rfl) le_rfl
        (fun b hb => r.ownPtr s b hb) ?_ ?_
      · refine ⟨a, o, h1, by simp, h3, fun k => ?_⟩
        obtain ⟨ap, q, e1, e2, e3, e4⟩ := h4 k
        refine ⟨ap, q, e1, e2, e3, ?_⟩
        show Function.update σ.heap a _ ap = _
        rw [Function.update_of_ne (hne ap (by rw [e4]; simp))]; exact e4
      · intro b _ hb
        show Function.update σ.heap a _ b = _
        rw [Function.update_of_ne]
        rintro rfl; exact hb ha.1
      · intro t b e hb
        rw [← e]; exact r.ownProps t b hb
      · intro b hb
        show Function.update σ.heap a _ b = _
        have : b ≠ a := by have := ha.2; have h' : σ.next ≤ b := hb; omega
        rw [Function.update_of_ne this]; exact r.fresh b hb

theorem rel_delete {A : Slot → Abs R β} {σ : State R β} {own : ℕ → Slot}
    (r : Rel A σ own) (s : Slot) :
    match A s with
    | .live _ _ _ => ∃ σ', σ.deleteSolver (ptr σ s) = .ok σ' ∧ Rel (Function.update A s .dead) σ' own
    | .null => σ.deleteSolver (ptr σ s) = .ok σ
    | .dead => σ.deleteSolver (ptr σ s) = .error .doubleFree := by
  have hs := r.slot s
  cases hv : A s with
  | null =>
    rw [hv] at hs
    show σ.deleteSolver (ptr σ s) = .ok σ
    rw [hs.1]; rfl
  | dead =>
    rw [hv] at hs
    obtain ⟨⟨a, h1, h2⟩, _⟩ := hs
    show σ.deleteSolver (ptr σ s) = .error .doubleFree
    rw [h1]; simp [State.deleteSolver, h2]
  | live p cfg st =>
    rw [hv] at hs
    obtain ⟨a, o, h1, h2, h3, h4⟩ := hs
    have ha := r.ownPtr s a h1
    show ∃ σ', _
    rw [h1]
    obtain ⟨kd, sc⟩ := s
    cases kd with
    | seq =>
      obtain ⟨rfl, _⟩ := h3 rfl
      refine ⟨{ σ with heap := Function.update σ.heap a .freed }, by
        simp [State.deleteSolver, h2, State.deleteProps], ?_⟩
      refine r.upd _ _ ⟨⟨a, h1, by simp⟩, fun k => by cases k⟩ (fun _ _ => rfl) (fun _ _ => rfl) ?_
        (fun _ _ => rfl) le_rfl (fun b hb => r.ownPtr _ b hb) (fun t b e => by cases e) ?_
      · intro b _ hb
        show Function.update σ.heap a _ b = _
        rw [Function.update_of_ne]
        rintro rfl; exact hb ha.1
      · intro b hb
        show Function.update σ.heap a _ b = _
        have : b ≠ a := by have := ha.2; have h' : σ.next ≤ b := hb; omega
        rw [Function.update_of_ne this]; exact r.fresh b hb
    | dist =>
      obtain ⟨ap, q, e1, e2, e3, e4⟩ := h4 rfl
      subst e1
      have hap := r.ownProps sc ap e2
      have hne : ap ≠ a := by rintro rfl; rw [h2] at e4; cases e4
      refine ⟨{ σ with heap := Function.update (Function.update σ.heap a .freed) ap .freed }, ?_, ?_⟩
      · simp [State.deleteSolver, h2, State.deleteProps, Function.update_of_ne hne, e4]
      · refine r.upd _ _ ⟨⟨a, h1, ?_⟩, fun _ => ⟨ap, e2, by simp⟩⟩ (fun _ _ => rfl) (fun _ _ => rfl) ?_
          (fun _ _ => rfl) le_rfl (fun b hb => r.ownPtr _ b hb) ?_ ?_
        · show Function.update (Function.update σ.heap a _) ap _ a = _
          rw [Function.update_of_ne hne.symm, Function.update_self]
        · intro b _ hb
          show Function.update (Function.update σ.heap a _) ap _ b = _
          rw [Function.update_of_ne (by rintro rfl; exact hb hap.1),
            Function.update_of_ne (by rintro rfl; exact hb ha.1)]
        · intro t b e hb
          rw [← e]; exact r.ownProps t b hb
        · intro b hb
          show Function.update (Function.update σ.heap a _) ap _ b = _
          have h' : σ.next ≤ b := hb
          have h1' := ha.2
          have h2' := hap.2
          rw [Function.update_of_ne (by omega), Function.update_of_ne (by omega)]; exact r.fresh b hb

/-- Every call on the heap does what it does on its slot, and fails exactly when its slot refuses it. -/
theorem rel_call (W : World R β) {A : Slot → Abs R β} {σ : State R β} {own : ℕ → Slot}
    (r : Rel A σ own) (c : Call R) :
    match astep W A c with
    | some (A', o) => ∃ σ' own', call W σ c = .ok (σ', o) ∧ Rel A' σ' own'
    | none => ∃ e, call W σ c = .error e := by
  cases c with
  | seqInit sc x =>
    obtain ⟨A', σ', o, own', h1, h2, h3⟩ := rel_seqInit W r sc x
    rw [h1]; exact ⟨σ', own', h2, h3⟩
  | distInit sc x =>
    obtain ⟨σ', own', h1, h2⟩ := rel_distNew W r sc
      (Props.newBlock (toSize x.N) (toSize x.nev) (toSize x.nex) (toSize x.m) (toSize x.n) x.dim0 x.dim1
        x.gridMajor x.comm) x.H (toSize x.ldh) x.V x.ritzv
    exact ⟨σ', own', h1, h2⟩
  | distInitCyclic sc x =>
    obtain ⟨σ', own', h1, h2⟩ := rel_distNew W r sc
      (Props.newCyclic (toSize x.N) (toSize x.mbsize) (toSize x.nbsize) (toSize x.nev) (toSize x.nex) x.dim0
        x.dim1 x.gridMajor x.irsrc x.icsrc x.comm) x.H (toSize x.ldh) x.V x.ritzv
    exact ⟨σ', own', h1, h2⟩
  | seqSolve sc x =>
    have h := rel_solve W r ⟨.seq, sc⟩ x
    cases hv : A ⟨.seq, sc⟩ with
    | null =>
      rw [hv] at h
      simp only [astep, Call.slot, hv, Abs.step, Call.problem, Call.solveArgs, Option.map_none]
      exact h
    | dead =>
      rw [hv] at h
      simp only [astep, Call.slot, hv, Abs.step, Call.problem, Call.solveArgs, Option.map_none]
      exact h
    | live p cfg st =>
      rw [hv] at h
      obtain ⟨σ', h1, h2⟩ := h
      simp only [astep, Call.slot, hv, Abs.step, Call.problem, Call.solveArgs, Option.map_some]
      exact ⟨σ', own, h1, h2⟩
  | distSolve sc x =>
    have h := rel_solve W r ⟨.dist, sc⟩ x
    cases hv : A ⟨.dist, sc⟩ with
    | null =>
      rw [hv] at h
      simp only [astep, Call.slot, hv, Abs.step, Call.problem, Call.solveArgs, Option.map_none]
      exact h
    | dead =>
      rw [hv] at h
      simp only [astep, Call.slot, hv, Abs.step, Call.problem, Call.solveArgs, Option.map_none]
      exact h
    | live p cfg st =>
      rw [hv] at h
      obtain ⟨σ', h1, h2⟩ := h
      simp only [astep, Call.slot, hv, Abs.step, Call.problem, Call.solveArgs, Option.map_some]
      exact ⟨σ', own, h1, h2⟩
  | seqFinalize sc =>
    have h := rel_delete r ⟨.seq, sc⟩
    have hp : ptr σ ⟨.seq, sc⟩ = σ.seq sc := rfl
    rw [hp] at h
    cases hv : A ⟨.seq, sc⟩ with
    | null =>
      rw [hv] at h
      simp only [astep, Call.slot, hv, Abs.step, Call.problem, Call.solveArgs, Option.map_some]
      refine ⟨σ, own, ?_, ?_⟩
      · simp only [call, seqFinalize, h, bind, Except.bind]
      · rw [← hv, Function.update_eq_self]; exact r
    | dead =>
      rw [hv] at h
      simp only [astep, Call.slot, hv, Abs.step, Call.problem, Call.solveArgs, Option.map_none]
      exact ⟨.doubleFree, by simp only [call, seqFinalize, h, bind, Except.bind]⟩
    | live p cfg st =>
      rw [hv] at h
      obtain ⟨σ', h1, h2⟩ := h
      simp only [astep, Call.slot, hv, Abs.step, Call.problem, Call.solveArgs, Option.map_some]
      exact ⟨σ', own, by simp only [call, seqFinalize, h1, bind, Except.bind], h2⟩
  | distFinalize sc =>
    have h := rel_delete r ⟨.dist, sc⟩
    have hp : ptr σ ⟨.dist, sc⟩ = σ.dist sc := rfl
    rw [hp] at h
    cases hv : A ⟨.dist, sc⟩ with
    | null =>
      rw [hv] at h
      simp only [astep, Call.slot, hv, Abs.step, Call.problem, Call.solveArgs, Option.map_some]
      refine ⟨σ, own, ?_, ?_⟩
      · simp only [call, distFinalize, h, bind, Except.bind]
      · rw [← hv, Function.update_eq_self]; exact r
    | dead =>
      rw [hv] at h
      simp only [astep, Call.slot, hv, Abs.step, Call.problem, Call.solveArgs, Option.map_none]
      exact ⟨.doubleFree, by simp only [call, distFinalize, h, bind, Except.bind]⟩
    | live p cfg st =>
      rw [hv] at h
      obtain ⟨σ', h1, h2⟩ := h
      simp only [astep, Call.slot, hv, Abs.step, Call.problem, Call.solveArgs, Option.map_some]
      exact ⟨σ', own, by simp only [call, distFinalize, h1, bind, Except.bind], h2⟩
  | distIO sc w f H =>
    have hs := r.slot ⟨.dist, sc⟩
    cases hv : A ⟨.dist, sc⟩ with
    | null =>
      rw [hv] at hs
      simp only [astep, Call.slot, hv, Abs.step, Call.problem, Call.solveArgs, Option.map_none]
      exact ⟨.nullDeref, by simp [call, distIO, hs.2 rfl, State.derefProps, bind, Except.bind]⟩
    | dead =>
      rw [hv] at hs
      obtain ⟨a, h1, h2⟩ := hs.2 rfl
      simp only [astep, Call.slot, hv, Abs.step, Call.problem, Call.solveArgs, Option.map_none]
      exact ⟨.useAfterFree, by simp [call, distIO, h1, h2, State.derefProps, bind, Except.bind]⟩
    | live p cfg st =>
      rw [hv] at hs
      obtain ⟨a, o, h1, h2, h3, h4⟩ := hs
      obtain ⟨ap, q, e1, e2, e3, e4⟩ := h4 rfl
      simp only [astep, Call.slot, hv, Abs.step, Call.problem, Call.solveArgs, e3, Option.map_some]
      refine ⟨σ, own, ?_, ?_⟩
      · have e2' : σ.props sc = some ap := e2
        simp [call, distIO, e2', e4, State.derefProps, bind, Except.bind]
      · rw [← hv, Function.update_eq_self]; exact r


/-! ### Whole histories -/

/-- Abstract state of a slot after one call, a refused call leaving it alone. -/
def next (W : World R β) (v : Abs R β) (c : Call R) : Abs R β := ((v.step W c).map Prod.fst).getD v

/-- Abstract state of a slot after a history. -/
def absOf (W : World R β) (h : List (Call R)) (s : Slot) : Abs R β :=
  (h.filter fun c => decide (c.slot = s)).foldl (next W) .null

theorem absOf_snoc (W : World R β) (h : List (Call R)) (c : Call R) (s : Slot) :
    absOf W (h ++ [c]) s = if c.slot = s then next W (absOf W h s) c else absOf W h s := by
  unfold absOf
  rw [List.filter_append, List.foldl_append]
  by_cases e : c.slot = s <;> simp [e]

/-- The abstract value knows its properties object on distributed slots. -/
def Abs.Good (s : Slot) : Abs R β → Prop
  | .live p _ _ => s.kind = .dist → ∃ q, p.props = some q
  | _ => True

theorem good_next (W : World R β) (v : Abs R β) (c : Call R) (hv : v.Good c.slot) :
    (next W v c).Good c.slot := by
  cases c <;> cases v <;>
    simp_all [next, Abs.step, Call.problem, Call.solveArgs, Abs.Good, Call.slot]
  rename_i sc w f H p cfg st
  obtain ⟨q, hq⟩ := hv
  simp [hq, Abs.Good]

theorem good_absOf (W : World R β) (h : List (Call R)) (s : Slot) : (absOf W h s).Good s := by
  induction h using List.reverseRecOn with
  | nil => trivial
  | append_singleton h c ih =>
    rw [absOf_snoc]
    split_ifs with e
    · subst e; exact good_next W _ _ ih
    · exact ih

theorem lastLife_snoc (h : List (Call R)) (c : Call R) (s : Slot) :
    lastLife (h ++ [c]) s = if c.slot = s ∧ c.isUse = false then some c else lastLife h s := by
  unfold lastLife
  rw [List.filter_append]
  by_cases e : c.slot = s <;> cases hu : c.isUse <;> simp [e, hu]

theorem live_iff (W : World R β) (h : List (Call R)) (s : Slot) :
    Live h s ↔ ∃ p cfg st, absOf W h s = .live p cfg st := by
  induction h using List.reverseRecOn with
  | nil => simp [Live, lastLife, absOf]
  | append_singleton h c ih =>
    have hg := good_absOf W h s
    unfold Live at ih ⊢
    rw [lastLife_snoc, absOf_snoc]
    by_cases e : c.slot = s
    · subst e
      cases c <;> cases hv : absOf W h _ <;>
        simp_all [next, Abs.step, Call.problem, Call.solveArgs, Call.isUse, Call.isInit, Abs.Good, Call.slot]
      obtain ⟨q, hq⟩ := hg
      simp [hq]
    · simp [e, ih]

theorem never_iff (W : World R β) (h : List (Call R)) (s : Slot) :
    Never h s ↔ absOf W h s = .null := by
  induction h using List.reverseRecOn with
  | nil => simp [Never, absOf]
  | append_singleton h c ih =>
    have hg := good_absOf W h s
    have hn : Never (h ++ [c]) s ↔ Never h s ∧ (c.slot = s → c.isInit = false) := by
      unfold Never
      constructor
      · intro H
        exact ⟨fun d hd => H d (by simp [hd]), H c (by simp)⟩
      · rintro ⟨H1, H2⟩ d hd
        rcases List.mem_append.1 hd with hd | hd
        · exact H1 d hd
        · rw [List.mem_singleton] at hd; subst hd; exact H2
    rw [hn, absOf_snoc, ih]
    by_cases e : c.slot = s
    · subst e
      cases c <;> cases hv : absOf W h _ <;>
        simp_all [next, Abs.step, Call.problem, Call.solveArgs, Call.isInit, Abs.Good, Call.slot]
      obtain ⟨q, hq⟩ := hg
      simp [hq]
    · simp [e]

/-- A slot accepts a call exactly when the history allows it. -/
theorem step_isSome (W : World R β) (h : List (Call R)) (c : Call R) :
    ((absOf W h c.slot).step W c).isSome = true ↔
      (c.isUse = true → Live h c.slot) ∧ (c.isFinal = true → Live h c.slot ∨ Never h c.slot) := by
  rw [live_iff W, never_iff W]
  have hg := good_absOf W h c.slot
  cases c <;> cases hv : absOf W h _ <;>
    simp_all [Abs.step, Call.problem, Call.solveArgs, Call.isUse, Call.isFinal, Abs.Good, Call.slot]
  obtain ⟨q, hq⟩ := hg
  simp [hq]

theorem runFrom_append (W : World R β) (σ : State R β) (h g : List (Call R)) :
    runFrom W σ (h ++ g) = (runFrom W σ h).bind fun r =>
      (runFrom W r.1 g).bind fun r' => .ok (r'.1, r.2 ++ r'.2) := by
  induction h generalizing σ with
  | nil =>
    simp only [List.nil_append, runFrom, Except.bind]
    cases runFrom W σ g <;> rfl
  | cons c h ih =>
    simp only [List.cons_append, runFrom, bind, Except.bind]
    cases call W σ c with
    | error e => rfl
    | ok r =>
      simp only [ih, Except.bind]
      cases runFrom W r.1 h with
      | error e => rfl
      | ok r2 =>
        simp only
        cases runFrom W r2.1 g <;> rfl

theorem legal_snoc (h : List (Call R)) (c : Call R) :
    Legal (h ++ [c]) ↔ Legal h ∧
      ((c.isUse = true → Live h c.slot) ∧ (c.isFinal = true → Live h c.slot ∨ Never h c.slot)) := by
  constructor
  · intro H
    refine ⟨fun h₁ d h₂ e => H h₁ d (h₂ ++ [c]) (by rw [e]; simp), H h c [] rfl⟩
  · rintro ⟨H1, H2⟩ h₁ d h₂ e
    rcases List.eq_nil_or_concat h₂ with rfl | ⟨h₃, b, rfl⟩
    · have := List.append_inj' e (by simp)
      obtain ⟨rfl, e2⟩ := this
      simp only [List.cons.injEq, and_true] at e2
      subst e2; exact H2
    · have e' : h ++ [c] = (h₁ ++ d :: h₃) ++ [b] := by rw [e]; simp
      obtain ⟨rfl, _⟩ := List.append_inj' e' (by simp)
      exact H1 h₁ d h₃ rfl

/-- The outputs the slots predict. -/
def outs (W : World R β) : List (Call R) → List (Call R) → List (Out R β)
  | _, [] => []
  | h, c :: g => (((absOf W h c.slot).step W c).map Prod.snd).toList ++ outs W (h ++ [c]) g

theorem outs_snoc (W : World R β) (h g : List (Call R)) (c : Call R) :
    outs W h (g ++ [c]) =
      outs W h g ++ (((absOf W (h ++ g) c.slot).step W c).map Prod.snd).toList := by
  induction g generalizing h with
  | nil => simp [outs]
  | cons d g ih => simp [outs, ih]

theorem start_rel (W : World R β) : Rel (absOf W []) (State.start : State R β) (fun _ => ⟨.seq, .s⟩) := by
  refine ⟨?_, ?_, ?_, ?_⟩
  · rintro ⟨k, sc⟩; cases k <;> exact ⟨rfl, fun _ => rfl⟩
  · rintro ⟨k, sc⟩ a h; cases k <;> cases h
  · intro sc a h; cases h
  · intro a _; rfl

/-- Legal histories run, with the outputs of the slots; illegal ones do not. -/
theorem run_spec (W : World R β) (h : List (Call R)) :
    (Legal h → ∃ σ own, run W h = .ok (σ, outs W [] h) ∧ Rel (absOf W h) σ own) ∧
    (¬ Legal h → ∃ e, run W h = .error e) := by
  induction h using List.reverseRecOn with
  | nil =>
    refine ⟨fun _ => ⟨_, _, rfl, start_rel W⟩, fun H => (H ?_).elim⟩
    intro h₁ c h₂ e; simp at e
  | append_singleton h c ih =>
    rw [legal_snoc, ← step_isSome W]
    unfold run at ih ⊢
    rw [runFrom_append]
    by_cases hl : Legal h
    · obtain ⟨σ, own, h1, r⟩ := ih.1 hl
      rw [h1]
      have hc := rel_call W r c
      cases hs : (absOf W h c.slot).step W c with
      | none =>
        simp only [astep, hs, Option.map_none] at hc
        obtain ⟨e, he⟩ := hc
        refine ⟨fun H => by simp at H, fun _ => ⟨e, ?_⟩⟩
        simp [runFrom, he, bind, Except.bind]
      | some vo =>
        simp only [astep, hs, Option.map_some] at hc
        obtain ⟨σ', own', h2, r'⟩ := hc
        refine ⟨fun _ => ⟨σ', own', ?_, ?_⟩, fun H => (H ⟨hl, rfl⟩).elim⟩
        · simp [runFrom, h2, bind, Except.bind, outs_snoc, hs]
        · have : absOf W (h ++ [c]) = Function.update (absOf W h) c.slot vo.1 := by
            funext s
            rw [absOf_snoc]
            by_cases e : c.slot = s
            · subst e; simp [next, hs]
            · rw [if_neg e, Function.update_of_ne (Ne.symm e)]
          rw [this]; exact r'
    · obtain ⟨e, he⟩ := ih.2 hl
      exact ⟨fun H => (hl H.1).elim, fun _ => ⟨e, by rw [he]; rfl⟩⟩

end Iface
end Verif
