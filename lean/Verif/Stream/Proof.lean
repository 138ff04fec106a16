/-
Programs whose operations are safe do not depend on timing.
-/
import Verif.Stream.Machine

namespace Verif
namespace Stream

/-- Work for the device touches device arrays only, and takes its arguments from host arrays; the host touches
host arrays only, except while it waits for the device.  Only the streams in `Q` are used. -/
def Op.Safe (Q : Set Queue) (o : Op) : Prop :=
  match o.when with
  | .host => (∀ l ∈ o.args, l.1 = .host) ∧ (∀ l ∈ o.reads, l.1 = .host) ∧ ∀ l ∈ o.writes, l.1 = .host
  | .later q => q ∈ Q ∧ (∀ l ∈ o.args, l.1 = .host) ∧ (∀ l ∈ o.reads, l.1 = .dev) ∧ ∀ l ∈ o.writes, l.1 = .dev
  | .waits q => q ∈ Q

variable {g : Grid} {V : Type*} {ρ : Rule} {I : Interp g V} {P : Prog g V} {m : Fin g.procs → Mem V} {n : ℕ}
  {Q : Set Queue}

theorem Grid.Mates.refl (c : Option Comm) (i : Fin g.procs) : g.Mates c i i := by
  cases c <;> simp [Grid.Mates]

theorem Grid.Mates.symm {c : Option Comm} {i j : Fin g.procs} (h : g.Mates c i j) : g.Mates c j i := by
  cases c <;> simp_all [Grid.Mates]

theorem Grid.Mates.trans {c : Option Comm} {i j k : Fin g.procs} (h : g.Mates c i j) (h' : g.Mates c j k) :
    g.Mates c i k := by
  cases c <;> simp_all [Grid.Mates]

theorem Mem.put_of_mem {m : Mem V} {L : List Loc} {v : Vals L V} {l : Loc} (h : l ∈ L) :
    m.put L v l = v ⟨l, h⟩ := by
  simp [Mem.put, h]

theorem Mem.put_of_not {m : Mem V} {L : List Loc} {v : Vals L V} {l : Loc} (h : l ∉ L) :
    m.put L v l = m l := by
  simp [Mem.put, h]

/-- The operation process `i` performs at position `k` when executing in order. -/
def opAt (I : Interp g V) (P : Prog g V) (m : Fin g.procs → Mem V) (i : Fin g.procs) (k : ℕ) : Option Op :=
  P i k (inOrder I P m k i).host

theorem inOrder_succ {i : Fin g.procs} {k : ℕ} {o : Op} (h : opAt I P m i k = some o) :
    inOrder I P m (k + 1) i = (inOrder I P m k i).put o.writes (I.eff o i fun j =>
        ((inOrder I P m k j.1).get o.args, (inOrder I P m k j.1).get o.reads)) := by
  have h' : P i k (inOrder I P m k i).host = some o := h
  simp only [inOrder, h']

/-- The entry of a queue for position `k`, if the operation there is handed to the device. -/
def entryAt (I : Interp g V) (P : Prog g V) (m : Fin g.procs → Mem V) (i : Fin g.procs) (k : ℕ) :
    Option (Entry V) :=
  (opAt I P m i k).bind fun o => match o.when with
    | .later _ => some ⟨k, o, (inOrder I P m k i).get o.args⟩
    | _ => none

theorem entryAt_later {i : Fin g.procs} {k : ℕ} {o : Op} {q : Queue} (h : opAt I P m i k = some o)
    (hq : o.when = .later q) : entryAt I P m i k = some ⟨k, o, (inOrder I P m k i).get o.args⟩ := by
  simp [entryAt, h, hq]

theorem entryAt_none {i : Fin g.procs} {k : ℕ} {o : Op} (h : opAt I P m i k = some o)
    (hq : ∀ q, o.when ≠ .later q) : entryAt I P m i k = none := by
  cases hw : o.when with
  | host => simp [entryAt, h, hw]
  | waits q => simp [entryAt, h, hw]
  | later q => exact absurd hw (hq q)

theorem entryAt_eq {i : Fin g.procs} {k : ℕ} {e : Entry V} (h : entryAt I P m i k = some e) :
    e.pos = k ∧ opAt I P m i k = some e.op ∧ (∃ q, e.op.when = .later q) ∧
      e = ⟨k, e.op, (inOrder I P m k i).get e.op.args⟩ := by
  unfold entryAt at h
  obtain ⟨o, ho, he⟩ := Option.bind_eq_some_iff.mp h
  cases hw : o.when with
  | host => simp [hw] at he
  | waits q => simp [hw] at he
  | later q =>
    simp only [hw, Option.some.injEq] at he
    subst he
    exact ⟨rfl, ho, ⟨q, hw⟩, rfl⟩

/-- The work between two positions. -/
def pending (I : Interp g V) (P : Prog g V) (m : Fin g.procs → Mem V) (i : Fin g.procs) (b a : ℕ) :
    List (Entry V) :=
  (List.range' b (a - b)).filterMap (entryAt I P m i)

theorem mem_pending {i : Fin g.procs} {b a : ℕ} {e : Entry V} (h : e ∈ pending I P m i b a) :
    b ≤ e.pos ∧ e.pos < a ∧ entryAt I P m i e.pos = some e := by
  obtain ⟨k, hk, he⟩ := List.mem_filterMap.mp h
  have hp := (entryAt_eq he).1
  rw [List.mem_range'_1] at hk
  rw [hp]
  exact ⟨hk.1, by omega, he⟩

theorem pending_mem {i : Fin g.procs} {b a k : ℕ} {e : Entry V} (h1 : b ≤ k) (h2 : k < a)
    (he : entryAt I P m i k = some e) : e ∈ pending I P m i b a :=
  List.mem_filterMap.mpr ⟨k, by rw [List.mem_range'_1]; omega, he⟩

theorem pending_succ {i : Fin g.procs} {b a : ℕ} (h : b ≤ a) :
    pending I P m i b (a + 1) = pending I P m i b a ++ (entryAt I P m i a).toList := by
  unfold pending
  rw [show a + 1 - b = (a - b) + 1 by omega, List.range'_concat, List.filterMap_append]
  congr 1
  rw [show b + 1 * (a - b) = a by omega]
  cases h : entryAt I P m i a <;> simp [h]

theorem pending_self {i : Fin g.procs} {b : ℕ} : pending I P m i b b = [] := by
  simp [pending]

/-- The first work that has not been run: everything before it is not work for the device. -/
theorem pending_cons {i : Fin g.procs} {b a : ℕ} {e : Entry V} {r : List (Entry V)}
    (h : pending I P m i b a = e :: r) :
    b ≤ e.pos ∧ e.pos < a ∧ entryAt I P m i e.pos = some e ∧ (∀ k, b ≤ k → k < e.pos → entryAt I P m i k = none) ∧
      r = pending I P m i (e.pos + 1) a := by
  have hmem := mem_pending (I := I) (P := P) (m := m) (i := i) (b := b) (a := a) (e := e) (by rw [h]; simp)
  refine ⟨hmem.1, hmem.2.1, hmem.2.2, ?_⟩
  generalize hl : a - b = len at *
  induction len generalizing b with
  | zero => exfalso; omega
  | succ len ih =>
    have hs : pending I P m i b a = (entryAt I P m i b).toList ++ pending I P m i (b + 1) a := by
      unfold pending
      rw [hl, List.range'_succ, List.filterMap_cons, show a - (b + 1) = len by omega]
      cases entryAt I P m i b <;> simp
    rw [hs] at h
    cases hb : entryAt I P m i b with
    | none =>
      rw [hb] at h
      simp only [Option.toList_none, List.nil_append] at h
      have hm := mem_pending (I := I) (P := P) (m := m) (i := i) (b := b + 1) (a := a) (e := e) (by rw [h]; simp)
      obtain ⟨h1, h2⟩ := ih h hm (by omega)
      refine ⟨fun k hk hk' => ?_, h2⟩
      rcases Nat.eq_or_lt_of_le hk with rfl | hlt
      · exact hb
      · exact h1 k hlt hk'
    | some e' =>
      rw [hb] at h
      simp only [Option.toList_some, List.singleton_append, List.cons.injEq] at h
      obtain ⟨rfl, rfl⟩ := h
      have hp := (entryAt_eq hb).1
      refine ⟨fun k hk hk' => ?_, ?_⟩
      · omega
      · rw [hp]

theorem pending_nil {i : Fin g.procs} {b a : ℕ} (h : pending I P m i b a = []) :
    ∀ k, b ≤ k → k < a → entryAt I P m i k = none := by
  intro k h1 h2
  cases he : entryAt I P m i k with
  | none => rfl
  | some e => have := pending_mem (I := I) (P := P) (m := m) h1 h2 he; rw [h] at this; simp at this

/-- What holds in every state that can be reached; `b i` is a position such that the device of `i` has run all
work before it and none from there on. -/
structure Inv (I : Interp g V) (P : Prog g V) (m : Fin g.procs → Mem V) (n : ℕ) (σ : State g V)
    (b : Fin g.procs → ℕ) : Prop where
  low : ∀ i, b i ≤ (σ i).pc
  high : ∀ i, (σ i).pc ≤ n
  queue : ∀ i, (σ i).queue = pending I P m i (b i) (σ i).pc
  host : ∀ i a, (σ i).mem (.host, a) = inOrder I P m (σ i).pc i (.host, a)
  dev : ∀ i a, (σ i).mem (.dev, a) = inOrder I P m (b i) i (.dev, a)
  nowait : ∀ i k o q, b i ≤ k → k < (σ i).pc → opAt I P m i k = some o → o.when ≠ .waits q
  collLater : ∀ i j p o q, opAt I P m i p = some o → o.when = .later q → g.Mates o.coll i j →
    (p < b i → p < b j)
  collNow : ∀ i j p o, opAt I P m i p = some o → (∀ q, o.when ≠ .later q) → g.Mates o.coll i j →
    (p < (σ i).pc → p < (σ j).pc)

/-- The hypotheses on the program. -/
structure Good (ρ : Rule) (Q : Set Queue) (I : Interp g V) (P : Prog g V) (m : Fin g.procs → Mem V) (n : ℕ) :
    Prop where
  lock : Lockstep I P m n
  safe : ∀ i k o, opAt I P m i k = some o → o.Safe Q
  ordered : ∀ q ∈ Q, ∀ q' ∈ Q, ρ.Ordered q q'

theorem Good.exists_op (G : Good ρ Q I P m n) {i : Fin g.procs} {k : ℕ} (h : k < n) :
    ∃ o, opAt I P m i k = some o ∧ ∀ j, g.Mates o.coll i j → opAt I P m j k = some o :=
  G.lock.runs k h i

theorem Good.mate_op (G : Good ρ Q I P m n) {i j : Fin g.procs} {k : ℕ} {o : Op} (h : k < n)
    (ho : opAt I P m i k = some o) (hj : g.Mates o.coll i j) : opAt I P m j k = some o := by
  obtain ⟨o', ho', hm⟩ := G.exists_op (i := i) h
  rw [ho] at ho'
  obtain rfl := Option.some.inj ho'
  exact hm j hj

/-- Work of the device does not change host arrays. -/
theorem Good.host_const (G : Good ρ Q I P m n) {i : Fin g.procs} {k : ℕ} {o : Op} {q : Queue}
    (ho : opAt I P m i k = some o) (hq : o.when = .later q) (a : Arr) :
    inOrder I P m (k + 1) i (.host, a) = inOrder I P m k i (.host, a) := by
  rw [inOrder_succ ho]
  apply Mem.put_of_not
  intro hl
  have := G.safe i k o ho
  simp only [Op.Safe, hq] at this
  simpa using this.2.2.2 _ hl

/-- Work of the host does not change device arrays. -/
theorem Good.dev_const (G : Good ρ Q I P m n) {i : Fin g.procs} {k : ℕ} {o : Op}
    (ho : opAt I P m i k = some o) (hq : o.when = .host) (a : Arr) :
    inOrder I P m (k + 1) i (.dev, a) = inOrder I P m k i (.dev, a) := by
  rw [inOrder_succ ho]
  apply Mem.put_of_not
  intro hl
  have := G.safe i k o ho
  simp only [Op.Safe, hq] at this
  simpa using this.2.2 _ hl

/-- Between `b i` and the first work that has not been run, device arrays do not change. -/
theorem Good.dev_between (G : Good ρ Q I P m n) {σ : State g V} {b : Fin g.procs → ℕ}
    (hI : Inv I P m n σ b) {i : Fin g.procs} {p : ℕ} (hb : b i ≤ p) (hp : p ≤ (σ i).pc)
    (hno : ∀ k, b i ≤ k → k < p → entryAt I P m i k = none) (a : Arr) :
    inOrder I P m p i (.dev, a) = inOrder I P m (b i) i (.dev, a) := by
  induction p, hb using Nat.le_induction with
  | base => rfl
  | succ p hb ih =>
    rw [← ih (by omega) (fun k h1 h2 => hno k h1 (by omega))]
    have hn := hI.high i
    obtain ⟨o, ho, -⟩ := G.exists_op (i := i) (k := p) (by omega)
    apply G.dev_const ho
    cases hw : o.when with
    | host => rfl
    | waits q => exact absurd hw (hI.nowait i p o q hb (by omega) ho)
    | later q =>
      have := hno p hb (by omega)
      rw [entryAt_later ho hw] at this
      cases this

theorem Mem.host_ext {m m' : Mem V} (h : ∀ a, m (.host, a) = m' (.host, a)) : m.host = m'.host := by
  funext a; exact h a

theorem Mem.get_congr {m m' : Mem V} {L : List Loc} (h : ∀ l ∈ L, m l = m' l) : m.get L = m'.get L := by
  funext l; exact h l.1 l.2

theorem Mem.ext {m m' : Mem V} (h : ∀ a, m (.host, a) = m' (.host, a)) (h' : ∀ a, m (.dev, a) = m' (.dev, a)) :
    m = m' := by
  funext ⟨s, a⟩
  cases s
  · exact h a
  · exact h' a

theorem Mem.get_host {m m' : Mem V} {L : List Loc} (hL : ∀ l ∈ L, l.1 = .host)
    (h : ∀ a, m (.host, a) = m' (.host, a)) : m.get L = m'.get L := by
  apply Mem.get_congr
  rintro ⟨s, a⟩ hl
  obtain rfl : s = .host := hL _ hl
  exact h a

theorem Mem.get_dev {m m' : Mem V} {L : List Loc} (hL : ∀ l ∈ L, l.1 = .dev)
    (h : ∀ a, m (.dev, a) = m' (.dev, a)) : m.get L = m'.get L := by
  apply Mem.get_congr
  rintro ⟨s, a⟩ hl
  obtain rfl : s = .dev := hL _ hl
  exact h a

theorem Mem.put_congr {m m' : Mem V} {L : List Loc} {v : Vals L V} {l : Loc} (h : m l = m' l) :
    m.put L v l = m'.put L v l := by
  by_cases hl : l ∈ L
  · rw [Mem.put_of_mem hl, Mem.put_of_mem hl]
  · rw [Mem.put_of_not hl, Mem.put_of_not hl, h]

variable {σ τ : State g V} {b : Fin g.procs → ℕ}

theorem Inv.next_eq (hI : Inv I P m n σ b) (i : Fin g.procs) :
    next P i (σ i) = opAt I P m i (σ i).pc := by
  unfold next opAt
  rw [Mem.host_ext (hI.host i)]

/-- At the end there is no further operation. -/
theorem Good.pc_lt (G : Good ρ Q I P m n) (hI : Inv I P m n σ b) {i : Fin g.procs} {o : Op}
    (h : next P i (σ i) = some o) : (σ i).pc < n := by
  rcases Nat.lt_or_ge (σ i).pc n with h' | h'
  · exact h'
  · have : (σ i).pc = n := le_antisymm (hI.high i) h'
    rw [hI.next_eq, this] at h
    have h2 := G.lock.ends i
    unfold opAt at h
    rw [h2] at h
    cases h

theorem inv_start : Inv I P m n (start m) (fun _ => 0) where
  low := fun _ => le_refl _
  high := fun _ => Nat.zero_le _
  queue := fun _ => by simp [start, pending]
  host := fun _ _ => rfl
  dev := fun _ _ => rfl
  nowait := fun i k o q _ h => by simp [start] at h
  collLater := fun _ _ _ _ _ _ _ _ h => by omega
  collNow := fun _ _ _ _ _ _ _ h => by simp [start] at h

theorem Good.issue (G : Good ρ Q I P m n) (hI : Inv I P m n σ b) {i : Fin g.procs} (h : Issue P i σ τ) :
    Inv I P m n τ b := by
  obtain ⟨o, q, hn, hq, rfl⟩ := h
  have hlt := G.pc_lt hI hn
  have ho := hI.next_eq i
  rw [hn] at ho
  have ho := ho.symm
  have hpc : ∀ j, (σ j).pc ≤ (Function.update σ i ⟨(σ i).mem, (σ i).pc + 1,
      (σ i).queue ++ [⟨(σ i).pc, o, (σ i).mem.get o.args⟩]⟩ j).pc := by
    intro j
    by_cases hj : j = i
    · subst hj; simp
    · simp [hj]
  constructor
  · exact fun j => (hI.low j).trans (hpc j)
  · intro j
    by_cases hj : j = i
    · subst hj; simpa using hlt
    · simpa [hj] using hI.high j
  · intro j
    by_cases hj : j = i
    · subst hj
      simp only [Function.update_self]
      rw [pending_succ (hI.low j), hI.queue j, entryAt_later ho hq]
      have hs := G.safe _ _ _ ho
      simp only [Op.Safe, hq] at hs
      rw [Mem.get_host hs.2.1 (hI.host j)]
      rfl
    · simpa [hj] using hI.queue j
  · intro j a
    by_cases hj : j = i
    · subst hj
      simp only [Function.update_self]
      rw [G.host_const ho hq]
      exact hI.host j a
    · simpa [hj] using hI.host j a
  · intro j a
    by_cases hj : j = i
    · subst hj; simpa using hI.dev j a
    · simpa [hj] using hI.dev j a
  · intro j k o' q' h1 h2 h3
    by_cases hj : j = i
    · subst hj
      simp only [Function.update_self] at h2
      rcases Nat.lt_or_ge k (σ j).pc with h4 | h4
      · exact hI.nowait j k o' q' h1 h4 h3
      · obtain rfl : k = (σ j).pc := by omega
        rw [ho] at h3
        obtain rfl := Option.some.inj h3
        rw [hq]; simp
    · simp only [Function.update_of_ne hj] at h2
      exact hI.nowait j k o' q' h1 h2 h3
  · exact hI.collLater
  · intro j j' p o' h1 h2 h3 h4
    have h5 : p < (σ j).pc := by
      by_cases hj : j = i
      · subst hj
        simp only [Function.update_self] at h4
        rcases Nat.lt_or_ge p (σ j).pc with h5 | h5
        · exact h5
        · obtain rfl : p = (σ j).pc := by omega
          rw [ho] at h1
          obtain rfl := Option.some.inj h1
          exact absurd hq (h2 q)
      · simpa [hj] using h4
    exact (hI.collNow j j' p o' h1 h2 h3 h5).trans_le (hpc j')

/-- In streams that are ordered among each other, work that need not wait for other work is the first. -/
theorem Good.free_nil (G : Good ρ Q I P m n) (hI : Inv I P m n σ b) {i : Fin g.procs} {q : Queue}
    (hq : q ∈ Q) {l : List (Entry V)} (hl : ∀ e ∈ l, e ∈ (σ i).queue) (hf : Free ρ q l) : l = [] := by
  cases l with
  | nil => rfl
  | cons e l =>
    exfalso
    have he := hl e (by simp)
    rw [hI.queue i] at he
    obtain ⟨h1, h2, h3⟩ := mem_pending he
    obtain ⟨-, ho, ⟨q', hw⟩, -⟩ := entryAt_eq h3
    have hs := G.safe _ _ _ ho
    simp only [Op.Safe, hw] at hs
    exact hf e (by simp) q' (by simp [hw, When.queue?]) (G.ordered q' hs.1 q hq)

/-- If nothing is waiting, memory is that of executing in order. -/
theorem Good.mem_of_nil (G : Good ρ Q I P m n) (hI : Inv I P m n σ b) {i : Fin g.procs}
    (h : (σ i).queue = []) : (σ i).mem = inOrder I P m (σ i).pc i := by
  apply Mem.ext (hI.host i)
  intro a
  rw [hI.dev i a]
  rw [hI.queue i] at h
  exact (G.dev_between hI (hI.low i) (le_refl _) (pending_nil h) a).symm

open Classical in
theorem Good.direct (G : Good ρ Q I P m n) (hI : Inv I P m n σ b) {i : Fin g.procs}
    (h : Direct ρ I P i σ τ) : ∃ b', Inv I P m n τ b' := by
  obtain ⟨o, h1, h2, h3⟩ := h
  have hii := Grid.Mates.refl (g := g) o.coll i
  have hlt := G.pc_lt hI (h1 i hii).2.1
  have ho : ∀ j, g.Mates o.coll i j → opAt I P m j (σ i).pc = some o := by
    intro j hj
    rw [← (h1 j hj).1, ← hI.next_eq j]
    exact (h1 j hj).2.1
  have hnl : ∀ q, o.when ≠ .later q := by
    intro q hq
    rcases (h1 i hii).2.2 with h | ⟨q', h, -⟩ <;> rw [hq] at h <;> cases h
  have hs := G.safe _ _ _ (ho i hii)
  -- nothing is waiting if the host waits
  have hempty : o.when ≠ .host → ∀ j, g.Mates o.coll i j → (σ j).queue = [] := by
    intro hw j hj
    rcases (h1 j hj).2.2 with h | ⟨q, hq, hf⟩
    · exact absurd h hw
    · simp only [Op.Safe, hq] at hs
      exact G.free_nil hI hs (fun e he => he) hf
  -- what is read is what is read when executing in order
  have hread : ∀ k, g.Mates o.coll i k → (σ k).mem.get o.args = (inOrder I P m (σ i).pc k).get o.args ∧
      (σ k).mem.get o.reads = (inOrder I P m (σ i).pc k).get o.reads := by
    intro k hk
    by_cases hw : o.when = .host
    · simp only [Op.Safe, hw] at hs
      have := hI.host k
      rw [(h1 k hk).1] at this
      exact ⟨Mem.get_host hs.1 this, Mem.get_host hs.2.1 this⟩
    · rw [G.mem_of_nil hI (hempty hw k hk), (h1 k hk).1]
      exact ⟨rfl, rfl⟩
  have heff : ∀ j, g.Mates o.coll i j → (I.eff o j fun k =>
      ((σ k.1).mem.get o.args, (σ k.1).mem.get o.reads)) = I.eff o j fun k =>
      ((inOrder I P m (σ i).pc k.1).get o.args, (inOrder I P m (σ i).pc k.1).get o.reads) := by
    intro j hj
    congr 1
    funext k
    rw [(hread k.1 (hj.trans k.2)).1, (hread k.1 (hj.trans k.2)).2]
  have hpc : ∀ j, (σ j).pc ≤ (τ j).pc := by
    intro j
    by_cases hj : g.Mates o.coll i j
    · rw [h2 j hj]; simp
    · rw [h3 j hj]
  refine ⟨fun j => if g.Mates o.coll i j ∧ o.when ≠ .host then (σ i).pc + 1 else b j, ?_⟩
  constructor
  · intro j
    split
    · rename_i h; rw [h2 j h.1]; simp [(h1 j h.1).1]
    · exact (hI.low j).trans (hpc j)
  · intro j
    by_cases hj : g.Mates o.coll i j
    · rw [h2 j hj]; simp [(h1 j hj).1, hlt]
    · rw [h3 j hj]; exact hI.high j
  · intro j
    by_cases hj : g.Mates o.coll i j
    · rw [h2 j hj]
      dsimp only
      rw [(h1 j hj).1]
      by_cases hw : o.when = .host
      · rw [if_neg (by simp [hw]), pending_succ (by rw [← (h1 j hj).1]; exact hI.low j),
          entryAt_none (ho j hj) hnl, hI.queue j, (h1 j hj).1]
        simp
      · rw [if_pos ⟨hj, hw⟩, hempty hw j hj, pending_self]
    · rw [h3 j hj, if_neg (by simp [hj])]
      exact hI.queue j
  · intro j a
    by_cases hj : g.Mates o.coll i j
    · rw [h2 j hj]
      dsimp only
      rw [heff j hj, (h1 j hj).1, inOrder_succ (ho j hj)]
      apply Mem.put_congr
      rw [hI.host j, (h1 j hj).1]
    · rw [h3 j hj]; exact hI.host j a
  · intro j a
    by_cases hj : g.Mates o.coll i j
    · rw [h2 j hj]
      dsimp only
      by_cases hw : o.when = .host
      · rw [if_neg (by simp [hw]), Mem.put_of_not, hI.dev j]
        intro hl
        simp only [Op.Safe, hw] at hs
        simpa using hs.2.2 _ hl
      · rw [if_pos ⟨hj, hw⟩, heff j hj, inOrder_succ (ho j hj)]
        apply Mem.put_congr
        rw [G.mem_of_nil hI (hempty hw j hj), (h1 j hj).1]
    · rw [h3 j hj, if_neg (by simp [hj])]
      exact hI.dev j a
  · intro j k o' q' hb hk ho'
    by_cases hj : g.Mates o.coll i j
    · rw [h2 j hj] at hk
      dsimp only at hk
      rw [(h1 j hj).1] at hk
      by_cases hw : o.when = .host
      · rw [if_neg (by simp [hw])] at hb
        rcases Nat.lt_or_ge k (σ i).pc with h4 | h4
        · exact hI.nowait j k o' q' hb (by rw [(h1 j hj).1]; exact h4) ho'
        · obtain rfl : k = (σ i).pc := by omega
          rw [ho j hj] at ho'
          obtain rfl := Option.some.inj ho'
          rw [hw]; simp
      · rw [if_pos ⟨hj, hw⟩] at hb
        omega
    · rw [h3 j hj] at hk
      rw [if_neg (by simp [hj])] at hb
      exact hI.nowait j k o' q' hb hk ho'
  · intro j j' p o' q' ho' hq' hm hp
    have hle : b j' ≤ if g.Mates o.coll i j' ∧ o.when ≠ .host then (σ i).pc + 1 else b j' := by
      split
      · rename_i h; have := hI.low j'; rw [(h1 j' h.1).1] at this; omega
      · exact le_refl _
    by_cases hj : g.Mates o.coll i j ∧ o.when ≠ .host
    · rw [if_pos hj] at hp
      rcases Nat.lt_or_ge p (b j) with h4 | h4
      · exact (hI.collLater j j' p o' q' ho' hq' hm h4).trans_le hle
      · rcases Nat.lt_or_ge p (σ i).pc with h5 | h5
        · have h6 := hempty hj.2 j hj.1
          rw [hI.queue j] at h6
          have h7 := pending_nil h6 p h4 (by rw [(h1 j hj.1).1]; exact h5)
          rw [entryAt_later ho' hq'] at h7
          cases h7
        · obtain rfl : p = (σ i).pc := by omega
          rw [ho j hj.1] at ho'
          obtain rfl := Option.some.inj ho'
          exact absurd hq' (hnl q')
    · rw [if_neg hj] at hp
      exact (hI.collLater j j' p o' q' ho' hq' hm hp).trans_le hle
  · intro j j' p o' ho' hw' hm hp
    by_cases hj : g.Mates o.coll i j
    · rw [h2 j hj] at hp
      dsimp only at hp
      rw [(h1 j hj).1] at hp
      rcases Nat.lt_or_ge p (σ i).pc with h5 | h5
      · exact (hI.collNow j j' p o' ho' hw' hm (by rw [(h1 j hj).1]; exact h5)).trans_le (hpc j')
      · obtain rfl : p = (σ i).pc := by omega
        rw [ho j hj] at ho'
        obtain rfl := Option.some.inj ho'
        have hj' : g.Mates o.coll i j' := hj.trans hm
        rw [h2 j' hj']
        simp [(h1 j' hj').1]
    · rw [h3 j hj] at hp
      exact (hI.collNow j j' p o' ho' hw' hm hp).trans_le (hpc j')

open Classical in
theorem Good.run (G : Good ρ Q I P m n) (hI : Inv I P m n σ b) {i : Fin g.procs}
    (h : Run ρ I i σ τ) : ∃ b', Inv I P m n τ b' := by
  obtain ⟨p, o, q, l, r, a, hq, h1, h2, h3⟩ := h
  have hii := Grid.Mates.refl (g := g) o.coll i
  -- the work is the first in every queue
  have hent : ∀ j, g.Mates o.coll i j → p < (σ j).pc ∧ opAt I P m j p = some o := by
    intro j hj
    have hmem : (⟨p, o, a j⟩ : Entry V) ∈ (σ j).queue := by rw [(h1 j hj).1]; simp
    rw [hI.queue j] at hmem
    obtain ⟨-, h5, h6⟩ := mem_pending hmem
    exact ⟨h5, (entryAt_eq h6).2.1⟩
  have hs := G.safe _ _ _ (hent i hii).2
  simp only [Op.Safe, hq] at hs
  have hl : ∀ j, g.Mates o.coll i j → l j = [] := by
    intro j hj
    exact G.free_nil (i := j) hI hs.1 (fun e he => by rw [(h1 j hj).1]; simp [he]) (h1 j hj).2
  have hcons : ∀ j, g.Mates o.coll i j → b j ≤ p ∧ a j = (inOrder I P m p j).get o.args ∧
      (∀ k, b j ≤ k → k < p → entryAt I P m j k = none) ∧ r j = pending I P m j (p + 1) (σ j).pc := by
    intro j hj
    have h4 := (h1 j hj).1
    rw [hl j hj, List.nil_append, hI.queue j] at h4
    obtain ⟨h5, h6, h7, h8, h9⟩ := pending_cons h4
    refine ⟨h5, ?_, h8, h9⟩
    have h10 := entryAt_later (hent j hj).2 hq
    rw [h10] at h7
    have h11 := Option.some.inj h7
    simp only [Entry.mk.injEq, heq_eq_eq, true_and] at h11
    exact h11.symm
  have hdev : ∀ j, g.Mates o.coll i j → ∀ x, (σ j).mem (.dev, x) = inOrder I P m p j (.dev, x) := by
    intro j hj x
    rw [hI.dev j x]
    exact (G.dev_between hI (hcons j hj).1 (hent j hj).1.le (hcons j hj).2.2.1 x).symm
  have heff : ∀ j, g.Mates o.coll i j → (I.eff o j fun k => (a k.1, (σ k.1).mem.get o.reads)) =
      I.eff o j fun k => ((inOrder I P m p k.1).get o.args, (inOrder I P m p k.1).get o.reads) := by
    intro j hj
    congr 1
    funext k
    rw [(hcons k.1 (hj.trans k.2)).2.1, Mem.get_dev hs.2.2.1 (hdev k.1 (hj.trans k.2))]
  have hpc : ∀ j, (τ j).pc = (σ j).pc := by
    intro j
    by_cases hj : g.Mates o.coll i j
    · rw [h2 j hj]
    · rw [h3 j hj]
  have hle : ∀ j, b j ≤ if g.Mates o.coll i j then p + 1 else b j := by
    intro j
    split
    · rename_i h; have := (hcons j h).1; omega
    · exact le_refl _
  refine ⟨fun j => if g.Mates o.coll i j then p + 1 else b j, ?_⟩
  constructor
  · intro j
    rw [hpc j]
    split
    · rename_i h; exact (hent j h).1
    · exact hI.low j
  · intro j; rw [hpc j]; exact hI.high j
  · intro j
    by_cases hj : g.Mates o.coll i j
    · rw [h2 j hj, if_pos hj]
      dsimp only
      rw [hl j hj, List.nil_append]
      exact (hcons j hj).2.2.2
    · rw [h3 j hj, if_neg hj]
      exact hI.queue j
  · intro j x
    rw [hpc j]
    by_cases hj : g.Mates o.coll i j
    · rw [h2 j hj]
      dsimp only
      rw [Mem.put_of_not, hI.host j x]
      intro hm
      simpa using hs.2.2.2 _ hm
    · rw [h3 j hj]; exact hI.host j x
  · intro j x
    by_cases hj : g.Mates o.coll i j
    · rw [h2 j hj, if_pos hj, heff j hj, inOrder_succ (hent j hj).2]
      apply Mem.put_congr
      exact hdev j hj x
    · rw [h3 j hj, if_neg hj]
      exact hI.dev j x
  · intro j k o' q' hb hk ho'
    rw [hpc j] at hk
    exact hI.nowait j k o' q' ((hle j).trans hb) hk ho'
  · intro j j' p' o' q' ho' hq' hm hp
    by_cases hj : g.Mates o.coll i j
    · rw [if_pos hj] at hp
      rcases Nat.lt_or_ge p' (b j) with h4 | h4
      · exact (hI.collLater j j' p' o' q' ho' hq' hm h4).trans_le (hle j')
      · rcases Nat.lt_or_ge p' p with h5 | h5
        · have h7 := (hcons j hj).2.2.1 p' h4 h5
          rw [entryAt_later ho' hq'] at h7
          cases h7
        · obtain rfl : p' = p := by omega
          rw [(hent j hj).2] at ho'
          obtain rfl := Option.some.inj ho'
          have hj' : g.Mates o.coll i j' := hj.trans hm
          rw [if_pos hj']
          omega
    · rw [if_neg hj] at hp
      exact (hI.collLater j j' p' o' q' ho' hq' hm hp).trans_le (hle j')
  · intro j j' p' o' ho' hw' hm hp
    rw [hpc j] at hp
    rw [hpc j']
    exact hI.collNow j j' p' o' ho' hw' hm hp

theorem Good.step (G : Good ρ Q I P m n) (hI : Inv I P m n σ b) (h : Step ρ I P σ τ) :
    ∃ b', Inv I P m n τ b' := by
  obtain ⟨i, h | h | h⟩ := h
  · exact ⟨b, G.issue hI h⟩
  · exact G.direct hI h
  · exact G.run hI h

theorem Good.reach (G : Good ρ Q I P m n) (h : Relation.ReflTransGen (Step ρ I P) (start m) σ) :
    ∃ b, Inv I P m n σ b := by
  induction h with
  | refl => exact ⟨_, inv_start⟩
  | tail _ hs ih => obtain ⟨b, hb⟩ := ih; exact G.step hb hs

/-! ### Progress -/

/-- The first position a process has not yet dealt with. -/
def behind (s : PState V) : ℕ := match s.queue with
  | [] => s.pc
  | e :: _ => e.pos

theorem Good.progress (G : Good ρ Q I P m n) (hI : Inv I P m n σ b) (hstuck : ¬ ∃ τ, Step ρ I P σ τ) :
    ∀ i, (σ i).pc = n ∧ (σ i).queue = [] := by
  classical
  by_contra hcon
  push Not at hcon
  obtain ⟨i0, hi0⟩ := hcon
  have hbh : ∀ i, behind (σ i) ≤ (σ i).pc := by
    intro i
    unfold behind
    split
    · exact le_refl _
    · rename_i e r he
      rw [hI.queue i] at he
      exact (pending_cons he).2.1.le
  have hb0 : behind (σ i0) < n := by
    unfold behind
    split
    · rename_i he
      rcases Nat.lt_or_ge (σ i0).pc n with h | h
      · exact h
      · exact absurd he (hi0 (le_antisymm (hI.high i0) h))
    · rename_i e r he
      rw [hI.queue i0] at he
      exact (pending_cons he).2.1.trans_le (hI.high i0)
  obtain ⟨i, -, hmin⟩ := Finset.exists_min_image Finset.univ (fun i => behind (σ i)) ⟨i0, Finset.mem_univ _⟩
  have hmin : ∀ j, behind (σ i) ≤ behind (σ j) := fun j => hmin j (Finset.mem_univ _)
  obtain ⟨p, hp⟩ : ∃ p, p = behind (σ i) := ⟨_, rfl⟩
  have hpn : p < n := hp ▸ (hmin i0).trans_lt hb0
  obtain ⟨o, ho, hm⟩ := G.exists_op (i := i) hpn
  -- a process for which position p has not been performed yet
  have hfacts : ∀ j, opAt I P m j p = some o → p ≤ behind (σ j) → (∀ q, o.when = .later q → b j ≤ p) →
      ((∀ q, o.when ≠ .later q) → (σ j).pc ≤ p) →
      ((σ j).queue = [] ∧ (σ j).pc = p) ∨ (∃ q r, o.when = .later q ∧
        (σ j).queue = ⟨p, o, (inOrder I P m p j).get o.args⟩ :: r) := by
    intro j hoj hle hbj hpj
    by_cases hw : ∃ q, o.when = .later q
    · obtain ⟨q, hw⟩ := hw
      rcases Nat.lt_or_ge p (σ j).pc with h | h
      · right
        have hmem := pending_mem (I := I) (P := P) (m := m) (hbj q hw) h (entryAt_later hoj hw)
        rw [← hI.queue j] at hmem
        cases hqj : (σ j).queue with
        | nil => rw [hqj] at hmem; simp at hmem
        | cons e r =>
          have h5 : p ≤ e.pos := by simpa [behind, hqj] using hle
          rw [hI.queue j] at hqj
          obtain ⟨h6, h7, h8, h9, h10⟩ := pending_cons hqj
          have h11 : e.pos = p := by
            rcases Nat.lt_or_ge p e.pos with h12 | h12
            · have := h9 p (hbj q hw) h12
              rw [entryAt_later hoj hw] at this
              cases this
            · omega
          rw [h11, entryAt_later hoj hw] at h8
          exact ⟨q, r, hw, by rw [← Option.some.inj h8]⟩
      · left
        have h1 := hbh j
        have h2 : (σ j).pc = p := by omega
        refine ⟨?_, h2⟩
        cases hqj : (σ j).queue with
        | nil => rfl
        | cons e r =>
          have h5 : p ≤ e.pos := by simpa [behind, hqj] using hle
          rw [hI.queue j] at hqj
          have := (pending_cons hqj).2.1
          omega
    · left
      push Not at hw
      have h1 := hbh j
      have h3 := hpj hw
      have h2 : (σ j).pc = p := by omega
      refine ⟨?_, h2⟩
      cases hqj : (σ j).queue with
      | nil => rfl
      | cons e r =>
        have h5 : p ≤ e.pos := by simpa [behind, hqj] using hle
        rw [hI.queue j] at hqj
        have := (pending_cons hqj).2.1
        omega
  -- position p has not been performed by i
  have hbi : ∀ q, o.when = .later q → b i ≤ p := by
    intro q hw
    unfold behind at hp
    split at hp
    · rw [hp]; exact hI.low i
    · rename_i e r he
      rw [hI.queue i] at he
      rw [hp]; exact (pending_cons he).1
  have hpi : (∀ q, o.when ≠ .later q) → (σ i).pc ≤ p := by
    intro hw
    unfold behind at hp
    split at hp
    · exact hp.ge
    · rename_i e r he
      rw [hI.queue i] at he
      obtain ⟨-, -, h8, -⟩ := pending_cons he
      obtain ⟨-, h9, ⟨q, h10⟩, -⟩ := entryAt_eq h8
      rw [← hp, ho] at h9
      obtain rfl := Option.some.inj h9
      exact absurd h10 (hw q)
  have hall : ∀ j, g.Mates o.coll i j → ((σ j).queue = [] ∧ (σ j).pc = p) ∨ (∃ q r, o.when = .later q ∧
        (σ j).queue = ⟨p, o, (inOrder I P m p j).get o.args⟩ :: r) := by
    intro j hj
    refine hfacts j (hm j hj) (hp ▸ hmin j) ?_ ?_
    · intro q hw
      by_contra hlt
      have := hI.collLater j i p o q (hm j hj) hw hj.symm (by omega)
      have := hbi q hw
      omega
    · intro hw
      by_contra hlt
      have := hI.collNow j i p o (hm j hj) hw hj.symm (by omega)
      have := hpi hw
      omega
  apply hstuck
  by_cases hw : ∃ q, o.when = .later q
  · obtain ⟨q, hw⟩ := hw
    by_cases hex : ∃ j, g.Mates o.coll i j ∧ (σ j).pc = p
    · obtain ⟨j, hj, hpc⟩ := hex
      exact ⟨_, j, Or.inl ⟨o, q, by rw [hI.next_eq, hpc]; exact hm j hj, hw, rfl⟩⟩
    · have hr : ∀ j, ∃ r, g.Mates o.coll i j →
          (σ j).queue = ⟨p, o, (inOrder I P m p j).get o.args⟩ :: r := by
        intro j
        by_cases hj : g.Mates o.coll i j
        · rcases hall j hj with h | ⟨-, r, -, h⟩
          · exact absurd ⟨j, hj, h.2⟩ hex
          · exact ⟨r, fun _ => h⟩
        · exact ⟨[], fun h => absurd h hj⟩
      choose r hr using hr
      refine ⟨fun j => if g.Mates o.coll i j then ⟨(σ j).mem.put o.writes (I.eff o j fun k =>
        ((inOrder I P m p k.1).get o.args, (σ k.1).mem.get o.reads)), (σ j).pc, [] ++ r j⟩ else σ j, i,
        Or.inr (Or.inr ⟨p, o, q, fun _ => [], r, fun k => (inOrder I P m p k).get o.args, hw, ?_, ?_, ?_⟩)⟩
      · intro j hj
        exact ⟨by rw [hr j hj]; rfl, by simp [Free]⟩
      · intro j hj; simp only [if_pos hj]
      · intro j hj; simp only [if_neg hj]
  · push Not at hw
    have hall' : ∀ j, g.Mates o.coll i j → (σ j).queue = [] ∧ (σ j).pc = p := by
      intro j hj
      rcases hall j hj with h | ⟨q, -, h, -⟩
      · exact h
      · exact absurd h (hw q)
    refine ⟨fun j => if g.Mates o.coll i j then ⟨(σ j).mem.put o.writes (I.eff o j fun k =>
        ((σ k.1).mem.get o.args, (σ k.1).mem.get o.reads)), (σ j).pc + 1, (σ j).queue⟩ else σ j, i,
        Or.inr (Or.inl ⟨o, ?_, ?_, ?_⟩)⟩
    · intro j hj
      refine ⟨by rw [(hall' j hj).2, (hall' i (Grid.Mates.refl _ _)).2], ?_, ?_⟩
      · rw [hI.next_eq, (hall' j hj).2]; exact hm j hj
      · cases hk : o.when with
        | host => exact Or.inl rfl
        | later q => exact absurd hk (hw q)
        | waits q => exact Or.inr ⟨q, rfl, by simp [Free, (hall' j hj).1]⟩
    · intro j hj; simp only [if_pos hj]
    · intro j hj; simp only [if_neg hj]

/-! ### Length of executions -/

/-- What a process has still to do. -/
def togo (n : ℕ) (s : PState V) : ℕ := 2 * (n - s.pc) + s.queue.length

theorem Good.togo_lt (G : Good ρ Q I P m n) (hI : Inv I P m n σ b) (h : Step ρ I P σ τ) :
    (∑ i, togo n (τ i)) < ∑ i, togo n (σ i) := by
  classical
  obtain ⟨i, h | h | h⟩ := h
  · obtain ⟨o, q, hn, hq, rfl⟩ := h
    have hlt := G.pc_lt hI hn
    apply Finset.sum_lt_sum
    · intro j _
      by_cases hj : j = i
      · subst hj; simp [togo]; omega
      · simp [hj]
    · exact ⟨i, Finset.mem_univ _, by simp [togo]; omega⟩
  · obtain ⟨o, h1, h2, h3⟩ := h
    have hii := Grid.Mates.refl (g := g) o.coll i
    have hlt := G.pc_lt hI (h1 i hii).2.1
    apply Finset.sum_lt_sum
    · intro j _
      by_cases hj : g.Mates o.coll i j
      · rw [h2 j hj]; simp [togo]; omega
      · rw [h3 j hj]
    · exact ⟨i, Finset.mem_univ _, by rw [h2 i hii]; simp [togo]; omega⟩
  · obtain ⟨p, o, q, l, r, a, hq, h1, h2, h3⟩ := h
    have hii := Grid.Mates.refl (g := g) o.coll i
    apply Finset.sum_lt_sum
    · intro j _
      by_cases hj : g.Mates o.coll i j
      · rw [h2 j hj]; simp [togo, (h1 j hj).1]
      · rw [h3 j hj]
    · exact ⟨i, Finset.mem_univ _, by rw [h2 i hii]; simp [togo, (h1 i hii).1]⟩

/-- Safe programs on streams that are ordered among each other do not depend on timing. -/
theorem Good.timingIrrelevant (G : Good ρ Q I P m n) : TimingIrrelevant ρ I P m n := by
  refine ⟨?_, ?_, fun σ hr i => ?_⟩
  · intro s len h0 hs
    have key : ∀ t ≤ len, (∃ b, Inv I P m n (s t) b) ∧ t + ∑ i, togo n (s t i) ≤ ∑ i, togo n (s 0 i) := by
      intro t
      induction t with
      | zero => intro _; exact ⟨⟨_, h0 ▸ inv_start⟩, by omega⟩
      | succ t ih =>
        intro ht
        obtain ⟨⟨b, hb⟩, h1⟩ := ih (by omega)
        have hst := hs t (by omega)
        have := G.togo_lt hb hst
        exact ⟨G.step hb hst, by omega⟩
    have h1 := (key len (le_refl _)).2
    have h2 : ∑ i, togo n (s 0 i) = 2 * n * g.procs := by
      rw [h0]
      simp [start, togo, mul_comm]
    omega
  · intro σ hr hstuck
    obtain ⟨b, hI⟩ := G.reach hr
    have h := G.progress hI hstuck
    refine ⟨fun i => ⟨?_, (h i).2⟩, fun i => ?_⟩
    · rw [hI.next_eq, (h i).1]; exact G.lock.ends i
    · rw [G.mem_of_nil hI (h i).2, (h i).1]
  · obtain ⟨b, hI⟩ := G.reach hr
    exact funext fun a => hI.host i a

end Stream
end Verif
