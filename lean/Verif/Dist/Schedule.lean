/-
Interleavings of the processes: C49 (no process waits for ever) and C56 (the result does not depend on the
schedule).

Every process runs through the same sequence of collective operations (that it is the same one for all is
C49 in Backend/MpiProps).  An operation involves groups of processes, the communicators: all processes of a
grid column, of a grid row, or each process alone.  It takes place in a group once all its members
have reached it; groups advance independently of each other, in any order.  This is the strictest
semantics MPI allows (an implementation may let processes leave a broadcast or reduction early, and the
code's non-blocking broadcasts are waited for before the next operation), so that a schedule that can
continue here can continue there.
-/
import Mathlib.Algebra.BigOperators.Group.Finset.Basic
import Mathlib.Algebra.Order.BigOperators.Group.Finset
import Mathlib.Data.Fintype.Basic
import Mathlib.Data.Fintype.BigOperators
import Mathlib.Logic.Equiv.Defs
import Mathlib.Order.WellFounded
import Mathlib.Tactic.Linarith

namespace Verif
namespace Sched

/-- A collective operation on processes `P` with local data `D`. -/
structure Coll (P : Type*) (D : P → Type*) where
  /-- `p` and `q` are in the same communicator -/
  comm : P → P → Prop
  equiv : Equivalence comm
  /-- the new data of every process -/
  act : (∀ p, D p) → ∀ p, D p
  /-- only data of the own communicator is used -/
  own : ∀ x y p, (∀ q, comm p q → x q = y q) → act x p = act y p

variable {P : Type*} {D : P → Type*}

/-- How far each process has come in the program, and its data. -/
structure Conf (P : Type*) (D : P → Type*) where
  pos : P → ℕ
  data : ∀ p, D p

/-- The communicator of `p` performs the next operation of `p`, all members having reached it; the other
processes do nothing. -/
def Move (prog : List (Coll P D)) (s t : Conf P D) : Prop :=
  ∃ (p : P) (h : s.pos p < prog.length),
    (∀ q, prog[s.pos p].comm p q → s.pos q = s.pos p) ∧
    (∀ q, prog[s.pos p].comm p q →
      t.pos q = s.pos q + 1 ∧ t.data q = prog[s.pos p].act s.data q) ∧
    ∀ q, ¬ prog[s.pos p].comm p q → t.pos q = s.pos q ∧ t.data q = s.data q

/-- `s` is reached from `s0` in `n` moves. -/
inductive Runs (prog : List (Coll P D)) (s0 : Conf P D) : ℕ → Conf P D → Prop
  | start : Runs prog s0 0 s0
  | more {n s t} : Runs prog s0 n s → Move prog s t → Runs prog s0 (n + 1) t

/-- All processes perform the first `n` operations in step. -/
def inStep (prog : List (Coll P D)) (x : ∀ p, D p) (n : ℕ) : ∀ p, D p :=
  (prog.take n).foldl (fun x op => op.act x) x

theorem inStep_succ (prog : List (Coll P D)) (x : ∀ p, D p) {n : ℕ} (h : n < prog.length) :
    inStep prog x (n + 1) = prog[n].act (inStep prog x n) := by
  unfold inStep
  rw [List.take_succ, List.getElem?_eq_getElem h, List.foldl_append]
  rfl

/-- The invariant of all runs. -/
structure Inv (prog : List (Coll P D)) (x : ∀ p, D p) (s : Conf P D) : Prop where
  le : ∀ p, s.pos p ≤ prog.length
  data : ∀ p, s.data p = inStep prog x (s.pos p) p
  group : ∀ k (h : k < prog.length) p q, prog[k].comm p q → k < s.pos p → k < s.pos q

theorem Inv.move {prog : List (Coll P D)} {x : ∀ p, D p} {s t : Conf P D} (hi : Inv prog x s)
    (h : Move prog s t) : Inv prog x t := by
  obtain ⟨p, hp, hg, h1, h2⟩ := h
  have hgroup : ∀ q, prog[s.pos p].comm p q → t.pos q = s.pos p + 1 := fun q hq => by
    rw [(h1 q hq).1, hg q hq]
  have hother : ∀ q, ¬ prog[s.pos p].comm p q → t.pos q = s.pos q := fun q hq => (h2 q hq).1
  refine ⟨fun q => ?_, fun q => ?_, fun k hk a b hab ha => ?_⟩
  · by_cases hq : prog[s.pos p].comm p q
    · rw [hgroup q hq]; omega
    · rw [hother q hq]; exact hi.le q
  · by_cases hq : prog[s.pos p].comm p q
    · rw [hgroup q hq, inStep_succ prog x hp, (h1 q hq).2]
      refine (prog[s.pos p]).own _ _ q fun a ha => ?_
      rw [hi.data a, hg a ((prog[s.pos p]).equiv.trans hq ha)]
    · rw [hother q hq, (h2 q hq).2]
      exact hi.data q
  · have hle : ∀ q, s.pos q ≤ t.pos q := by
      intro q
      by_cases hq : prog[s.pos p].comm p q
      · rw [hgroup q hq, hg q hq]; omega
      · rw [hother q hq]
    by_cases hap : prog[s.pos p].comm p a
    · rw [hgroup a hap] at ha
      rcases Nat.lt_or_ge k (s.pos p) with hlt | hge
      · exact lt_of_lt_of_le (hi.group k hk a b hab (by rw [hg a hap]; exact hlt)) (hle b)
      · have hkp : k = s.pos p := by omega
        subst hkp
        rw [hgroup b ((prog[s.pos p]).equiv.trans hap hab)]
        omega
    · rw [hother a hap] at ha
      exact lt_of_lt_of_le (hi.group k hk a b hab ha) (hle b)

theorem Runs.inv {prog : List (Coll P D)} {x : ∀ p, D p} {n : ℕ} {s : Conf P D}
    (h : Runs prog ⟨fun _ => 0, x⟩ n s) : Inv prog x s := by
  induction h with
  | start => exact ⟨fun _ => Nat.zero_le _, fun _ => rfl, fun _ _ _ _ _ h => h⟩
  | more _ h2 ih => exact ih.move h2

/-- **C49** No process waits for ever: whatever has happened so far, either all processes are through, or
some communicator can perform its next operation. -/
theorem C49_no_deadlock (prog : List (Coll P D)) (x : ∀ p, D p) {n : ℕ} {s : Conf P D}
    (h : Runs prog ⟨fun _ => 0, x⟩ n s) :
    (∀ p, s.pos p = prog.length) ∨ ∃ t, Move prog s t := by
  have hi := h.inv
  by_cases hall : ∀ p, s.pos p = prog.length
  · exact Or.inl hall
  · right
    push Not at hall
    obtain ⟨p0, hp0⟩ := hall
    -- a process that is furthest behind
    obtain ⟨p, hp⟩ : ∃ p, ∀ q, s.pos p ≤ s.pos q := by
      have hne : (Set.range s.pos).Nonempty := ⟨_, p0, rfl⟩
      obtain ⟨m, ⟨p, rfl⟩, hm⟩ := WellFounded.has_min (wellFounded_lt (α := ℕ)) (Set.range s.pos) hne
      exact ⟨p, fun q => not_lt.mp (hm _ ⟨q, rfl⟩)⟩
    have hlt : s.pos p < prog.length := lt_of_le_of_lt (hp p0) (lt_of_le_of_ne (hi.le p0) hp0)
    classical
    refine ⟨⟨fun q => if prog[s.pos p].comm p q then s.pos q + 1 else s.pos q,
      fun q => if prog[s.pos p].comm p q then prog[s.pos p].act s.data q else s.data q⟩,
      p, hlt, fun q hq => ?_, fun q hq => ⟨if_pos hq, if_pos hq⟩, fun q hq => ⟨if_neg hq, if_neg hq⟩⟩
    refine le_antisymm ?_ (hp q)
    by_contra hgt
    push Not at hgt
    have := hi.group _ hlt q p ((prog[s.pos p]).equiv.symm hq) hgt
    omega

/-- **C49** Every run ends: no schedule has more moves than there are processes times operations. -/
theorem C49_runs_end [Fintype P] (prog : List (Coll P D)) (x : ∀ p, D p) {n : ℕ} {s : Conf P D}
    (h : Runs prog ⟨fun _ => 0, x⟩ n s) : n ≤ Fintype.card P * prog.length := by
  have hsum : n ≤ ∑ p, s.pos p := by
    induction h with
    | start => simp
    | @more n s t _ h2 ih =>
      obtain ⟨p, hp, hg, h1, h2⟩ := h2
      have : ∑ q, s.pos q < ∑ q, t.pos q := by
        refine Finset.sum_lt_sum (fun q _ => ?_) ⟨p, Finset.mem_univ p, ?_⟩
        · by_cases hq : prog[s.pos p].comm p q
          · rw [(h1 q hq).1]; omega
          · rw [(h2 q hq).1]
        · rw [(h1 p ((prog[s.pos p]).equiv.refl p)).1]; omega
      omega
  have hle : ∑ p, s.pos p ≤ ∑ _p : P, prog.length := Finset.sum_le_sum fun p _ => h.inv.le p
  rw [Finset.sum_const, Finset.card_univ] at hle
  exact hsum.trans hle

/-- **C56** The result does not depend on the schedule: when all processes are through, their data are what
they would be had all processes performed the operations in step. -/
theorem C56_schedule_independent (prog : List (Coll P D)) (x : ∀ p, D p) {n : ℕ} {s : Conf P D}
    (h : Runs prog ⟨fun _ => 0, x⟩ n s) (hdone : ∀ p, s.pos p = prog.length) :
    s.data = prog.foldl (fun x op => op.act x) x := by
  funext p
  rw [h.inv.data p, hdone p]
  unfold inStep
  rw [List.take_length]

/-- Non-vacuity: two processes of a 2 x 2 grid may be ahead of the others. A program of a reduction over
columns followed by one over rows; after one move, the first column is ahead of the second. -/
example : ∃ (prog : List (Coll (Bool × Bool) fun _ => ℕ)) (s : Conf (Bool × Bool) fun _ => ℕ),
    prog.length = 2 ∧ Runs prog ⟨fun _ => 0, fun p => if p.1 then 1 else 2⟩ 1 s ∧
    s.pos (true, true) = 1 ∧ s.pos (true, false) = 0 ∧ s.data (true, true) = 3 := by
  let col : Coll (Bool × Bool) fun _ => ℕ :=
    ⟨fun p q => p.2 = q.2, ⟨fun _ => rfl, fun h => h.symm, fun h h' => h.trans h'⟩,
      fun x p => x (true, p.2) + x (false, p.2),
      fun x y p h => by rw [h (true, p.2) rfl, h (false, p.2) rfl]⟩
  let row : Coll (Bool × Bool) fun _ => ℕ :=
    ⟨fun p q => p.1 = q.1, ⟨fun _ => rfl, fun h => h.symm, fun h h' => h.trans h'⟩,
      fun x p => x (p.1, true) + x (p.1, false),
      fun x y p h => by rw [h (p.1, true) rfl, h (p.1, false) rfl]⟩
  refine ⟨[col, row], ⟨fun p => if p.2 then 1 else 0, fun p => if p.2 then 3 else if p.1 then 1 else 2⟩,
    rfl, .more .start ⟨(true, true), by decide, fun _ _ => rfl, ?_, ?_⟩, rfl, rfl, rfl⟩
  · rintro ⟨a, b⟩ (h : true = b)
    subst h
    exact ⟨rfl, rfl⟩
  · rintro ⟨a, b⟩ (h : ¬ true = b)
    have : b = false := by simpa using h
    subst this
    exact ⟨rfl, rfl⟩

end Sched
end Verif
