/-
Processes that run programs of their own and meet in collective operations.

Dist/Schedule treats one fixed list of operations.  Here the program of a process is a tree: what it does
next depends on the answers it got, it may skip operations others take part in, and its local variables
are part of it.  A collective operation takes place in a group of processes (a communicator) once all
its members have reached that operation; if one of them were about to take part in another operation, or
had ended, the group would wait for ever.  Groups advance independently, in any order.  As in
Dist/Schedule this is the strictest semantics MPI allows.

Moves of different groups commute, so all schedules agree as soon as one of them comes to an end:
`unique_end`.
-/
import Mathlib.Data.Fintype.Basic
import Mathlib.Data.Finset.Basic
import Mathlib.Data.Fintype.Card
import Mathlib.Tactic.Common
import Mathlib.Tactic.Linarith

namespace Verif
namespace Spmd

/-- A collective operation on processes `P`: process `p` contributes a message of type `M p` and gets an
answer of type `A p`, which depends on the messages of its communicator only. -/
structure Coll (P : Type) (M A : P → Type) where
  /-- `p` and `q` are in the same communicator -/
  comm : P → P → Prop
  equiv : Equivalence comm
  /-- the answer of `p` -/
  act : ∀ p, (∀ q, comm p q → M q) → A p

/-- The program of process `p`: it returns, or it takes part in a collective operation and goes on with
the answer. -/
inductive Prog {P : Type} (α : P → Type) (p : P) : Type 1
  | ret (a : α p)
  | op {M A : P → Type} (c : Coll P M A) (m : M p) (k : A p → Prog α p)

variable {P : Type} {α β γ : P → Type}

/-- What is left to do for every process. -/
abbrev Conf (α : P → Type) := ∀ p, Prog α p

/-- All members of the communicator of some `p` have reached the same operation and perform it; the other
processes do nothing. -/
def Move (s t : Conf α) : Prop :=
  ∃ (p : P) (M A : P → Type) (c : Coll P M A) (m : ∀ q, c.comm p q → M q)
    (k : ∀ q, c.comm p q → A q → Prog α q),
    (∀ q h, s q = .op c (m q h) (k q h)) ∧
    (∀ q h, t q = k q h (c.act q fun q' h' => m q' (c.equiv.trans h h'))) ∧
    ∀ q, ¬ c.comm p q → t q = s q

/-- `t` is reached from `s` in `n` moves. -/
inductive Runs : Conf α → ℕ → Conf α → Prop
  | stop (s) : Runs s 0 s
  | more {s s' t n} : Move s s' → Runs s' n t → Runs s (n + 1) t

/-- All processes have returned. -/
def Final (s : Conf α) : Prop := ∀ p, ∃ a, s p = .ret a

theorem Final.no_move {s t : Conf α} (h : Final s) : ¬ Move s t := by
  rintro ⟨p, M, A, c, m, k, h1, -, -⟩
  obtain ⟨a, ha⟩ := h p
  have := h1 p (c.equiv.refl p)
  rw [ha] at this
  cases this

/-- Two moves are the same or commute. -/
theorem Move.diamond {s t u : Conf α} (h1 : Move s t) (h2 : Move s u) :
    t = u ∨ ∃ v, Move t v ∧ Move u v := by
  obtain ⟨p, M, A, c, m, k, hs, ht, ho⟩ := h1
  obtain ⟨p', M', A', c', m', k', hs', hu, ho'⟩ := h2
  by_cases hmeet : ∃ q, c.comm p q ∧ c'.comm p' q
  · left
    obtain ⟨q, hq, hq'⟩ := hmeet
    have heq := (hs q hq).symm.trans (hs' q hq')
    injection heq with hM hA hc _ _
    subst hM hA
    have hc := eq_of_heq hc
    subst hc
    have hiff : ∀ x, c.comm p x ↔ c.comm p' x := fun x =>
      ⟨fun h => c.equiv.trans hq' (c.equiv.trans (c.equiv.symm hq) h),
        fun h => c.equiv.trans hq (c.equiv.trans (c.equiv.symm hq') h)⟩
    have hmk : ∀ x h h', m x h = m' x h' ∧ k x h = k' x h' := by
      intro x h h'
      have := (hs x h).symm.trans (hs' x h')
      injection this with _ _ _ h1 h2
      exact ⟨h1, h2⟩
    funext x
    by_cases hx : c.comm p x
    · rw [ht x hx, hu x ((hiff x).1 hx), (hmk x hx ((hiff x).1 hx)).2]
      congr 2
      funext y hy
      exact (hmk y _ _).1
    · rw [ho x hx, ho' x fun h => hx ((hiff x).2 h)]
  · right
    push Not at hmeet
    classical
    refine ⟨fun x => if c.comm p x then t x else u x,
      ⟨p', M', A', c', m', k', fun q h => ?_, fun q h => ?_, fun q h => ?_⟩,
      ⟨p, M, A, c, m, k, fun q h => ?_, fun q h => ?_, fun q h => ?_⟩⟩
    · rw [ho q fun hc => hmeet q hc h]
      exact hs' q h
    · dsimp only
      rw [if_neg fun hc => hmeet q hc h]
      exact hu q h
    · dsimp only
      split_ifs with hc
      · rfl
      · rw [ho' q h, ho q hc]
    · rw [ho' q (hmeet q h)]
      exact hs q h
    · dsimp only
      rw [if_pos h]
      exact ht q h
    · exact if_neg h

theorem Runs.strip {s t : Conf α} {n : ℕ} (h : Runs s n t) (hf : Final t) {u : Conf α} (hm : Move s u) :
    ∃ n', n = n' + 1 ∧ Runs u n' t := by
  induction h generalizing u with
  | stop s => exact absurd hm hf.no_move
  | more h1 h2 ih =>
    rcases h1.diamond hm with rfl | ⟨v, hv1, hv2⟩
    · exact ⟨_, rfl, h2⟩
    · obtain ⟨n', rfl, h3⟩ := ih hf hv1
      exact ⟨n' + 1, rfl, .more hv2 h3⟩

/-- If one schedule comes to an end, every other schedule is part of one that comes to the same end after
the same number of moves. -/
theorem unique_end {s t : Conf α} {n : ℕ} (h : Runs s n t) (hf : Final t) {m : ℕ} {u : Conf α}
    (h' : Runs s m u) : ∃ n', n = m + n' ∧ Runs u n' t := by
  induction h' generalizing n with
  | stop s => exact ⟨n, (Nat.zero_add n).symm, h⟩
  | @more s s' u m h1 _ ih =>
    obtain ⟨n', rfl, h3⟩ := h.strip hf h1
    obtain ⟨n'', rfl, h4⟩ := ih h3
    exact ⟨n'', by omega, h4⟩

/-- No process waits for ever. -/
theorem no_deadlock {s t : Conf α} {n : ℕ} (h : Runs s n t) (hf : Final t) {m : ℕ} {u : Conf α}
    (h' : Runs s m u) : Final u ∨ ∃ v, Move u v := by
  obtain ⟨n', -, hr⟩ := unique_end h hf h'
  cases hr with
  | stop => exact Or.inl hf
  | more h1 _ => exact Or.inr ⟨_, h1⟩

/-- No schedule is longer. -/
theorem runs_end {s t : Conf α} {n : ℕ} (h : Runs s n t) (hf : Final t) {m : ℕ} {u : Conf α}
    (h' : Runs s m u) : m ≤ n := by
  obtain ⟨n', rfl, -⟩ := unique_end h hf h'
  omega

/-- All schedules give the same results. -/
theorem same_end {s t : Conf α} {n : ℕ} (h : Runs s n t) (hf : Final t) {m : ℕ} {u : Conf α}
    (h' : Runs s m u) (hu : Final u) : u = t := by
  obtain ⟨n', -, hr⟩ := unique_end h hf h'
  cases hr with
  | stop => rfl
  | more h1 _ => exact absurd h1 hu.no_move

/-! ### Putting programs together -/

/-- First `t`, then what `f` makes of its result. -/
def Prog.bind {p : P} : Prog β p → (β p → Prog α p) → Prog α p
  | .ret b, f => f b
  | .op c m k, f => .op c m fun a => (k a).bind f

theorem Prog.bind_assoc {p : P} (t : Prog γ p) (f : γ p → Prog β p) (g : β p → Prog α p) :
    (t.bind f).bind g = t.bind fun b => (f b).bind g := by
  induction t with
  | ret a => rfl
  | op c m k ih =>
    show Prog.op c m _ = Prog.op c m _
    congr 1
    funext a
    exact ih a

theorem Move.bind {s t : Conf β} (h : Move s t) (f : ∀ p, β p → Prog α p) :
    Move (fun p => (s p).bind (f p)) fun p => (t p).bind (f p) := by
  obtain ⟨p, M, A, c, m, k, hs, ht, ho⟩ := h
  refine ⟨p, M, A, c, m, fun q h a => (k q h a).bind (f q), fun q h => ?_, fun q h => ?_, fun q h => ?_⟩
  · dsimp only
    rw [hs q h]
    rfl
  · dsimp only
    rw [ht q h]
  · dsimp only
    rw [ho q h]

theorem Runs.trans {s t u : Conf α} {n m : ℕ} (h : Runs s n t) (h' : Runs t m u) : Runs s (m + n) u := by
  induction h with
  | stop => exact h'
  | more h1 _ ih => exact .more h1 (ih h')

/-- Some schedule leads from `s` to `t`. -/
def Leads (s t : Conf α) : Prop := ∃ n, Runs s n t

theorem Leads.refl (s : Conf α) : Leads s s := ⟨0, .stop s⟩

theorem Leads.trans {s t u : Conf α} (h : Leads s t) (h' : Leads t u) : Leads s u := by
  obtain ⟨n, h⟩ := h
  obtain ⟨m, h'⟩ := h'
  exact ⟨m + n, h.trans h'⟩

theorem Leads.bind {s t : Conf β} (h : Leads s t) (f : ∀ p, β p → Prog α p) :
    Leads (fun p => (s p).bind (f p)) fun p => (t p).bind (f p) := by
  obtain ⟨n, h⟩ := h
  refine ⟨n, ?_⟩
  induction h with
  | stop => exact .stop _
  | more h1 _ ih => exact .more (h1.bind f) ih

/-- Some schedule of `s` ends with the results `a`. -/
def Gives (s : Conf α) (a : ∀ p, α p) : Prop := Leads s fun p => .ret (a p)

theorem Gives.ret (a : ∀ p, α p) : Gives (fun p => .ret (a p)) a := Leads.refl _

theorem Gives.bind {s : Conf β} {b : ∀ p, β p} (h : Gives s b) {f : ∀ p, β p → Prog α p} {a : ∀ p, α p}
    (h' : Gives (fun p => f p (b p)) a) : Gives (fun p => (s p).bind (f p)) a :=
  (Leads.bind h f).trans h'

/-- All processes of a set of communicators reach an operation and perform it. -/
theorem leads_some [Finite P] {M A : P → Type} (c : Coll P M A) (S : P → Prop)
    (hS : ∀ p q, c.comm p q → S p → S q) (m : ∀ p, S p → M p) (k : ∀ p, S p → A p → Prog α p)
    {s t : Conf α} (hs : ∀ p h, s p = .op c (m p h) (k p h))
    (ht : ∀ p h, t p = k p h (c.act p fun q hq => m q (hS p q hq h))) (ho : ∀ p, ¬ S p → t p = s p) :
    Leads s t := by
  classical
  cases nonempty_fintype P
  have key : ∀ F : Finset P, ∃ T : P → Prop, (∀ p ∈ F, S p → T p) ∧ (∀ p, T p → S p) ∧
      (∀ p q, c.comm p q → T p → T q) ∧ Leads s fun p => if T p then t p else s p := by
    intro F
    induction F using Finset.induction_on with
    | empty =>
      refine ⟨fun _ => False, by simp, by simp, by simp, ?_⟩
      simp only [if_false]
      exact Leads.refl s
    | insert x F _ ih =>
      obtain ⟨T, h1, h2, h3, h4⟩ := ih
      by_cases hx : S x ∧ ¬ T x
      · refine ⟨fun p => T p ∨ c.comm x p, ?_, ?_, ?_, h4.trans ⟨1, .more ?_ (.stop _)⟩⟩
        · intro p hp hSp
          rcases Finset.mem_insert.1 hp with rfl | hp
          · exact Or.inr (c.equiv.refl _)
          · exact Or.inl (h1 p hp hSp)
        · rintro p (hp | hp)
          · exact h2 p hp
          · exact hS x p hp hx.1
        · rintro p q hpq (hp | hp)
          · exact Or.inl (h3 p q hpq hp)
          · exact Or.inr (c.equiv.trans hp hpq)
        · have hnT : ∀ q, c.comm x q → ¬ T q := fun q hq hT =>
            hx.2 (h3 q x (c.equiv.symm hq) hT)
          refine ⟨x, M, A, c, fun q h => m q (hS x q h hx.1), fun q h => k q (hS x q h hx.1),
            fun q h => ?_, fun q h => ?_, fun q h => ?_⟩
          · dsimp only
            rw [if_neg (hnT q h)]
            exact hs q _
          · dsimp only
            rw [if_pos (Or.inr h)]
            exact ht q _
          · dsimp only
            by_cases hT : T q
            · rw [if_pos (Or.inl hT), if_pos hT]
            · rw [if_neg fun hc => hc.elim hT h, if_neg hT]
      · refine ⟨T, ?_, h2, h3, h4⟩
        intro p hp hSp
        rcases Finset.mem_insert.1 hp with rfl | hp
        · by_contra hT
          exact hx ⟨hSp, hT⟩
        · exact h1 p hp hSp
  obtain ⟨T, h1, h2, -, h4⟩ := key Finset.univ
  have : (fun p => if T p then t p else s p) = t := by
    funext p
    split_ifs with hT
    · rfl
    · exact (ho p fun hSp => hT (h1 p (Finset.mem_univ p) hSp)).symm
  rwa [this] at h4

/-- All processes perform an operation. -/
theorem Gives.op [Finite P] {M A : P → Type} (c : Coll P M A) (m : ∀ p, M p)
    {k : ∀ p, A p → Prog α p} {a : ∀ p, α p}
    (h : Gives (fun p => k p (c.act p fun q _ => m q)) a) :
    Gives (fun p => .op c (m p) (k p)) a :=
  (leads_some c (fun _ => True) (fun _ _ _ _ => trivial) (fun p _ => m p) (fun p _ => k p)
    (fun _ _ => rfl) (fun _ _ => rfl) (fun p hp => absurd trivial hp)).trans h

/-- The processes of some communicators perform an operation, the others do not take part. -/
theorem Gives.opIf [Finite P] {M A : P → Type} (c : Coll P M A) (S : P → Prop) [DecidablePred S]
    (hS : ∀ p q, c.comm p q → S p → S q) (m : ∀ p, M p)
    {k : ∀ p, A p → Prog α p} {l : ∀ p, Prog α p} {a : ∀ p, α p}
    (h : Gives (fun p => if S p then k p (c.act p fun q _ => m q) else l p) a) :
    Gives (fun p => if S p then .op c (m p) (k p) else l p) a :=
  (leads_some c S hS (fun p _ => m p) (fun p _ => k p)
    (fun _ h => if_pos h) (fun _ h => if_pos h)
    (fun p hp => by rw [if_neg hp, if_neg hp])).trans h

end Spmd
end Verif
