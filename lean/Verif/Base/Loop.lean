/-
Loop combinators and the error type used by all models.

C++ `for` loops are modelled by `forRange` (pure body) and `forRangeM` (body that may hit
undefined behaviour).  Nothing in this file models a particular part of /repo.
-/
import Mathlib.Data.Nat.Notation
import Mathlib.Order.Basic
import Mathlib.Tactic.Common
import Mathlib.Tactic.Linarith
import Mathlib.Tactic.Ring

namespace Verif

/-- Outcomes of a C++ program that have no defined meaning. -/
inductive Err where
  /-- read or write outside of an array -/
  | oob
  /-- an unsigned subtraction wrapped around and the result is used as a count -/
  | wrap
  /-- a value that was never written is read -/
  | uninit
  /-- a floating point value that does not fit is converted to an integer -/
  | badConv
  /-- signed integer arithmetic overflows, or a size is converted to an `int` that cannot hold it -/
  | overflow
  /-- division by zero: of integers, or of floating point numbers if the quotient is used -/
  | divZero
  /-- dereference of a null pointer -/
  | nullDeref
  /-- access to an object after it was freed -/
  | useAfterFree
  /-- an object is freed twice -/
  | doubleFree
  deriving DecidableEq, Repr

section
variable {S : Type*}

/-- `n` iterations of `body`, with the loop variable running from `lo`. -/
def loop (body : ℕ → S → S) (lo : ℕ) : ℕ → S → S
  | 0, s => s
  | n + 1, s => loop body (lo + 1) n (body lo s)

/-- `for (i = lo; i < hi; ++i) body(i)`. -/
def forRange (lo hi : ℕ) (body : ℕ → S → S) (s : S) : S := loop body lo (hi - lo) s

/-- `n` iterations of a body that may fail. -/
def loopM {E : Type*} (body : ℕ → S → Except E S) (lo : ℕ) : ℕ → S → Except E S
  | 0, s => .ok s
  | n + 1, s => match body lo s with
    | .ok s' => loopM body (lo + 1) n s'
    | .error e => .error e

/-- `for (i = lo; i < hi; ++i) body(i)` where the body may fail. -/
def forRangeM {E : Type*} (lo hi : ℕ) (body : ℕ → S → Except E S) (s : S) : Except E S :=
  loopM body lo (hi - lo) s

theorem loop_succ_last (body : ℕ → S → S) (lo n : ℕ) (s : S) :
    loop body lo (n + 1) s = body (lo + n) (loop body lo n s) := by
  induction n generalizing lo s with
  | zero => rfl
  | succ n ih =>
    show loop body (lo + 1) (n + 1) (body lo s) = _
    rw [ih]
    show _ = body (lo + (n + 1)) (loop body (lo + 1) n (body lo s))
    rw [show lo + 1 + n = lo + (n + 1) by omega]

theorem forRange_self (lo : ℕ) (body : ℕ → S → S) (s : S) : forRange lo lo body s = s := by
  simp [forRange, loop]

theorem forRange_of_le {lo hi : ℕ} (h : hi ≤ lo) (body : ℕ → S → S) (s : S) :
    forRange lo hi body s = s := by
  simp [forRange, Nat.sub_eq_zero_of_le h, loop]

theorem forRange_succ {lo hi : ℕ} (h : lo ≤ hi) (body : ℕ → S → S) (s : S) :
    forRange lo (hi + 1) body s = body hi (forRange lo hi body s) := by
  unfold forRange
  rw [show hi + 1 - lo = (hi - lo) + 1 by omega, loop_succ_last, show lo + (hi - lo) = hi by omega]

/-- Invariant rule: `P i s` holds when the loop variable is `i`. -/
theorem forRange_inv {lo hi : ℕ} (hle : lo ≤ hi) (body : ℕ → S → S) (P : ℕ → S → Prop) {s : S}
    (h0 : P lo s) (hstep : ∀ i s, lo ≤ i → i < hi → P i s → P (i + 1) (body i s)) :
    P hi (forRange lo hi body s) := by
  have key : ∀ n, lo + n ≤ hi → P (lo + n) (loop body lo n s) := by
    intro n
    induction n with
    | zero => intro _; exact h0
    | succ n ih =>
      intro h
      rw [loop_succ_last]
      exact hstep (lo + n) _ (by omega) (by omega) (ih (by omega))
  have := key (hi - lo) (by omega)
  rwa [show lo + (hi - lo) = hi by omega] at this

/-- Invariant rule for an invariant that does not mention the loop variable. -/
theorem forRange_pres {lo hi : ℕ} (body : ℕ → S → S) (P : S → Prop) {s : S}
    (h0 : P s) (hstep : ∀ i s, lo ≤ i → i < hi → P s → P (body i s)) :
    P (forRange lo hi body s) := by
  rcases le_total lo hi with h | h
  · exact forRange_inv h body (fun _ => P) h0 (fun i s h1 h2 => hstep i s h1 h2)
  · rw [forRange_of_le h]; exact h0

theorem forRange_congr {lo hi : ℕ} (b1 b2 : ℕ → S → S) (s : S)
    (h : ∀ i s, lo ≤ i → i < hi → b1 i s = b2 i s) :
    forRange lo hi b1 s = forRange lo hi b2 s := by
  rcases le_total lo hi with hle | hle
  · induction hi, hle using Nat.le_induction with
    | base => simp [forRange_self]
    | succ m hm ih =>
      rw [forRange_succ hm, forRange_succ hm, ih (fun i s h1 h2 => h i s h1 (by omega)),
        h m _ hm (by omega)]
  · rw [forRange_of_le hle, forRange_of_le hle]

/-- A map between state spaces that commutes with the body commutes with the loop. -/
theorem forRange_map {S' : Type*} {lo hi : ℕ} (f : S → S') (b : ℕ → S → S) (b' : ℕ → S' → S')
    (h : ∀ i s, lo ≤ i → i < hi → f (b i s) = b' i (f s)) (s : S) :
    f (forRange lo hi b s) = forRange lo hi b' (f s) := by
  rcases le_total lo hi with hle | hle
  · induction hi, hle using Nat.le_induction with
    | base => simp [forRange_self]
    | succ m hm ih =>
      rw [forRange_succ hm, forRange_succ hm, h m _ hm (by omega),
        ih (fun i s h1 h2 => h i s h1 (by omega))]
  · rw [forRange_of_le hle, forRange_of_le hle]

variable {E : Type*}

theorem loopM_succ_last (body : ℕ → S → Except E S) (lo n : ℕ) (s : S) :
    loopM body lo (n + 1) s = (loopM body lo n s).bind (body (lo + n)) := by
  induction n generalizing lo s with
  | zero =>
    show (match body lo s with | .ok s' => Except.ok s' | .error e => .error e) = body (lo + 0) s
    simp only [Nat.add_zero]
    cases body lo s <;> rfl
  | succ n ih =>
    show (match body lo s with
      | .ok s' => loopM body (lo + 1) (n + 1) s' | .error e => .error e) =
      (match body lo s with
      | .ok s' => loopM body (lo + 1) n s' | .error e => .error e).bind (body (lo + (n + 1)))
    cases body lo s with
    | error e => rfl
    | ok s' => simp only; rw [ih, show lo + 1 + n = lo + (n + 1) by omega]

theorem forRangeM_of_le {lo hi : ℕ} (h : hi ≤ lo) (body : ℕ → S → Except E S) (s : S) :
    forRangeM lo hi body s = .ok s := by
  simp [forRangeM, Nat.sub_eq_zero_of_le h, loopM]

theorem forRangeM_succ {lo hi : ℕ} (h : lo ≤ hi) (body : ℕ → S → Except E S) (s : S) :
    forRangeM lo (hi + 1) body s = (forRangeM lo hi body s).bind (body hi) := by
  unfold forRangeM
  rw [show hi + 1 - lo = (hi - lo) + 1 by omega, loopM_succ_last, show lo + (hi - lo) = hi by omega]

/-- Total-correctness invariant rule: every step succeeds and keeps the invariant. -/
theorem forRangeM_inv {lo hi : ℕ} (hle : lo ≤ hi) (body : ℕ → S → Except E S)
    (P : ℕ → S → Prop) {s : S} (h0 : P lo s)
    (hstep : ∀ i s, lo ≤ i → i < hi → P i s → ∃ s', body i s = .ok s' ∧ P (i + 1) s') :
    ∃ s', forRangeM lo hi body s = .ok s' ∧ P hi s' := by
  induction hi, hle using Nat.le_induction with
  | base => exact ⟨s, by simp [forRangeM, loopM], h0⟩
  | succ m hm ih =>
    obtain ⟨s1, h1, hp⟩ := ih (fun i s a b => hstep i s a (by omega))
    obtain ⟨s2, h2, hp2⟩ := hstep m s1 hm (by omega) hp
    exact ⟨s2, by rw [forRangeM_succ hm, h1]; exact h2, hp2⟩

/-- Partial-correctness invariant rule: if the loop succeeds the invariant holds at the end. -/
theorem forRangeM_inv_partial {lo hi : ℕ} (hle : lo ≤ hi) (body : ℕ → S → Except E S)
    (P : ℕ → S → Prop) {s s' : S} (h0 : P lo s)
    (hstep : ∀ i s s', lo ≤ i → i < hi → P i s → body i s = .ok s' → P (i + 1) s')
    (hr : forRangeM lo hi body s = .ok s') : P hi s' := by
  induction hi, hle using Nat.le_induction generalizing s' with
  | base =>
    simp [forRangeM, loopM] at hr
    exact hr ▸ h0
  | succ m hm ih =>
    rw [forRangeM_succ hm] at hr
    cases h1 : forRangeM lo m body s with
    | error e => rw [h1] at hr; cases hr
    | ok s1 =>
      rw [h1] at hr
      exact hstep m s1 s' hm (by omega) (ih (fun i s s' a b => hstep i s s' a (by omega)) h1) hr

theorem forRangeM_pres_partial {lo hi : ℕ} (body : ℕ → S → Except E S)
    (P : S → Prop) {s s' : S} (h0 : P s)
    (hstep : ∀ i s s', lo ≤ i → i < hi → P s → body i s = .ok s' → P s')
    (hr : forRangeM lo hi body s = .ok s') : P s' := by
  rcases le_total lo hi with h | h
  · exact forRangeM_inv_partial h body (fun _ => P) h0 (fun i s s' h1 h2 => hstep i s s' h1 h2) hr
  · rw [forRangeM_of_le h] at hr
    cases hr
    exact h0

/-- Two loops in lock step. -/
theorem forRange_rel {S' : Type*} {lo hi : ℕ} (r : S → S' → Prop) (b : ℕ → S → S)
    (b' : ℕ → S' → S') (h : ∀ i s s', lo ≤ i → i < hi → r s s' → r (b i s) (b' i s'))
    {s : S} {s' : S'} (h0 : r s s') : r (forRange lo hi b s) (forRange lo hi b' s') := by
  rcases le_total lo hi with hle | hle
  · induction hi, hle using Nat.le_induction with
    | base => simpa [forRange_self] using h0
    | succ m hm ih =>
      rw [forRange_succ hm, forRange_succ hm]
      exact h m _ _ hm (by omega) (ih (fun i s s' h1 h2 => h i s s' h1 (by omega)))
  · rwa [forRange_of_le hle, forRange_of_le hle]

/-- Results that agree: same error, or related values. -/
inductive RelE {S S' E : Type*} (r : S → S' → Prop) : Except E S → Except E S' → Prop
  | error (e : E) : RelE r (.error e) (.error e)
  | ok {s : S} {s' : S'} (h : r s s') : RelE r (.ok s) (.ok s')

theorem forRangeM_rel {S' : Type*} {lo hi : ℕ} (r : S → S' → Prop) (b : ℕ → S → Except E S)
    (b' : ℕ → S' → Except E S')
    (h : ∀ i s s', lo ≤ i → i < hi → r s s' → RelE r (b i s) (b' i s'))
    {s : S} {s' : S'} (h0 : r s s') : RelE r (forRangeM lo hi b s) (forRangeM lo hi b' s') := by
  rcases le_total lo hi with hle | hle
  · induction hi, hle using Nat.le_induction with
    | base => simpa [forRangeM_of_le] using RelE.ok h0
    | succ m hm ih =>
      rw [forRangeM_succ hm, forRangeM_succ hm]
      have := ih (fun i s s' h1 h2 => h i s s' h1 (by omega))
      generalize forRangeM lo m b s = x at this ⊢
      generalize forRangeM lo m b' s' = y at this ⊢
      cases this with
      | error e => exact RelE.error e
      | ok hr => exact h m _ _ hm (by omega) hr
  · rw [forRangeM_of_le hle, forRangeM_of_le hle]; exact RelE.ok h0

end

/-- `swap_kj(k, j, array)`: algorithm/algorithm.inc lines 11-17 (three assignments through `tmp`). -/
def swapAt {α : Type*} (f : ℕ → α) (k j : ℕ) : ℕ → α :=
  let tmp := f k
  let f1 := Function.update f k (f j)
  Function.update f1 j tmp

end Verif
