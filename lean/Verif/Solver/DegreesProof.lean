/-
Helper lemmas about `calcDegrees` and `finalSort`.
-/
import Verif.Solver.Spec
import Verif.Base.Exchange
import Mathlib.Algebra.Group.Nat.Even

set_option linter.unusedSectionVars false

namespace Verif

variable {R S V : Type*}

theorem permOn_shift {lo n : ℕ} (σ : Equiv.Perm ℕ) (h : ∀ i, n ≤ i → σ i = i) :
    ∃ τ : Equiv.Perm ℕ, PermOn lo (lo + n) τ ∧ ∀ i, τ (lo + i) = lo + σ i := by
  refine ⟨⟨fun i => if i < lo then i else lo + σ (i - lo),
    fun i => if i < lo then i else lo + σ.symm (i - lo), ?_, ?_⟩, ?_, ?_⟩
  · intro i
    by_cases hi : i < lo
    · simp [hi]
    · simp [hi]; omega
  · intro i
    by_cases hi : i < lo
    · simp [hi]
    · simp [hi]; omega
  · rintro i (hi | hi)
    · show (if i < lo then i else lo + σ (i - lo)) = i
      rw [if_pos hi]
    · show (if i < lo then i else lo + σ (i - lo)) = i
      rw [if_neg (by omega), h _ (by omega)]; omega
  · intro i
    show (if lo + i < lo then lo + i else lo + σ (lo + i - lo)) = lo + σ i
    rw [if_neg (by omega), Nat.add_sub_cancel_left]

section
variable [Add R] [Sub R] [Mul R] [Div R] [Neg R] [Zero R] [One R] [NatCast R] [LT R] [DecidableLT R]

theorem rawDegrees_spec {P : Plat R} {cfg : Config R} {cnt locked : ℕ} {c e tol : R}
    {ritzv resid : ℕ → R} {d d' : ℕ → ℕ}
    (h : rawDegrees P cfg cnt locked c e tol ritzv resid d = .ok d') :
    (∀ i, i < cnt → ∃ k, P.degNeeded (ritzv (locked + i)) c e (resid (locked + i)) tol = some k ∧
      d' (locked + i) = min (k + cfg.degExtra) cfg.maxDeg) ∧
    (∀ i, i < locked ∨ locked + cnt ≤ i → d' i = d i) := by
  have := forRangeM_inv_partial (Nat.zero_le cnt) _
    (fun n d1 => (∀ i, i < n → ∃ k,
        P.degNeeded (ritzv (locked + i)) c e (resid (locked + i)) tol = some k ∧
        d1 (locked + i) = min (k + cfg.degExtra) cfg.maxDeg) ∧
      (∀ i, i < locked ∨ locked + n ≤ i → d1 i = d i)) (s := d)
    ⟨by intro i hi; omega, by intro i _; rfl⟩ ?_ h
  · exact this
  · rintro n d1 d2 _ _ ⟨h1, h2⟩ hb
    split at hb
    · cases hb
    · rename_i k hk
      cases hb
      constructor
      · intro i hi
        rcases Nat.lt_succ_iff_lt_or_eq.mp hi with hi | rfl
        · obtain ⟨k', hk', hd'⟩ := h1 i hi
          exact ⟨k', hk', by rw [Function.update_of_ne (by omega)]; exact hd'⟩
        · exact ⟨k, hk, by rw [Function.update_self]⟩
      · intro i hi
        rw [Function.update_of_ne (by omega)]
        exact h2 i (by omega)

/-- The degree that `fillDegrees` assigns to relative position `i`. -/
theorem fillDegrees_spec {u nex locked : ℕ} (hu : nex < u) (d : ℕ → ℕ) :
    (∀ i, i < u → fillDegrees u nex locked d (locked + i) =
      (let r := if i < u - nex then d (locked + i) else d (locked + (u - 1 - nex)); r + r % 2)) ∧
    (∀ i, i < locked ∨ locked + u ≤ i → fillDegrees u nex locked d i = d i) := by
  unfold fillDegrees
  set d1 := forRange (u - nex) u
    (fun i d => Function.update d (locked + i) (d (locked + (u - 1 - nex)))) d with hd1
  have h1 : (∀ i, i < u → d1 (locked + i) =
        if i < u - nex then d (locked + i) else d (locked + (u - 1 - nex))) ∧
      (∀ i, i < locked ∨ locked + u ≤ i → d1 i = d i) := by
    have := forRange_inv (show u - nex ≤ u by omega)
      (fun i d => Function.update d (locked + i) (d (locked + (u - 1 - nex))))
      (fun n d' => (∀ i, i < n → d' (locked + i) =
        if i < u - nex then d (locked + i) else d (locked + (u - 1 - nex))) ∧
        (∀ i, i < locked ∨ locked + n ≤ i → d' i = d i)) (s := d)
      ⟨fun i hi => by rw [if_pos hi], fun i _ => rfl⟩ ?_
    · exact this
    · rintro n d' hn1 hn2 ⟨p1, p2⟩
      constructor
      · intro i hi
        rcases Nat.lt_succ_iff_lt_or_eq.mp hi with hi | rfl
        · rw [Function.update_of_ne (by omega)]; exact p1 i hi
        · rw [Function.update_self, p1 _ (by omega), if_pos (by omega), if_neg (by omega)]
      · intro i hi
        rw [Function.update_of_ne (by omega)]; exact p2 i (by omega)
  have h2 := forRange_inv (Nat.zero_le u)
    (fun i d => Function.update d (locked + i) (d (locked + i) + d (locked + i) % 2))
    (fun n d' => (∀ i, i < n → d' (locked + i) = d1 (locked + i) + d1 (locked + i) % 2) ∧
      (∀ i, i < locked ∨ locked + n ≤ i → d' i = d1 i)) (s := d1)
    ⟨by intro i hi; omega, fun i _ => rfl⟩ (by
      rintro n d' hn1 hn2 ⟨p1, p2⟩
      constructor
      · intro i hi
        rcases Nat.lt_succ_iff_lt_or_eq.mp hi with hi | rfl
        · rw [Function.update_of_ne (by omega)]; exact p1 i hi
        · rw [Function.update_self, p2 _ (by omega)]
      · intro i hi
        rw [Function.update_of_ne (by omega)]; exact p2 i (by omega))
  constructor
  · intro i hi
    rw [h2.1 i hi, h1.1 i hi]
  · intro i hi
    rw [h2.2 i hi, h1.2 i hi]

/-- View of the arrays of the degree sort together with the columns of the backend. -/
def Pairs.view (cols : S → ℕ → V) (locked : ℕ) (p : Pairs R S) (i : ℕ) : ℕ × R × R × R × V :=
  (p.degrees (locked + i), p.ritzv (locked + i), p.resid (locked + i), p.residLast (locked + i),
    cols p.be (locked + i))

theorem sortDegrees_eq (ops : Chase R S) (cols : S → ℕ → V) (u locked : ℕ) (p : Pairs R S) :
    sortDegrees ops u locked p =
      exchangeLoop u (fun j => j) (Pairs.view cols locked) (fun x => x.1)
        (fun k j p => p.exchange ops locked k j) p := rfl

theorem sortDegrees_spec {ops : Chase R S} {cols : S → ℕ → V} {u locked : ℕ}
    (hc : SwapsColumns ops cols (locked + u)) (p : Pairs R S) :
    SortedOn locked (locked + u) (sortDegrees ops u locked p).degrees ∧
    ∃ σ : Equiv.Perm ℕ, PermOn locked (locked + u) σ ∧
      (sortDegrees ops u locked p).degrees = p.degrees ∘ σ ∧
      (sortDegrees ops u locked p).ritzv = p.ritzv ∘ σ ∧
      (sortDegrees ops u locked p).resid = p.resid ∘ σ ∧
      (sortDegrees ops u locked p).residLast = p.residLast ∘ σ ∧
      cols (sortDegrees ops u locked p).be = cols p.be ∘ σ := by
  have hsw : ∀ k j (p : Pairs R S), k < u → j < u →
      Pairs.view cols locked (p.exchange ops locked k j) =
        swapAt (Pairs.view cols locked p) k j := by
    intro k j p hk hj
    funext i
    have := hc (k + locked) (j + locked) p.be (by omega) (by omega)
    simp only [Pairs.view, Pairs.exchange, this, swapAt_apply, Nat.add_left_cancel_iff]
    have e1 : locked + i = j + locked ↔ i = j := by omega
    have e2 : locked + i = k + locked ↔ i = k := by omega
    simp only [e1, e2]
    split_ifs <;> simp [Nat.add_comm]
  have hs := exchangeLoop_sorted (n := u) (first := fun j => j) (view := Pairs.view cols locked)
    (key := fun x => x.1) (sw := fun k j p => p.exchange ops locked k j)
    (fun j => Or.inl rfl) hsw p
  obtain ⟨σ, hσ, hv⟩ := exchangeLoop_perm (n := u) (first := fun j => j)
    (view := Pairs.view cols locked)
    (key := fun x => x.1) (sw := fun k j p => p.exchange ops locked k j) hsw p
  rw [← sortDegrees_eq] at hs hv
  obtain ⟨τ, hτ, hτσ⟩ := permOn_shift (lo := locked) σ hσ
  -- positions outside of the window do not move at all
  have frame : ∀ i, i < locked ∨ locked + u ≤ i →
      (sortDegrees ops u locked p).degrees i = p.degrees i ∧
      (sortDegrees ops u locked p).ritzv i = p.ritzv i ∧
      (sortDegrees ops u locked p).resid i = p.resid i ∧
      (sortDegrees ops u locked p).residLast i = p.residLast i ∧
      cols (sortDegrees ops u locked p).be i = cols p.be i := by
    intro i hi
    unfold sortDegrees
    refine forRange_pres _ (fun q : Pairs R S => q.degrees i = p.degrees i ∧ q.ritzv i = p.ritzv i ∧
      q.resid i = p.resid i ∧ q.residLast i = p.residLast i ∧ cols q.be i = cols p.be i)
      ⟨rfl, rfl, rfl, rfl, rfl⟩ ?_
    intro j q _ hj hq
    refine forRange_pres _ (fun q : Pairs R S => q.degrees i = p.degrees i ∧ q.ritzv i = p.ritzv i ∧
      q.resid i = p.resid i ∧ q.residLast i = p.residLast i ∧ cols q.be i = cols p.be i) hq ?_
    intro k q _ hk hq
    split_ifs with hlt
    · have hcc := hc (k + locked) (j + locked) q.be (by omega) (by omega)
      have n1 : i ≠ locked + j := by omega
      have n2 : i ≠ locked + k := by omega
      have n3 : i ≠ j + locked := by omega
      have n4 : i ≠ k + locked := by omega
      simp only [Pairs.exchange, hcc, swapAt_apply, n1, n2, n3, n4, if_false]
      exact hq
    · exact hq
  refine ⟨?_, τ, hτ, ?_⟩
  · intro a b ha hab hb
    have := hs (a - locked) (b - locked) (by omega) (by omega)
    simp only [Pairs.view] at this
    rwa [show locked + (a - locked) = a by omega, show locked + (b - locked) = b by omega] at this
  · have inside : ∀ i, locked ≤ i → i < locked + u →
        (sortDegrees ops u locked p).degrees i = p.degrees (τ i) ∧
        (sortDegrees ops u locked p).ritzv i = p.ritzv (τ i) ∧
        (sortDegrees ops u locked p).resid i = p.resid (τ i) ∧
        (sortDegrees ops u locked p).residLast i = p.residLast (τ i) ∧
        cols (sortDegrees ops u locked p).be i = cols p.be (τ i) := by
      intro i h1 h2
      have := congrFun hv (i - locked)
      simp only [Pairs.view, Function.comp, Prod.mk.injEq] at this
      have e : τ i = locked + σ (i - locked) := by
        rw [← hτσ, show locked + (i - locked) = i by omega]
      rw [show locked + (i - locked) = i by omega] at this
      rw [e]; exact this
    have all : ∀ i, (sortDegrees ops u locked p).degrees i = p.degrees (τ i) ∧
        (sortDegrees ops u locked p).ritzv i = p.ritzv (τ i) ∧
        (sortDegrees ops u locked p).resid i = p.resid (τ i) ∧
        (sortDegrees ops u locked p).residLast i = p.residLast (τ i) ∧
        cols (sortDegrees ops u locked p).be i = cols p.be (τ i) := by
      intro i
      by_cases hi : i < locked ∨ locked + u ≤ i
      · rw [hτ i hi]; exact frame i hi
      · exact inside i (by omega) (by omega)
    exact ⟨funext fun i => (all i).1, funext fun i => (all i).2.1, funext fun i => (all i).2.2.1,
      funext fun i => (all i).2.2.2.1, funext fun i => (all i).2.2.2.2⟩

end
end Verif
