/-
Correctness of the nested exchange loops used by `calc_degrees` and by the final sort of `solve`.
Generic lemma: the state is seen through a view `ℕ → V`, exchanging two positions of the state
exchanges them in the view.
-/
import Verif.Base.Loop
import Mathlib.Logic.Equiv.Basic
import Mathlib.Algebra.Group.End
import Mathlib.Order.Lattice

namespace Verif

theorem swapAt_apply {α : Type*} (f : ℕ → α) (k j i : ℕ) :
    swapAt f k j i = if i = j then f k else if i = k then f j else f i := by
  unfold swapAt
  simp only [Function.update_apply]

theorem swapAt_eq_comp {α : Type*} (f : ℕ → α) (k j : ℕ) :
    swapAt f k j = f ∘ Equiv.swap k j := by
  funext i
  rw [swapAt_apply, Function.comp, Equiv.swap_apply_def]
  split_ifs <;> simp_all

theorem swapAt_comm {α : Type*} (f : ℕ → α) (k j : ℕ) : swapAt f k j = swapAt f j k := by
  rw [swapAt_eq_comp, swapAt_eq_comp, Equiv.swap_comm]

theorem swapAt_shift {α : Type*} (f : ℕ → α) (o k j : ℕ) :
    (fun i => swapAt f (o + k) (o + j) (o + i)) = swapAt (fun i => f (o + i)) k j := by
  funext i
  simp only [swapAt_apply, Nat.add_left_cancel_iff]

section
variable {S V K : Type*} [LT K] [DecidableLT K]

/-- Generic nested exchange loop: for `j` in `[0, n-1)`, for `k` in `[first j, n)`: exchange `k` and
`j` if the key at `k` is smaller than the key at `j`. -/
def exchangeLoop (n : ℕ) (first : ℕ → ℕ) (view : S → ℕ → V) (key : V → K)
    (sw : ℕ → ℕ → S → S) (s : S) : S :=
  forRange 0 (n - 1) (fun j s =>
    forRange (first j) n (fun k s =>
      if key (view s k) < key (view s j) then sw k j s else s) s) s

variable {n : ℕ} {first : ℕ → ℕ} {view : S → ℕ → V} {key : V → K} {sw : ℕ → ℕ → S → S}

/-- The loop only permutes positions below `n`. -/
theorem exchangeLoop_perm
    (hsw : ∀ k j s, k < n → j < n → view (sw k j s) = swapAt (view s) k j) (s : S) :
    ∃ σ : Equiv.Perm ℕ, (∀ i, n ≤ i → σ i = i) ∧
      view (exchangeLoop n first view key sw s) = view s ∘ σ := by
  unfold exchangeLoop
  refine forRange_pres _
    (fun s' => ∃ σ : Equiv.Perm ℕ, (∀ i, n ≤ i → σ i = i) ∧ view s' = view s ∘ σ)
    ⟨1, by simp, rfl⟩ ?_
  intro j s1 _ hj hs1
  refine forRange_pres _
    (fun s' => ∃ σ : Equiv.Perm ℕ, (∀ i, n ≤ i → σ i = i) ∧ view s' = view s ∘ σ) hs1 ?_
  rintro k s2 _ hk ⟨σ, hσ, h2⟩
  split_ifs with hlt
  · refine ⟨σ * Equiv.swap k j, ?_, ?_⟩
    · intro i hi
      rw [Equiv.Perm.mul_apply, Equiv.swap_apply_of_ne_of_ne (by omega) (by omega), hσ i hi]
    · rw [hsw k j s2 hk (by omega), swapAt_eq_comp, h2]; rfl
  · exact ⟨σ, hσ, h2⟩

/-- After the loop the keys of the positions below `n` are ascending. -/
theorem exchangeLoop_sorted {K : Type*} [LinearOrder K] {key : V → K} (hfirst : ∀ j, first j = j ∨ first j = j + 1)
    (hsw : ∀ k j s, k < n → j < n → view (sw k j s) = swapAt (view s) k j) (s : S) :
    ∀ a b, a ≤ b → b < n →
      key (view (exchangeLoop n first view key sw s) a) ≤
        key (view (exchangeLoop n first view key sw s) b) := by
  have main : ∀ a b, a < n - 1 → a ≤ b → b < n →
      key (view (exchangeLoop n first view key sw s) a) ≤
        key (view (exchangeLoop n first view key sw s) b) := by
    unfold exchangeLoop
    refine forRange_inv (Nat.zero_le _) _
      (fun j s' => ∀ a b, a < j → a ≤ b → b < n → key (view s' a) ≤ key (view s' b))
      (by intro a b h; omega) ?_
    intro j s1 _ hj h1
    have hfn : first j ≤ n := by rcases hfirst j with h | h <;> omega
    have h2 := forRange_inv hfn
      (fun k s => if key (view s k) < key (view s j) then sw k j s else s)
      (fun k s' => (∀ a b, a < j → a ≤ b → b < n → key (view s' a) ≤ key (view s' b)) ∧
        ∀ b, j ≤ b → b < k → key (view s' j) ≤ key (view s' b)) (s := s1)
      ⟨h1, by
        intro b hb hb'
        have : b = j := by rcases hfirst j with h | h <;> omega
        rw [this]⟩ ?_
    · intro a b ha hab hb
      rcases Nat.lt_succ_iff_lt_or_eq.mp ha with h | h
      · exact h2.1 a b h hab hb
      · subst h; exact h2.2 b hab hb
    · rintro k s2 hk1 hk2 ⟨p1, p2⟩
      have hjk : j ≤ k := by rcases hfirst j with h | h <;> omega
      split_ifs with hlt
      · have hv := hsw k j s2 hk2 (by omega)
        have hkj : k ≠ j := by rintro rfl; exact lt_irrefl _ hlt
        constructor
        · intro a b ha hab hb
          rw [hv]
          simp only [swapAt_apply]
          have haj : a ≠ j := by omega
          have hak : a ≠ k := by omega
          rw [if_neg haj, if_neg hak]
          split_ifs with hbj hbk
          · exact p1 a k ha (by omega) hk2
          · exact p1 a j ha (by omega) (by omega)
          · exact p1 a b ha hab hb
        · intro b hb1 hb2
          rw [hv]
          simp only [swapAt_apply, if_true]
          split_ifs with hbj hbk
          · exact le_refl _
          · exact hlt.le
          · exact hlt.le.trans (p2 b hb1 (by omega))
      · refine ⟨p1, ?_⟩
        intro b hb1 hb2
        rcases Nat.lt_succ_iff_lt_or_eq.mp hb2 with h | h
        · exact p2 b hb1 h
        · subst h; exact not_lt.mp hlt
  intro a b hab hb
  rcases Nat.lt_or_ge a (n - 1) with h | h
  · exact main a b h hab hb
  · have : a = b := by omega
    rw [this]

end
end Verif
