/-
Proofs about the block distribution and the process grid.
-/
import Verif.Dist.Model
import Verif.Dist.Spec
import Mathlib.Algebra.BigOperators.Group.Finset.Basic
import Mathlib.Algebra.BigOperators.Intervals

namespace Verif
namespace Dist

theorem blockLocal_eq {N len p dims : ℕ} (hp : p < dims) (hfit : (dims - 1) * len ≤ N) :
    blockLocal N len p dims = .ok ⟨p * len,
      if p < dims - 1 then len else N - (dims - 1) * len,
      if dims = 1 then N else len⟩ := by
  unfold blockLocal subSize
  by_cases h : p < dims - 1
  · simp only [h, if_true]
    rw [if_neg (by omega), if_neg (by omega)]
  · have h1 : p = dims - 1 := by omega
    simp only [h, if_false, hfit, if_true]
    by_cases h2 : dims = 1
    · subst h2; simp
    · rw [if_pos ⟨h1, h2⟩, if_neg h2]
      congr 2
      rw [Nat.sub_sub_self hfit, Nat.mul_div_cancel_left _ (by omega)]

theorem blockTable_eq {N len dims : ℕ} (hd : 0 < dims) (hfit : (dims - 1) * len ≤ N) :
    ∃ t, blockTable N len dims = .ok t ∧ ∀ p, p < dims →
      t p = (if p < dims - 1 then len else N - (dims - 1) * len, p * len) := by
  have h0 : ∀ hi p, p < hi → forRange 0 hi (fun i (t : ℕ → ℕ × ℕ) =>
      Function.update t i (len, i * (if i = 0 then len else (t 0).1))) (fun _ => (0, 0)) p =
        (len, p * len) := by
    intro hi
    induction hi with
    | zero => intro p hp; exact absurd hp (Nat.not_lt_zero _)
    | succ n ih =>
      intro p hp
      rw [forRange_succ (Nat.zero_le _)]
      rcases Nat.lt_or_ge p n with h | h
      · rw [Function.update_of_ne (by omega)]; exact ih p h
      · obtain rfl : p = n := by omega
        rw [Function.update_self]
        rcases Nat.eq_zero_or_pos p with rfl | hpos
        · simp
        · rw [if_neg (by omega), ih 0 hpos]
  unfold blockTable subSize
  rw [if_pos hfit]
  refine ⟨_, rfl, ?_⟩
  intro p hp
  by_cases h : p < dims - 1
  · rw [Function.update_of_ne (by omega), Function.update_of_ne (by omega), if_pos h]
    exact h0 dims p hp
  · obtain rfl : p = dims - 1 := by omega
    rw [if_neg h, Function.update_self, Function.update_self]
    by_cases h1 : dims = 1
    · subst h1; simp
    · rw [Function.update_of_ne (by omega), h0 dims 0 hd]

theorem autoLen_fits_iff {N dims : ℕ} (hd : 0 < dims) (hN : 0 < N) :
    (dims - 1) * autoLen N dims ≤ N ↔ N % dims = 0 ∨ dims - 1 ≤ N / dims + N % dims := by
  unfold autoLen
  have h1 := Nat.div_add_mod N dims
  have h2 := Nat.mod_lt N hd
  by_cases h : N % dims = 0
  · rw [if_pos h]
    simp only [h, true_or, iff_true]
    calc (dims - 1) * (N / dims) ≤ dims * (N / dims) := Nat.mul_le_mul_right _ (Nat.sub_le _ _)
      _ ≤ N := Nat.mul_div_le N dims
  · rw [if_neg h]
    simp only [h, false_or]
    have hd2 : 2 ≤ dims := by
      by_contra hc
      obtain rfl : dims = 1 := by omega
      rw [Nat.mod_one] at h; exact h rfl
    rcases Nat.eq_zero_or_pos (N / dims) with h3 | h3
    · rw [h3] at h1 ⊢
      have : N % dims = N := by omega
      rw [this, min_eq_right (by omega)]; omega
    · have h4 : N / dims + 1 ≤ N := by
        have := Nat.div_lt_self hN (show 1 < dims by omega)
        omega
      rw [min_eq_right h4]
      generalize N / dims = q at *
      generalize N % dims = r at *
      obtain ⟨e, rfl⟩ : ∃ e, dims = e + 1 := ⟨dims - 1, by omega⟩
      rw [Nat.add_sub_cancel, ← h1, Nat.mul_succ, Nat.succ_mul]
      omega

end Dist
end Verif
