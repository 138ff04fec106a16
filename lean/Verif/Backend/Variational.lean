/-
Facts about Hermitian matrices used for C90 and C91: sums of Rayleigh quotients of orthonormal vectors lie between the
sums of the smallest and of the largest eigenvalues (Ky Fan), and how far a vector with a small residual can be from
the eigenvectors, and a Rayleigh quotient from the eigenvalue.  No code of the library is modelled here.
-/
import Mathlib.Analysis.InnerProductSpace.PiL2
import Mathlib.Algebra.Order.BigOperators.Group.Finset
import Mathlib.Algebra.BigOperators.Fin
import Mathlib.Tactic.Linarith

namespace Verif

open Finset

/-- Weights between zero and one with sum `k` give at least the sum of the `k` smallest numbers. -/
theorem sum_smallest_le {N : ℕ} {w c : Fin N → ℝ} (hw : Monotone w) (h0 : ∀ i, 0 ≤ c i) (h1 : ∀ i, c i ≤ 1) {k : ℕ}
    (hk : ∑ i, c i = k) : ∑ i with i.val < k, w i ≤ ∑ i, c i * w i := by
  classical
  rcases Nat.eq_zero_or_pos k with rfl | hpos
  · have : ∀ i, c i = 0 := by
      intro i
      have := Finset.single_le_sum (f := c) (fun j _ => h0 j) (mem_univ i)
      rw [hk] at this
      exact le_antisymm (by simpa using this) (h0 i)
    simp [this]
  have hkN : k ≤ N := by
    have : (k : ℝ) ≤ N := by
      rw [← hk]
      calc ∑ i, c i ≤ ∑ i : Fin N, (1 : ℝ) := Finset.sum_le_sum fun i _ => h1 i
        _ = N := by simp
    exact_mod_cast this
  obtain ⟨m, hm⟩ : ∃ m : Fin N, m.val = k - 1 := ⟨⟨k - 1, by omega⟩, rfl⟩
  have hcard : ∑ i : Fin N with i.val < k, (1 : ℝ) = k := by
    rw [Finset.sum_const, nsmul_eq_mul, mul_one]
    congr 1
    have : (univ.filter fun i : Fin N => i.val < k).card = (Finset.range k).card := by
      refine Finset.card_bij (fun i _ => i.val) (fun i hi => ?_) (fun i _ j _ h => Fin.ext h) fun j hj => ?_
      · simpa using hi
      · have : j < k := by simpa using hj
        exact ⟨⟨j, by omega⟩, by simpa using this, rfl⟩
    rw [this, card_range]
  have e1 : ∑ i, c i * w i - ∑ i with i.val < k, w i
      = ∑ i, (c i - if i.val < k then 1 else 0) * (w i - w m) := by
    have h2 : ∑ i, (c i - if i.val < k then (1 : ℝ) else 0) * w m = 0 := by
      rw [← Finset.sum_mul, Finset.sum_sub_distrib, hk, ← Finset.sum_filter, hcard, sub_self, zero_mul]
    have h3 : ∑ i, (c i - if i.val < k then (1 : ℝ) else 0) * w i = ∑ i, c i * w i - ∑ i with i.val < k, w i := by
      rw [Finset.sum_filter, ← Finset.sum_sub_distrib]
      refine Finset.sum_congr rfl fun i _ => ?_
      split <;> ring
    have h4 : ∑ i, (c i - if i.val < k then (1 : ℝ) else 0) * (w i - w m)
        = ∑ i, (c i - if i.val < k then (1 : ℝ) else 0) * w i - ∑ i, (c i - if i.val < k then (1 : ℝ) else 0) * w m := by
      rw [← Finset.sum_sub_distrib]
      exact Finset.sum_congr rfl fun i _ => mul_sub _ _ _
    rw [h4, h2, h3, sub_zero]
  rw [← sub_nonneg, e1]
  refine Finset.sum_nonneg fun i _ => ?_
  by_cases hi : i.val < k
  · rw [if_pos hi]
    exact mul_nonneg_of_nonpos_of_nonpos (by linarith [h1 i])
      (sub_nonpos.mpr (hw (Fin.le_def.mpr (by omega))))
  · rw [if_neg hi, sub_zero]
    exact mul_nonneg (h0 i) (sub_nonneg.mpr (hw (Fin.le_def.mpr (by omega))))

/-- The same for the largest numbers. -/
theorem le_sum_largest {N : ℕ} {w c : Fin N → ℝ} (hw : Monotone w) (h0 : ∀ i, 0 ≤ c i) (h1 : ∀ i, c i ≤ 1) {k : ℕ}
    (hk : ∑ i, c i = k) : ∑ i, c i * w i ≤ ∑ i with N ≤ i.val + k, w i := by
  have h := sum_smallest_le (w := fun i => -w i.rev) (c := fun i => c i.rev)
    (fun i j hij => neg_le_neg (hw (Fin.rev_le_rev.mpr hij))) (fun i => h0 _) (fun i => h1 _) (k := k)
    (by rw [← hk]; exact Equiv.sum_comp Fin.revPerm c)
  have e1 : ∑ i : Fin N, c i.rev * -w i.rev = -∑ i, c i * w i := by
    rw [← Finset.sum_neg_distrib, ← Equiv.sum_comp Fin.revPerm fun i => -(c i * w i)]
    exact Finset.sum_congr rfl fun i _ => by simp
  have e2 : ∑ i : Fin N with i.val < k, -w i.rev = -∑ i with N ≤ i.val + k, w i := by
    rw [← Finset.sum_neg_distrib, Finset.sum_filter, Finset.sum_filter,
      ← Equiv.sum_comp Fin.revPerm fun i => if N ≤ i.val + k then -w i else 0]
    refine Finset.sum_congr rfl fun i _ => ?_
    have : i.val < k ↔ N ≤ i.rev.val + k := by rw [Fin.val_rev]; omega
    simp only [Fin.revPerm_apply, this]
  rw [e1, e2] at h
  linarith

section
variable {K : Type*} [RCLike K] {V : Type*} [NormedAddCommGroup V] [InnerProductSpace K V] {N : ℕ}
  {A : V →ₗ[K] V} {w : Fin N → ℝ} {b : OrthonormalBasis (Fin N) K V}

local notation "⟪" x ", " y "⟫" => inner K x y

/-- The Rayleigh quotient as a weighted mean of the eigenvalues. -/
theorem inner_map_eq_sum (hb : ∀ k, A (b k) = (w k : K) • b k) (x : V) :
    ⟪x, A x⟫ = ((∑ k, ‖⟪b k, x⟫‖ ^ 2 * w k : ℝ) : K) := by
  have h1 : A x = ∑ k, (⟪b k, x⟫ * (w k : K)) • b k := by
    conv_lhs => rw [← b.sum_repr' x, map_sum]
    refine Finset.sum_congr rfl fun k _ => ?_
    rw [map_smul, hb, smul_smul]
  rw [h1, inner_sum]
  push_cast
  refine Finset.sum_congr rfl fun k _ => ?_
  rw [inner_smul_right, ← inner_conj_symm x (b k), mul_right_comm, RCLike.mul_conj]

theorem repr_map_sub (hb : ∀ k, A (b k) = (w k : K) • b k) (x : V) (θ : ℝ) (k : Fin N) :
    ⟪b k, A x - (θ : K) • x⟫ = ((w k - θ : ℝ) : K) * ⟪b k, x⟫ := by
  have h1 : A x = ∑ k, (⟪b k, x⟫ * (w k : K)) • b k := by
    conv_lhs => rw [← b.sum_repr' x, map_sum]
    refine Finset.sum_congr rfl fun k _ => ?_
    rw [map_smul, hb, smul_smul]
  rw [inner_sub_right, inner_smul_right, h1, b.orthonormal.inner_right_fintype]
  push_cast
  ring

/-- The squared residual as a sum over the eigenvectors. -/
theorem residual_sq_eq_sum (hb : ∀ k, A (b k) = (w k : K) • b k) (x : V) (θ : ℝ) :
    ‖A x - (θ : K) • x‖ ^ 2 = ∑ k, (w k - θ) ^ 2 * ‖⟪b k, x⟫‖ ^ 2 := by
  rw [← b.sum_sq_norm_inner_right (A x - (θ : K) • x)]
  refine Finset.sum_congr rfl fun k _ => ?_
  rw [repr_map_sub hb, norm_mul, mul_pow, RCLike.norm_ofReal, sq_abs]

/-- **Ky Fan's inequality**: the sum of Rayleigh quotients of orthonormal vectors. -/
theorem kyFan (hb : ∀ k, A (b k) = (w k : K) • b k) (hw : Monotone w) {ι : Type*} [Fintype ι] {q : ι → V}
    (hq : Orthonormal K q) {θ : ι → ℝ} (hθ : ∀ i, ⟪q i, A (q i)⟫ = (θ i : K)) :
    ∑ k with k.val < Fintype.card ι, w k ≤ ∑ i, θ i ∧ ∑ i, θ i ≤ ∑ k with N ≤ k.val + Fintype.card ι, w k := by
  classical
  have e : ∀ i, θ i = ∑ k, ‖⟪b k, q i⟫‖ ^ 2 * w k := by
    intro i
    have := hθ i
    rw [inner_map_eq_sum hb] at this
    exact_mod_cast this.symm
  simp only [e]
  rw [Finset.sum_comm]
  have e2 : ∀ k, ∑ i, ‖⟪b k, q i⟫‖ ^ 2 * w k = (∑ i, ‖⟪b k, q i⟫‖ ^ 2) * w k := fun k => (Finset.sum_mul _ _ _).symm
  simp only [e2]
  have h0 : ∀ k, 0 ≤ ∑ i, ‖⟪b k, q i⟫‖ ^ 2 := fun k => Finset.sum_nonneg fun i _ => sq_nonneg _
  have h1 : ∀ k, ∑ i, ‖⟪b k, q i⟫‖ ^ 2 ≤ 1 := by
    intro k
    have h1 := hq.sum_inner_products_le (b k) (s := univ)
    rw [b.orthonormal.1 k, one_pow] at h1
    refine le_trans (le_of_eq (Finset.sum_congr rfl fun i _ => ?_)) h1
    rw [norm_inner_symm]
  have hs : ∑ k, ∑ i, ‖⟪b k, q i⟫‖ ^ 2 = (Fintype.card ι : ℝ) := by
    rw [Finset.sum_comm]
    have : ∀ i, ∑ k, ‖⟪b k, q i⟫‖ ^ 2 = 1 := by
      intro i
      rw [b.sum_sq_norm_inner_right, hq.1 i, one_pow]
    simp [this]
  exact ⟨sum_smallest_le hw h0 h1 hs, le_sum_largest hw h0 h1 hs⟩

/-- The part of a vector in the eigenspaces selected by `p`. -/
noncomputable def eigenPart (b : OrthonormalBasis (Fin N) K V) (p : Fin N → Prop) [DecidablePred p] (x : V) : V :=
  ∑ k with p k, ⟪b k, x⟫ • b k

theorem sub_eigenPart (p : Fin N → Prop) [DecidablePred p] (x : V) :
    x - eigenPart b p x = eigenPart b (fun k => ¬ p k) x := by
  unfold eigenPart
  rw [sub_eq_iff_eq_add, add_comm, Finset.sum_filter_add_sum_filter_not, b.sum_repr']

theorem norm_sq_eigenPart (p : Fin N → Prop) [DecidablePred p] (x : V) :
    ‖eigenPart b p x‖ ^ 2 = ∑ k with p k, ‖⟪b k, x⟫‖ ^ 2 := by
  rw [← b.sum_sq_norm_inner_right, Finset.sum_filter]
  refine Finset.sum_congr rfl fun k _ => ?_
  have : ⟪b k, eigenPart b p x⟫ = if p k then ⟪b k, x⟫ else 0 := by
    unfold eigenPart
    rw [Finset.sum_filter]
    have : ∀ j, (if p j then ⟪b j, x⟫ • b j else 0) = (if p j then ⟪b j, x⟫ else 0) • b j := by
      intro j; split <;> simp
    simp only [this]
    rw [b.orthonormal.inner_right_fintype]
  rw [this]
  split <;> simp

/-- What is left of a vector outside the eigenspaces near `θ` is at most its residual over the distance. -/
theorem norm_sub_eigenPart_le (hb : ∀ k, A (b k) = (w k : K) • b k) (x : V) (θ : ℝ) {δ : ℝ} (hδ : 0 < δ) :
    ‖x - eigenPart b (fun k => |w k - θ| < δ) x‖ ≤ ‖A x - (θ : K) • x‖ / δ := by
  rw [le_div_iff₀ hδ, ← sq_le_sq₀ (by positivity) (norm_nonneg _), mul_pow, sub_eigenPart, norm_sq_eigenPart,
    residual_sq_eq_sum hb, Finset.sum_mul, Finset.sum_filter]
  refine Finset.sum_le_sum fun k _ => ?_
  split
  · rename_i h
    rw [not_lt] at h
    have : δ ^ 2 ≤ (w k - θ) ^ 2 := by
      rw [← sq_abs (w k - θ)]
      exact pow_le_pow_left₀ hδ.le h 2
    nlinarith [sq_nonneg ‖⟪b k, x⟫‖]
  · positivity

/-- **Temple's inequality**: a Rayleigh quotient with only one eigenvalue near it is close to it quadratically. -/
theorem temple (hb : ∀ k, A (b k) = (w k : K) • b k) {x : V} (hx : ‖x‖ = 1) {θ : ℝ} (hθ : ⟪x, A x⟫ = (θ : K))
    {μ δ : ℝ} (hδ : 0 < δ) (hμ : |μ - θ| ≤ δ) (hone : ∀ k, |w k - θ| < δ → w k = μ) :
    |μ - θ| ≤ ‖A x - (θ : K) • x‖ ^ 2 / δ := by
  have e0 : ∑ k, ‖⟪b k, x⟫‖ ^ 2 = 1 := by rw [b.sum_sq_norm_inner_right, hx, one_pow]
  have e1 : ∑ k, ‖⟪b k, x⟫‖ ^ 2 * w k = θ := by
    rw [inner_map_eq_sum hb] at hθ
    exact_mod_cast hθ
  have e2 := residual_sq_eq_sum hb x θ
  have key : ∀ β : ℝ, ‖A x - (θ : K) • x‖ ^ 2 + (θ - μ) * (θ - β)
      = ∑ k, ‖⟪b k, x⟫‖ ^ 2 * ((w k - μ) * (w k - β)) := by
    intro β
    have h : ∀ k, ‖⟪b k, x⟫‖ ^ 2 * ((w k - μ) * (w k - β)) = (w k - θ) ^ 2 * ‖⟪b k, x⟫‖ ^ 2
        + (2 * θ - μ - β) * (‖⟪b k, x⟫‖ ^ 2 * w k) + (μ * β - θ ^ 2) * ‖⟪b k, x⟫‖ ^ 2 := fun k => by ring
    simp only [h, Finset.sum_add_distrib, ← Finset.mul_sum]
    rw [← e2, e1, e0]
    ring
  rw [abs_le] at hμ
  have up := key (θ - δ)
  have lo := key (θ + δ)
  have hup : 0 ≤ ∑ k, ‖⟪b k, x⟫‖ ^ 2 * ((w k - μ) * (w k - (θ - δ))) := by
    refine Finset.sum_nonneg fun k _ => mul_nonneg (sq_nonneg _) ?_
    by_cases h : |w k - θ| < δ
    · rw [hone k h, sub_self, zero_mul]
    · rw [not_lt, le_abs] at h
      rcases h with h | h
      · exact mul_nonneg (by linarith) (by linarith)
      · exact mul_nonneg_of_nonpos_of_nonpos (by linarith) (by linarith)
  have hlo : 0 ≤ ∑ k, ‖⟪b k, x⟫‖ ^ 2 * ((w k - μ) * (w k - (θ + δ))) := by
    refine Finset.sum_nonneg fun k _ => mul_nonneg (sq_nonneg _) ?_
    by_cases h : |w k - θ| < δ
    · rw [hone k h, sub_self, zero_mul]
    · rw [not_lt, le_abs] at h
      rcases h with h | h
      · exact mul_nonneg (by linarith) (by linarith)
      · exact mul_nonneg_of_nonpos_of_nonpos (by linarith) (by linarith)
  rw [le_div_iff₀ hδ]
  rcases abs_cases (μ - θ) with h | h <;> rw [h.1] <;> nlinarith

end
end Verif
