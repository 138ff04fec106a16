/-
Facts about blocks of columns, spans of leading columns, the triangular solve and Cholesky QR.
-/
import Verif.Backend.Dense
import Mathlib.LinearAlgebra.Span.Basic
import Mathlib.LinearAlgebra.LinearIndependent.Lemmas
import Mathlib.LinearAlgebra.Dimension.Constructions
import Mathlib.LinearAlgebra.Dimension.StrongRankCondition
import Mathlib.LinearAlgebra.FiniteDimensional.Basic
import Mathlib.Analysis.Matrix.PosDef

namespace Verif

open Matrix
open scoped ComplexOrder

section Blocks
variable {K : Type*} {N : ℕ}

theorem setBlk_mem {off n : ℕ} {M : Matrix (Fin N) (Fin n) K} {X : ℕ → Fin N → K} {j : ℕ}
    (h1 : off ≤ j) (h2 : j < off + n) :
    setBlk off M X j = fun i => M i ⟨j - off, by omega⟩ := by
  rw [setBlk, dif_pos ⟨h1, h2⟩]

theorem setBlk_not_mem {off n : ℕ} {M : Matrix (Fin N) (Fin n) K} {X : ℕ → Fin N → K} {j : ℕ}
    (h : j < off ∨ off + n ≤ j) : setBlk off M X j = X j := by
  rw [setBlk, dif_neg (by omega)]

theorem getBlk_setBlk {off n : ℕ} {M : Matrix (Fin N) (Fin n) K} {X : ℕ → Fin N → K} :
    getBlk off n (setBlk off M X) = M := by
  funext i j
  rw [getBlk, setBlk_mem (by omega) (by omega)]
  simp

theorem copyCols_apply {off n : ℕ} {src dst : ℕ → Fin N → K} {j : ℕ} :
    copyCols off n src dst j = if off ≤ j ∧ j < off + n then src j else dst j := by
  unfold copyCols writeAt
  split_ifs with h
  · show src (off + (j - off)) = src j
    rw [show off + (j - off) = j by omega]
  · rfl

end Blocks

section Ortho
variable {K : Type*} [RCLike K] {N : ℕ}

/-- The first `n` columns are orthonormal. -/
def OrthoOn (n : ℕ) (X : ℕ → Fin N → K) : Prop :=
  ∀ i j, i < n → j < n → dotc (X i) (X j) = if i = j then 1 else 0

/-- Space spanned by the first `m` columns. -/
def prefixSpan (m : ℕ) (X : ℕ → Fin N → K) : Submodule K (Fin N → K) :=
  Submodule.span K (X '' {j | j < m})

theorem dotc_add_left (x y z : Fin N → K) : dotc (x + y) z = dotc x z + dotc y z := by
  simp [dotc, add_mul, Finset.sum_add_distrib]

theorem dotc_add_right (x y z : Fin N → K) : dotc z (x + y) = dotc z x + dotc z y := by
  simp [dotc, mul_add, Finset.sum_add_distrib]

theorem dotc_smul_left (c : K) (x y : Fin N → K) : dotc (c • x) y = star c * dotc x y := by
  simp [dotc, Finset.mul_sum, mul_assoc]

theorem dotc_smul_right (c : K) (x y : Fin N → K) : dotc x (c • y) = c * dotc x y := by
  simp only [dotc, Finset.mul_sum, Pi.smul_apply, smul_eq_mul]
  exact Finset.sum_congr rfl fun i _ => by ring

theorem dotc_zero_left (x : Fin N → K) : dotc 0 x = 0 := by simp [dotc]
theorem dotc_zero_right (x : Fin N → K) : dotc x 0 = 0 := by simp [dotc]

theorem dotc_neg_right (x y : Fin N → K) : dotc x (-y) = -dotc x y := by
  simp [dotc]

theorem dotc_neg_left (x y : Fin N → K) : dotc (-x) y = -dotc x y := by
  simp [dotc]

theorem dotc_star (x y : Fin N → K) : star (dotc x y) = dotc y x := by
  simp only [dotc, star_sum, star_mul', star_star]
  exact Finset.sum_congr rfl fun i _ => mul_comm _ _

theorem dotc_eq (x y : Fin N → K) : dotc x y = star x ⬝ᵥ y := rfl

theorem dotc_sum_right {ι : Type*} (t : Finset ι) (f : ι → Fin N → K) (x : Fin N → K) :
    dotc x (∑ i ∈ t, f i) = ∑ i ∈ t, dotc x (f i) := by
  rw [dotc_eq, dotProduct_sum]; rfl

theorem dotc_sum_left {ι : Type*} (t : Finset ι) (f : ι → Fin N → K) (x : Fin N → K) :
    dotc (∑ i ∈ t, f i) x = ∑ i ∈ t, dotc (f i) x := by
  rw [dotc_eq, star_sum, sum_dotProduct]; rfl

theorem gram_apply {n : ℕ} (off : ℕ) (X Y : ℕ → Fin N → K) (i j : Fin n) :
    ((getBlk off n X)ᴴ * getBlk off n Y) i j = dotc (X (off + i)) (Y (off + j)) := by
  simp [Matrix.mul_apply, getBlk, dotc]

theorem orthoOn_iff {n : ℕ} {X : ℕ → Fin N → K} :
    OrthoOn n X ↔ (getBlk 0 n X)ᴴ * getBlk 0 n X = 1 := by
  constructor
  · intro h
    ext i j
    rw [gram_apply, h _ _ (by omega) (by omega), Matrix.one_apply]
    simp [Fin.ext_iff]
  · intro h i j hi hj
    have := congrFun (congrFun h ⟨i, hi⟩) ⟨j, hj⟩
    rw [gram_apply, Matrix.one_apply] at this
    simpa [Fin.ext_iff] using this

theorem OrthoOn.mono {n m : ℕ} {X : ℕ → Fin N → K} (h : OrthoOn n X) (hm : m ≤ n) :
    OrthoOn m X := fun i j hi hj => h i j (by omega) (by omega)

theorem OrthoOn.congr {n : ℕ} {X Y : ℕ → Fin N → K} (h : OrthoOn n X)
    (hxy : ∀ j, j < n → Y j = X j) : OrthoOn n Y := by
  intro i j hi hj
  rw [hxy i hi, hxy j hj]; exact h i j hi hj

theorem mem_prefixSpan {m j : ℕ} {X : ℕ → Fin N → K} (h : j < m) : X j ∈ prefixSpan m X :=
  Submodule.subset_span ⟨j, h, rfl⟩

theorem prefixSpan_le {m : ℕ} {X : ℕ → Fin N → K} {W : Submodule K (Fin N → K)}
    (h : ∀ j, j < m → X j ∈ W) : prefixSpan m X ≤ W := by
  unfold prefixSpan
  rw [Submodule.span_le]
  rintro _ ⟨j, hj, rfl⟩
  exact h j hj

theorem prefixSpan_mono {m n : ℕ} {X : ℕ → Fin N → K} (h : m ≤ n) :
    prefixSpan m X ≤ prefixSpan n X := prefixSpan_le fun j hj => mem_prefixSpan (by omega)

theorem prefixSpan_congr {m : ℕ} {X Y : ℕ → Fin N → K} (h : ∀ j, j < m → X j = Y j) :
    prefixSpan m X = prefixSpan m Y := by
  apply le_antisymm
  · exact prefixSpan_le fun j hj => h j hj ▸ mem_prefixSpan hj
  · exact prefixSpan_le fun j hj => (h j hj).symm ▸ mem_prefixSpan hj

/-- A vector orthogonal to the leading columns is orthogonal to their span. -/
theorem dotc_of_mem_prefixSpan {m : ℕ} {X : ℕ → Fin N → K} {v x : Fin N → K}
    (h : ∀ j, j < m → dotc (X j) v = 0) (hx : x ∈ prefixSpan m X) : dotc x v = 0 := by
  unfold prefixSpan at hx
  induction hx using Submodule.span_induction with
  | mem y hy => obtain ⟨j, hj, rfl⟩ := hy; exact h j hj
  | zero => exact dotc_zero_left v
  | add y z _ _ hy hz => rw [dotc_add_left, hy, hz, add_zero]
  | smul c y _ hy => rw [dotc_smul_left, hy, mul_zero]

/-- Replacing the leading `k` columns of an orthonormal family by orthonormal columns in their span. -/
theorem ortho_replace {n k : ℕ} {Q L Y : ℕ → Fin N → K} (hQ : OrthoOn n Q) (hL : OrthoOn k L)
    (hk : k ≤ n) (hspan : prefixSpan k L ≤ prefixSpan k Q)
    (hY1 : ∀ j, j < k → Y j = L j) (hY2 : ∀ j, k ≤ j → j < n → Y j = Q j) : OrthoOn n Y := by
  have hLQ : ∀ i j, i < k → k ≤ j → j < n → dotc (L i) (Q j) = 0 := by
    intro i j hi hj hjn
    refine dotc_of_mem_prefixSpan (m := k) (X := Q) ?_ (hspan (mem_prefixSpan hi))
    intro l hl
    rw [hQ l j (by omega) hjn, if_neg (by omega)]
  intro i j hi hj
  rcases Nat.lt_or_ge i k with hi' | hi' <;> rcases Nat.lt_or_ge j k with hj' | hj'
  · rw [hY1 i hi', hY1 j hj']; exact hL i j hi' hj'
  · rw [hY1 i hi', hY2 j hj' hj, hLQ i j hi' hj' hj, if_neg (by omega)]
  · rw [hY2 i hi' hi, hY1 j hj', ← dotc_star, hLQ j i hj' hi' hi, star_zero, if_neg (by omega)]
  · rw [hY2 i hi' hi, hY2 j hj' hj]; exact hQ i j hi hj

/-- Orthonormal columns are linearly independent. -/
theorem OrthoOn.linearIndependent {n : ℕ} {X : ℕ → Fin N → K} (h : OrthoOn n X) :
    LinearIndependent K (fun j : Fin n => X j) := by
  rw [Fintype.linearIndependent_iff]
  intro g hg i
  have : dotc (X i) (∑ j : Fin n, g j • X j) = 0 := by rw [hg, dotc_zero_right]
  rw [dotc_sum_right] at this
  simp only [dotc_smul_right] at this
  rw [Finset.sum_eq_single i] at this
  · rwa [h i i i.2 i.2, if_pos rfl, mul_one] at this
  · intro j _ hj
    rw [h i j i.2 j.2, if_neg (fun h => hj (Fin.ext h.symm)), mul_zero]
  · intro h; exact absurd (Finset.mem_univ i) h

theorem prefixSpan_eq_range (m : ℕ) (X : ℕ → Fin N → K) :
    prefixSpan m X = Submodule.span K (Set.range (fun j : Fin m => X j)) := by
  unfold prefixSpan
  congr 1
  ext x
  constructor
  · rintro ⟨j, hj, rfl⟩; exact ⟨⟨j, hj⟩, rfl⟩
  · rintro ⟨j, rfl⟩; exact ⟨j, j.2, rfl⟩

/-- Columns whose span contains that of as many independent columns are independent. -/
theorem linearIndependent_of_span_le {m : ℕ} {L X : ℕ → Fin N → K}
    (hL : LinearIndependent K (fun j : Fin m => L j)) (h : prefixSpan m L ≤ prefixSpan m X) :
    LinearIndependent K (fun j : Fin m => X j) := by
  rw [linearIndependent_iff_card_eq_finrank_span]
  apply le_antisymm
  · rw [linearIndependent_iff_card_eq_finrank_span] at hL
    rw [hL]
    unfold Set.finrank
    rw [← prefixSpan_eq_range, ← prefixSpan_eq_range]
    exact Submodule.finrank_mono h
  · exact finrank_range_le_card _

/-- The Gram matrix of linearly independent columns is positive definite. -/
theorem gram_posDef {m off : ℕ} {X : ℕ → Fin N → K}
    (h : LinearIndependent K (fun j : Fin m => X (off + j))) :
    ((getBlk off m X)ᴴ * getBlk off m X).PosDef := by
  apply Matrix.PosDef.conjTranspose_mul_self
  rw [Matrix.mulVec_injective_iff]
  exact h

end Ortho

section Trsm
variable {K : Type*} [RCLike K] {N n : ℕ} (A : Matrix (Fin n) (Fin n) K)

theorem trsm_spec (V : ℕ → Fin N → K) :
    (∀ j, n ≤ j → trsm A V j = V j) ∧
    ∀ j, j < n → trsm A V j =
      (ent A j j)⁻¹ • (V j - ∑ k ∈ Finset.range j, ent A k j • trsm A V k) := by
  have := forRange_inv (Nat.zero_le n)
    (fun j (X : ℕ → Fin N → K) => Function.update X j
      ((ent A j j)⁻¹ • (X j - ∑ k ∈ Finset.range j, ent A k j • X k)))
    (fun m X => (∀ j, m ≤ j → X j = V j) ∧
      ∀ j, j < m → X j = (ent A j j)⁻¹ • (V j - ∑ k ∈ Finset.range j, ent A k j • X k))
    (s := V) ⟨fun _ _ => rfl, by intro j hj; omega⟩ ?_
  · exact ⟨this.1, this.2⟩
  · rintro m X - hm ⟨h1, h2⟩
    refine ⟨?_, ?_⟩
    · intro j hj
      rw [Function.update_of_ne (by omega)]
      exact h1 j (by omega)
    · intro j hj
      have hsum : ∀ j, j ≤ m → ∀ v, ∑ k ∈ Finset.range j, ent A k j • Function.update X m v k =
          ∑ k ∈ Finset.range j, ent A k j • X k := by
        intro j hj v
        refine Finset.sum_congr rfl fun k hk => ?_
        have := Finset.mem_range.mp hk
        rw [Function.update_of_ne (by omega)]
      rcases Nat.lt_succ_iff_lt_or_eq.mp hj with hj | rfl
      · rw [Function.update_of_ne (by omega), hsum j (by omega)]
        exact h2 j hj
      · rw [Function.update_self, hsum j le_rfl, h1 j le_rfl]

/-- Where the diagonal is non-zero, the solve undoes the multiplication by the triangle. -/
theorem trsm_mul (V : ℕ → Fin N → K) {j : ℕ} (hj : j < n) (hd : ent A j j ≠ 0) :
    V j = ∑ k ∈ Finset.range (j + 1), ent A k j • trsm A V k := by
  rw [Finset.sum_range_succ]
  conv_rhs => rw [(trsm_spec A V).2 j hj]
  rw [smul_smul, mul_inv_cancel₀ hd, one_smul]
  abel

/-- Leading spans do not grow. -/
theorem trsm_span_le (V : ℕ → Fin N → K) {m : ℕ} (hm : m ≤ n) :
    prefixSpan m (trsm A V) ≤ prefixSpan m V := by
  refine prefixSpan_le ?_
  intro j
  induction j using Nat.strong_induction_on with
  | _ j ih =>
    intro hj
    rw [(trsm_spec A V).2 j (by omega)]
    refine Submodule.smul_mem _ _ (Submodule.sub_mem _ (mem_prefixSpan hj) ?_)
    refine Submodule.sum_mem _ fun k hk => Submodule.smul_mem _ _ ?_
    have := Finset.mem_range.mp hk
    exact ih k this (by omega)

/-- Leading spans do not shrink where the diagonal is non-zero. -/
theorem trsm_span_ge (V : ℕ → Fin N → K) {m : ℕ} (hm : m ≤ n)
    (hd : ∀ j, j < m → ent A j j ≠ 0) : prefixSpan m V ≤ prefixSpan m (trsm A V) := by
  refine prefixSpan_le fun j hj => ?_
  rw [trsm_mul A V (by omega) (hd j hj)]
  refine Submodule.sum_mem _ fun k hk => Submodule.smul_mem _ _ ?_
  have := Finset.mem_range.mp hk
  exact mem_prefixSpan (by omega)

theorem ent_fin (i j : Fin n) : ent A i j = A i j := by
  rw [ent, dif_pos ⟨i.2, j.2⟩]

/-- `X U = V` as matrices. -/
theorem trsm_getBlk (V : ℕ → Fin N → K) (hd : ∀ i, A i i ≠ 0) :
    getBlk 0 n (trsm A V) * triu A = getBlk 0 n V := by
  ext i j
  have h := congrFun (trsm_mul A V j.2 (by rw [ent_fin]; exact hd j)) i
  rw [Matrix.mul_apply]
  show _ = V (0 + j.val) i
  rw [zero_add, h, Finset.sum_apply]
  have hn : n = (j.val + 1) + (n - (j.val + 1)) := by omega
  have e1 : ∑ k : Fin n, getBlk 0 n (trsm A V) i k * triu A k j =
      ∑ k ∈ Finset.range n, if k ≤ j.val then trsm A V k i * ent A k j else 0 := by
    rw [← Fin.sum_univ_eq_sum_range (fun k => if k ≤ j.val then trsm A V k i * ent A k j else 0)]
    refine Finset.sum_congr rfl fun k _ => ?_
    rw [getBlk, triu, zero_add]
    by_cases hkj : k ≤ j
    · rw [if_pos hkj, if_pos (show k.val ≤ j.val from hkj), ent_fin]
    · rw [if_neg hkj, if_neg (show ¬ k.val ≤ j.val from hkj), mul_zero]
  rw [e1, ← Finset.sum_filter]
  have e2 : (Finset.range n).filter (fun k => k ≤ j.val) = Finset.range (j.val + 1) := by
    ext k
    simp only [Finset.mem_filter, Finset.mem_range]
    omega
  rw [e2]
  refine Finset.sum_congr rfl fun k _ => ?_
  simp [mul_comm]

theorem triu_det_ne_zero (hd : ∀ i, A i i ≠ 0) : (triu A).det ≠ 0 := by
  rw [Matrix.det_of_isUpperTriangular]
  · refine Finset.prod_ne_zero_iff.mpr fun i _ => ?_
    simpa [triu] using hd i
  · intro i j hij
    have : j < i := hij
    simp [triu, not_le.mpr this]

/-- After a successful Cholesky factorisation of the Gram matrix the solve orthonormalises. -/
theorem trsm_ortho (V : ℕ → Fin N → K)
    (hA : (triu A)ᴴ * triu A = (getBlk 0 n V)ᴴ * getBlk 0 n V) (hd : ∀ i, A i i ≠ 0) :
    OrthoOn n (trsm A V) := by
  rw [orthoOn_iff]
  have hu : IsUnit (triu A).det := (triu_det_ne_zero A hd).isUnit
  have hu' : IsUnit (triu A)ᴴ.det := by
    rw [Matrix.det_conjTranspose]; exact hu.star
  rw [← trsm_getBlk A V hd, Matrix.conjTranspose_mul] at hA
  set X := getBlk 0 n (trsm A V)
  set U := triu A
  have h1 : Uᴴ * (Xᴴ * X) * U = Uᴴ * 1 * U := by
    rw [Matrix.mul_one, hA]; simp only [Matrix.mul_assoc]
  have h2 : Uᴴ * (Xᴴ * X) = Uᴴ * 1 := by
    have := congrArg (fun Z => Z * U⁻¹) h1
    simpa only [Matrix.mul_nonsing_inv_cancel_right _ _ hu] using this
  have := congrArg (fun Z => Uᴴ⁻¹ * Z) h2
  simpa only [Matrix.nonsing_inv_mul_cancel_left _ _ hu'] using this

end Trsm

section Potrf
variable {K : Type*} [RCLike K] {N n : ℕ} {L : Lapack K}

theorem gram_isHermitian (V : Matrix (Fin N) (Fin n) K) : (syherk V).IsHermitian := by
  unfold syherk
  exact Matrix.isHermitian_conjTranspose_mul_self V

/-- The Cholesky factorisation of the Gram matrix of a block of which the leading `m` columns are
independent has non-zero diagonal in the leading `m` positions, whether it succeeds or not. -/
theorem potrf_gram_diag (hL : L.Ok) {m : ℕ} (hm : m ≤ n) {X : ℕ → Fin N → K}
    (h : LinearIndependent K (fun j : Fin m => X j)) {j : ℕ} (hj : j < m) :
    ent (L.potrf (syherk (getBlk 0 n X))).2 j j ≠ 0 := by
  rw [ent, dif_pos ⟨by omega, by omega⟩]
  rcases hL.potrf (syherk (getBlk 0 n X)) (gram_isHermitian _) with ⟨-, -, h3⟩ | ⟨k, hk, -, h2, h3⟩
  · exact h3 _
  · refine h2 _ ?_
    by_contra hjk
    apply h3
    have hli : LinearIndependent K (fun j : Fin (k + 1) => X (0 + j)) := by
      have := h.comp (Fin.castLE (show k + 1 ≤ m by simp at hjk; omega)) (Fin.castLE_injective _)
      simpa [Function.comp_def] using this
    have := gram_posDef hli
    convert this using 1
    ext i j
    rfl

/-- Completeness: independent columns make the factorisation succeed. -/
theorem potrf_gram_ok (hL : L.Ok) {X : ℕ → Fin N → K}
    (h : LinearIndependent K (fun j : Fin n => X j)) :
    (L.potrf (syherk (getBlk 0 n X))).1 = 0 := by
  rcases hL.potrf (syherk (getBlk 0 n X)) (gram_isHermitian _) with ⟨h1, -, -⟩ | ⟨k, hk, -, -, h3⟩
  · exact h1
  · exfalso
    apply h3
    have hli : LinearIndependent K (fun j : Fin (k + 1) => X (0 + j)) := by
      have := h.comp (Fin.castLE hk) (Fin.castLE_injective _)
      simpa [Function.comp_def] using this
    have := gram_posDef hli
    convert this using 1
    ext i j
    rfl

/-- Success of the factorisation yields orthonormal columns. -/
theorem potrf_trsm_ortho (hL : L.Ok) {X : ℕ → Fin N → K}
    (h : (L.potrf (syherk (getBlk 0 n X))).1 = 0) :
    OrthoOn n (trsm (L.potrf (syherk (getBlk 0 n X))).2 X) := by
  rcases hL.potrf (syherk (getBlk 0 n X)) (gram_isHermitian _) with ⟨-, h2, h3⟩ | ⟨k, hk, h1, -, -⟩
  · exact trsm_ortho _ _ h2 h3
  · omega

end Potrf
end Verif
