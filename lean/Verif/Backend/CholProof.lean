/-
The orthogonalisation routines on a block of columns: what they guarantee in exact arithmetic.
-/
import Verif.Backend.Common
import Verif.Backend.DenseProof

namespace Verif

open Matrix
open scoped ComplexOrder

variable {K : Type*} [RCLike K] {N n : ℕ} {L : Lapack K}

/-- Outcome of an orthogonalisation attempt on the first `n` columns of `X`. -/
structure QrPost (n : ℕ) (X : ℕ → Fin N → K) (info : ℤ) (Y : ℕ → Fin N → K) : Prop where
  tail : ∀ j, n ≤ j → Y j = X j
  span : ∀ m, m ≤ n → LinearIndependent K (fun j : Fin m => X j) →
    prefixSpan m Y = prefixSpan m X
  ortho : info = 0 → OrthoOn n Y

/-- A leading span that contains the span of as many independent vectors equals it. -/
theorem prefixSpan_eq_of_le {m : ℕ} {X Y : ℕ → Fin N → K}
    (hX : LinearIndependent K (fun j : Fin m => X j)) (h : prefixSpan m X ≤ prefixSpan m Y) :
    prefixSpan m Y = prefixSpan m X := by
  symm
  apply Submodule.eq_of_le_of_finrank_le h
  rw [prefixSpan_eq_range, prefixSpan_eq_range]
  have := linearIndependent_iff_card_eq_finrank_span.mp hX
  rw [Set.finrank] at this
  rw [← this]
  exact finrank_range_le_card _

theorem linearIndependent_of_span_eq {m : ℕ} {X Y : ℕ → Fin N → K}
    (hX : LinearIndependent K (fun j : Fin m => X j)) (h : prefixSpan m Y = prefixSpan m X) :
    LinearIndependent K (fun j : Fin m => Y j) :=
  linearIndependent_of_span_le hX h.ge

section Eqs
variable (L : Lapack K) (n : ℕ) (v : CholVariant) (X : ℕ → Fin N → K)

theorem cholQR1c_eq : cholQR1c L n X = if (L.potrf (gram n X)).1 ≠ 0 then ((L.potrf (gram n X)).1, X)
    else ((L.potrf (gram n X)).1, trsm (L.potrf (gram n X)).2 X) := rfl

/-- Result of one round of Cholesky QR. -/
noncomputable def round1 : ℕ → Fin N → K := trsm (L.potrf (gram n X)).2 X

theorem cholQR2c_eq : cholQR2c L n v X =
    if (L.potrf (gram n X)).1 ≠ 0 then ((L.potrf (gram n X)).1, X)
    else (if v.lastInfo then (L.potrf (gram n (round1 L n X))).1 else (L.potrf (gram n X)).1,
      round1 L n (round1 L n X)) := rfl

/-- The shifted Gram matrix. -/
noncomputable def shifted : Matrix (Fin n) (Fin n) K :=
  shiftDiag (gram n X) ((cholShift (N := N) L (gram n X) : ℝ) : K)

/-- Result of the first, shifted round. -/
noncomputable def round0 : ℕ → Fin N → K := trsm (L.potrf (shifted L n X)).2 X

theorem shiftedcholQR2c_eq : shiftedcholQR2c L n v X =
    if (L.potrf (shifted L n X)).1 ≠ 0 then ((L.potrf (shifted L n X)).1, X)
    else if v.early = true ∧ (L.potrf (gram n (round0 L n X))).1 ≠ 0 then
      ((L.potrf (gram n (round0 L n X))).1, round0 L n X)
    else (if v.lastInfo then (L.potrf (gram n (round1 L n (round0 L n X)))).1
        else (L.potrf (gram n (round0 L n X))).1,
      round1 L n (round1 L n (round0 L n X))) := rfl

end Eqs

theorem QrPost.refl {X : ℕ → Fin N → K} {info : ℤ} (h : info ≠ 0) : QrPost n X info X :=
  ⟨fun _ _ => rfl, fun _ _ _ => rfl, fun h' => absurd h' h⟩

/-- One triangular solve with a factor whose diagonal is non-zero where needed. -/
theorem trsm_span_eq {A : Matrix (Fin n) (Fin n) K} {X : ℕ → Fin N → K} {m : ℕ} (hm : m ≤ n)
    (hd : ∀ j, j < m → ent A j j ≠ 0) : prefixSpan m (trsm A X) = prefixSpan m X :=
  le_antisymm (trsm_span_le A X hm) (trsm_span_ge A X hm hd)

/-- One round of Cholesky QR keeps the leading spans of independent columns, even if the
factorisation stops early. -/
theorem chol_round_span (hL : L.Ok) {X : ℕ → Fin N → K} {m : ℕ} (hm : m ≤ n)
    (hX : LinearIndependent K (fun j : Fin m => X j)) :
    prefixSpan m (round1 L n X) = prefixSpan m X :=
  trsm_span_eq hm fun _ hj => potrf_gram_diag hL hm hX hj

theorem cholQR1c_post (hL : L.Ok) (X : ℕ → Fin N → K) :
    QrPost n X (cholQR1c L n X).1 (cholQR1c L n X).2 := by
  rw [cholQR1c_eq]
  by_cases h : (L.potrf (gram n X)).1 ≠ 0
  · rw [if_pos h]; exact .refl h
  · rw [if_neg h]
    push Not at h
    exact ⟨fun j hj => (trsm_spec _ X).1 j hj, fun m hm hX => chol_round_span hL hm hX,
      fun _ => potrf_trsm_ortho hL h⟩

theorem OrthoOn.potrf_ok (hL : L.Ok) {X : ℕ → Fin N → K} (h : OrthoOn n X) :
    (L.potrf (gram n X)).1 = 0 := potrf_gram_ok hL h.linearIndependent

theorem cholQR2c_post (hL : L.Ok) (v : CholVariant) (X : ℕ → Fin N → K) :
    QrPost n X (cholQR2c L n v X).1 (cholQR2c L n v X).2 := by
  rw [cholQR2c_eq]
  by_cases h : (L.potrf (gram n X)).1 ≠ 0
  · rw [if_pos h]; exact .refl h
  · rw [if_neg h]
    push Not at h
    have h2 := (potrf_trsm_ortho hL h).potrf_ok hL
    refine ⟨fun j hj => ?_, fun m hm hX => ?_, fun _ => potrf_trsm_ortho hL h2⟩
    · show trsm _ (trsm _ X) j = X j
      rw [(trsm_spec _ _).1 j hj, (trsm_spec _ X).1 j hj]
    · show prefixSpan m (round1 L n (round1 L n X)) = _
      have e := chol_round_span hL hm hX
      rw [chol_round_span hL hm (linearIndependent_of_span_eq hX e), e]

theorem shiftDiag_eq {A : Matrix (Fin n) (Fin n) K} (c : K) : shiftDiag A c = A + c • 1 := by
  ext i j
  by_cases h : i = j
  · subst h; simp [shiftDiag]
  · simp [shiftDiag, h]

theorem shiftDiag_isHermitian {A : Matrix (Fin n) (Fin n) K} (hA : A.IsHermitian) (c : ℝ) :
    (shiftDiag A (c : K)).IsHermitian := by
  rw [shiftDiag_eq]
  refine hA.add ?_
  unfold Matrix.IsHermitian
  rw [Matrix.conjTranspose_smul, Matrix.conjTranspose_one]
  simp

theorem shifted_isHermitian (X : ℕ → Fin N → K) : (shifted L n X).IsHermitian :=
  shiftDiag_isHermitian (gram_isHermitian _) _

theorem round0_span (hL : L.Ok) {X : ℕ → Fin N → K} (h : (L.potrf (shifted L n X)).1 = 0) {m : ℕ}
    (hm : m ≤ n) : prefixSpan m (round0 L n X) = prefixSpan m X := by
  refine trsm_span_eq hm fun j hj => ?_
  rcases hL.potrf (shifted L n X) (shifted_isHermitian X) with ⟨-, -, h3⟩ | ⟨k, -, h1, -, -⟩
  · rw [ent, dif_pos ⟨by omega, by omega⟩]; exact h3 _
  · omega

theorem shiftedcholQR2c_post (hL : L.Ok) (v : CholVariant) (hv : v.lastInfo = true ∨ v.early = true)
    (X : ℕ → Fin N → K) :
    QrPost n X (shiftedcholQR2c L n v X).1 (shiftedcholQR2c L n v X).2 := by
  rw [shiftedcholQR2c_eq]
  by_cases h : (L.potrf (shifted L n X)).1 ≠ 0
  · rw [if_pos h]; exact .refl h
  · rw [if_neg h]
    push Not at h
    have e1 : ∀ m, m ≤ n → prefixSpan m (round0 L n X) = prefixSpan m X :=
      fun m hm => round0_span hL h hm
    have t1 : ∀ j, n ≤ j → round0 L n X j = X j := fun j hj => (trsm_spec _ X).1 j hj
    by_cases h2 : v.early = true ∧ (L.potrf (gram n (round0 L n X))).1 ≠ 0
    · rw [if_pos h2]
      exact ⟨t1, fun m hm _ => e1 m hm, fun h' => absurd h' h2.2⟩
    · rw [if_neg h2]
      have e2 : ∀ m, m ≤ n → LinearIndependent K (fun j : Fin m => X j) →
          prefixSpan m (round1 L n (round0 L n X)) = prefixSpan m X := by
        intro m hm hX
        rw [chol_round_span hL hm (linearIndependent_of_span_eq hX (e1 m hm)), e1 m hm]
      refine ⟨fun j hj => ?_, fun m hm hX => ?_, fun hi => ?_⟩
      · show trsm _ (trsm _ _) j = _
        rw [(trsm_spec _ _).1 j hj, (trsm_spec _ _).1 j hj, t1 j hj]
      · show prefixSpan m (round1 L n (round1 L n (round0 L n X))) = _
        rw [chol_round_span hL hm (linearIndependent_of_span_eq hX (e2 m hm hX)), e2 m hm hX]
      · apply potrf_trsm_ortho hL
        by_cases hl : v.lastInfo = true
        · simp only [hl, if_true] at hi; exact hi
        · simp only [hl] at hi
          exact (potrf_trsm_ortho hL hi).potrf_ok hL

theorem hhQRc_post (hL : L.Ok) (hn : n ≤ N) (X : ℕ → Fin N → K) :
    QrPost n X 0 (hhQRc L n X) := by
  obtain ⟨h1, R, h2⟩ := hL.hhqr (getBlk 0 n X) hn
  refine ⟨fun j hj => setBlk_not_mem (by omega), fun m hm hX => ?_, fun _ => ?_⟩
  · apply prefixSpan_eq_of_le hX
    refine prefixSpan_le fun j hj => ?_
    have : X j = ∑ k : Fin n, (triu R k ⟨j, by omega⟩) • hhQRc L n X k := by
      funext i
      have := congrFun (congrFun h2 i) ⟨j, by omega⟩
      rw [Matrix.mul_apply] at this
      rw [show X j i = getBlk 0 n X i ⟨j, by omega⟩ by simp [getBlk], ← this, Finset.sum_apply]
      refine Finset.sum_congr rfl fun k _ => ?_
      rw [Pi.smul_apply, hhQRc, setBlk_mem (by omega) (by omega)]
      simp [mul_comm]
    rw [this]
    refine Submodule.sum_mem _ fun k _ => ?_
    by_cases hk : k.val ≤ j
    · exact Submodule.smul_mem _ _ (mem_prefixSpan (by omega))
    · have : triu R k ⟨j, by omega⟩ = 0 := by
        unfold triu
        exact if_neg (fun h => hk h)
      rw [this, zero_smul]
      exact Submodule.zero_mem _
  · rw [orthoOn_iff, hhQRc, getBlk_setBlk]
    exact h1

theorem QrPost.trans {X Y Z : ℕ → Fin N → K} {a b : ℤ} (h1 : QrPost n X a Y) (h2 : QrPost n Y b Z) :
    QrPost n X b Z := by
  refine ⟨fun j hj => (h2.tail j hj).trans (h1.tail j hj), fun m hm hX => ?_, h2.ortho⟩
  have e := h1.span m hm hX
  rw [h2.span m hm (linearIndependent_of_span_eq hX e), e]

/-- In exact arithmetic a failed `cholQR1` or `cholQR2` has not changed the columns. -/
theorem cholQR1c_fail {X : ℕ → Fin N → K} (h : (cholQR1c L n X).1 ≠ 0) :
    (cholQR1c L n X).2 = X := by
  rw [cholQR1c_eq] at h ⊢
  by_cases h0 : (L.potrf (gram n X)).1 ≠ 0
  · rw [if_pos h0]
  · rw [if_neg h0] at h
    exact absurd h h0

theorem cholQR2c_fail (hL : L.Ok) (v : CholVariant) {X : ℕ → Fin N → K}
    (h : (cholQR2c L n v X).1 ≠ 0) : (cholQR2c L n v X).2 = X := by
  rw [cholQR2c_eq] at h ⊢
  by_cases h0 : (L.potrf (gram n X)).1 ≠ 0
  · rw [if_pos h0]
  · rw [if_neg h0] at h
    push Not at h0
    have h2 : (L.potrf (gram n (round1 L n X))).1 = 0 := (potrf_trsm_ortho hL h0).potrf_ok hL
    exfalso
    apply h
    show ite _ _ _ = (0 : ℤ)
    split_ifs
    · exact h2
    · exact h0

/-- Independent columns: every Cholesky variant reports success. -/
theorem cholQR1c_info (hL : L.Ok) {X : ℕ → Fin N → K}
    (hX : LinearIndependent K (fun j : Fin n => X j)) : (cholQR1c L n X).1 = 0 := by
  have h : (L.potrf (gram n X)).1 = 0 := potrf_gram_ok hL hX
  rw [cholQR1c_eq, if_neg (not_not.mpr h)]
  exact h

theorem cholQR2c_info (hL : L.Ok) (v : CholVariant) {X : ℕ → Fin N → K}
    (hX : LinearIndependent K (fun j : Fin n => X j)) : (cholQR2c L n v X).1 = 0 := by
  have h : (L.potrf (gram n X)).1 = 0 := potrf_gram_ok hL hX
  have h2 : (L.potrf (gram n (round1 L n X))).1 = 0 := (potrf_trsm_ortho hL h).potrf_ok hL
  rw [cholQR2c_eq, if_neg (not_not.mpr h)]
  show ite _ _ _ = (0 : ℤ)
  split_ifs
  · exact h2
  · exact h

theorem cholShift_nonneg (hε : 0 ≤ L.eps) (A : Matrix (Fin n) (Fin n) K) :
    0 ≤ cholShift (N := N) L A := by
  unfold cholShift
  have := Finset.sum_nonneg (s := Finset.univ) (f := fun i => ‖A i i‖) fun i _ => norm_nonneg _
  positivity

theorem shifted_posDef (hε : 0 ≤ L.eps) {X : ℕ → Fin N → K}
    (hX : LinearIndependent K (fun j : Fin n => X j)) : (shifted L n X).PosDef := by
  unfold shifted
  rw [shiftDiag_eq]
  have h1 : (gram n X).PosDef := gram_posDef (off := 0) (m := n) (X := X) (by simpa using hX)
  refine h1.add_posSemidef ?_
  have h2 : (1 : Matrix (Fin n) (Fin n) K).PosSemidef := Matrix.PosSemidef.one
  exact h2.smul (by exact_mod_cast cholShift_nonneg hε _)

theorem shiftedcholQR2c_info (hL : L.Ok) (hε : 0 ≤ L.eps) (v : CholVariant) {X : ℕ → Fin N → K}
    (hX : LinearIndependent K (fun j : Fin n => X j)) : (shiftedcholQR2c L n v X).1 = 0 := by
  have h : (L.potrf (shifted L n X)).1 = 0 := by
    rcases hL.potrf (shifted L n X) (shifted_isHermitian X) with ⟨h1, -, h3⟩ | ⟨k, hk, -, -, h3⟩
    · exact h1
    · exact absurd ((shifted_posDef hε hX).submatrix (Fin.castLE_injective hk)) h3
  have h2 : (L.potrf (gram n (round0 L n X))).1 = 0 :=
    potrf_gram_ok hL (linearIndependent_of_span_eq hX (round0_span hL h le_rfl))
  have h3 : (L.potrf (gram n (round1 L n (round0 L n X)))).1 = 0 :=
    (potrf_trsm_ortho hL h2).potrf_ok hL
  rw [shiftedcholQR2c_eq, if_neg (not_not.mpr h), if_neg (fun c => c.2 h2)]
  show ite _ _ _ = (0 : ℤ)
  split_ifs
  · exact h3
  · exact h2

end Verif
