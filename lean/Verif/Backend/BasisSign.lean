/-
Why C98 leaves out Householder QR: the contract of LAPACK leaves the signs of its vectors open, and signs that do
not follow a change of basis make QR depend on the basis.
-/
import Verif.Backend.BasisProps

namespace Verif

open Matrix

variable {K : Type*} [RCLike K] {N : ℕ}

/-- A matrix and its negative. -/
def signSetoid (α : Type*) [InvolutiveNeg α] : Setoid α where
  r := fun V W => W = V ∨ W = -V
  iseqv :=
    { refl := fun _ => Or.inl rfl
      symm := by
        rintro V W (rfl | rfl)
        · exact Or.inl rfl
        · exact Or.inr (neg_neg _).symm
      trans := by
        rintro U V W (rfl | rfl) (rfl | rfl)
        · exact Or.inl rfl
        · exact Or.inr rfl
        · exact Or.inr rfl
        · exact Or.inl (neg_neg _) }

/-- One of a matrix and its negative, the same for both. -/
noncomputable def signRep {α : Type*} [InvolutiveNeg α] (V : α) : α := (Quotient.mk (signSetoid α) V).out

theorem signRep_neg {α : Type*} [InvolutiveNeg α] (V : α) : signRep (-V) = signRep V := by
  unfold signRep
  rw [Quotient.sound (s := signSetoid α) (a := -V) (b := V) (Or.inr (neg_neg V).symm)]

theorem signRep_or {α : Type*} [InvolutiveNeg α] (V : α) : signRep V = V ∨ signRep V = -V := by
  have h : (signSetoid α).r (signRep V) V := Quotient.exact (s := signSetoid α) (Quotient.out_eq _)
  rcases h with h | h
  · exact Or.inl h.symm
  · right
    exact (neg_neg _).symm.trans (congrArg Neg.neg h.symm)

/-- LAPACK with a Householder QR that gives a matrix and its negative the same orthonormal columns. -/
noncomputable def Lapack.signed (L : Lapack K) : Lapack K := { L with hhqr := fun V => L.hhqr (signRep V) }

theorem Lapack.Ok.signed {L : Lapack K} (h : L.Ok) : L.signed.Ok where
  potrf := h.potrf
  heevd := h.heevd
  stemr := h.stemr
  hhqr := by
    intro m n V hmn
    obtain ⟨h1, R, h2⟩ := h.hhqr (signRep V) hmn
    refine ⟨h1, ?_⟩
    rcases signRep_or V with e | e
    · exact ⟨R, h2.trans e⟩
    · refine ⟨-R, ?_⟩
      have ht : triu (-R) = -triu R := by
        funext i j
        show (if i ≤ j then -R i j else 0) = -(if i ≤ j then R i j else 0)
        split_ifs <;> simp
      show L.hhqr (signRep V) * triu (-R) = V
      rw [ht, Matrix.mul_neg, h2, e, neg_neg]

namespace Seq

/-- **C98 cannot be had for every LAPACK with Householder QR**: every LAPACK that meets its contract can be changed
in the signs of its Householder QR, still meeting the contract, so that already turning round the basis vectors
(`Q = -1`, which leaves the matrix as it is) shows in the vectors that `QR` leaves. -/
theorem C98_householder_refuted (L : Lapack K) (hL : L.Ok) : ∃ L' : Lapack K, L'.Ok ∧
    ∀ (E : Env K), E.lapack = L' → cholDisable E.doCholQR E.envDisable = 1 → 0 < E.nevex → E.nevex ≤ N →
    ∀ (s : St K N), s.locked = 0 → ∀ (m : ℕ) (x : ℝ),
      (s.rot (-1)).H = s.H ∧ ((ops E).qr m x (s.rot (-1))).C 0 ≠ (-1 : Matrix (Fin N) (Fin N) K) *ᵥ ((ops E).qr m x s).C 0 := by
  refine ⟨L.signed, hL.signed, ?_⟩
  intro E hE hdis hpos hN s hl m x
  have hq : ∀ t : St K N, t.locked = 0 → ((ops E).qr m x t).C 0 = fun i => L.hhqr (signRep (getBlk 0 E.nevex t.C)) i ⟨0, hpos⟩ := by
    intro t ht
    show (qrSelect _ _ _ _ _ t).C 0 = _
    unfold qrSelect
    rw [if_pos hdis]
    show copyCols 0 t.locked _ (hhQRc E.lapack E.nevex t.C) 0 = _
    rw [ht, copyCols_apply, if_neg (by omega), hE]
    unfold hhQRc
    rw [setBlk_mem le_rfl (by omega)]
    rfl
  have hc : getBlk 0 E.nevex (s.rot (-1)).C = -getBlk 0 E.nevex s.C := by
    rw [show (s.rot (-1)).C = rotV (-1) s.C from rfl, getBlk_rot, Matrix.neg_mul, Matrix.one_mul]
  refine ⟨?_, ?_⟩
  · show -1 * s.H * (-1 : Matrix (Fin N) (Fin N) K)ᴴ = s.H
    simp
  · rw [hq _ hl, hq (s.rot (-1)) hl, hc, signRep_neg]
    set W := L.hhqr (signRep (getBlk 0 E.nevex s.C)) with hW
    intro h
    have hz : ∀ i, W i ⟨0, hpos⟩ = 0 := by
      intro i
      have e : W i ⟨0, hpos⟩ = -W i ⟨0, hpos⟩ := by
        have := congrFun h i
        rw [Matrix.neg_mulVec, Matrix.one_mulVec] at this
        exact this
      exact self_eq_neg.1 e
    have h1 := congrFun (congrFun (hL.hhqr (signRep (getBlk 0 E.nevex s.C)) hN).1 ⟨0, hpos⟩) ⟨0, hpos⟩
    rw [← hW, Matrix.mul_apply, Matrix.one_apply_eq] at h1
    simp [hz] at h1

/-- `C98_householder_refuted`: there are such an environment and such a state. -/
example : ∃ (E : Env K) (s : St K 7), E.lapack.Ok ∧ (s.rot (-1)).H = s.H ∧
    ((ops E).qr 4 1 (s.rot (-1))).C 0 ≠ (-1 : Matrix (Fin 7) (Fin 7) K) *ᵥ ((ops E).qr 4 1 s).C 0 := by
  obtain ⟨L', hL', h⟩ := C98_householder_refuted (N := 7) (exEnv K).lapack (Lapack.ideal_ok _ _ _)
  obtain ⟨s, hs⟩ : ∃ s : St K 7, s.locked = 0 :=
    ⟨⟨exMat K, fun _ _ => 0, fun _ _ => 0, fun _ _ => 0, fun _ _ => 0, .bAc, 0, true⟩, rfl⟩
  exact ⟨{ exEnv K with lapack := L' }, s, hL', h { exEnv K with lapack := L' } rfl rfl
    (by show 0 < 3 + 2; omega) (by show 3 + 2 ≤ 7; omega) s hs 4 1⟩

end Seq
end Verif
