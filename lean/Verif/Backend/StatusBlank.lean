/-
The backends with an eigensolver that gives up: it reports a failure and leaves zeros.
-/
import Verif.Backend.StatusProof
import Verif.Backend.MgpuProps
import Verif.Solver.Blank

namespace Verif

open Matrix

variable {K : Type*} [RCLike K] {N : ℕ}

/-- Values and vectors left by the eigensolver are zero. -/
def Lapack.GivesUp (L : Lapack K) : Prop :=
  ∀ {n : ℕ} (A : Matrix (Fin n) (Fin n) K), L.heevd A = (fun _ => 0, 0)

namespace Seq

/-- Residuals without a condition on the matrix. -/
theorem resd_values (ritzv : ℕ → ℝ) (l u : ℕ) (s : St K N) (i : ℕ) (hi : i < u) :
    (resd ritzv l u s).1 i = nrm2 (s.Hᴴ.mulVec (s.C (l + i)) - (ritzv i : K) • s.C2 (l + i)) := by
  set s1 := asynCxHGatherC l u s with hs1
  have h := forRange_inv (Nat.zero_le u)
    (fun i (p : (ℕ → ℝ) × St K N) =>
      (Function.update p.1 i (nrm2 ((Function.update p.2.B (l + i)
        ((-(ritzv i : K)) • p.2.B2 (l + i) + p.2.B (l + i))) (l + i))),
        { p.2 with
          B := Function.update p.2.B (l + i) ((-(ritzv i : K)) • p.2.B2 (l + i) + p.2.B (l + i)) }))
    (fun m p => p.2.B2 = s1.B2 ∧ (∀ j, l + m ≤ j → p.2.B j = s1.B j) ∧
      ∀ i, i < m → p.1 i = nrm2 (s.Hᴴ.mulVec (s.C (l + i)) - (ritzv i : K) • s.C2 (l + i)))
    (s := (fun _ => 0, s1)) ⟨rfl, fun _ _ => rfl, by omega⟩ ?_
  · exact h.2.2 i hi
  · rintro m p - hm ⟨a6, a7, a8⟩
    refine ⟨a6, ?_, ?_⟩
    · intro j hj
      show Function.update p.2.B (l + m) _ j = _
      rw [Function.update_of_ne (by omega)]
      exact a7 j (by omega)
    · intro i hi
      show Function.update p.1 m _ i = _
      by_cases h : i = m
      · subst h
        rw [Function.update_self, Function.update_self, a6, a7 _ le_rfl]
        obtain ⟨g1, g2⟩ := gather_B l u s (l + i) (by omega) (by omega)
        rw [← hs1] at g1 g2
        rw [g1, g2, neg_smul]
        congr 1
        abel
      · rw [Function.update_of_ne h]
        exact a8 i (by omega)

/-- The Rayleigh-Ritz step that leaves zeros. -/
theorem rr_blank {E : Env K} (hz : E.lapack.GivesUp) (n : ℕ) (s : St K N) :
    (∀ i, (rr E n 0 s).1 i = 0) ∧ (∀ j, j < n → (rr E n 0 s).2.C j = 0 ∧ (rr E n 0 s).2.C2 j = 0) ∧
    (rr E n 0 s).2.locked = s.locked := by
  unfold rr
  simp only [show ∀ A : Matrix (Fin n) (Fin n) K, E.lapack.heevd A = (fun _ => 0, 0) from hz]
  refine ⟨fun i => by split_ifs <;> rfl, fun j hj => ?_, rfl⟩
  have e : setBlk 0 (getBlk 0 n s.C2 * (0 : Matrix (Fin n) (Fin n) K)) s.C j = 0 := by
    rw [setBlk_mem (Nat.zero_le _) (by omega), Matrix.mul_zero]; rfl
  exact ⟨e, by rw [copyCols_apply, if_pos ⟨Nat.zero_le _, by omega⟩]; exact e⟩

/-- The sequential backend. -/
theorem blanks {E : Env K} (hz : E.lapack.GivesUp) :
    Blanks (ops E : Chase ℝ (St K N)) St.locked E.nevex (fun s => ∀ j, j < E.nevex → s.C j = 0)
      (fun s => ∀ j, j < E.nevex → s.C j = 0) where
  start := fun _ => rfl
  initVecs := fun b s => by cases b <;> rfl
  qr := fun k c s => by
    show St.locked (qrSelect _ _ _ _ _ s) = _
    unfold qrSelect
    dsimp only
    split_ifs <;> rfl
  lanczos1 := fun _ _ => rfl
  lanczosN := fun _ _ _ => rfl
  lanczosDos := fun _ _ _ _ => rfl
  shift := fun _ _ _ => rfl
  hemm := fun k a b o s => by
    show (apply _ _ _ _ _ s).locked = _
    unfold apply
    cases s.next <;> rfl
  swap := fun _ _ _ => rfl
  rr := fun s h i _ => by
    show (rr E E.nevex s.locked s).1 i = 0
    rw [h]; exact (rr_blank hz _ s).1 i
  resd := fun f s h i hi => by
    show (resd f (rr E E.nevex s.locked s).2.locked (E.nevex - 0) (rr E E.nevex s.locked s).2).1 i = 0
    have hb := rr_blank hz E.nevex s
    rw [h, hb.2.2, h, resd_values _ _ _ _ _ (by omega), (hb.2.1 (0 + i) (by omega)).1,
      (hb.2.1 (0 + i) (by omega)).2, Matrix.mulVec_zero, smul_zero, sub_self]
    exact nrm2_eq_zero.mpr rfl
  blank_resd := fun f s h j hj => by
    have e := (resd_frame f (rr E E.nevex s.locked s).2.locked (E.nevex - 0)
      (rr E E.nevex s.locked s).2).2.1
    refine (congrFun e j).trans ?_
    rw [h]
    exact ((rr_blank hz E.nevex s).2.1 j hj).1
  blank_swap := fun i j s hi hj h k hk => by
    show swapAt s.C i j k = 0
    unfold swapAt
    rw [Function.update_apply, Function.update_apply]
    split_ifs
    exacts [h i hi, h j hj, h k hk]
  blank_lock := fun _ _ h => h
  blank_finish := fun _ h => h

end Seq

namespace InPlace
variable {k : Kind}

theorem resd_values (ritzv : ℕ → ℝ) (l u : ℕ) (s : St K N) :
    let vals := match k with
      | .cpu => ritzv
      | .cuda => s.dRitz
    (resd k ritzv l u s).2.V1 = s.V1 ∧ ∀ i, i < u → (resd k ritzv l u s).1 i =
      nrm2 (s.Hᴴ.mulVec (s.V1 (l + i)) - (vals i : K) • s.V1 (l + i)) := by
  intro vals
  set s1 : St K N := { s with V2 := setBlk l (s.Hᴴ * getBlk l u s.V1) s.V2 } with hs1
  have h := forRange_inv (Nat.zero_le u)
    (fun i (p : (ℕ → ℝ) × St K N) =>
      (Function.update p.1 i (nrm2 ((Function.update p.2.V2 (l + i)
        ((-(vals i : K)) • p.2.V1 (l + i) + p.2.V2 (l + i))) (l + i))),
        { p.2 with
          V2 := Function.update p.2.V2 (l + i) ((-(vals i : K)) • p.2.V1 (l + i) + p.2.V2 (l + i)) }))
    (fun m p => p.2.V1 = s.V1 ∧ (∀ j, l + m ≤ j → p.2.V2 j = s1.V2 j) ∧
      ∀ i, i < m → p.1 i = nrm2 (s.Hᴴ.mulVec (s.V1 (l + i)) - (vals i : K) • s.V1 (l + i)))
    (s := (fun _ => 0, s1)) ⟨rfl, fun _ _ => rfl, by omega⟩ ?_
  · exact ⟨h.1, h.2.2⟩
  · rintro m p - hm ⟨a6, a7, a8⟩
    refine ⟨a6, ?_, ?_⟩
    · intro j hj
      show Function.update p.2.V2 (l + m) _ j = _
      rw [Function.update_of_ne (by omega)]
      exact a7 j (by omega)
    · intro i hi
      show Function.update p.1 m _ i = _
      by_cases h : i = m
      · subst h
        rw [Function.update_self, Function.update_self, a6, a7 _ le_rfl]
        have g1 : s1.V2 (l + i) = s.Hᴴ.mulVec (s.V1 (l + i)) :=
          (Seq.gather_B l u ⟨s.H, s.V1, s.V2, s.V1, s.V1, .bAc, 0, true⟩ (l + i) (by omega) (by omega)).1
        rw [g1, neg_smul]
        congr 1
        abel
      · rw [Function.update_of_ne h]
        exact a8 i (by omega)

theorem rr_blank {E : Env K} (hz : E.lapack.GivesUp) (n : ℕ) (s : St K N) :
    (∀ i, (rr E n 0 s).1 i = 0) ∧ (∀ j, j < n → (rr E n 0 s).2.V1 j = 0) ∧
    (rr E n 0 s).2.locked = s.locked := by
  unfold rr
  simp only [show ∀ A : Matrix (Fin n) (Fin n) K, E.lapack.heevd A = (fun _ => 0, 0) from hz]
  refine ⟨fun i => by split_ifs <;> rfl, fun j hj => ?_, trivial⟩
  rw [setBlk_mem (Nat.zero_le _) (by omega), Matrix.mul_zero]; rfl

/-- The in-place backends; the GPU one copies the zeros to the user's array. -/
theorem blanks {E : Env K} (hz : E.lapack.GivesUp) :
    Blanks (ops E k : Chase ℝ (St K N)) St.locked E.nevex (fun s => ∀ j, j < E.nevex → s.V1 j = 0)
      (fun s => ∀ j, j < E.nevex → s.V1 j = 0 ∧ (k = .cuda → s.user j = 0)) where
  start := fun _ => rfl
  initVecs := fun b s => by cases k <;> cases b <;> rfl
  qr := fun m c s => by
    show St.locked (qrSelect _ _ _ _ _ s) = _
    unfold qrSelect
    dsimp only
    split_ifs <;> rfl
  lanczos1 := fun _ _ => rfl
  lanczosN := fun _ _ _ => rfl
  lanczosDos := fun _ _ _ _ => rfl
  shift := fun _ _ _ => rfl
  hemm := fun _ _ _ _ _ => rfl
  swap := fun _ _ _ => rfl
  rr := fun s h i _ => by
    show (rr E E.nevex s.locked s).1 i = 0
    rw [h]; exact (rr_blank hz _ s).1 i
  resd := fun f s h i hi => by
    show (resd k f (rr E E.nevex s.locked s).2.locked (E.nevex - 0) (rr E E.nevex s.locked s).2).1 i = 0
    have hb := rr_blank hz E.nevex s
    rw [h, hb.2.2, h, (resd_values _ _ _ _).2 i (by omega), hb.2.1 (0 + i) (by omega), Matrix.mulVec_zero,
      smul_zero, sub_self]
    exact nrm2_eq_zero.mpr rfl
  blank_resd := fun f s h j hj => by
    have e := (resd_values (k := k) f (rr E E.nevex s.locked s).2.locked (E.nevex - 0)
      (rr E E.nevex s.locked s).2).1
    refine (congrFun e j).trans ?_
    rw [h]
    exact (rr_blank hz E.nevex s).2.1 j hj
  blank_swap := fun i j s hi hj h m hm => by
    show swapAt s.V1 i j m = 0
    unfold swapAt
    rw [Function.update_apply, Function.update_apply]
    split_ifs
    exacts [h i hi, h j hj, h m hm]
  blank_lock := fun _ _ h => h
  blank_finish := fun s h j hj => by
    cases k
    · exact ⟨h j hj, nofun⟩
    · refine ⟨h j hj, fun _ => ?_⟩
      show copyCols 0 E.nevex s.V1 s.user j = 0
      rw [copyCols_apply, if_pos ⟨Nat.zero_le _, by omega⟩]
      exact h j hj

end InPlace

namespace Mpi

/-- The global backend behind the distributed ones. -/
theorem blanks {G : GEnv K N} (hz : G.base.lapack.GivesUp) {q : ℕ → ℝ → GSt K N → GSt K N}
    (hq : ∀ k c g, (q k c g).locked = g.locked)
    {d : (ℕ → ℝ) → ℕ → GSt K N → (ℕ → ℝ) × GSt K N} (hd : ResdLike G d) :
    Blanks (gOpsWith G q d) (fun g => g.locked) G.base.nevex (fun g => ∀ j, j < G.base.nevex → g.C j = 0)
      (fun g => ∀ j, j < G.base.nevex → g.C j = 0) := by
  have hb := Seq.blanks (N := N) hz
  exact
    { start := fun _ => rfl
      initVecs := fun b s => by cases b <;> rfl
      qr := hq
      lanczos1 := fun _ _ => rfl
      lanczosN := fun _ _ _ => rfl
      lanczosDos := fun _ _ _ _ => rfl
      shift := fun _ _ _ => rfl
      hemm := fun k a b o g => hb.hemm k a b o g.toSt
      swap := fun _ _ _ => rfl
      rr := fun g h i hi => hb.rr g.toSt h i hi
      resd := fun f g h i hi =>
        (congrFun (hd f 0 ((gOps G).rr G.base.nevex g).2).1 i).trans (hb.resd f g.toSt h i hi)
      blank_resd := fun f g h j hj => by
        obtain ⟨-, B, e⟩ := hd f 0 ((gOps G).rr G.base.nevex g).2
        have e' : (((gOpsWith G q d).resd f 0 ((gOpsWith G q d).rr G.base.nevex g).2).2).C =
            ((gOps G).resd f 0 ((gOps G).rr G.base.nevex g).2).2.C :=
          (congrArg (fun x : GSt K N => x.C) e).trans rfl
        rw [e']
        exact hb.blank_resd f g.toSt h j hj
      blank_swap := fun _ _ _ _ _ h => h
      blank_lock := fun _ _ h => h
      blank_finish := fun _ h => h }

theorem qr_locked {G : GEnv K N} (k : ℕ) (c : ℝ) (g : GSt K N) : ((gOps G).qr k c g).locked = g.locked := by
  show GSt.nl (qrSelect _ _ _ _ _ g) = _
  unfold qrSelect
  dsimp only
  split_ifs <;> rfl

end Mpi

namespace Mgpu

theorem refQr_locked {G : Mpi.GEnv K N} {aware : Bool} (k : ℕ) (c : ℝ) (g : Mpi.GSt K N) :
    (refQr G aware k c g).locked = g.locked := by
  have hk : ∀ p g, (keep (N := N) (K := K) aware p g).2.locked = g.locked := by
    intro p g
    unfold keep
    dsimp only
    split_ifs <;> rfl
  have key : ∀ (f : ℤ × Mpi.GSt K N), f.2.locked = g.locked →
      (if f.1 ≠ 0 then (refQrRoutines G aware g.locked).lockCopy true
        ((refQrRoutines G aware g.locked).hhQR f.2)
        else (refQrRoutines G aware g.locked).lockCopy false f.2).locked = g.locked := by
    intro f hf
    split_ifs <;> exact hf
  have hs : ((refQrRoutines G aware g.locked).shiftedcholQR2 g).2.locked = g.locked := hk _ _
  have h1 : ((refQrRoutines G aware g.locked).cholQR1 g).2.locked = g.locked := hk _ _
  have h2 : ((refQrRoutines G aware g.locked).cholQR2 g).2.locked = g.locked := hk _ _
  unfold refQr qrSelect
  by_cases hd : cholDisable G.base.doCholQR G.base.envDisable = 1
  · rw [if_pos hd]; rfl
  · rw [if_neg hd]
    generalize (decide (c > G.base.condUpper)) = above
    generalize (decide (c < G.base.condLower)) = below
    cases above
    · cases below
      · exact key _ h2
      · exact key _ h1
    · exact key _ hs

end Mgpu
end Verif
