/-
C62 for the backends that exchange their buffers (in-place CPU backend, CUDA backend), and what becomes of
the vectors of the user on an object that was used before (C54).

At the start of a solve the first buffer is copied to the second one, so that the rest of the solve depends
only on the matrix and the first buffer.  But which of the two buffers is the array of the user depends on
how many rounds the earlier solves made.
-/
import Verif.Backend.History
import Verif.Backend.UserArray
import Verif.Backend.StartVectors

namespace Verif

open Matrix

variable {K : Type*} [RCLike K] {N : ℕ}

namespace InPlace

/-- The data that the results depend on, and whether the two objects point to corresponding buffers. -/
structure Core (k : Kind) (d : Bool) (s s' : St K N) : Prop where
  H : s.H = s'.H
  userH : s.userH k = s'.userH k
  V1 : s.V1 = s'.V1
  V2 : s.V2 = s'.V2
  locked : s.locked = s'.locked
  flip : (s.flipped ^^ s'.flipped) = d

/-- Before a solve: the same matrix of the user; the same vectors, or, if they are to be replaced by random
ones, the same beyond the buffer. -/
structure Begin (k : Kind) (nevex : ℕ) (random d : Bool) (s s' : St K N) : Prop where
  userH : s.userH k = s'.userH k
  V1 : Seq.StartRel nevex random s.V1 s'.V1
  V2 : ∀ j, nevex ≤ j → s.V2 j = s'.V2 j
  flip : (s.flipped ^^ s'.flipped) = d

/-- The relations along a solve. -/
def hist (k : Kind) (nevex : ℕ) (random d : Bool) : PhaseRel ℝ (St K N) (St K N) where
  pre := Begin k nevex random d
  begun := fun s s' => Begin k nevex random d s s' ∧ s.locked = 0 ∧ s'.locked = 0
  inv := fun l s s' => Core k d s s' ∧ s.locked = l
  filt := fun l _ s s' => Core k d s s' ∧ s.locked = l
  nest := fun l _ _ _ s s' => Core k d s s' ∧ s.locked = l
  ready := fun l s s' => Core k d s s' ∧ s.locked = l
  synced := fun l _ s s' => (Core k d s s' ∧ s.locked = l) ∧ ∀ i, i < nevex - l → s.dRitz i = s'.dRitz i

variable {k : Kind} {d : Bool} (E : Env K)

theorem Core.setV1 {s s' : St K N} (h : Core k d s s') (f : (ℕ → Fin N → K) → ℕ → Fin N → K) :
    Core k d { s with V1 := f s.V1 } { s' with V1 := f s'.V1 } := by
  cases k <;> exact ⟨h.H, h.userH, congrArg f h.V1, h.V2, h.locked, h.flip⟩

theorem Core.setV2 {s s' : St K N} (h : Core k d s s') (f : (ℕ → Fin N → K) → (ℕ → Fin N → K) → ℕ → Fin N → K) :
    Core k d { s with V2 := f s.V1 s.V2 } { s' with V2 := f s'.V1 s'.V2 } := by
  have e : f s.V1 s.V2 = f s'.V1 s'.V2 := by rw [h.V1, h.V2]
  cases k <;> exact ⟨h.H, h.userH, h.V1, e, h.locked, h.flip⟩

theorem Core.shift {s s' : St K N} (h : Core k d s s') (x : K) :
    Core k d { s with H := shiftH x s.H } { s' with H := shiftH x s'.H } := by
  have e : shiftH x s.H = shiftH x s'.H := by rw [h.H]
  cases k
  · exact ⟨e, e, h.V1, h.V2, h.locked, h.flip⟩
  · exact ⟨e, h.userH, h.V1, h.V2, h.locked, h.flip⟩

theorem Core.apply {s s' : St K N} (h : Core k d s s') (α β : K) (o b : ℕ) :
    Core k d (apply α β o b s.locked s) (apply α β o b s'.locked s') := by
  have e : setBlk (s.locked + o) (α • (s.H * getBlk (s.locked + o) b s.V1) +
      β • getBlk (s.locked + o) b s.V2) s.V2 = setBlk (s'.locked + o) (α • (s'.H * getBlk (s'.locked + o) b s'.V1) +
      β • getBlk (s'.locked + o) b s'.V2) s'.V2 := by
    rw [h.H, h.V1, h.V2, h.locked]
  have f : ((!s.flipped) ^^ (!s'.flipped)) = d := by
    rw [← h.flip]; cases s.flipped <;> cases s'.flipped <;> rfl
  cases k <;> exact ⟨h.H, h.userH, e, h.V1, h.locked, f⟩

theorem Core.rr {s s' : St K N} (h : Core k d s s') (b : ℕ) :
    (rr E b s.locked s).1 = (InPlace.rr E b s'.locked s').1 ∧
    Core k d (InPlace.rr E b s.locked s).2 (InPlace.rr E b s'.locked s').2 ∧
    ∀ i, i < b → (InPlace.rr E b s.locked s).2.dRitz i = (InPlace.rr E b s'.locked s').2.dRitz i := by
  have e : (InPlace.rr E b s.locked s).1 = (InPlace.rr E b s'.locked s').1 := by
    unfold InPlace.rr
    dsimp only
    rw [h.H, h.V1, h.V2, h.locked]
  have e1 : (InPlace.rr E b s.locked s).2.V1 = (InPlace.rr E b s'.locked s').2.V1 := by
    unfold InPlace.rr
    dsimp only
    rw [h.H, h.V1, h.V2, h.locked]
  have f : ((!s.flipped) ^^ (!s'.flipped)) = d := by
    rw [← h.flip]; cases s.flipped <;> cases s'.flipped <;> rfl
  refine ⟨e, ?_, ?_⟩
  · cases k <;> exact ⟨h.H, h.userH, e1, h.V1, h.locked, f⟩
  · intro i hi
    show writeAt s.dRitz 0 b (InPlace.rr E b s.locked s).1 i = writeAt s'.dRitz 0 b (InPlace.rr E b s'.locked s').1 i
    unfold writeAt
    rw [if_pos ⟨Nat.zero_le _, by omega⟩, if_pos ⟨Nat.zero_le _, by omega⟩, e]

theorem Core.resd {s s' : St K N} (h : Core k d s s') (f : ℕ → ℝ) (u : ℕ)
    (hr : ∀ i, i < u → s.dRitz i = s'.dRitz i) :
    (resd k f s.locked u s).1 = (InPlace.resd k f s'.locked u s').1 ∧
    Core k d (InPlace.resd k f s.locked u s).2 (InPlace.resd k f s'.locked u s').2 ∧
    (InPlace.resd k f s.locked u s).2.locked = s.locked ∧
    (InPlace.resd k f s.locked u s).2.dRitz = s.dRitz ∧ (InPlace.resd k f s'.locked u s').2.dRitz = s'.dRitz := by
  have key : ∀ (v v' : ℕ → ℝ), (∀ i, i < u → v i = v' i) → ∀ l (t t' : St K N), Core k d t t' →
      t.locked = s.locked → t.dRitz = s.dRitz → t'.dRitz = s'.dRitz →
      (fun (p p' : (ℕ → ℝ) × St K N) => p.1 = p'.1 ∧ Core k d p.2 p'.2 ∧ p.2.locked = s.locked ∧
        p.2.dRitz = s.dRitz ∧ p'.2.dRitz = s'.dRitz)
      (forRange 0 u (fun i p =>
        let V2 := Function.update p.2.V2 (l + i) ((-(v i : K)) • p.2.V1 (l + i) + p.2.V2 (l + i))
        (Function.update p.1 i (nrm2 (V2 (l + i))), { p.2 with V2 := V2 })) ((fun _ => 0 : ℕ → ℝ), t))
      (forRange 0 u (fun i p =>
        let V2 := Function.update p.2.V2 (l + i) ((-(v' i : K)) • p.2.V1 (l + i) + p.2.V2 (l + i))
        (Function.update p.1 i (nrm2 (V2 (l + i))), { p.2 with V2 := V2 })) ((fun _ => 0 : ℕ → ℝ), t')) := by
    intro v v' hv l t t' ht h1 h2 h3
    refine forRange_rel (fun (p p' : (ℕ → ℝ) × St K N) => p.1 = p'.1 ∧ Core k d p.2 p'.2 ∧
      p.2.locked = s.locked ∧ p.2.dRitz = s.dRitz ∧ p'.2.dRitz = s'.dRitz) _ _ ?_ ⟨rfl, ht, h1, h2, h3⟩
    intro i p p' _ hi hp
    obtain ⟨q1, q2, q3⟩ := hp
    have e : Function.update p.2.V2 (l + i) ((-(v i : K)) • p.2.V1 (l + i) + p.2.V2 (l + i)) =
        Function.update p'.2.V2 (l + i) ((-(v' i : K)) • p'.2.V1 (l + i) + p'.2.V2 (l + i)) := by
      rw [q2.V1, q2.V2, hv i hi]
    refine ⟨?_, ?_, q3⟩
    · show Function.update p.1 i _ = Function.update p'.1 i _
      rw [q1, e]
    · cases k <;> exact ⟨q2.H, q2.userH, q2.V1, e, q2.locked, q2.flip⟩
  have e : setBlk s.locked (s.Hᴴ * getBlk s.locked u s.V1) s.V2 =
      setBlk s'.locked (s'.Hᴴ * getBlk s'.locked u s'.V1) s'.V2 := by
    rw [h.H, h.V1, h.V2, h.locked]
  unfold InPlace.resd
  dsimp only
  rw [← h.locked] at e ⊢
  refine key _ _ ?_ _ _ _ ?_ rfl rfl rfl
  · intro i hi
    cases k
    · rfl
    · exact hr i hi
  · cases k <;> exact ⟨h.H, h.userH, h.V1, e, rfl, h.flip⟩

theorem initVecs_core (b : Bool) {s s' : St K N} (h : Begin k E.nevex b d s s') (hl : s.locked = s'.locked) :
    Core k d (initVecs E k (if b then initRndVecs E s else s)) (initVecs E k (if b then initRndVecs E s' else s')) := by
  obtain ⟨h1, ⟨h2, h3⟩, h4, h5⟩ := h
  have e2 : ∀ X X' : ℕ → Fin N → K, X = X' → copyCols 0 E.nevex X s.V2 = copyCols 0 E.nevex X' s'.V2 := by
    intro X X' hX
    subst hX
    funext k
    rw [copyCols_apply, copyCols_apply]
    split_ifs with hk
    · rfl
    · exact h4 k (by omega)
  have e1 : b = true → (initRndVecs E s).V1 = (initRndVecs E s').V1 := by
    intro _
    funext j
    unfold initRndVecs writeAt
    dsimp only
    split_ifs with hk
    · rfl
    · exact h3 j (by omega)
  cases b
  · cases k <;> exact ⟨h1, h1, h2 rfl, e2 _ _ (h2 rfl), hl, h5⟩
  · cases k <;> exact ⟨h1, h1, e1 rfl, e2 _ _ (e1 rfl), hl, h5⟩

theorem qr_core (l : ℕ) (dc : Bool) (env : Option ℤ) (ab be : Bool) {s s' : St K N}
    (h : Core k d s s' ∧ s.locked = l) :
    Core k d (qrSelect (qrRoutines E k l) dc env ab be s) (qrSelect (qrRoutines E k l) dc env ab be s') ∧
    (qrSelect (qrRoutines E k l) dc env ab be s).locked = l := by
  have sv : ∀ s s' : St K N, (Core k d s s' ∧ s.locked = l) →
      Core k d (saveLocked l s) (saveLocked l s') ∧ (saveLocked l s).locked = l :=
    fun s s' h => ⟨h.1.setV2 fun X Y => copyCols 0 l X Y, h.2⟩
  refine qrSelect_rel (q := fun s s' : St K N => Core k d s s' ∧ s.locked = l) ?_ ?_ ?_ ?_ ?_ _ _ _ _ h
  · exact fun s s' h => ⟨(sv s s' h).1.setV1 _, h.2⟩
  · exact fun s s' h => ⟨congrArg (fun X => (cholQR1c E.lapack E.nevex X).1) h.1.V1,
      (sv s s' h).1.setV1 fun X => (cholQR1c E.lapack E.nevex X).2, h.2⟩
  · exact fun s s' h => ⟨congrArg (fun X => (cholQR2c E.lapack E.nevex k.chol X).1) h.1.V1,
      (sv s s' h).1.setV1 fun X => (cholQR2c E.lapack E.nevex k.chol X).2, h.2⟩
  · exact fun s s' h => ⟨congrArg (fun X => (shiftedcholQR2c E.lapack E.nevex k.chol X).1) h.1.V1,
      (sv s s' h).1.setV1 fun X => (shiftedcholQR2c E.lapack E.nevex k.chol X).2, h.2⟩
  · intro _ s s' h
    refine ⟨?_, h.2⟩
    have e : copyCols 0 l s.V2 s.V1 = copyCols 0 l s'.V2 s'.V1 := by rw [h.1.V1, h.1.V2]
    cases k <;> exact ⟨h.1.H, h.1.userH, e, h.1.V2, h.1.locked, h.1.flip⟩

/-- Two states with the same matrix and first buffer stay the same in all data that matter. -/
theorem hist_sim (k : Kind) (b d : Bool) :
    SimP (fixInit (ops (N := N) E k) b) (fixInit (ops E k) b) E.nevex (fun _ => True) (hist k E.nevex b d) where
  checkSymmetryEasy := by
    intro s s' h
    refine ⟨?_, ?_⟩
    · show symCheck E.lapack (s.userH k) = symCheck E.lapack (s'.userH k)
      rw [h.userH]
    · cases k <;> exact ⟨h.userH, h.V1, h.V2, h.flip⟩
  start := by
    intro s s' h
    cases k <;> exact ⟨⟨h.userH, h.V1, h.V2, h.flip⟩, rfl, rfl⟩
  initVecs := by
    intro _ s s' h
    refine ⟨initVecs_core E b h.1 (h.2.1.trans h.2.2.symm), ?_⟩
    cases k <;> cases b <;> exact h.2.1
  qr := by
    intro l m cond s s' h
    have hl' : s'.locked = l := h.1.locked.symm.trans h.2
    show Core k d (qrSelect (qrRoutines E k s.locked) _ _ _ _ s) (qrSelect (qrRoutines E k s'.locked) _ _ _ _ s') ∧
      (qrSelect (qrRoutines E k s.locked) _ _ _ _ s).locked = l
    rw [h.2, hl']
    exact qr_core E l _ _ _ _ h
  ready_inv := fun _ _ _ h => h
  lanczos1 := by
    intro m s s' h
    refine ⟨?_, h⟩
    show lanczosBound _ _ s.H _ s.V1 = lanczosBound _ _ s'.H _ s'.V1
    rw [h.1.H, h.1.V1]
  lanczosN := by
    intro m n s s' h
    refine ⟨?_, ?_, h.2⟩
    · show (lanczosMulti k.axpy E.lapack s.H m n s.V1).1 = (lanczosMulti k.axpy E.lapack s'.H m n s'.V1).1
      rw [h.1.H, h.1.V1]
    · show Core k d { s with V1 := (lanczosMulti k.axpy E.lapack s.H m n s.V1).2 }
        { s' with V1 := (lanczosMulti k.axpy E.lapack s'.H m n s'.V1).2 }
      have e := h.1.setV1 fun X => (lanczosMulti k.axpy E.lapack s.H m n X).2
      have e2 : (lanczosMulti k.axpy E.lapack s.H m n s'.V1).2 = (lanczosMulti k.axpy E.lapack s'.H m n s'.V1).2 := by
        rw [h.1.H]
      rw [e2] at e
      exact e
  lanczosDos := by
    intro i m z s s' h
    refine ⟨?_, h.2⟩
    let Z : Matrix (Fin m) (Fin i) K := fun a b => (z (a + b * m) : K)
    have e2 := congrArg₂ (fun X Y : ℕ → Fin N → K => setBlk 0 (getBlk 0 m X * Z) Y) h.1.V1 h.1.V2
    have e1 := congrArg₂ (fun X Y : ℕ → Fin N → K => copyCols 0 m X Y) e2 h.1.V1
    cases k <;> exact ⟨h.1.H, h.1.userH, e1, e2, h.1.locked, h.1.flip⟩
  shiftIn := fun l x s s' _ h => ⟨h.1.shift _, h.2⟩
  first := fun l x y s s' hl h => ⟨h.1.apply _ _ _ _, h.2⟩
  prod := fun l x a m y z s s' hl ha h => ⟨h.1.apply _ _ _ _, h.2⟩
  nest_mono := fun l x a b' m s s' _ hab _ h => h
  shiftOut := fun l x a m s s' _ _ hm h => ⟨h.1.shift _, h.2⟩
  rr := by
    intro l s s' _ h
    obtain ⟨e1, e2, e3⟩ := h.1.rr E (E.nevex - l)
    exact ⟨e1, ⟨e2, h.2⟩, e3⟩
  resd := by
    intro f v l s s' _ _ h
    obtain ⟨e1, e2, e3, e4, e5⟩ := h.1.1.resd f (E.nevex - l) h.2
    refine ⟨e1, ⟨e2, e3.trans h.1.2⟩, fun i hi => ?_⟩
    exact (congrFun e4 i).trans ((h.2 i hi).trans (congrFun e5 i).symm)
  lock := by
    intro l v n s s' h
    refine ⟨?_, congrArg (· + n) h.1.2⟩
    have e := congrArg (· + n) h.1.1.locked
    cases k <;> exact ⟨h.1.1.H, h.1.1.userH, h.1.1.V1, h.1.1.V2, e, h.1.1.flip⟩
  swap_inv := fun l i j s s' h => ⟨h.1.setV1 (swapAt · i j), h.2⟩
  swap_synced := fun l v i j s s' h => ⟨⟨h.1.1.setV1 (swapAt · i j), h.1.2⟩, h.2⟩
  finish := by
    intro l s s' h
    cases k <;> exact ⟨h.1.userH, ⟨fun _ => h.1.V1, fun j _ => congrFun h.1.V1 j⟩,
      fun j _ => congrFun h.1.V2 j, h.1.flip⟩

end InPlace
end Verif
