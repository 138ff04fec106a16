/-
C62: what earlier solves left in the buffers of a backend does not matter.

The buffers `B`, `B2`, `C2`, the direction of the next product and the flags of the object are not set to
known values at the start of a solve.  Here: on the backends with fixed buffers (sequential CPU,
distributed CPU) the results depend only on the matrix and, in approximation mode, on the start vectors.
-/
import Verif.Backend.MpiProps
import Verif.Solver.SimPhase

namespace Verif

open Matrix
open Seq (NextOp)

variable {K : Type*} [RCLike K] {N : ℕ}

namespace Seq

/-- The data that the results depend on. -/
structure Core (s s' : St K N) : Prop where
  H : s.H = s'.H
  C : s.C = s'.C
  C2 : s.C2 = s'.C2
  locked : s.locked = s'.locked

/-- The same columns `lo ≤ k < hi` of `B`. -/
def SameB (lo hi : ℕ) (s s' : St K N) : Prop := ∀ k, lo ≤ k → k < hi → s.B k = s'.B k

theorem getBlk_sameB {lo hi off n : ℕ} {s s' : St K N} (h : SameB lo hi s s') (h1 : lo ≤ off)
    (h2 : off + n ≤ hi) : getBlk off n s.B = getBlk off n s'.B := by
  funext a b
  exact congrFun (h (off + b) (by omega) (by omega)) a

/-- The direction of the product after `m` products. -/
def dirAfter (m : ℕ) : NextOp := if m % 2 = 0 then .bAc else .cAb

/-- After `m` products of a filter, of which the next ones work on the columns `lo ≤ k < hi`. -/
structure Mid (lo hi m : ℕ) (s s' : St K N) : Prop extends Core s s' where
  B : SameB lo hi s s'
  next : s.next = dirAfter m
  next' : s'.next = dirAfter m

theorem setBlk_sameB {off n lo hi : ℕ} {X X' : Matrix (Fin N) (Fin n) K} {B B' : ℕ → Fin N → K}
    (hX : X = X') (h : ∀ k, lo ≤ k → k < hi → ¬ (off ≤ k ∧ k < off + n) → B k = B' k) :
    ∀ k, lo ≤ k → k < hi → setBlk off X B k = setBlk off X' B' k := by
  intro k h1 h2
  subst hX
  by_cases hk : off ≤ k ∧ k < off + n
  · unfold setBlk; rw [dif_pos hk, dif_pos hk]
  · unfold setBlk; rw [dif_neg hk, dif_neg hk]; exact h k h1 h2 hk

theorem apply_first {l hi : ℕ} (α : K) {s s' : St K N} (h : Core s s') (hn : s.next = .bAc)
    (hn' : s'.next = .bAc) (hl : s.locked = l) (hhi : l ≤ hi) :
    Mid (l + 0) hi 1 (apply α 0 0 (hi - l) s.locked s) (apply α 0 0 (hi - l) s'.locked s') := by
  obtain ⟨h1, h2, h3, h4⟩ := h
  unfold apply
  rw [hn, hn', ← h4]
  refine ⟨⟨h1, h2, h3, rfl⟩, ?_, rfl, rfl⟩
  refine setBlk_sameB ?_ ?_
  · rw [h1, h2, zero_smul, zero_smul]
  · intro k a b c
    exact absurd ⟨by omega, by omega⟩ c

theorem apply_mid {l hi o m : ℕ} (α β : K) {s s' : St K N} (h : Mid (l + o) hi m s s')
    (hl : s.locked = l) (hhi : l + o ≤ hi) :
    Mid (l + o) hi (m + 1) (apply α β o (hi - l - o) s.locked s) (apply α β o (hi - l - o) s'.locked s') := by
  obtain ⟨⟨h1, h2, h3, h4⟩, h5, h6, h7⟩ := h
  have hb : getBlk (s.locked + o) (hi - l - o) s.B = getBlk (s.locked + o) (hi - l - o) s'.B :=
    getBlk_sameB h5 (by omega) (by omega)
  unfold apply
  rw [h6, h7, ← h4]
  unfold dirAfter
  by_cases hm : m % 2 = 0
  · rw [if_pos hm]
    refine ⟨⟨h1, h2, h3, rfl⟩, ?_, ?_, ?_⟩
    · refine setBlk_sameB ?_ fun k a b _ => h5 k a b
      rw [h1, h2, hb]
    · show NextOp.cAb = if (m + 1) % 2 = 0 then _ else _
      rw [if_neg (by omega)]
    · show NextOp.cAb = if (m + 1) % 2 = 0 then _ else _
      rw [if_neg (by omega)]
  · rw [if_neg hm]
    refine ⟨⟨h1, ?_, h3, rfl⟩, h5, ?_, ?_⟩
    · show setBlk _ _ _ = setBlk _ _ _
      rw [h1, h2, hb]
    · show NextOp.bAc = if (m + 1) % 2 = 0 then _ else _
      rw [if_pos (by omega)]
    · show NextOp.bAc = if (m + 1) % 2 = 0 then _ else _
      rw [if_pos (by omega)]

theorem rr_core (E : Env K) (b : ℕ) {s s' : St K N} (h : Core s s') :
    (rr E b s.locked s).1 = (rr E b s'.locked s').1 ∧ Core (rr E b s.locked s).2 (rr E b s'.locked s').2 ∧
    (rr E b s.locked s).2.next = s.next := by
  obtain ⟨h1, h2, h3, h4⟩ := h
  have e2 : ∀ t : St K N, getBlk s.locked b (asynCxHGatherC s.locked b t).B2 = getBlk s.locked b t.C2 := by
    intro t
    funext a k
    show copyCols _ _ _ _ _ _ = _
    rw [copyCols_apply, if_pos ⟨Nat.le_add_right _ _, by omega⟩]
    rfl
  have e1 : ∀ t : St K N, getBlk s.locked b (asynCxHGatherC s.locked b t).B = t.Hᴴ * getBlk s.locked b t.C :=
    fun t => getBlk_setBlk
  rw [← h4]
  refine ⟨?_, ⟨h1, ?_, ?_, h4⟩, rfl⟩
  · unfold rr
    dsimp only
    rw [e1, e2, e1, e2, h1, h2, h3]
  · unfold rr
    dsimp only
    rw [e1, e2, e1, e2]
    show setBlk _ (getBlk _ _ s.C2 * _) s.C = setBlk _ (getBlk _ _ s'.C2 * _) s'.C
    rw [h1, h2, h3]
  · unfold rr
    dsimp only
    rw [e1, e2, e1, e2]
    show copyCols _ _ (setBlk _ (getBlk _ _ s.C2 * _) s.C) s.C2 =
      copyCols _ _ (setBlk _ (getBlk _ _ s'.C2 * _) s'.C) s'.C2
    rw [h1, h2, h3]

theorem resd_core (f : ℕ → ℝ) (u : ℕ) {s s' : St K N} (h : Core s s') :
    (resd f s.locked u s).1 = (resd f s'.locked u s').1 ∧
    Core (resd f s.locked u s).2 (resd f s'.locked u s').2 ∧ (resd f s.locked u s).2.next = s.next := by
  obtain ⟨h1, h2, h3, h4⟩ := h
  rw [Mpi.seq_resd_eq, Mpi.seq_resd_eq, ← h4]
  refine ⟨?_, ⟨h1, h2, h3, h4⟩, rfl⟩
  funext i
  dsimp only
  by_cases hi : i < u
  · rw [if_pos hi, if_pos hi]
    have e2 : ∀ t : St K N, (asynCxHGatherC s.locked u t).B2 (s.locked + i) = t.C2 (s.locked + i) := by
      intro t
      show copyCols _ _ _ _ _ = _
      rw [copyCols_apply, if_pos ⟨Nat.le_add_right _ _, by omega⟩]
    have e1 : (asynCxHGatherC s.locked u s).B (s.locked + i) = (asynCxHGatherC s.locked u s').B (s.locked + i) := by
      refine setBlk_sameB (lo := s.locked) (hi := s.locked + u) ?_ ?_ _ (by omega) (by omega)
      · rw [h1, h2]
      · intro k a b c; exact absurd ⟨a, b⟩ c
    rw [e2, e2, e1, h3]
  · rw [if_neg hi, if_neg hi]

/-- The relations along a solve; `P0` relates the vectors at its start. -/
def hist (nevex : ℕ) (P0 : (ℕ → Fin N → K) → (ℕ → Fin N → K) → Prop) :
    PhaseRel ℝ (St K N) (St K N) where
  pre := fun s s' => s.H = s'.H ∧ P0 s.C s'.C ∧ ∀ k, nevex ≤ k → s.C2 k = s'.C2 k
  begun := fun s s' => (s.H = s'.H ∧ P0 s.C s'.C ∧ ∀ k, nevex ≤ k → s.C2 k = s'.C2 k) ∧
    s.locked = 0 ∧ s'.locked = 0
  inv := fun l s s' => Core s s' ∧ s.next = .bAc ∧ s'.next = .bAc ∧ s.locked = l
  filt := fun l _ s s' => Core s s' ∧ s.next = .bAc ∧ s'.next = .bAc ∧ s.locked = l
  nest := fun l _ a m s s' => Mid (l + a) nevex m s s' ∧ s.locked = l
  ready := fun l s s' => Core s s' ∧ s.next = .bAc ∧ s'.next = .bAc ∧ s.locked = l
  synced := fun l _ s s' => Core s s' ∧ s.next = .bAc ∧ s'.next = .bAc ∧ s.locked = l

/-- The vectors at the start: all the same, or, if they are to be replaced by random ones, the same beyond
the buffer. -/
def StartRel (nevex : ℕ) (random : Bool) (X X' : ℕ → Fin N → K) : Prop :=
  (random = false → X = X') ∧ ∀ k, nevex ≤ k → X k = X' k

end Seq

/-- `ops` with `initVecs` as called with the flag `b`. -/
def fixInit {R S : Type*} (ops : Chase R S) (b : Bool) : Chase R S :=
  { ops with initVecs := fun _ => ops.initVecs b }

theorem solve_fixInit {R S : Type*} [Add R] [Sub R] [Mul R] [Div R] [Neg R] [Zero R] [One R] [NatCast R] [LT R] [DecidableLT R] (P : Plat R) (cfg : Config R) (ops : Chase R S)
    (ritzv0 resid0 : ℕ → R) (s : S) :
    solve P (fixInit ops (!cfg.approx)) cfg ritzv0 resid0 s = solve P ops cfg ritzv0 resid0 s := by
  have e : fixInit ops (!cfg.approx) = { ops with
      initVecs := fun _ => ops.initVecs (!cfg.approx)
      checkSymmetryEasy := ops.checkSymmetryEasy } := rfl
  rw [e]
  exact Mpi.solve_congr_start P cfg ops _ _ ritzv0 resid0 s rfl fun _ => rfl

/-- Selection of the QR variant on two backends whose routines correspond. -/
theorem qrSelect_rel {S S' : Type*} {r : QrRoutines S} {r' : QrRoutines S'} {q : S → S' → Prop}
    (hh : ∀ s s', q s s' → q (r.hhQR s) (r'.hhQR s'))
    (h1 : ∀ s s', q s s' → (r.cholQR1 s).1 = (r'.cholQR1 s').1 ∧ q (r.cholQR1 s).2 (r'.cholQR1 s').2)
    (h2 : ∀ s s', q s s' → (r.cholQR2 s).1 = (r'.cholQR2 s').1 ∧ q (r.cholQR2 s).2 (r'.cholQR2 s').2)
    (h3 : ∀ s s', q s s' → (r.shiftedcholQR2 s).1 = (r'.shiftedcholQR2 s').1 ∧
      q (r.shiftedcholQR2 s).2 (r'.shiftedcholQR2 s').2)
    (hl : ∀ b s s', q s s' → q (r.lockCopy b s) (r'.lockCopy b s'))
    (dc : Bool) (env : Option ℤ) (ab be : Bool) {s : S} {s' : S'} (h : q s s') :
    q (qrSelect r dc env ab be s) (qrSelect r' dc env ab be s') := by
  unfold qrSelect
  by_cases hd : cholDisable dc env = 1
  · rw [if_pos hd, if_pos hd]; exact hl _ _ _ (hh _ _ h)
  rw [if_neg hd, if_neg hd]
  have hx : (if ab = true then r.shiftedcholQR2 s else if be = true then r.cholQR1 s else r.cholQR2 s).1 =
        (if ab = true then r'.shiftedcholQR2 s' else if be = true then r'.cholQR1 s' else r'.cholQR2 s').1 ∧
      q (if ab = true then r.shiftedcholQR2 s else if be = true then r.cholQR1 s else r.cholQR2 s).2
        (if ab = true then r'.shiftedcholQR2 s' else if be = true then r'.cholQR1 s' else r'.cholQR2 s').2 := by
    cases ab
    · cases be
      · exact h2 _ _ h
      · exact h1 _ _ h
    · exact h3 _ _ h
  generalize (if ab = true then r.shiftedcholQR2 s else if be = true then r.cholQR1 s else r.cholQR2 s) = x at hx ⊢
  generalize (if ab = true then r'.shiftedcholQR2 s' else if be = true then r'.cholQR1 s' else r'.cholQR2 s') = y at hx ⊢
  obtain ⟨i1, t⟩ := x
  obtain ⟨i2, t'⟩ := y
  obtain ⟨e, ht⟩ := hx
  dsimp only at e ht ⊢
  subst e
  split_ifs
  · exact hl _ _ _ (hh _ _ ht)
  · exact hl _ _ _ ht

namespace Seq

/-- The same data, ready for a product `B := H^* C`, with `l` vectors locked. -/
def Same (l : ℕ) (s s' : St K N) : Prop := Core s s' ∧ s.next = .bAc ∧ s'.next = .bAc ∧ s.locked = l

theorem initVecs_same (E : Env K) (b : Bool) (rnd : ℕ → Fin N → K) {s s' : St K N}
    (h : (hist (K := K) (N := N) E.nevex (StartRel E.nevex b)).begun s s') :
    Same 0 (initVecs E (if b then { s with C := writeAt s.C 0 E.nevex rnd } else s))
      (initVecs E (if b then { s' with C := writeAt s'.C 0 E.nevex rnd } else s')) := by
  obtain ⟨⟨h1, ⟨h2, h3⟩, h4⟩, h5, h6⟩ := h
  have e2 : ∀ X X' : ℕ → Fin N → K, X = X' → copyCols 0 E.nevex X s.C2 = copyCols 0 E.nevex X' s'.C2 := by
    intro X X' hX
    subst hX
    funext k
    rw [copyCols_apply, copyCols_apply]
    split_ifs with hk
    · rfl
    · exact h4 k (by omega)
  have e1 : b = true → writeAt s.C 0 E.nevex rnd = writeAt s'.C 0 E.nevex rnd := by
    intro _
    funext k
    unfold writeAt
    split_ifs with hk
    · rfl
    · exact h3 k (by omega)
  cases b
  · exact ⟨⟨h1, h2 rfl, e2 _ _ (h2 rfl), h5.trans h6.symm⟩, rfl, rfl, h5⟩
  · exact ⟨⟨h1, e1 rfl, e2 _ _ (e1 rfl), h5.trans h6.symm⟩, rfl, rfl, h5⟩

theorem Same.lockCopy (E : Env K) {l : ℕ} {s s' : St K N} (h : Same l s s') :
    Same l (lockVectorCopy E l s) (lockVectorCopy E l s') := by
  obtain ⟨⟨h1, h2, h3, h4⟩, h5, h6, h7⟩ := h
  refine ⟨⟨h1, ?_, ?_, h4⟩, h5, h6, h7⟩
  · show copyCols _ _ s.C2 s.C = copyCols _ _ s'.C2 s'.C
    rw [h2, h3]
  · show copyCols _ _ (copyCols _ _ s.C2 s.C) s.C2 = copyCols _ _ (copyCols _ _ s'.C2 s'.C) s'.C2
    rw [h2, h3]

theorem Same.setC {l : ℕ} {s s' : St K N} (h : Same l s s') (f : (ℕ → Fin N → K) → ℕ → Fin N → K) :
    Same l { s with C := f s.C } { s' with C := f s'.C } :=
  ⟨⟨h.1.H, congrArg f h.1.C, h.1.C2, h.1.locked⟩, h.2⟩

theorem Same.lanczosDos {l : ℕ} (i m : ℕ) (z : ℕ → ℝ) {s s' : St K N} (h : Same l s s') :
    Same l (lanczosDos i m z s) (lanczosDos i m z s') := by
  obtain ⟨⟨h1, h2, h3, h4⟩, h5⟩ := h
  refine ⟨⟨h1, ?_, ?_, h4⟩, h5⟩
  · show copyCols _ _ (setBlk _ (getBlk _ _ s.C * _) s.C2) s.C = copyCols _ _ (setBlk _ (getBlk _ _ s'.C * _) s'.C2) s'.C
    rw [h2, h3]
  · show setBlk _ (getBlk _ _ s.C * _) s.C2 = setBlk _ (getBlk _ _ s'.C * _) s'.C2
    rw [h2, h3]

theorem Same.rr (E : Env K) (b : ℕ) {l : ℕ} {s s' : St K N} (h : Same l s s') :
    (rr E b s.locked s).1 = (Seq.rr E b s'.locked s').1 ∧
    Same l (Seq.rr E b s.locked s).2 (Seq.rr E b s'.locked s').2 := by
  obtain ⟨h1, h2, h3, h4⟩ := h
  obtain ⟨e1, e2, -⟩ := rr_core E b h1
  exact ⟨e1, e2, h2, h3, h4⟩

theorem Same.resd (f : ℕ → ℝ) (u : ℕ) {l : ℕ} {s s' : St K N} (h : Same l s s') :
    (resd f s.locked u s).1 = (Seq.resd f s'.locked u s').1 ∧
    Same l (Seq.resd f s.locked u s).2 (Seq.resd f s'.locked u s').2 := by
  obtain ⟨h1, h2, h3, h4⟩ := h
  obtain ⟨e1, e2, e3⟩ := resd_core f u h1
  refine ⟨e1, e2, e3.trans h2, ?_, ?_⟩
  · rw [Mpi.seq_resd_eq]; exact h3
  · rw [Mpi.seq_resd_eq]; exact h4

theorem Mid.mono {lo lo' hi m : ℕ} {s s' : St K N} (h : Mid lo hi m s s') (hl : lo ≤ lo') :
    Mid lo' hi m s s' :=
  ⟨h.toCore, fun k h1 h2 => h.B k (by omega) h2, h.next, h.next'⟩

theorem Mid.same {lo hi m l : ℕ} {s s' : St K N} (h : Mid lo hi m s s') (hm : Even m) (hl : s.locked = l) :
    Same l s s' := by
  have e : dirAfter m = .bAc := if_pos (Nat.even_iff.mp hm)
  exact ⟨h.toCore, h.next.trans e, h.next'.trans e, hl⟩

/-- Two states with the same matrix and start vectors stay the same in all data that matter. -/
theorem hist_sim (E : Env K) (b : Bool) :
    SimP (fixInit (ops (N := N) E) b) (fixInit (ops E) b) E.nevex Even (hist E.nevex (StartRel E.nevex b)) where
  checkSymmetryEasy := by
    intro s s' h
    refine ⟨?_, h⟩
    show symCheck E.lapack s.H = symCheck E.lapack s'.H
    rw [h.1]
  start := fun s s' h => ⟨h, rfl, rfl⟩
  initVecs := fun _ s s' h => initVecs_same E b _ h
  qr := by
    intro l k cond s s' h
    have hl : s.locked = l := h.2.2.2
    have hl' : s'.locked = l := h.1.locked.symm.trans hl
    show Same l (qrSelect (qrRoutines E s.locked) _ _ _ _ s) (qrSelect (qrRoutines E s'.locked) _ _ _ _ s')
    rw [hl, hl']
    refine qrSelect_rel (q := Same l) ?_ ?_ ?_ ?_ ?_ _ _ _ _ h
    · exact fun s s' h => h.setC _
    · exact fun s s' h => ⟨congrArg (fun X => (cholQR1c E.lapack E.nevex X).1) h.1.C,
        h.setC fun X => (cholQR1c E.lapack E.nevex X).2⟩
    · exact fun s s' h => ⟨congrArg (fun X => (cholQR2c E.lapack E.nevex .seq X).1) h.1.C,
        h.setC fun X => (cholQR2c E.lapack E.nevex .seq X).2⟩
    · exact fun s s' h => ⟨congrArg (fun X => (shiftedcholQR2c E.lapack E.nevex .seq X).1) h.1.C,
        h.setC fun X => (shiftedcholQR2c E.lapack E.nevex .seq X).2⟩
    · exact fun _ s s' h => h.lockCopy E
  ready_inv := fun _ _ _ h => h
  lanczos1 := by
    intro m s s' h
    refine ⟨?_, h⟩
    show lanczosBound _ _ s.H _ s.C = lanczosBound _ _ s'.H _ s'.C
    rw [h.1.H, h.1.C]
  lanczosN := by
    intro m k s s' h
    refine ⟨?_, ⟨h.1.H, ?_, h.1.C2, h.1.locked⟩, h.2⟩
    · show (lanczosMulti axpyOwn E.lapack s.H m k s.C).1 = (lanczosMulti axpyOwn E.lapack s'.H m k s'.C).1
      rw [h.1.H, h.1.C]
    · show (lanczosMulti axpyOwn E.lapack s.H m k s.C).2 = (lanczosMulti axpyOwn E.lapack s'.H m k s'.C).2
      rw [h.1.H, h.1.C]
  lanczosDos := fun i m z s s' h => Same.lanczosDos i m z h
  shiftIn := by
    intro l x s s' _ h
    refine ⟨⟨?_, h.1.C, h.1.C2, h.1.locked⟩, h.2⟩
    show shiftH _ s.H = shiftH _ s'.H
    rw [h.1.H]
  first := by
    intro l x y s s' hl h
    have e := apply_first (l := l) (hi := E.nevex) ((y : ℝ) : K) h.1 h.2.1 h.2.2.1 h.2.2.2 hl
    refine ⟨?_, ?_⟩
    · show Mid _ _ _ (apply _ ((0 : ℝ) : K) 0 _ s.locked s) (apply _ ((0 : ℝ) : K) 0 _ s'.locked s')
      rw [RCLike.ofReal_zero]
      exact e
    · show (apply _ ((0 : ℝ) : K) 0 _ s.locked s).locked = l
      unfold apply
      rw [h.2.1]
      exact h.2.2.2
  prod := by
    intro l x a m y z s s' hl ha h
    refine ⟨apply_mid _ _ h.1 h.2 (by omega), ?_⟩
    show (apply _ _ a _ s.locked s).locked = l
    unfold apply
    cases s.next <;> exact h.2
  nest_mono := fun l x a b' m s s' _ hab _ h => ⟨h.1.mono (by omega), h.2⟩
  shiftOut := by
    intro l x a m s s' _ _ hm h
    have e := h.1.same hm h.2
    refine ⟨⟨?_, e.1.C, e.1.C2, e.1.locked⟩, e.2⟩
    show shiftH _ s.H = shiftH _ s'.H
    rw [e.1.H]
  rr := fun l s s' _ h => Same.rr E _ h
  resd := fun f v l s s' _ _ h => Same.resd f _ h
  lock := fun l v k s s' h =>
    ⟨⟨h.1.H, h.1.C, h.1.C2, congrArg (· + k) h.1.locked⟩, h.2.1, h.2.2.1, congrArg (· + k) h.2.2.2⟩
  swap_inv := fun l i j s s' h =>
    ⟨⟨h.1.H, congrArg (swapAt · i j) h.1.C, congrArg (swapAt · i j) h.1.C2, h.1.locked⟩, h.2⟩
  swap_synced := fun l v i j s s' h =>
    ⟨⟨h.1.H, congrArg (swapAt · i j) h.1.C, congrArg (swapAt · i j) h.1.C2, h.1.locked⟩, h.2⟩
  finish := fun l s s' h => ⟨h.1.H, ⟨fun _ => h.1.C, fun k _ => congrFun h.1.C k⟩,
    fun k _ => congrFun h.1.C2 k⟩

end Seq

namespace Mpi

/-- The relations on global states. -/
def hist (nevex : ℕ) (b : Bool) : PhaseRel ℝ (GSt K N) (GSt K N) where
  pre := fun g g' => (Seq.hist nevex (Seq.StartRel nevex b)).pre g.toSt g'.toSt
  begun := fun g g' => (Seq.hist nevex (Seq.StartRel nevex b)).begun g.toSt g'.toSt
  inv := fun l g g' => Seq.Same l g.toSt g'.toSt
  filt := fun l _ g g' => Seq.Same l g.toSt g'.toSt
  nest := fun l _ a m g g' => Seq.Mid (l + a) nevex m g.toSt g'.toSt ∧ g.locked = l
  ready := fun l g g' => Seq.Same l g.toSt g'.toSt
  synced := fun l _ g g' => Seq.Same l g.toSt g'.toSt

variable {G : GEnv K N}

/-- Two QR that agree on the data that matter. -/
def QrSame (q q' : ℕ → ℝ → GSt K N → GSt K N) : Prop :=
  ∀ l k c g g', Seq.Same l g.toSt g'.toSt → Seq.Same l (q k c g).toSt (q' k c g').toSt

theorem hhQR_same {l l' l'' : ℕ} {g g' : GSt K N} (h : Seq.Same l g.toSt g'.toSt) :
    Seq.Same l ((gQrRoutines G l').hhQR g).toSt ((gQrRoutines G l'').hhQR g').toSt := by
  refine ⟨⟨h.1.H, congrArg (hhQRc G.base.lapack G.base.nevex) h.1.C, h.1.C2, h.1.locked⟩, ?_, ?_, h.2.2.2⟩
  · show (if G.scalapack then g.next else .bAc) = _
    split_ifs
    · exact h.2.1
    · rfl
  · show (if G.scalapack then g'.next else .bAc) = _
    split_ifs
    · exact h.2.2.1
    · rfl

theorem gQr_same : QrSame (gOps G).qr (gOps G).qr := by
  intro l k cond g g' h
  have hl : g.locked = l := h.2.2.2
  have hl' : g'.locked = l := h.1.locked.symm.trans hl
  show Seq.Same l (qrSelect (gQrRoutines G g.locked) _ _ _ _ g).toSt
    (qrSelect (gQrRoutines G g'.locked) _ _ _ _ g').toSt
  rw [hl, hl']
  refine qrSelect_rel (q := fun g g' : GSt K N => Seq.Same l g.toSt g'.toSt) ?_ ?_ ?_ ?_ ?_ _ _ _ _ h
  · exact fun s s' h => hhQR_same h
  · exact fun s s' h => ⟨congrArg (fun X => (cholQR1c G.base.lapack G.base.nevex X).1) h.1.C,
      h.setC fun X => (cholQR1c G.base.lapack G.base.nevex X).2⟩
  · exact fun s s' h => ⟨congrArg (fun X => (cholQR2c G.base.lapack G.base.nevex ⟨true, true⟩ X).1) h.1.C,
      h.setC fun X => (cholQR2c G.base.lapack G.base.nevex ⟨true, true⟩ X).2⟩
  · exact fun s s' h =>
      ⟨congrArg (fun X => (shiftedcholQR2c G.base.lapack G.base.nevex ⟨true, false⟩ X).1) h.1.C,
      h.setC fun X => (shiftedcholQR2c G.base.lapack G.base.nevex ⟨true, false⟩ X).2⟩
  · exact fun _ s s' h => h.lockCopy G.base

/-- The same for the global backend; the residuals may be left in `B` in different forms. -/
theorem hist_sim {q q' : ℕ → ℝ → GSt K N → GSt K N}
    {d d' : (ℕ → ℝ) → ℕ → GSt K N → (ℕ → ℝ) × GSt K N} (hq : QrSame q q') (hd : ResdLike G d)
    (hd' : ResdLike G d') (b : Bool) :
    SimP (fixInit (gOpsWith G q d) b) (fixInit (gOpsWith G q' d') b) G.base.nevex Even
      (hist G.base.nevex b) where
  checkSymmetryEasy := by
    intro s s' h
    refine ⟨?_, h⟩
    show gSymCheck G s = gSymCheck G s'
    unfold gSymCheck
    rw [h.1]
  start := fun s s' h => ⟨h, rfl, rfl⟩
  initVecs := fun _ s s' h => Seq.initVecs_same G.base b G.rnd h
  qr := fun l k cond s s' h => hq l k cond s s' h
  ready_inv := fun _ _ _ h => h
  lanczos1 := by
    intro m s s' h
    refine ⟨?_, h⟩
    show lanczosBound _ _ s.H _ s.C = lanczosBound _ _ s'.H _ s'.C
    rw [h.1.H, h.1.C]
  lanczosN := by
    intro m k s s' h
    refine ⟨?_, ⟨h.1.H, ?_, h.1.C2, h.1.locked⟩, h.2⟩
    · show (lanczosMulti axpyOwn G.base.lapack s.H m k s.C).1 =
        (lanczosMulti axpyOwn G.base.lapack s'.H m k s'.C).1
      rw [h.1.H, h.1.C]
    · show (lanczosMulti axpyOwn G.base.lapack s.H m k s.C).2 =
        (lanczosMulti axpyOwn G.base.lapack s'.H m k s'.C).2
      rw [h.1.H, h.1.C]
  lanczosDos := fun i m z s s' h => Seq.Same.lanczosDos i m z h
  shiftIn := by
    intro l x s s' _ h
    refine ⟨⟨?_, h.1.C, h.1.C2, h.1.locked⟩, ?_, ?_, h.2.2.2⟩
    · show shiftH _ s.H = shiftH _ s'.H
      rw [h.1.H]
    · show (if s.fresh then .bAc else s.next) = _
      split_ifs
      · rfl
      · exact h.2.1
    · show (if s'.fresh then .bAc else s'.next) = _
      split_ifs
      · rfl
      · exact h.2.2.1
  first := by
    intro l x y s s' hl h
    have e := Seq.apply_first (l := l) (hi := G.base.nevex) ((y : ℝ) : K) h.1 h.2.1 h.2.2.1 h.2.2.2 hl
    refine ⟨?_, ?_⟩
    · show Seq.Mid _ _ _ (Seq.apply _ ((0 : ℝ) : K) 0 _ s.locked s.toSt)
        (Seq.apply _ ((0 : ℝ) : K) 0 _ s'.locked s'.toSt)
      rw [RCLike.ofReal_zero]
      exact e
    · show (Seq.apply _ ((0 : ℝ) : K) 0 _ s.locked s.toSt).locked = l
      unfold Seq.apply
      rw [h.2.1]
      exact h.2.2.2
  prod := by
    intro l x a m y z s s' hl ha h
    refine ⟨Seq.apply_mid _ _ h.1 h.2 (by omega), ?_⟩
    show (Seq.apply _ _ a _ s.locked s.toSt).locked = l
    unfold Seq.apply
    cases s.next <;> exact h.2
  nest_mono := fun l x a b' m s s' _ hab _ h => ⟨h.1.mono (by omega), h.2⟩
  shiftOut := by
    intro l x a m s s' _ _ hm h
    have e := h.1.same hm h.2
    refine ⟨⟨?_, e.1.C, e.1.C2, e.1.locked⟩, ?_, ?_, e.2.2.2⟩
    · show shiftH _ s.H = shiftH _ s'.H
      rw [e.1.H]
    · show (if s.fresh then .bAc else s.next) = _
      split_ifs
      · rfl
      · exact e.2.1
    · show (if s'.fresh then .bAc else s'.next) = _
      split_ifs
      · rfl
      · exact e.2.2.1
  rr := fun l s s' _ h => Seq.Same.rr G.base _ h
  resd := by
    intro f v l s s' _ _ h
    obtain ⟨e1, B, e2⟩ := hd f l s
    obtain ⟨e3, B', e4⟩ := hd' f l s'
    have h1 := Seq.Same.resd f (G.base.nevex - l) h
    refine ⟨(e1.trans h1.1).trans e3.symm, ?_⟩
    show Seq.Same _ (d f l s).2.toSt (d' f l s').2.toSt
    rw [e2, e4]
    exact ⟨⟨h1.2.1.H, h1.2.1.C, h1.2.1.C2, h1.2.1.locked⟩, h1.2.2⟩
  lock := fun l v k s s' h =>
    ⟨⟨h.1.H, h.1.C, h.1.C2, congrArg (· + k) h.1.locked⟩, h.2.1, h.2.2.1, congrArg (· + k) h.2.2.2⟩
  swap_inv := fun l i j s s' h => h
  swap_synced := fun l v i j s s' h => h
  finish := fun l s s' h => ⟨h.1.H, ⟨fun _ => h.1.C, fun k _ => congrFun h.1.C k⟩,
    fun k _ => congrFun h.1.C2 k⟩

end Mpi
end Verif
