/-
The programs of Backend/MpiSpmd come to an end with what Backend/Mpi computes from the data of all
processes.
-/
import Verif.Backend.MpiSpmd
import Verif.Backend.MpiProps

namespace Verif

/-- Corresponding calls of related backends. -/
theorem Sim.req {R : Type} {S S' : Type*} {ops : Chase R S} {ops' : Chase R S'} {r : S → S' → Prop}
    (h : Sim ops ops' r) (q : Req R) (s : S) (s' : S') (hs : r s s') :
    (q.run ops s).1 = (q.run ops' s').1 ∧ r (q.run ops s).2 (q.run ops' s').2 := by
  cases q with
  | checkSymmetryEasy => exact h.checkSymmetryEasy s s' hs
  | start => exact ⟨rfl, h.start s s' hs⟩
  | finish => exact ⟨rfl, h.finish s s' hs⟩
  | initVecs b => exact ⟨rfl, h.initVecs b s s' hs⟩
  | qr k c => exact ⟨rfl, h.qr k c s s' hs⟩
  | lanczos1 m => exact h.lanczos1 m s s' hs
  | lanczosN m k => exact h.lanczosN m k s s' hs
  | lanczosDos i m z => exact ⟨rfl, h.lanczosDos i m z s s' hs⟩
  | shift c b => exact ⟨rfl, h.shift c b s s' hs⟩
  | hemm n a b o => exact ⟨rfl, h.hemm n a b o s s' hs⟩
  | rr b => exact h.rr b s s' hs
  | resd f k => exact h.resd f k s s' hs
  | lock k => exact ⟨rfl, h.lock k s s' hs⟩
  | swap i j => exact ⟨rfl, h.swap i j s s' hs⟩

namespace Spmd

theorem Gives.congr {P : Type} {α : P → Type} {s : Conf α} {a b : ∀ p, α p} (h : Gives s a)
    (hab : ∀ p, a p = b p) : Gives s b := funext hab ▸ h

end Spmd

namespace Mpi
namespace Spmd

open Matrix
open Seq (NextOp)
open Verif.Spmd

variable {K : Type} [RCLike K] {N : ℕ} {r c : Layout N} {E : MEnv K}

/-! ### Redistribution -/

omit [RCLike K] in
theorem unpack_pack (run : Dist.Run) (block k : ℕ) (hk : k < block) {m n : ℕ} (v : ℕ → Fin m → K)
    (dst : Fin n → K) : unpack run (pack run block v k) dst = putRun run (v k) dst := by
  funext b
  unfold unpack putRun
  by_cases h : run.destDisp ≤ b.val ∧ b.val < run.destDisp + run.len
  · rw [if_pos h, if_pos h]
    unfold pack
    rw [if_pos ⟨hk, by omega⟩]
    split_ifs <;> rfl
  · rw [if_neg h, if_neg h]

omit [RCLike K] in
theorem unpack_none (run : Dist.Run) {n : ℕ} (x : ℕ → Option K) (hx : ∀ t, x t = none)
    (dst : Fin n → K) : unpack run x dst = dst := by
  funext b
  unfold unpack
  rw [hx]
  split_ifs <;> rfl

omit [RCLike K] in
theorem redist_cons (run : Dist.Run) (runs : List Dist.Run) {P : ℕ} {m : Fin P → ℕ} {n : ℕ}
    (src : (p : Fin P) → Fin (m p) → K) (q : ℕ) (dst : Fin n → K) :
    redist (run :: runs) src q dst = redist runs src q (if run.dest = q then
      if h : run.src < P then putRun run (src ⟨run.src, h⟩) dst else dst else dst) := rfl

omit [RCLike K] in
theorem c2b_gives (block : ℕ) (src : ∀ p : Pos r c, ℕ → Fin (r.size p.1) → K) (runs : List Dist.Run)
    (dst : ∀ p : Pos r c, ℕ → Fin (c.size p.2) → K) :
    Gives (fun p => c2b p block (src p) runs (dst p)) fun p k =>
      if k < block then redist runs (fun i' => src (i', p.2) k) p.2 (dst p k) else dst p k := by
  induction runs generalizing dst with
  | nil => exact (Gives.ret dst).congr fun p => funext fun k => by split_ifs <;> rfl
  | cons run runs ih =>
    refine Gives.opIf (bcastCol run block) (fun p => p.2.val = run.dest)
      (fun p q h hp => by rw [← show p.2 = q.2 from h]; exact hp) src ?_
    have h := ih fun p => if p.2.val = run.dest then fun k =>
        unpack run ((bcastCol run block).act p (fun q _ => src q) k) (dst p k) else dst p
    have he : (fun p : Pos r c => if p.2.val = run.dest then
        c2b p block (src p) runs fun k =>
          unpack run ((bcastCol run block).act p (fun q _ => src q) k) (dst p k)
        else c2b p block (src p) runs (dst p)) =
        fun p => c2b p block (src p) runs (if p.2.val = run.dest then fun k =>
          unpack run ((bcastCol run block).act p (fun q _ => src q) k) (dst p k) else dst p) := by
      funext p
      split_ifs <;> rfl
    rw [he]
    refine h.congr fun p => funext fun k => ?_
    by_cases hk : k < block
    · rw [if_pos hk, if_pos hk]
      rw [redist_cons]
      congr 1
      by_cases hd : p.2.val = run.dest
      · rw [if_pos hd, if_pos hd.symm]
        show unpack run ((if h : run.src < r.procs then pack run block (src (⟨run.src, h⟩, p.2))
          else fun _ _ => none) k) (dst p k) = _
        split_ifs with hs
        · exact unpack_pack run block k hk _ _
        · exact unpack_none run _ (fun _ => rfl) _
      · rw [if_neg hd, if_neg fun h => hd h.symm]
    · rw [if_neg hk, if_neg hk]
      by_cases hd : p.2.val = run.dest
      · rw [if_pos hd]
        show unpack run ((if h : run.src < r.procs then pack run block (src (⟨run.src, h⟩, p.2))
          else fun _ _ => none) k) (dst p k) = _
        refine unpack_none run _ (fun t => ?_) _
        split_ifs
        · exact if_neg fun h => hk h.1
        · rfl
      · rw [if_neg hd]

omit [RCLike K] in
theorem b2c_gives (block : ℕ) (src : ∀ p : Pos r c, ℕ → Fin (c.size p.2) → K) (runs : List Dist.Run)
    (dst : ∀ p : Pos r c, ℕ → Fin (r.size p.1) → K) :
    Gives (fun p => b2c p block (src p) runs (dst p)) fun p k =>
      if k < block then redist runs (fun j' => src (p.1, j') k) p.1 (dst p k) else dst p k := by
  induction runs generalizing dst with
  | nil => exact (Gives.ret dst).congr fun p => funext fun k => by split_ifs <;> rfl
  | cons run runs ih =>
    refine Gives.opIf (bcastRow run block) (fun p => p.1.val = run.dest)
      (fun p q h hp => by rw [← show p.1 = q.1 from h]; exact hp) src ?_
    have h := ih fun p => if p.1.val = run.dest then fun k =>
        unpack run ((bcastRow run block).act p (fun q _ => src q) k) (dst p k) else dst p
    have he : (fun p : Pos r c => if p.1.val = run.dest then
        b2c p block (src p) runs fun k =>
          unpack run ((bcastRow run block).act p (fun q _ => src q) k) (dst p k)
        else b2c p block (src p) runs (dst p)) =
        fun p => b2c p block (src p) runs (if p.1.val = run.dest then fun k =>
          unpack run ((bcastRow run block).act p (fun q _ => src q) k) (dst p k) else dst p) := by
      funext p
      split_ifs <;> rfl
    rw [he]
    refine h.congr fun p => funext fun k => ?_
    by_cases hk : k < block
    · rw [if_pos hk, if_pos hk]
      rw [redist_cons]
      congr 1
      by_cases hd : p.1.val = run.dest
      · rw [if_pos hd, if_pos hd.symm]
        show unpack run ((if h : run.src < c.procs then pack run block (src (p.1, ⟨run.src, h⟩))
          else fun _ _ => none) k) (dst p k) = _
        split_ifs with hs
        · exact unpack_pack run block k hk _ _
        · exact unpack_none run _ (fun _ => rfl) _
      · rw [if_neg hd, if_neg fun h => hd h.symm]
    · rw [if_neg hk, if_neg hk]
      by_cases hd : p.1.val = run.dest
      · rw [if_pos hd]
        show unpack run ((if h : run.src < c.procs then pack run block (src (p.1, ⟨run.src, h⟩))
          else fun _ _ => none) k) (dst p k) = _
        refine unpack_none run _ (fun t => ?_) _
        split_ifs
        · exact if_neg fun h => hk h.1
        · rfl
      · rw [if_neg hd]

theorem writeAt_congr {α : Type*} (f : ℕ → α) (off : ℕ) {len : ℕ} {g g' : ℕ → α}
    (h : ∀ k < len, g k = g' k) : writeAt f off len g = writeAt f off len g' := by
  funext i
  unfold writeAt
  split_ifs with hi
  · exact h _ (by omega)
  · rfl

theorem writeAt_zero {α : Type*} (f : ℕ → α) (len : ℕ) (g : ℕ → α) :
    writeAt f 0 len g = fun k => if k < len then g k else f k := by
  funext i
  unfold writeAt
  simp

/-! ### The calls -/

section calls
variable {s : Fam K r c}

theorem symCheck_gives :
    Gives (fun p : Pos r c => symCheckProg E p (s p.1 p.2))
      fun p => (symCheck E s, { s p.1 p.2 with isSym := symCheck E s }) := by
  unfold symCheckProg
  refine (c2b_gives 1 (fun p _ a => E.probe p.1 a) E.cRuns fun _ _ _ => 0).bind ?_
  refine Gives.op _ _ ?_
  refine Gives.op _ _ ?_
  refine (b2c_gives 1 (fun p _ => (sumCol fun j => Fin (c.size j) → K).act p
    fun q _ => ((s q.1 q.2).Hᴴ.mulVec fun a => E.probe q.1 a)) E.bRuns
    fun p _ a => E.probe p.1 a).bind ?_
  refine Gives.op _ _ ?_
  exact Gives.ret _

theorem hemm_gives (next : NextOp) (locked : ℕ) (hn : ∀ i j, (s i j).next = next)
    (hl : ∀ i j, (s i j).locked = locked) (block : ℕ) (α β : K) (offset : ℕ) :
    Gives (fun p : Pos r c => hemmProg p block α β offset (s p.1 p.2))
      fun p => ((), apply α β offset block (s p.1 p.2).locked s p.1 p.2) := by
  unfold hemmProg apply
  simp only [hn, hl]
  cases next with
  | bAc => exact Gives.op _ _ (Gives.ret _)
  | cAb => exact Gives.op _ _ (Gives.ret _)

theorem gather_gives (locked : ℕ) (hl : ∀ i j, (s i j).locked = locked) (block : ℕ) :
    Gives (fun p : Pos r c => gatherProg E p block (s p.1 p.2))
      fun p => asynCxHGatherC E locked block s p.1 p.2 := by
  unfold gatherProg
  simp only [hl]
  refine (c2b_gives block (fun p k => (s p.1 p.2).C2 (locked + k)) E.cRuns
    fun p k => (s p.1 p.2).B2 (locked + k)).bind ?_
  refine Gives.op _ _ ?_
  refine (Gives.ret _).congr fun p => ?_
  unfold asynCxHGatherC
  congr 1
  · exact writeAt_congr _ _ fun k hk => if_pos hk
  · exact (hl _ _).symm

theorem rr_gives (locked : ℕ) (hl : ∀ i j, (s i j).locked = locked) (block : ℕ) :
    Gives (fun p : Pos r c => rrProg E p block (s p.1 p.2))
      fun p => ((rr E block (fun i j => (s i j).locked) s).1 p.1 p.2,
        (rr E block (fun i j => (s i j).locked) s).2 p.1 p.2) := by
  unfold rrProg rr
  simp only [hl]
  refine (gather_gives locked hl block).bind ?_
  refine Gives.op _ _ ?_
  have hl' : ∀ i j, (asynCxHGatherC E locked block s i j).locked = locked := fun i j => hl i j
  simp only [hl']
  exact Gives.ret _

theorem resd_gives (locked : ℕ) (hl : ∀ i j, (s i j).locked = locked) (ritzv : ℕ → ℝ) (fixednev : ℕ) :
    Gives (fun p : Pos r c => resdProg E p ritzv fixednev (s p.1 p.2))
      fun p => ((resd E ritzv fixednev (fun i j => (s i j).locked) s).1 p.1 p.2,
        (resd E ritzv fixednev (fun i j => (s i j).locked) s).2 p.1 p.2) := by
  unfold resdProg resd
  simp only [hl]
  refine (gather_gives locked hl _).bind ?_
  refine Gives.op _ _ ?_
  have hl' : ∀ i j, (asynCxHGatherC E locked (E.base.nevex - fixednev) s i j).locked = locked :=
    fun i j => hl i j
  simp only [hl']
  refine (Gives.ret _).congr fun p => ?_
  refine Prod.ext (funext fun t => ?_) rfl
  dsimp only
  split_ifs with h
  · exact congrArg Real.sqrt (Finset.sum_apply (⟨t, h⟩ : Fin (E.base.nevex - fixednev)) Finset.univ
      fun j' (t : Fin (E.base.nevex - fixednev)) => (resdLocal ritzv locked (E.base.nevex - fixednev)
        (asynCxHGatherC E locked (E.base.nevex - fixednev) s p.1 j')).1 t)
  · rfl

section chol
variable {Cg : (i : Fin r.procs) → ℕ → Fin (r.size i) → K}

theorem gram_gives {α : Pos r c → Type} (hC : ∀ i j, (s i j).C = Cg i)
    {k : ∀ p : Pos r c, Matrix (Fin E.base.nevex) (Fin E.base.nevex) K → Prog α p} {a : ∀ p, α p}
    (h : Gives (fun p => k p (∑ i', syherk (getBlk 0 E.base.nevex (Cg i')))) a) :
    Gives (fun p => gramProg E p (s p.1 p.2) (k p)) a := by
  unfold gramProg
  refine Gives.op _ _ ?_
  have : (fun p : Pos r c => k p ((sumCol fun _ => Matrix (Fin E.base.nevex) (Fin E.base.nevex) K).act p
      fun q _ => syherk (getBlk 0 E.base.nevex (s q.1 q.2).C))) =
      fun p => k p (∑ i', syherk (getBlk 0 E.base.nevex (Cg i'))) := by
    funext p
    simp only [hC]
    rfl
  rw [this]
  exact h

theorem cholQR1_gives (hC : ∀ i j, (s i j).C = Cg i) :
    Gives (fun p : Pos r c => cholQR1Prog E p (s p.1 p.2))
      fun p => ((cholQR1 E E.base.nevex Cg).1,
        { s p.1 p.2 with C := (cholQR1 E E.base.nevex Cg).2 p.1 }) := by
  unfold cholQR1Prog cholQR1
  refine gram_gives hC ?_
  rcases E.base.lapack.potrf _ with ⟨info, A⟩
  dsimp only
  by_cases hi : info ≠ 0
  · simp only [if_pos hi]
    refine (Gives.ret _).congr fun p => ?_
    rw [← hC p.1 p.2]
  · simp only [if_neg hi]
    refine (Gives.ret _).congr fun p => ?_
    rw [← hC p.1 p.2]

theorem cholQR2_gives (hC : ∀ i j, (s i j).C = Cg i) :
    Gives (fun p : Pos r c => cholQR2Prog E p (s p.1 p.2))
      fun p => ((cholQR2 E E.base.nevex Cg).1,
        { s p.1 p.2 with C := (cholQR2 E E.base.nevex Cg).2 p.1 }) := by
  unfold cholQR2Prog cholQR2
  refine gram_gives hC ?_
  rcases E.base.lapack.potrf _ with ⟨info, A⟩
  dsimp only
  by_cases hi : info ≠ 0
  · simp only [if_pos hi]
    refine (Gives.ret _).congr fun p => ?_
    rw [← hC p.1 p.2]
  · simp only [if_neg hi]
    refine gram_gives (s := fun i j => { s i j with C := trsm A (s i j).C })
      (Cg := fun i => trsm A (Cg i)) (fun i j => by dsimp only; rw [hC i j]) ?_
    refine (Gives.ret _).congr fun p => ?_
    rw [← hC p.1 p.2]

theorem shiftedcholQR2_gives (hC : ∀ i j, (s i j).C = Cg i) :
    Gives (fun p : Pos r c => shiftedcholQR2Prog E p (s p.1 p.2))
      fun p => ((shiftedcholQR2 E E.base.nevex Cg).1,
        { s p.1 p.2 with C := (shiftedcholQR2 E E.base.nevex Cg).2 p.1 }) := by
  unfold shiftedcholQR2Prog shiftedcholQR2
  refine gram_gives hC ?_
  generalize ∑ i', syherk (getBlk 0 E.base.nevex (Cg i')) = G
  rcases hX : E.base.lapack.potrf (shiftDiag G (cholShift (N := N) E.base.lapack G : K)) with ⟨info, A⟩
  simp only [hX]
  by_cases hi : info ≠ 0
  · simp only [if_pos hi]
    refine (Gives.ret _).congr fun p => ?_
    rw [← hC p.1 p.2]
  · simp only [if_neg hi]
    refine gram_gives (s := fun i j => { s i j with C := trsm A (s i j).C })
      (Cg := fun i => trsm A (Cg i)) (fun i j => by dsimp only; rw [hC i j]) ?_
    generalize ∑ i', syherk (getBlk 0 E.base.nevex (trsm A (Cg i'))) = G2
    rcases hX2 : E.base.lapack.potrf G2 with ⟨info2, A2⟩
    simp only [hX2]
    by_cases hi2 : info2 ≠ 0
    · simp only [if_pos hi2]
      refine (Gives.ret _).congr fun p => ?_
      rw [← hC p.1 p.2]
    · simp only [if_neg hi2]
      refine gram_gives (s := fun i j => { s i j with C := trsm A2 (trsm A (s i j).C) })
        (Cg := fun i => trsm A2 (trsm A (Cg i))) (fun i j => by dsimp only; rw [hC i j]) ?_
      refine (Gives.ret _).congr fun p => ?_
      rw [← hC p.1 p.2]

theorem hhQR_gives : Gives (fun p : Pos r c => hhQRProg E p (s p.1 p.2)) fun p => hhQR E s p.1 p.2 :=
  Gives.op _ _ (Gives.ret _)

theorem lockCopy_eq (p : Pos r c) :
    lockCopyOwn E (s p.1 p.2) = lockVectorCopy E (fun i j => (s i j).locked) s p.1 p.2 := rfl

theorem qr_gives (hC : ∀ i j, (s i j).C = Cg i) (k : ℕ) (cond : ℝ) :
    Gives (fun p : Pos r c => qrProg E p cond (s p.1 p.2))
      fun p => ((), (opsAt E p.1 p.2).qr k cond s p.1 p.2) := by
  have hC' : ∀ j, (fun i => (s i j).C) = Cg := fun j => funext fun i => hC i j
  -- what follows a Cholesky variant with the same `info` everywhere
  have tail : ∀ (info : ℤ) (s' : Fam K r c), (∀ i j, (s' i j).locked = (s i j).locked) →
      Gives (fun p : Pos r c => if info ≠ 0 then
          (hhQRProg E p (s' p.1 p.2)).bind fun d => .ret ((), lockCopyOwn E d)
        else .ret ((), lockCopyOwn E (s' p.1 p.2)))
      fun p => ((), (if info ≠ 0 then lockVectorCopy E (fun i j => (s i j).locked) (hhQR E s')
        else lockVectorCopy E (fun i j => (s i j).locked) s') p.1 p.2) := by
    intro info s' hl
    have hl : (fun i j => (s i j).locked) = fun i j => (s' i j).locked := by
      funext i j; exact (hl i j).symm
    rw [hl]
    by_cases hi : info ≠ 0
    · simp only [if_pos hi]
      exact hhQR_gives.bind (Gives.ret _)
    · simp only [if_neg hi]
      exact Gives.ret _
  have sel : ∀ (R : QrRoutines (Fam K r c)) (a b : Bool) (X : ℤ × Fam K r c),
      cholDisable E.base.doCholQR E.base.envDisable ≠ 1 →
      (if a then R.shiftedcholQR2 s else if b then R.cholQR1 s else R.cholQR2 s) = X →
      qrSelect R E.base.doCholQR E.base.envDisable a b s =
        if X.1 ≠ 0 then R.lockCopy true (R.hhQR X.2) else R.lockCopy false X.2 := by
    intro R a b X hd hX
    unfold qrSelect
    rw [if_neg hd, hX]
  unfold qrProg
  show Gives _ fun p : Pos r c =>
    ((), qrSelect (qrRoutines E p.2 fun i j => (s i j).locked) _ _ _ _ s p.1 p.2)
  by_cases hd : cholDisable E.base.doCholQR E.base.envDisable = 1
  · unfold qrSelect
    simp only [if_pos hd]
    exact hhQR_gives.bind (Gives.ret _)
  · simp only [if_neg hd]
    by_cases hu : cond > E.base.condUpper
    · simp only [if_pos hu, decide_eq_true hu]
      refine (shiftedcholQR2_gives hC).bind ?_
      refine (tail _ (fun i j => { s i j with C := (shiftedcholQR2 E E.base.nevex Cg).2 i })
        fun _ _ => rfl).congr fun p => ?_
      rw [sel _ _ _ (_, fun i j => { s i j with C := (shiftedcholQR2 E E.base.nevex Cg).2 i }) hd
        ((if_pos rfl).trans (Prod.ext (congrArg (fun x => (shiftedcholQR2 E E.base.nevex x).1) (hC' p.2))
          (funext fun i => funext fun j => by simp only [qrRoutines, hC'])))]
      rfl
    · simp only [if_neg hu, decide_eq_false hu]
      by_cases hl : cond < E.base.condLower
      · simp only [if_pos hl, decide_eq_true hl]
        refine (cholQR1_gives hC).bind ?_
        refine (tail _ (fun i j => { s i j with C := (cholQR1 E E.base.nevex Cg).2 i })
          fun _ _ => rfl).congr fun p => ?_
        rw [sel _ _ _ (_, fun i j => { s i j with C := (cholQR1 E E.base.nevex Cg).2 i }) hd
          ((if_neg (by decide)).trans ((if_pos rfl).trans (Prod.ext
            (congrArg (fun x => (cholQR1 E E.base.nevex x).1) (hC' p.2))
            (funext fun i => funext fun j => by simp only [qrRoutines, hC']))))]
        rfl
      · simp only [if_neg hl, decide_eq_false hl]
        refine (cholQR2_gives hC).bind ?_
        refine (tail _ (fun i j => { s i j with C := (cholQR2 E E.base.nevex Cg).2 i })
          fun _ _ => rfl).congr fun p => ?_
        rw [sel _ _ _ (_, fun i j => { s i j with C := (cholQR2 E E.base.nevex Cg).2 i }) hd
          ((if_neg (by decide)).trans ((if_neg (by decide)).trans (Prod.ext
            (congrArg (fun x => (cholQR2 E E.base.nevex x).1) (hC' p.2))
            (funext fun i => funext fun j => by simp only [qrRoutines, hC']))))]
        rfl

end chol

/-! ### Lanczos -/

/-- Summing arrays entry by entry. -/
theorem sumCol_gives {α : Pos r c → Type} {W : Fin c.procs → Type} [∀ j, AddCommMonoid (W j)]
    {m : ∀ p : Pos r c, ℕ → W p.2} {k : ∀ p : Pos r c, (ℕ → W p.2) → Prog α p} {a : ∀ p, α p}
    (h : Gives (fun p => k p fun t => ∑ i', m (i', p.2) t) a) :
    Gives (fun p => .op (sumCol fun j => ℕ → W j) (m p) (k p)) a := by
  refine Gives.op _ _ ?_
  have : (fun p : Pos r c => k p ((sumCol fun j => ℕ → W j).act p fun q _ => m q)) =
      fun p => k p fun t => ∑ i', m (i', p.2) t := by
    funext p
    congr 1
    funext t
    let f : Fin r.procs → ℕ → W p.2 := fun i' => m (i', p.2)
    show (∑ i' : Fin r.procs, f i') t = ∑ i', f i' t
    rw [Finset.sum_apply]
  rw [this]
  exact h

theorem lanczosStep_gives (M numvec : ℕ) (store : Bool) (k : ℕ) (l : LFam K r c) :
    Gives (fun p : Pos r c => lanczosStepProg E p (s p.1 p.2) M numvec store k (l p.1 p.2))
      fun p => lanczosStep E s M numvec store k l p.1 p.2 := by
  unfold lanczosStepProg
  refine sumCol_gives (W := fun j => Fin (c.size j) → K) ?_
  refine ((b2c_gives numvec (fun p t => applyVec s l p.2 t) E.bRuns fun p => (l p.1 p.2).v2).congr
    (b := fun p : Pos r c => writeAt (l p.1 p.2).v2 0 numvec (fun t =>
      redist E.bRuns (fun j' => applyVec s l j' t) p.1 ((l p.1 p.2).v2 t)))
    fun p => (writeAt_zero _ _ _).symm).bind ?_
  refine sumCol_gives (W := fun _ => K) ?_
  refine sumCol_gives (W := fun _ => ℝ) ?_
  refine (Gives.ret _).congr fun p => ?_
  unfold lanczosStep
  dsimp only
  by_cases hk : k = M - 1
  · simp only [if_pos hk]
  · simp only [if_neg hk]

theorem loop_gives {α : Pos r c → Type} {body : ∀ p, ℕ → α p → Prog α p} {f : ℕ → (∀ p, α p) → ∀ p, α p}
    (h : ∀ k x, Gives (fun p => body p k (x p)) (f k x)) (lo n : ℕ) (x : ∀ p, α p) :
    Gives (fun p => loopP (body p) lo n (x p)) (loop f lo n x) := by
  induction n generalizing lo x with
  | zero => exact Gives.ret x
  | succ n ih => exact (h lo x).bind (ih (lo + 1) (f lo x))

theorem mLanczos_gives (M numvec : ℕ) (store : Bool) :
    Gives (fun p : Pos r c => mLanczosProg E p (s p.1 p.2) M numvec store)
      fun p => mLanczos E s M numvec store p.1 p.2 := by
  unfold mLanczosProg
  refine sumCol_gives (W := fun _ => ℝ) ?_
  have hloop := loop_gives (body := fun p k l => lanczosStepProg E p (s p.1 p.2) M numvec store k l)
    (f := fun k x p => lanczosStep E s M numvec store k (fun i j => x (i, j)) p.1 p.2)
    (fun k x => lanczosStep_gives (s := s) M numvec store k fun i j => x (i, j)) 0 M
  refine (hloop fun p =>
    { v0 := fun _ _ => 0
      v1 := fun t => ((1 / Real.sqrt (∑ i', nrm2 ((s i' p.2).C t) ^ 2) : ℝ) : K) • (s p.1 p.2).C t
      v2 := fun _ _ => 0, d := fun _ => 0, e := fun _ => 0, rbeta := fun _ => 0
      C := (s p.1 p.2).C }).bind ?_
  refine (Gives.ret _).congr fun p => ?_
  have curry : ∀ (n lo : ℕ) (x : LFam K r c) (p : Pos r c),
      loop (fun k (x : ∀ p : Pos r c, LSt K (r.size p.1)) p =>
        lanczosStep E s M numvec store k (fun i j => x (i, j)) p.1 p.2) lo n (fun p => x p.1 p.2) p =
      loop (lanczosStep E s M numvec store) lo n x p.1 p.2 := by
    intro n
    induction n with
    | zero => intro lo x p; rfl
    | succ n ih => intro lo x p; exact ih (lo + 1) (lanczosStep E s M numvec store lo x) p
  unfold mLanczos forRange
  rw [Nat.sub_zero]
  cases store with
  | true =>
    simp only [if_true]
    rw [← curry]
  | false =>
    simp only [Bool.false_eq_true, if_false]
    rw [← curry]

end calls

/-! ### Any call, any sequence of calls -/

theorem call_gives {s : Fam K r c} {g : GSt K N} (h : Rep s g) (q : Req ℝ) :
    Gives (fun p : Pos r c => callProg E p q (s p.1 p.2))
      fun p => ((q.run (opsAt E p.1 p.2) s).1, (q.run (opsAt E p.1 p.2) s).2 p.1 p.2) := by
  cases q with
  | checkSymmetryEasy => exact symCheck_gives
  | start => exact Gives.ret _
  | finish => exact Gives.ret _
  | initVecs b => cases b <;> exact Gives.ret _
  | qr k cond =>
    exact qr_gives (Cg := fun i k a => g.C k (r.glob i a))
      (fun i j => funext fun k => funext fun a => h.C i j k a) k cond
  | lanczos1 m => exact (mLanczos_gives m 1 false).bind (Gives.ret _)
  | lanczosN m k => exact (mLanczos_gives m k true).bind (Gives.ret _)
  | lanczosDos i m z => exact Gives.ret _
  | shift x b => exact Gives.ret _
  | hemm n a b o => exact hemm_gives g.next g.locked h.next h.locked n _ _ o
  | rr b => exact rr_gives g.locked h.locked b
  | resd f k => exact resd_gives g.locked h.locked f k
  | lock k => exact Gives.ret _
  | swap i j => exact Gives.ret _

/-- All processes run the same sequence of calls, each on its own data: some schedule ends, with the same
result everywhere, which is the one any process would get if the calls were performed one after another
on the data of all processes. -/
theorem prog_gives (hc : RunsOk r c E.cRuns) (hb : RunsOk c r E.bRuns) {α : Type} (t : Script ℝ α)
    {s : Fam K r c} {g : GSt K N} (h : Rep s g) :
    ∃ (x : α) (s' : Fam K r c), Gives (fun p : Pos r c => prog E p t (s p.1 p.2)) (fun p => (x, s' p.1 p.2)) ∧
      ∀ i j, t.run (opsAt E i j) s = (x, s') := by
  induction t generalizing s g with
  | ret a => exact ⟨a, s, Gives.ret _, fun _ _ => rfl⟩
  | ask q k ih =>
    have hq := fun i j => (sim hc hb i j).req q s g h
    obtain ⟨s1, hs1⟩ : ∃ s1 : Fam K r c, s1 = scatter r c (q.run (gOps (E.glob r)) g).2 := ⟨_, rfl⟩
    have hrep : Rep s1 (q.run (gOps (E.glob r)) g).2 := hs1 ▸ scatter_rep _ _ _
    have he : ∀ i j, q.run (opsAt E i j) s = ((q.run (gOps (E.glob r)) g).1, s1) := fun i j =>
      Prod.ext (hq i j).1 ((hq i j).2.unique hrep)
    obtain ⟨x, s', h1, h2⟩ := ih (q.run (gOps (E.glob r)) g).1 hrep
    refine ⟨x, s', ?_, fun i j => ?_⟩
    · refine ((call_gives h q).congr (b := fun p : Pos r c => ((q.run (gOps (E.glob r)) g).1, s1 p.1 p.2))
        fun p => ?_).bind h1
      rw [he p.1 p.2]
    · show (k (q.run (opsAt E i j) s).1).run (opsAt E i j) (q.run (opsAt E i j) s).2 = _
      rw [he i j]
      exact h2 i j

end Spmd
end Mpi
end Verif
