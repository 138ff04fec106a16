/-
The multi-GPU backend in arbitrary arithmetic, stated without processes: the buffers behind the pointers and the
matrices are global objects, the other buffers remain those of the processes, which may differ in them.
-/
import Verif.Rounded.ParGpu
import Verif.Rounded.ParProof
import Verif.Backend.MgpuProof

namespace Verif
namespace Rounded
namespace ParGpu

open Matrix
open Seq (NextOp)
open Verif.Spmd
open Mpi (Layout RunsOk GSt scatter assemble)
open Mpi.Spmd (Pos Own c2b collectCol swapOwn c2b_gives writeAt_congr)
open Par (Kern DEnv Reds Red1 redCol redRow flat square ext cutH cutV cutM join joinM distArith op_gives cut_setBlk
  cut_copyCols cut_writeAt cutV_assemble cutM_joinM getBlk_cut withC chol1 shiftedChol2 solveTri)

/-- The data of all processes: behind the pointers the parts of global vectors. -/
structure GG (K R : Type) {N : ℕ} (r c : Layout N) where
  g : GSt K N
  dH : Matrix (Fin N) (Fin N) K
  oth : ∀ p : Pos r c, Bufs K (r.size p.1) (c.size p.2)
  ritz : ℕ → R
  hh : Pos r c → Bool

variable {K R : Type} {N : ℕ} {r c : Layout N}

/-- The data of process `p`. -/
def GG.part (s : GG K R r c) (p : Pos r c) : GOwn K R r c p :=
  ⟨scatter r c s.g p.1 p.2, cutH r c p.1 p.2 s.dH, s.oth p, s.ritz, s.hh p⟩

/-- The vectors behind the pointers with the matrix on the device. -/
def GG.view (s : GG K R r c) : GSt K N := { s.g with H := s.dH }

/-- Storing through the pointers. -/
def GG.store (s : GG K R r c) (g : GSt K N) : GG K R r c := { s with g := { g with H := s.g.H } }

theorem GG.part_view (s : GG K R r c) (p : Pos r c) : (s.part p).view = scatter r c s.view p.1 p.2 := rfl

theorem GG.part_store (s : GG K R r c) (g : GSt K N) (p : Pos r c) :
    (s.part p).store (scatter r c g p.1 p.2) = (s.store g).part p := rfl

variable (T : Red1 K R r c) (E : GEnv K R)

/-! ### The backend -/

/-- `HEMM`. -/
noncomputable def gHemm [Neg R] [Zero R] (block : ℕ) (α β : K) (offset : ℕ) (s : GG K R r c) : GG K R r c :=
  if E.aware then s.store { s.view with toSt := apply (distArith T E.toDEnv) α β offset block s.g.locked s.view.toSt }
  else
    let l := s.g.locked + offset
    match s.g.next with
    | .bAc =>
      let o := fun p : Pos r c => upC l block (s.part p).own (s.oth p)
      let X := fun p : Pos r c => prodB E p (cutH r c p.1 p.2 s.dH) α β l block (o p)
      { s with
        g := { s.g with
          B := setBlk l (joinM c fun j => square (T.colK fun i => flat (X (i, j)))) s.g.B
          next := .cAb }
        oth := fun p => { o p with B := setBlk l (X p) (o p).B } }
    | .cAb =>
      let o := fun p : Pos r c => upB l block (s.part p).own (s.oth p)
      let X := fun p : Pos r c => prodC E p (cutH r c p.1 p.2 s.dH) α β l block (o p)
      { s with
        g := { s.g with
          C := setBlk l (joinM r fun i => square (T.rowK fun j => flat (X (i, j)))) s.g.C
          next := .bAc }
        oth := fun p => { o p with C := setBlk l (X p) (o p).C } }

/-- `asynCxHGatherC`. -/
noncomputable def gGather [Neg R] [Zero R] (block : ℕ) (copied : Pos r c → Bool) (s : GG K R r c) : GG K R r c :=
  if E.aware then s.store { s.view with toSt := asynCxHGatherC (distArith T E.toDEnv) s.g.locked block s.view.toSt }
  else
    let l := s.g.locked
    let o := fun p : Pos r c => if copied p then s.oth p else upC l block (s.part p).own (s.oth p)
    let X := fun p : Pos r c => prodB E p (cutH r c p.1 p.2 s.dH) E.kern.one E.kern.zero l block (o p)
    { s with
      g := { s.g with
        B2 := copyCols l block s.g.C2 s.g.B2
        B := setBlk l (joinM c fun j => square (T.colK fun i => flat (X (i, j)))) s.g.B }
      oth := fun p => { o p with B := setBlk l (X p) (o p).B } }

/-- `RR`. -/
noncomputable def gRr [Neg R] [Zero R] (block : ℕ) (s : GG K R r c) : (ℕ → R) × GG K R r c :=
  let A := distArith T E.toDEnv
  let s := gGather T E block (fun p => !s.hh p) s
  let l := s.g.locked
  let M := A.gemmProj (getBlk l block s.g.B2) (getBlk l block s.g.B)
  let lk := E.nevex - block
  let X := A.gemmBack (getBlk lk block s.g.C2) (E.kern.heevd M).2
  let C := setBlk lk X s.g.C
  (ext 0 (E.kern.heevd M).1, { s with
    g := { s.g with C := C, C2 := copyCols l block C s.g.C2 }
    oth := if E.aware then s.oth else fun p =>
      let q := (s.part p).own
      let o := upC2 lk block q (upB2 l block q (upB l block q (s.oth p)))
      { o with C := setBlk lk (cutM r p.1 X) o.C }
    ritz := writeAt s.ritz 0 block (ext 0 (E.kern.heevd M).1) })

/-- `Resd`. -/
noncomputable def gResd [Neg R] [Zero R] (ritzv : ℕ → R) (fixednev : ℕ) (s : GG K R r c) : (ℕ → R) × GG K R r c :=
  let u := E.nevex - fixednev
  let s := gGather T E u (fun _ => true) s
  let l := s.g.locked
  if E.aware then
    (ext 0 fun t : Fin u => E.kern.sqrt (T.rowR (fun j (t : Fin u) => E.residual (s.ritz t) (cutV c j (s.g.B (l + t)))
      (cutV c j (s.g.B2 (l + t)))) t), s)
  else
    let x : ℕ → Fin N → K := fun t => (distArith T E.toDEnv).axpy (E.kern.ofBase (-ritzv t)) (s.g.B2 (l + t))
      (s.g.B (l + t))
    (ext 0 fun t : Fin u => E.kern.sqrt (T.rowR (fun j (t : Fin u) => E.kern.normp2 (cutV c j (x t))) t),
      { s with g := { s.g with B := writeAt s.g.B l u x } })

/-- `cholQR2`. -/
noncomputable def chol2Dev (V : ℕ → Fin N → K) : ℤ × (ℕ → Fin N → K) :=
  let x := E.kern.potrf (Par.gram T E.toDEnv V)
  if x.1 ≠ 0 then (x.1, V)
  else
    let V := solveTri E.toDEnv r x.2 V
    (0, solveTri E.toDEnv r (E.kern.potrf (Par.gram T E.toDEnv V)).2 V)

/-- The state after a Cholesky QR that gave `x`. -/
def gChol (x : ℤ × (ℕ → Fin N → K)) (s : GG K R r c) : ℤ × GG K R r c :=
  (x.1, { s with
    g := if E.aware then withC s.g x.2 else if x.1 = 0 then withC s.g x.2 else s.g
    oth := if E.aware then s.oth else fun p => { s.oth p with C := Par.cut r p.1 x.2 }
    hh := fun _ => false })

/-- The orthogonalisation routines. -/
noncomputable def gQrRoutines : QrRoutines (GG K R r c) where
  hhQR := fun s =>
    let Q := E.kern.hhqr (getBlk 0 E.nevex s.g.C)
    { s with
      g := { s.g with
        C := if E.aware && !E.scalapack then s.g.C else setBlk 0 Q s.g.C
        next := if E.scalapack then s.g.next else .bAc }
      oth := if E.aware then fun p => { s.oth p with C := setBlk 0 (cutM r p.1 Q) (s.oth p).C } else s.oth
      hh := if E.scalapack then s.hh else fun _ => true }
  cholQR1 := fun s => gChol E (chol1 T E.toDEnv s.g.C) s
  cholQR2 := fun s => gChol E (chol2Dev T E s.g.C) s
  shiftedcholQR2 := fun s => gChol E (shiftedChol2 T E.toDEnv s.g.C) s
  lockCopy := fun isHH s =>
    let C := copyCols 0 s.g.locked s.g.C2 s.g.C
    { s with g := { s.g with
      C := C
      C2 := if E.aware && !isHH && !E.copyDone then s.g.C2
        else copyCols s.g.locked (E.nevex - s.g.locked) C s.g.C2 } }

/-- The multi-GPU backend as one program on global data. -/
noncomputable def ggOps [Neg R] [Zero R] : Chase R (GG K R r c) :=
  let G := Par.gOps T E.toDEnv
  { checkSymmetryEasy := fun s => ((G.checkSymmetryEasy s.g).1, { s with g := (G.checkSymmetryEasy s.g).2 })
    start := fun s => { s with g := { s.g with locked := 0 } }
    finish := fun s => if E.aware then { s with oth := fun p => { s.oth p with
      C := copyCols 0 E.nev (Par.cut r p.1 s.g.C) (s.oth p).C } } else s
    initVecs := fun random s => { s with
      g := G.initVecs random s.g
      dH := s.g.H
      oth := if random && !E.aware then fun p => { s.oth p with
        C := writeAt (s.oth p).C 0 E.nevex (fun k a => E.gen p.1 (k * r.size p.1 + a)) } else s.oth }
    qr := fun _ cond s => qrSelect (gQrRoutines T E) E.doCholQR E.envDisable (E.kern.above cond) (E.kern.below cond) s
    lanczos1 := fun m s => ((G.lanczos1 m s.view).1, s.store (G.lanczos1 m s.view).2)
    lanczosN := fun m numvec s => ((G.lanczosN m numvec s.view).1, s.store (G.lanczosN m numvec s.view).2)
    lanczosDos := fun idx m z s => s.store (G.lanczosDos idx m z s.view)
    shift := fun x _ s => { s with
      g := { s.g with next := if s.g.fresh then .bAc else s.g.next, fresh := false }
      dH := shiftH (distArith T E.toDEnv) (E.kern.ofBase x) s.dH }
    hemm := fun block α β offset s => gHemm T E block (E.kern.ofBase α) (E.kern.ofBase β) offset s
    rr := gRr T E
    resd := gResd T E
    lock := fun k s => { s with g := { s.g with locked := s.g.locked + k } }
    swap := fun _ _ s => s }

/-! ### The processes give what the global backend computes -/

variable [Neg R] [Zero R]

theorem hemm_gives (s : GG K R r c) (block : ℕ) (α β : K) (offset : ℕ) :
    Gives (fun p : Pos r c => hemmProg T.const E p block α β offset (s.part p))
      fun p => ((), (gHemm T E block α β offset s).part p) := by
  unfold hemmProg gHemm
  cases hE : E.aware with
  | true =>
    simp only [if_true]
    exact (Par.hemm_gives T E.toDEnv s.view block α β offset).bind (Gives.ret _)
  | false =>
    simp only [Bool.false_eq_true, if_false]
    obtain ⟨⟨⟨H, C, B, C2, B2, next, locked, isSym⟩, fresh⟩, dH, oth, ritz, hh⟩ := s
    cases next with
    | bAc =>
      let o := fun p : Pos r c => upC (locked + offset) block
        (scatter r c ⟨⟨H, C, B, C2, B2, .bAc, locked, isSym⟩, fresh⟩ p.1 p.2) (oth p)
      let X := fun p : Pos r c => prodB E p (cutH r c p.1 p.2 dH) α β (locked + offset) block (o p)
      refine op_gives _ (fun p : Pos r c => T.colK fun i => flat (X (i, p.2))) (fun p => rfl) ?_
      refine (Gives.ret _).congr fun p => Prod.ext rfl ?_
      unfold GG.part scatter
      dsimp only
      congr 2
      refine Eq.trans ?_ (cut_setBlk c p.2 _ _ B).symm
      rw [cutM_joinM]
      rfl
    | cAb =>
      let o := fun p : Pos r c => upB (locked + offset) block
        (scatter r c ⟨⟨H, C, B, C2, B2, .cAb, locked, isSym⟩, fresh⟩ p.1 p.2) (oth p)
      let X := fun p : Pos r c => prodC E p (cutH r c p.1 p.2 dH) α β (locked + offset) block (o p)
      refine op_gives _ (fun p : Pos r c => T.rowK fun j => flat (X (p.1, j))) (fun p => rfl) ?_
      refine (Gives.ret _).congr fun p => Prod.ext rfl ?_
      unfold GG.part scatter
      dsimp only
      congr 2
      refine Eq.trans ?_ (cut_setBlk r p.1 _ _ C).symm
      rw [cutM_joinM]
      rfl

theorem gather_gives (hc : RunsOk r c E.cRuns) (s : GG K R r c) (block : ℕ) (copied : Pos r c → Bool) :
    Gives (fun p : Pos r c => gatherProg T.const E p block (copied p) (s.part p))
      fun p => (gGather T E block copied s).part p := by
  unfold gatherProg gGather
  cases hE : E.aware with
  | true =>
    simp only [if_true]
    exact (Par.gather_gives T E.toDEnv hc s.view block).bind (Gives.ret _)
  | false =>
    simp only [Bool.false_eq_true, if_false]
    let l := s.g.locked
    let o := fun p : Pos r c => if copied p then s.oth p else upC l block (s.part p).own (s.oth p)
    let X := fun p : Pos r c => prodB E p (cutH r c p.1 p.2 s.dH) E.kern.one E.kern.zero l block (o p)
    refine (c2b_gives block (fun p k => cutV r p.1 (s.g.C2 (l + k))) E.cRuns
      fun p k => cutV c p.2 (s.g.B2 (l + k))).bind ?_
    refine op_gives _ (fun p : Pos r c => T.colK fun i => flat (X (i, p.2))) (fun p => rfl) ?_
    refine (Gives.ret _).congr fun p => ?_
    unfold GG.part scatter
    dsimp only
    congr 2
    · refine Eq.trans ?_ (cut_setBlk c p.2 _ _ s.g.B).symm
      rw [cutM_joinM]
      rfl
    · refine Eq.trans ?_ (cut_copyCols c p.2 _ _ s.g.C2 s.g.B2).symm
      refine writeAt_congr _ _ fun k hk => ?_
      rw [if_pos hk]
      exact Par.redist_cut hc _ p.2 _

theorem rr_gives (hc : RunsOk r c E.cRuns) (s : GG K R r c) (block : ℕ) :
    Gives (fun p : Pos r c => rrProg T.const E p block (s.part p))
      fun p => ((gRr T E block s).1, (gRr T E block s).2.part p) := by
  refine (gather_gives T E hc s block fun p => !s.hh p).bind ?_
  obtain ⟨s1, hs1⟩ : ∃ s1, s1 = gGather T E block (fun p => !s.hh p) s := ⟨_, rfl⟩
  obtain ⟨M, hM⟩ : ∃ M, M = (distArith T E.toDEnv).gemmProj (getBlk s1.g.locked block s1.g.B2)
    (getBlk s1.g.locked block s1.g.B) := ⟨_, rfl⟩
  unfold gRr
  dsimp only
  rw [← hs1, ← hM]
  have hX : ∀ p : Pos r c, cutM r p.1 ((distArith T E.toDEnv).gemmBack (getBlk (E.nevex - block) block s1.g.C2)
      (E.kern.heevd M).2) = E.kern.back (cutM r p.1 (getBlk (E.nevex - block) block s1.g.C2)) (E.kern.heevd M).2 :=
    fun p => cutM_joinM r (fun i => E.kern.back (cutM r i (getBlk (E.nevex - block) block s1.g.C2))
      (E.kern.heevd M).2) p.1
  cases hE : E.aware with
  | true =>
    simp only [if_true]
    refine op_gives _ (fun _ : Pos r c => flat M) (fun p => ?_) ?_
    · rw [hM]
      simp only [dev, hE, if_true]
      rfl
    refine (Gives.ret _).congr fun p => ?_
    unfold rrDone
    simp only [hE, if_true, Par.square_flat]
    refine Prod.ext rfl ?_
    have hC : setBlk (E.nevex - block) (E.kern.back (getBlk (E.nevex - block) block (s1.part p).own.C2)
        (E.kern.heevd M).2) (s1.part p).own.C = Par.cut r p.1 (setBlk (E.nevex - block)
          ((distArith T E.toDEnv).gemmBack (getBlk (E.nevex - block) block s1.g.C2) (E.kern.heevd M).2) s1.g.C) := by
      rw [cut_setBlk, hX]
      rfl
    dsimp only
    rw [hC]
    unfold GG.part scatter
    dsimp only
    congr 2
    exact (cut_copyCols r p.1 _ _ _ s1.g.C2).symm
  | false =>
    simp only [Bool.false_eq_true, if_false]
    refine op_gives _ (fun _ : Pos r c => flat M) (fun p => ?_) ?_
    · rw [hM]
      simp only [dev, hE, Bool.false_eq_true, if_false, upB2, upB]
      have h : ∀ (j : Fin c.procs) (V W : ℕ → Fin (c.size j) → K),
          getBlk s1.g.locked block (copyCols s1.g.locked block V W) = getBlk s1.g.locked block V := fun j V W =>
        Mgpu.getBlk_congr (Mgpu.copyCols_eqOn le_rfl le_rfl) le_rfl le_rfl
      show T.rowK (fun j => flat (E.kern.proj (getBlk s1.g.locked block (copyCols s1.g.locked block
        (Par.cut c j s1.g.B2) _)) (getBlk s1.g.locked block (copyCols s1.g.locked block (Par.cut c j s1.g.B) _)))) = _
      simp only [h]
      rfl
    refine (Gives.ret _).congr fun p => ?_
    unfold rrDone
    simp only [hE, Bool.false_eq_true, if_false, Par.square_flat]
    refine Prod.ext rfl ?_
    have hX2 : ∀ W : ℕ → Fin (r.size p.1) → K, E.kern.back (getBlk (E.nevex - block) block (copyCols (E.nevex - block) block
        (fun k a => s1.g.C2 k (r.glob p.1 a)) W)) (E.kern.heevd M).2 = cutM r p.1 ((distArith T E.toDEnv).gemmBack
          (getBlk (E.nevex - block) block s1.g.C2) (E.kern.heevd M).2) := fun W => by
      rw [hX p, Mgpu.getBlk_congr (Mgpu.copyCols_eqOn le_rfl le_rfl) le_rfl le_rfl]
      rfl
    have hC := cut_setBlk r p.1 (E.nevex - block) ((distArith T E.toDEnv).gemmBack
      (getBlk (E.nevex - block) block s1.g.C2) (E.kern.heevd M).2) s1.g.C
    unfold GG.part scatter upC2 upB2 upB
    dsimp only
    rw [hX2, Mgpu.copyCols_setBlk]
    congr 2
    · exact hC.symm
    · refine Eq.trans ?_ (cut_copyCols r p.1 _ _ _ s1.g.C2).symm
      rw [hC]
      rfl

theorem resd_gives (hc : RunsOk r c E.cRuns) (s : GG K R r c) (ritzv : ℕ → R) (fixednev : ℕ) :
    Gives (fun p : Pos r c => resdProg T.const E p ritzv fixednev (s.part p))
      fun p => ((gResd T E ritzv fixednev s).1, (gResd T E ritzv fixednev s).2.part p) := by
  unfold resdProg gResd
  obtain ⟨u, hu⟩ : ∃ u, u = E.nevex - fixednev := ⟨_, rfl⟩
  rw [← hu]
  refine (gather_gives T E hc s u fun _ => true).bind ?_
  obtain ⟨s1, hs1⟩ : ∃ s1, s1 = gGather T E u (fun _ => true) s := ⟨_, rfl⟩
  dsimp only
  rw [← hs1]
  cases hE : E.aware with
  | true =>
    simp only [if_true]
    exact op_gives _ (fun _ : Pos r c => T.rowR fun j (t : Fin u) => E.residual (s1.ritz t)
      (cutV c j (s1.g.B (s1.g.locked + t))) (cutV c j (s1.g.B2 (s1.g.locked + t)))) (fun p => rfl) (Gives.ret _)
  | false =>
    simp only [Bool.false_eq_true, if_false]
    let x : ℕ → Fin N → K := fun t => (distArith T E.toDEnv).axpy (E.kern.ofBase (-ritzv t))
      (s1.g.B2 (s1.g.locked + t)) (s1.g.B (s1.g.locked + t))
    have hx : ∀ (j : Fin c.procs) (t : ℕ), cutV c j (x t) = E.kern.axpy (E.kern.ofBase (-ritzv t))
        (cutV c j (s1.g.B2 (s1.g.locked + t))) (cutV c j (s1.g.B (s1.g.locked + t))) := fun j t =>
      cutV_assemble c (fun j => E.kern.axpy (E.kern.ofBase (-ritzv t)) (cutV c j (s1.g.B2 (s1.g.locked + t)))
        (cutV c j (s1.g.B (s1.g.locked + t)))) j
    refine op_gives _ (fun _ : Pos r c => T.rowR fun j (t : Fin u) => E.kern.normp2 (cutV c j (x t))) (fun p => ?_) ?_
    · refine congrArg T.rowR (funext fun j => funext fun t => ?_)
      refine (congrFun (congrArg Prod.fst (Par.resdLocal_eq E.toDEnv ritzv _ u _)) t).trans ?_
      dsimp only
      rw [if_pos t.2, hx]
      rfl
    refine (Gives.ret _).congr fun p => Prod.ext rfl ?_
    unfold GG.part scatter
    dsimp only
    congr 2
    refine (congrArg Prod.snd (Par.resdLocal_eq E.toDEnv ritzv _ u _)).trans ?_
    refine Eq.trans ?_ (cut_writeAt c p.2 _ _ s1.g.B x).symm
    dsimp only
    refine writeAt_congr _ _ fun t _ => ?_
    exact (hx p.2 t).symm

omit [Neg R] [Zero R] in
theorem cholQR2Dev_gives (g : GSt K N) :
    Gives (fun p : Pos r c => cholQR2Dev T.const E p (scatter r c g p.1 p.2))
      fun p => ((chol2Dev T E g.C).1, scatter r c (withC g (chol2Dev T E g.C).2) p.1 p.2) := by
  unfold cholQR2Dev chol2Dev
  refine Par.gram_gives T E.toDEnv g ?_
  simp only [Par.scatter_trsm]
  split_ifs
  · exact Gives.ret _
  · exact Par.gram_gives T E.toDEnv (withC g (solveTri E.toDEnv r (E.kern.potrf (Par.gram T E.toDEnv g.C)).2 g.C))
      (Gives.ret _)

omit [Neg R] [Zero R] in
theorem chol_gives (s : GG K R r c) {f : ∀ p : Pos r c, Own K r c p → Prog (fun p => ℤ × Own K r c p) p}
    {x : ℤ × (ℕ → Fin N → K)}
    (h : Gives (fun p : Pos r c => f p (scatter r c s.g p.1 p.2))
      fun p => (x.1, scatter r c (withC s.g x.2) p.1 p.2)) :
    Gives (fun p : Pos r c => cholProg E (f p) (s.part p))
      fun p => ((gChol E x s).1, (gChol E x s).2.part p) := by
  refine h.bind ((Gives.ret _).congr fun p => Prod.ext rfl ?_)
  unfold gChol GG.part
  dsimp only
  cases E.aware with
  | true => rfl
  | false =>
    simp only [Bool.false_eq_true, if_false]
    congr 1
    split_ifs <;> rfl

omit [Neg R] [Zero R] in
theorem hhQR_gives (s : GG K R r c) :
    Gives (fun p : Pos r c => hhQRProg E p (s.part p)) fun p => ((gQrRoutines T E).hhQR s).part p := by
  unfold hhQRProg
  refine op_gives _ (fun _ : Pos r c => s.g.C) (fun p => funext fun k => Mpi.assemble_eq r fun _ _ => rfl) ?_
  refine (Gives.ret _).congr fun p => ?_
  unfold gQrRoutines GG.part scatter
  dsimp only
  congr 1
  · congr 1
    split_ifs
    · rfl
    · exact (cut_setBlk r p.1 _ _ s.g.C).symm
  · split_ifs <;> rfl
  · split_ifs <;> rfl

omit [Neg R] [Zero R] in
theorem lockCopy_eq (s : GG K R r c) (b : Bool) (p : Pos r c) :
    lockCopyOwn E b (s.part p) = ((gQrRoutines T E).lockCopy b s).part p := by
  have hC : Par.cut r p.1 (copyCols 0 s.g.locked s.g.C2 s.g.C) =
      copyCols 0 s.g.locked (Par.cut r p.1 s.g.C2) (Par.cut r p.1 s.g.C) := cut_copyCols r p.1 _ _ _ _
  unfold lockCopyOwn gQrRoutines GG.part scatter
  dsimp only
  congr 2
  · exact hC.symm
  · split_ifs
    · rfl
    · refine Eq.trans ?_ (cut_copyCols r p.1 _ _ _ s.g.C2).symm
      rw [hC]
      rfl

theorem qr_gives (k : ℕ) (cond : R) (s : GG K R r c) :
    Gives (fun p : Pos r c => qrProg T.const E p cond (s.part p)) fun p => ((), ((ggOps T E).qr k cond s).part p) := by
  have tail : ∀ x : ℤ × GG K R r c,
      Gives (fun p : Pos r c => if x.1 ≠ 0 then (hhQRProg E p (x.2.part p)).bind fun d => .ret ((), lockCopyOwn E true d)
        else .ret ((), lockCopyOwn E false (x.2.part p)))
      fun p => ((), (if x.1 ≠ 0 then (gQrRoutines T E).lockCopy true ((gQrRoutines T E).hhQR x.2)
        else (gQrRoutines T E).lockCopy false x.2).part p) := by
    rintro ⟨info, s'⟩
    by_cases hi : info ≠ 0
    · simp only [if_pos hi]
      exact (hhQR_gives T E s').bind ((Gives.ret _).congr fun p => Prod.ext rfl (lockCopy_eq T E _ true p))
    · simp only [if_neg hi]
      exact (Gives.ret _).congr fun p => Prod.ext rfl (lockCopy_eq T E s' false p)
  show Gives _ fun p : Pos r c => ((), (qrSelect (gQrRoutines T E) E.doCholQR E.envDisable (E.kern.above cond)
    (E.kern.below cond) s).part p)
  unfold qrProg qrSelect
  by_cases hd : cholDisable E.doCholQR E.envDisable = 1
  · simp only [if_pos hd]
    exact (hhQR_gives T E s).bind ((Gives.ret _).congr fun p => Prod.ext rfl (lockCopy_eq T E _ true p))
  · simp only [if_neg hd]
    by_cases hu : E.kern.above cond = true
    · simp only [if_pos hu]
      exact (chol_gives E s (Par.shiftedcholQR2_gives T E.toDEnv s.g)).bind (tail _)
    · simp only [if_neg hu]
      by_cases hl : E.kern.below cond = true
      · simp only [if_pos hl]
        exact (chol_gives E s (Par.cholQR1_gives T E.toDEnv s.g)).bind (tail _)
      · simp only [if_neg hl]
        exact (chol_gives E s (cholQR2Dev_gives T E s.g)).bind (tail _)

/-- **Every call.** -/
theorem call_gives (hc : RunsOk r c E.cRuns) (hb : RunsOk c r E.bRuns) (q : Req R) (s : GG K R r c) :
    Gives (fun p : Pos r c => callProg T.const E p q (s.part p))
      fun p => ((q.run (ggOps T E) s).1, (q.run (ggOps T E) s).2.part p) := by
  cases q with
  | checkSymmetryEasy => exact (Par.symCheck_gives T E.toDEnv hc hb s.g).bind (Gives.ret _)
  | start => exact Gives.ret _
  | finish =>
    refine (Gives.ret _).congr fun p => Prod.ext rfl ?_
    show (if E.aware then _ else _) = GG.part (if E.aware then _ else _) p
    split_ifs <;> rfl
  | initVecs b =>
    refine (Gives.ret _).congr fun p => Prod.ext rfl ?_
    show initVecsOwn E b (s.part p) = GG.part (GG.mk _ _ _ _ _) p
    unfold initVecsOwn GG.part
    dsimp only
    congr 1
    · exact Par.initVecs_eq T E.toDEnv b s.g p
    · split_ifs <;> rfl
  | qr k cond => exact qr_gives T E k cond s
  | lanczos1 m => exact (Par.call_gives T E.toDEnv hc hb (.lanczos1 m) s.view).bind (Gives.ret _)
  | lanczosN m k => exact (Par.call_gives T E.toDEnv hc hb (.lanczosN m k) s.view).bind (Gives.ret _)
  | lanczosDos i m z =>
    exact (Par.call_gives T E.toDEnv hc hb (.lanczosDos i m z) s.view).bind
      (f := fun p x => .ret (x.1, (s.part p).store x.2)) (Gives.ret _)
  | shift x b =>
    refine (Gives.ret _).congr fun p => Prod.ext rfl ?_
    show shiftOwn E _ (s.part p) = GG.part (GG.mk _ _ _ _ _) p
    unfold shiftOwn GG.part
    dsimp only
    congr 1
    funext a b
    rw [Par.shiftLocal_eq]
    show _ = shiftH _ _ _ _ _
    rw [shiftH_eq]
    rfl
  | hemm n a b o => exact hemm_gives T E s n _ _ o
  | rr b => exact rr_gives T E hc s b
  | resd f k => exact resd_gives T E hc s f k
  | lock k => exact Gives.ret _
  | swap i j =>
    refine (Gives.ret _).congr fun p => Prod.ext rfl ?_
    show (s.part p).store (swapOwn i j (scatter r c s.g p.1 p.2)) = s.part p
    rw [Par.swapOwn_eq]
    rfl

/-- Any sequence of calls. -/
theorem prog_gives (hc : RunsOk r c E.cRuns) (hb : RunsOk c r E.bRuns) {α : Type} (t : Script R α) (s : GG K R r c) :
    Gives (fun p : Pos r c => prog T.const E p t (s.part p))
      fun p => ((t.run (ggOps T E) s).1, (t.run (ggOps T E) s).2.part p) := by
  induction t generalizing s with
  | ret a => exact Gives.ret _
  | ask q k ih => exact (call_gives T E hc hb q s).bind (ih _ _)

end ParGpu
end Rounded
end Verif
