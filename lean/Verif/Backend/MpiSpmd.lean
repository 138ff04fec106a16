/-
The distributed CPU backend as every process runs it: programs in the sense of Dist/Spmd, one for each
call of the interface, with the collective operations of ChASE-MPI/impl/chase_mpidla.hpp (cited as dla)
in the order in which the code issues them and local computation in between.

Backend/Mpi describes the same calls as functions of the states of all processes.  Here process `p` knows
its own data only, and takes its decisions itself: in which direction `HEMM` goes (`next`), which runs of a
redistribution concern it, whether a Cholesky factorisation failed.

Simplifications: the broadcasts of one redistribution or collection that the code posts without waiting
(`MPI_Ibcast`, dla 1507-1541, 1594-1631, 558-588) are performed one after another, or for
`collecRedundantVecs` as one operation, and so is ScaLAPACK's factorisation.
-/
import Verif.Backend.Mpi
import Verif.Dist.Spmd
import Verif.Solver.Script

namespace Verif
namespace Mpi

open Matrix
open Seq (NextOp)
open Spmd

namespace Spmd

variable {K : Type} [RCLike K] {N : ℕ} {r c : Layout N}

/-- The processes: process `(i, j)` is in row `i` and column `j` of the grid. -/
abbrev Pos (r c : Layout N) : Type := Fin r.procs × Fin c.procs

/-- The data of a process. -/
abbrev Own (K : Type) (r c : Layout N) (p : Pos r c) : Type := Proc K (r.size p.1) (c.size p.2)

/-! ### Collective operations -/

/-- `MPI_Allreduce` with `MPI_SUM` on the column communicator: all processes `(i, j)` of column `j`. -/
def sumCol (V : Fin c.procs → Type) [∀ j, AddCommMonoid (V j)] :
    Coll (Pos r c) (fun p => V p.2) (fun p => V p.2) where
  comm := fun p q => p.2 = q.2
  equiv := ⟨fun _ => rfl, fun h => h.symm, fun h h' => h.trans h'⟩
  act := fun p x => ∑ i', x (i', p.2) rfl

/-- `MPI_Allreduce` with `MPI_SUM` on the row communicator. -/
def sumRow (V : Fin r.procs → Type) [∀ i, AddCommMonoid (V i)] :
    Coll (Pos r c) (fun p => V p.1) (fun p => V p.1) where
  comm := fun p q => p.1 = q.1
  equiv := ⟨fun _ => rfl, fun h => h.symm, fun h h' => h.trans h'⟩
  act := fun p x => ∑ j', x (p.1, j') rfl

/-- `MPI_Allreduce` with `MPI_LAND` on the column communicator. -/
def andCol : Coll (Pos r c) (fun _ => Bool) (fun _ => Bool) where
  comm := fun p q => p.2 = q.2
  equiv := ⟨fun _ => rfl, fun h => h.symm, fun h h' => h.trans h'⟩
  act := fun p x => decide (∀ i', x (i', p.2) rfl = true)

omit [RCLike K] in
/-- The entries of a run taken from a local vector, `none` where the vector has no entry (C++ would read
foreign memory): dla 691-693, 1579-1581. -/
def pack (run : Dist.Run) (block : ℕ) {m : ℕ} (v : ℕ → Fin m → K) : ℕ → ℕ → Option K := fun k t =>
  if k < block ∧ t < run.len then
    if h : run.srcDisp + t < m then some (v k ⟨_, h⟩) else none
  else none

omit [RCLike K] in
/-- The entries of a run written to a local vector: dla 697-698, 1585-1586. -/
def unpack (run : Dist.Run) {n : ℕ} (x : ℕ → Option K) (dst : Fin n → K) : Fin n → K := fun b =>
  if run.destDisp ≤ b.val ∧ b.val < run.destDisp + run.len then
    (x (b.val - run.destDisp)).getD (dst b)
  else dst b

omit [RCLike K] in
/-- `Bcast` of a run from process row `run.src` in the column communicator: dla 695. -/
def bcastCol (run : Dist.Run) (block : ℕ) :
    Coll (Pos r c) (fun p => ℕ → Fin (r.size p.1) → K) (fun _ => ℕ → ℕ → Option K) where
  comm := fun p q => p.2 = q.2
  equiv := ⟨fun _ => rfl, fun h => h.symm, fun h h' => h.trans h'⟩
  act := fun p x => if h : run.src < r.procs then pack run block (x (⟨run.src, h⟩, p.2) rfl)
    else fun _ _ => none

omit [RCLike K] in
/-- `Bcast` of a run from process column `run.src` in the row communicator: dla 1583. -/
def bcastRow (run : Dist.Run) (block : ℕ) :
    Coll (Pos r c) (fun p => ℕ → Fin (c.size p.2) → K) (fun _ => ℕ → ℕ → Option K) where
  comm := fun p q => p.1 = q.1
  equiv := ⟨fun _ => rfl, fun h => h.symm, fun h h' => h.trans h'⟩
  act := fun p x => if h : run.src < c.procs then pack run block (x (p.1, ⟨run.src, h⟩) rfl)
    else fun _ _ => none

omit [RCLike K] in
/-- All broadcasts of `collecRedundantVecs` in the column communicator (dla 558-588), or ScaLAPACK's access
to the vectors of the column. -/
noncomputable def collectCol :
    Coll (Pos r c) (fun p => ℕ → Fin (r.size p.1) → K) (fun _ => ℕ → Fin N → K) where
  comm := fun p q => p.2 = q.2
  equiv := ⟨fun _ => rfl, fun h => h.symm, fun h h' => h.trans h'⟩
  act := fun p x => fun k => assemble r fun i' => x (i', p.2) rfl k

/-! ### Redistribution -/

omit [RCLike K] in
/-- From the row layout to the column layout, `block` columns: dla 685-700 and `C2B` (dla 1594-1631).  A
process takes part in the broadcasts of the runs for its own column. -/
def c2b (p : Pos r c) (block : ℕ) (src : ℕ → Fin (r.size p.1) → K) :
    List Dist.Run → (ℕ → Fin (c.size p.2) → K) → Prog (fun p => ℕ → Fin (c.size p.2) → K) p
  | [], dst => .ret dst
  | run :: runs, dst =>
    if p.2.val = run.dest then
      .op (bcastCol run block) src fun x => c2b p block src runs fun k => unpack run (x k) (dst k)
    else c2b p block src runs dst

omit [RCLike K] in
/-- From the column layout to the row layout: `B2C` (dla 1507-1541). -/
def b2c (p : Pos r c) (block : ℕ) (src : ℕ → Fin (c.size p.2) → K) :
    List Dist.Run → (ℕ → Fin (r.size p.1) → K) → Prog (fun p => ℕ → Fin (r.size p.1) → K) p
  | [], dst => .ret dst
  | run :: runs, dst =>
    if p.1.val = run.dest then
      .op (bcastRow run block) src fun x => b2c p block src runs fun k => unpack run (x k) (dst k)
    else b2c p block src runs dst

/-! ### The calls -/

variable (E : MEnv K)

/-- `checkSymmetryEasy`: dla 757-820. -/
noncomputable def symCheckProg (p : Pos r c) (d : Own K r c p) :
    Prog (fun p => Bool × Own K r c p) p :=
  let v : Fin (r.size p.1) → K := fun a => E.probe p.1 a
  (c2b p 1 (fun _ => v) E.cRuns (fun _ _ => 0)).bind fun v2 =>
  .op (sumCol fun j => Fin (c.size j) → K) (d.Hᴴ.mulVec v) fun u =>
  .op (sumRow fun i => Fin (r.size i) → K) (d.H.mulVec (v2 0)) fun uT =>
  (b2c p 1 (fun _ => u) E.bRuns (fun _ => v)).bind fun w =>
  let ok := open Classical in
    forRange 0 (r.size p.1) (fun k ok =>
      if h : k < r.size p.1 then (ok && !decide (‖w 0 ⟨k, h⟩ - uT ⟨k, h⟩‖ > E.symTol)) else ok) true
  .op andCol ok fun b => .ret (b, { d with isSym := b })

/-- `apply`: dla 472-523; the reduction is over the column or the row communicator. -/
noncomputable def hemmProg (p : Pos r c) (block : ℕ) (α β : K) (offset : ℕ) (d : Own K r c p) :
    Prog (fun p => Unit × Own K r c p) p :=
  match d.next with
  | .bAc =>
    .op (sumCol fun j => Matrix (Fin (c.size j)) (Fin block) K)
      (gemmB α β (d.locked + offset) block p.1 d) fun X =>
    .ret ((), { d with B := setBlk (d.locked + offset) X d.B, next := .cAb })
  | .cAb =>
    .op (sumRow fun i => Matrix (Fin (r.size i)) (Fin block) K)
      (gemmC α β (d.locked + offset) block p.2 d) fun X =>
    .ret ((), { d with C := setBlk (d.locked + offset) X d.C, next := .bAc })

/-- `asynCxHGatherC`: dla 657-716. -/
def gatherProg (p : Pos r c) (block : ℕ) (d : Own K r c p) : Prog (fun p => Own K r c p) p :=
  (c2b p block (fun k => d.C2 (d.locked + k)) E.cRuns (fun k => d.B2 (d.locked + k))).bind fun x =>
  .op (sumCol fun j => Matrix (Fin (c.size j)) (Fin block) K) (d.Hᴴ * getBlk d.locked block d.C) fun X =>
  .ret { d with B2 := writeAt d.B2 d.locked block x, B := setBlk d.locked X d.B }

/-- `RR`: dla 952-982. -/
def rrProg (p : Pos r c) (block : ℕ) (d : Own K r c p) :
    Prog (fun p => (ℕ → ℝ) × Own K r c p) p :=
  (gatherProg E p block d).bind fun d =>
  .op (sumRow fun _ => Matrix (Fin block) (Fin block) K)
    ((getBlk d.locked block d.B2)ᴴ * getBlk d.locked block d.B) fun A =>
  let vals := (E.base.lapack.heevd A).1
  let Z := (E.base.lapack.heevd A).2
  let C := setBlk d.locked (getBlk d.locked block d.C2 * Z) d.C
  .ret (fun t => if h : t < block then vals ⟨t, h⟩ else 0,
    { d with C := C, C2 := copyCols d.locked block C d.C2 })

/-- `Resd`: dla 984-1020. -/
noncomputable def resdProg (p : Pos r c) (ritzv : ℕ → ℝ) (fixednev : ℕ) (d : Own K r c p) :
    Prog (fun p => (ℕ → ℝ) × Own K r c p) p :=
  let u := E.base.nevex - fixednev
  (gatherProg E p u d).bind fun d =>
  .op (sumRow fun _ => Fin u → ℝ) (fun t => (resdLocal ritzv d.locked u d).1 t) fun x =>
  .ret (fun t => if h : t < u then Real.sqrt (x ⟨t, h⟩) else 0,
    { d with B := (resdLocal ritzv d.locked u d).2 })

/-- The Gram matrix of the vectors in the column communicator: dla 1160-1163. -/
noncomputable def gramProg {α : Pos r c → Type} (p : Pos r c) (d : Own K r c p)
    (k : Matrix (Fin E.base.nevex) (Fin E.base.nevex) K → Prog α p) : Prog α p :=
  .op (sumCol fun _ => Matrix (Fin E.base.nevex) (Fin E.base.nevex) K)
    (syherk (getBlk 0 E.base.nevex d.C)) k

/-- `cholQR1`: dla 1145-1179. -/
noncomputable def cholQR1Prog (p : Pos r c) (d : Own K r c p) :
    Prog (fun p => ℤ × Own K r c p) p :=
  gramProg E p d fun A =>
  let (info, A) := E.base.lapack.potrf A
  if info ≠ 0 then .ret (info, d) else .ret (info, { d with C := trsm A d.C })

/-- `cholQR2`: dla 1181-1227. -/
noncomputable def cholQR2Prog (p : Pos r c) (d : Own K r c p) :
    Prog (fun p => ℤ × Own K r c p) p :=
  gramProg E p d fun A =>
  let (info1, A) := E.base.lapack.potrf A
  if info1 ≠ 0 then .ret (info1, d)
  else
    let d : Own K r c p := { d with C := trsm A d.C }
    gramProg E p d fun A =>
    let (info, A) := E.base.lapack.potrf A
    .ret (info, { d with C := trsm A d.C })

/-- `shiftedcholQR2`: dla 1229-1306. -/
noncomputable def shiftedcholQR2Prog (p : Pos r c) (d : Own K r c p) :
    Prog (fun p => ℤ × Own K r c p) p :=
  gramProg E p d fun A =>
  let (info1, A) := E.base.lapack.potrf (shiftDiag A (cholShift (N := N) E.base.lapack A : K))
  if info1 ≠ 0 then .ret (info1, d)
  else
    let d : Own K r c p := { d with C := trsm A d.C }
    gramProg E p d fun A =>
    let (info2, A) := E.base.lapack.potrf A
    if info2 ≠ 0 then .ret (info2, d)
    else
      let d : Own K r c p := { d with C := trsm A d.C }
      gramProg E p d fun A =>
      let (_, A) := E.base.lapack.potrf A
      .ret (info2, { d with C := trsm A d.C })

/-- `hhQR`: dla 1054-1118. -/
noncomputable def hhQRProg (p : Pos r c) (d : Own K r c p) : Prog (fun p => Own K r c p) p :=
  .op collectCol d.C fun V =>
  .ret { d with
    C := setBlk 0 (fun a k => E.base.lapack.hhqr (getBlk 0 E.base.nevex V) (r.glob p.1 a) k) d.C
    next := if E.scalapack then d.next else .bAc }

/-- `lockVectorCopyAndOrthoConcatswap`: dla 1344-1358. -/
def lockCopyOwn {p : Pos r c} (d : Own K r c p) : Own K r c p :=
  let C := copyCols 0 d.locked d.C2 d.C
  { d with C := C, C2 := copyCols d.locked (E.base.nevex - d.locked) C d.C2 }

/-- `ChaseMpi::QR`: chase_mpi.hpp 351-427 (cf. `qrSelect`). -/
noncomputable def qrProg (p : Pos r c) (cond : ℝ) (d : Own K r c p) :
    Prog (fun p => Unit × Own K r c p) p :=
  open Classical in
  if cholDisable E.base.doCholQR E.base.envDisable = 1 then
    (hhQRProg E p d).bind fun d => .ret ((), lockCopyOwn E d)
  else
    (if cond > E.base.condUpper then shiftedcholQR2Prog E p d
      else if cond < E.base.condLower then cholQR1Prog E p d
      else cholQR2Prog E p d).bind fun x =>
    if x.1 ≠ 0 then (hhQRProg E p x.2).bind fun d => .ret ((), lockCopyOwn E d)
    else .ret ((), lockCopyOwn E x.2)

/-- Body of the loop of `mLanczos`: dla 1410-1497. -/
noncomputable def lanczosStepProg (p : Pos r c) (d : Own K r c p) (M numvec : ℕ) (store : Bool) (k : ℕ)
    (l : LSt K (r.size p.1)) : Prog (fun p => LSt K (r.size p.1)) p :=
  let C := if store then forRange 0 numvec (fun t C => Function.update C k (l.v1 t)) l.C else l.C
  .op (sumCol fun j => ℕ → Fin (c.size j) → K) (fun t => d.Hᴴ.mulVec (l.v1 t)) fun w =>
  (b2c p numvec w E.bRuns l.v2).bind fun v2 =>
  .op (sumCol fun _ => ℕ → K) (fun t => -dotc (l.v1 t) (v2 t)) fun nalpha =>
  let w1 := writeAt v2 0 numvec (fun t => nalpha t • l.v1 t + v2 t)
  let dd := forRange 0 numvec (fun t d => Function.update d (k + M * t) (RCLike.re (-nalpha t))) l.d
  let w := if k > 0 then writeAt w1 0 numvec (fun t => (-(l.rbeta t : K)) • l.v0 t + w1 t) else w1
  .op (sumCol fun _ => ℕ → ℝ) (fun t => nrm2 (w t) ^ 2) fun nrm =>
  let rbeta := writeAt l.rbeta 0 numvec (fun t => Real.sqrt (nrm t))
  .ret (if k = M - 1 then { l with C := C, v2 := w, d := dd, rbeta := rbeta }
    else
    { v0 := l.v1
      v1 := writeAt w 0 numvec (fun t => ((1 / rbeta t : ℝ) : K) • w t)
      v2 := l.v0
      d := dd
      e := forRange 0 numvec (fun t e => Function.update e (k + M * t) (rbeta t)) l.e
      rbeta := rbeta
      C := C })

/-- `n` iterations. -/
def loopP {α : Pos r c → Type} {p : Pos r c} (body : ℕ → α p → Prog α p) : ℕ → ℕ → α p → Prog α p
  | _, 0, a => .ret a
  | lo, n + 1, a => (body lo a).bind (loopP body (lo + 1) n)

/-- `mLanczos`: dla 1376-1505. -/
noncomputable def mLanczosProg (p : Pos r c) (d : Own K r c p) (M numvec : ℕ) (store : Bool) :
    Prog (fun p => LSt K (r.size p.1)) p :=
  .op (sumCol fun _ => ℕ → ℝ) (fun t => nrm2 (d.C t) ^ 2) fun nrm =>
  let l0 : LSt K (r.size p.1) :=
    { v0 := fun _ _ => 0
      v1 := fun t => ((1 / Real.sqrt (nrm t) : ℝ) : K) • d.C t
      v2 := fun _ _ => 0, d := fun _ => 0, e := fun _ => 0, rbeta := fun _ => 0
      C := d.C }
  (loopP (fun k l => lanczosStepProg E p d M numvec store k l) 0 M l0).bind fun l =>
  .ret (if store then { l with C := copyCols 0 numvec l.v1 l.C } else l)

omit [RCLike K] in
/-- `Swap`: dla 1360-1369. -/
def swapOwn {p : Pos r c} (a b : ℕ) (d : Own K r c p) : Own K r c p :=
  let vv := d.C a
  let C := Function.update d.C a (d.C b)
  let C := Function.update C b vv
  let vv := C a
  let C := Function.update C a (C b)
  let C := Function.update C b vv
  { d with C := C }

/-- `LanczosDos`: blas 332-340. -/
def lanczosDosOwn {p : Pos r c} (idx m : ℕ) (ritzVc : ℕ → ℝ) (d : Own K r c p) : Own K r c p :=
  let Z : Matrix (Fin m) (Fin idx) K := fun a b => (ritzVc (a + b * m) : K)
  let C2 := setBlk 0 (getBlk 0 m d.C * Z) d.C2
  { d with C2 := C2, C := copyCols 0 m C2 d.C }

/-- `initVecs` (dla 373-383), after `initRndVecs` (blas 85-95) unless start vectors are given. -/
def initVecsOwn {p : Pos r c} (random : Bool) (d : Own K r c p) : Own K r c p :=
  let C := if random then writeAt d.C 0 E.base.nevex (fun k a => E.gen p.1 (k * r.size p.1 + a)) else d.C
  { d with C := C, next := .bAc, C2 := copyCols 0 E.base.nevex C d.C2 }

/-- `shiftMatrix`: dla 725-741. -/
def shiftOwn {p : Pos r c} (x : K) (d : Own K r c p) : Own K r c p :=
  { d with
    next := if d.fresh then .bAc else d.next
    fresh := false
    H := shiftLocal (r.tab p.1) (c.tab p.2) x d.H }

/-- What process `p` does for a call of the interface: chase_mpi.hpp 255-560. -/
noncomputable def callProg (p : Pos r c) : (q : Req ℝ) → Own K r c p →
    Prog (fun p => q.Ans × Own K r c p) p
  | .checkSymmetryEasy, d => symCheckProg E p d
  | .start, d => .ret ((), { d with locked := 0 })
  | .finish, d => .ret ((), d)
  | .initVecs random, d => .ret ((), initVecsOwn E random d)
  | .qr _ cond, d => qrProg E p cond d
  | .lanczos1 m, d => (mLanczosProg E p d m 1 false).bind fun l =>
      .ret (boundOf E.base.lapack m l, d)
  | .lanczosN m numvec, d => (mLanczosProg E p d m numvec true).bind fun l =>
      .ret (multiOf E.base.lapack m numvec l, { d with C := l.C })
  | .lanczosDos idx m z, d => .ret ((), lanczosDosOwn idx m z d)
  | .shift x _, d => .ret ((), shiftOwn (x : K) d)
  | .hemm block α β offset, d => hemmProg p block (α : K) (β : K) offset d
  | .rr block, d => rrProg E p block d
  | .resd ritzv fixednev, d => resdProg E p ritzv fixednev d
  | .lock k, d => .ret ((), { d with locked := d.locked + k })
  | .swap a b, d => .ret ((), swapOwn a b d)

/-- What process `p` does for a sequence of calls: each process runs the algorithm itself. -/
noncomputable def prog {α : Type} (p : Pos r c) : Script ℝ α → Own K r c p →
    Prog (fun p => α × Own K r c p) p
  | .ret a, d => .ret (a, d)
  | .ask q k, d => (callProg E p q d).bind fun x => prog p (k x.1) x.2

/-- `Solve` on process `p`: the algorithm (Solver/Script) on the process's own data. -/
noncomputable def solveProg (P : Plat ℝ) (cfg : Config ℝ) (ritzv0 resid0 : ℕ → ℝ) (p : Pos r c)
    (d : Own K r c p) : Prog (fun p => Except Err (Outcome ℝ Unit) × Own K r c p) p :=
  prog E p (solveT P cfg ritzv0 resid0) d

end Spmd
end Mpi
end Verif
