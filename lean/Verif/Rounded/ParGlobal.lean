/-
The distributed CPU backend in arbitrary arithmetic, stated without processes: the kernels of all processes, joined by
reductions that are the same on every communicator, make up an arithmetic for global vectors.
-/
import Verif.Rounded.Par
import Verif.Backend.MpiProps

namespace Verif
namespace Rounded
namespace Par

open Matrix
open Seq (NextOp)
open Mpi (Layout Proc redist assemble GSt)

variable {K R : Type} {N : ℕ}

/-- Reductions that are the same function on every column communicator and on every row communicator. -/
structure Red1 (K R : Type) {N : ℕ} (r c : Layout N) where
  colK : ∀ {ι : Type}, (Fin r.procs → ι → K) → ι → K
  rowK : ∀ {ι : Type}, (Fin c.procs → ι → K) → ι → K
  colR : ∀ {ι : Type}, (Fin r.procs → ι → R) → ι → R
  rowR : ∀ {ι : Type}, (Fin c.procs → ι → R) → ι → R

variable {r c : Layout N}

/-- The same reductions on every communicator. -/
def Red1.const (T : Red1 K R r c) : Reds K R r c where
  colK := fun _ {_} x => T.colK x
  rowK := fun _ {_} x => T.rowK x
  colR := fun _ {_} x => T.colR x
  rowR := fun _ {_} x => T.rowR x

/-! ### Parts of global objects, and global objects from parts -/

/-- The block of process `(i, j)`. -/
def cutH (r c : Layout N) (i : Fin r.procs) (j : Fin c.procs) (H : Matrix (Fin N) (Fin N) K) :
    Matrix (Fin (r.size i)) (Fin (c.size j)) K := fun a b => H (r.glob i a) (c.glob j b)

/-- The rows of process `p`. -/
def cutV (L : Layout N) (p : Fin L.procs) (v : Fin N → K) : Fin (L.size p) → K := fun a => v (L.glob p a)
def cut (L : Layout N) (p : Fin L.procs) (V : ℕ → Fin N → K) : ℕ → Fin (L.size p) → K := fun k => cutV L p (V k)
def cutM (L : Layout N) (p : Fin L.procs) {b : ℕ} (X : Matrix (Fin N) (Fin b) K) : Matrix (Fin (L.size p)) (Fin b) K :=
  fun a k => X (L.glob p a) k

/-- The vectors with given rows on every process. -/
noncomputable def join (L : Layout N) (f : ∀ p : Fin L.procs, ℕ → Fin (L.size p) → K) : ℕ → Fin N → K :=
  fun k => assemble L fun p => f p k
noncomputable def joinM (L : Layout N) {b : ℕ} (f : ∀ p : Fin L.procs, Matrix (Fin (L.size p)) (Fin b) K) :
    Matrix (Fin N) (Fin b) K := fun n k => assemble L (fun p a => f p a k) n

/-- Parts of the vectors of `mLanczos`. -/
def cutL (L : Layout N) (p : Fin L.procs) (l : LVec K N) : LVec K (L.size p) :=
  ⟨cut L p l.v0, cut L p l.v1, cut L p l.v2, cut L p l.C⟩
noncomputable def joinL (L : Layout N) (f : ∀ p : Fin L.procs, LVec K (L.size p)) : LVec K N :=
  ⟨join L fun p => (f p).v0, join L fun p => (f p).v1, join L fun p => (f p).v2, join L fun p => (f p).C⟩

variable (T : Red1 K R r c) (E : DEnv K R)

/-! ### The kernels on global vectors -/

/-- `α H^* X + β Y`: a product on every process, reduced in the columns of the grid. -/
noncomputable def mulAdj {b : ℕ} (H : Matrix (Fin N) (Fin N) K) (α β : K) (X Y : Matrix (Fin N) (Fin b) K) :
    Matrix (Fin N) (Fin b) K :=
  joinM c fun j => square (T.colK fun i => flat (E.kern.gemmAdj (cutH r c i j H) α
    (if i.val ≠ 0 then E.kern.zero else β) (cutM r i X) (cutM c j Y)))

/-- `α H X + β Y`, reduced in the rows of the grid. -/
noncomputable def mul {b : ℕ} (H : Matrix (Fin N) (Fin N) K) (α β : K) (X Y : Matrix (Fin N) (Fin b) K) :
    Matrix (Fin N) (Fin b) K :=
  joinM r fun i => square (T.rowK fun j => flat (E.kern.gemm (cutH r c i j H) α
    (if j.val ≠ 0 then E.kern.zero else β) (cutM c j X) (cutM r i Y)))

/-- The Gram matrix of the first columns. -/
def gram (V : ℕ → Fin N → K) : Matrix (Fin E.nevex) (Fin E.nevex) K :=
  square (T.colK fun i => flat (E.kern.syherk (getBlk 0 E.nevex (cut r i V))))

/-- `t_trsm` on every process. -/
noncomputable def solveTri (r : Layout N) {b : ℕ} (A : Matrix (Fin b) (Fin b) K) (V : ℕ → Fin N → K) : ℕ → Fin N → K :=
  join r fun i => E.kern.trsm A (cut r i V)

/-- The Cholesky variants. -/
noncomputable def chol1 (V : ℕ → Fin N → K) : ℤ × (ℕ → Fin N → K) :=
  let x := E.kern.potrf (gram T E V)
  if x.1 ≠ 0 then (x.1, V) else (x.1, solveTri E r x.2 V)
noncomputable def chol2 (V : ℕ → Fin N → K) : ℤ × (ℕ → Fin N → K) :=
  let x := E.kern.potrf (gram T E V)
  if x.1 ≠ 0 then (x.1, V)
  else
    let V := solveTri E r x.2 V
    let y := E.kern.potrf (gram T E V)
    (y.1, solveTri E r y.2 V)
noncomputable def shiftedChol2 (V : ℕ → Fin N → K) : ℤ × (ℕ → Fin N → K) :=
  let x := E.kern.potrf (E.kern.shiftGram N (gram T E V))
  if x.1 ≠ 0 then (x.1, V)
  else
    let V := solveTri E r x.2 V
    let y := E.kern.potrf (gram T E V)
    if y.1 ≠ 0 then (y.1, V)
    else
      let V := solveTri E r y.2 V
      (y.1, solveTri E r (E.kern.potrf (gram T E V)).2 V)

/-- A step of `mLanczos`. -/
noncomputable def lanczosStep [Neg R] [Zero R] (H : Matrix (Fin N) (Fin N) K) (M numvec : ℕ) (store : Bool) (k : ℕ)
    (l : LVec K N × LCoef R) : LVec K N × LCoef R :=
  let w := mulAdj T E H E.kern.one E.kern.zero (getBlk 0 numvec l.1.v1) fun _ _ => E.kern.zero
  let v2 := setBlk 0 w l.1.v2
  let nalpha := ext E.kern.zero (T.colK fun i (t : Fin numvec) =>
    E.kern.neg (E.kern.dot (cutV r i (l.1.v1 t)) (cutV r i (v2 t))))
  let W := join r fun i => stepW E numvec k (cutL r i l.1) l.2 (cut r i v2) nalpha
  let co := stepCoef E M numvec k l.2 nalpha
    (ext 0 (T.colR fun i (t : Fin numvec) => E.kern.nrm2sq (cutV r i (W t))))
  (joinL r fun i => stepVec E M numvec store k (cutL r i l.1) (cut r i W) co.rbeta, co)

/-- `mLanczos`. -/
noncomputable def mLanczos [Neg R] [Zero R] (H : Matrix (Fin N) (Fin N) K) (V : ℕ → Fin N → K) (M numvec : ℕ)
    (store : Bool) : LVec K N × LCoef R :=
  let nrm := ext 0 (T.colR fun i (t : Fin numvec) => E.kern.nrm2sq (cutV r i (V t)))
  let start : LVec K N × LCoef R :=
    (joinL r fun i => (lanczosInit E numvec (cut r i V) nrm).1, (lanczosInit E numvec V nrm).2)
  lanczosDone numvec store (forRange 0 M (lanczosStep T E H M numvec store) start)

/-- The symmetry check: the two products with the test vector agree in every entry. -/
noncomputable def symCheckG (H : Matrix (Fin N) (Fin N) K) : Bool :=
  open Classical in
  let v := assemble r fun i a => E.probe i a
  decide (∀ n, ¬ E.kern.differ (mulAdj T E H E.kern.one E.kern.zero (one v) (one fun _ => E.kern.zero) n 0)
    (mul T E H E.kern.one E.kern.zero (one v) (one fun _ => E.kern.zero) n 0) = true)

/-- **The arithmetic that the processes make up together**: each operation is performed by the kernels on the parts,
and reduced where the code reduces.  `nrm2` is the norm of a vector that is reduced alone; `Resd` reduces the norms of
all vectors at once (`gResd`). -/
noncomputable def distArith [Neg R] [Zero R] : Arith K R N where
  ofBase := E.kern.ofBase
  zero := E.kern.zero
  one := E.kern.one
  add := E.kern.add
  randn := fun k => assemble r fun i a => E.gen i (k * r.size i + a)
  symCheck := symCheckG T E
  gemm := fun adj H α β X Y => if adj then mulAdj T E H α β X Y else mul T E H α β X Y
  gemmProj := fun X Y => square (T.rowK fun j => flat (E.kern.proj (cutM c j X) (cutM c j Y)))
  gemmBack := fun X Z => joinM r fun i => E.kern.back (cutM r i X) Z
  heevd := E.kern.heevd
  axpy := fun α x y => assemble c fun j => E.kern.axpy α (cutV c j x) (cutV c j y)
  nrm2 := fun x => E.kern.sqrt (T.rowR (fun j (_ : Fin 1) => E.kern.normp2 (cutV c j x)) 0)
  hhQR := fun V => setBlk 0 (E.kern.hhqr (getBlk 0 E.nevex V)) V
  cholQR1 := chol1 T E
  cholQR2 := chol2 T E
  shiftedcholQR2 := shiftedChol2 T E
  lanczos1 := fun m H V =>
    let l := (mLanczos T E H V m 1 false).2
    E.kern.bound m l.d l.e l.rbeta
  lanczosN := fun m numvec H V =>
    let l := mLanczos T E H V m numvec true
    (E.kern.multi m numvec l.2.d l.2.e l.2.rbeta, l.1.C)
  above := E.kern.above
  below := E.kern.below

/-! ### The backend -/

/-- `Resd`. -/
noncomputable def gResd [Neg R] [Zero R] (ritzv : ℕ → R) (locked u : ℕ) (s : Seq.St K N) : (ℕ → R) × Seq.St K N :=
  let A := distArith T E
  let s := asynCxHGatherC A locked u s
  let x : ℕ → Fin N → K := fun t => A.axpy (A.ofBase (-ritzv t)) (s.B2 (locked + t)) (s.B (locked + t))
  (ext 0 fun t : Fin u => E.kern.sqrt (T.rowR (fun j (t : Fin u) => E.kern.normp2 (cutV c j (x t))) t),
    { s with B := writeAt s.B locked u x })

/-- The orthogonalisation routines. -/
noncomputable def gQrRoutines [Neg R] [Zero R] (locked : ℕ) : QrRoutines (GSt K N) where
  hhQR := fun g => { g with C := (distArith T E).hhQR g.C, next := if E.scalapack then g.next else .bAc }
  cholQR1 := fun g => ((chol1 T E g.C).1, { g with C := (chol1 T E g.C).2 })
  cholQR2 := fun g => ((chol2 T E g.C).1, { g with C := (chol2 T E g.C).2 })
  shiftedcholQR2 := fun g => ((shiftedChol2 T E g.C).1, { g with C := (shiftedChol2 T E g.C).2 })
  lockCopy := fun _ g => { g with toSt := lockVectorCopy E.toParams locked g.toSt }

/-- The distributed backend as one program on global data. -/
noncomputable def gOps [Neg R] [Zero R] : Chase R (GSt K N) where
  checkSymmetryEasy := fun g => (symCheckG T E g.H, { g with isSym := symCheckG T E g.H })
  start := fun g => { g with locked := 0 }
  finish := fun g => g
  initVecs := fun random g => ⟨initVecs E.toParams
    (if random then initRndVecs (distArith T E) E.toParams g.toSt else g.toSt), g.fresh⟩
  qr := fun _ cond g => qrSelect (gQrRoutines T E g.locked) E.doCholQR E.envDisable (E.kern.above cond)
    (E.kern.below cond) g
  lanczos1 := fun m g => ((distArith T E).lanczos1 m g.H g.C, g)
  lanczosN := fun m numvec g => (((distArith T E).lanczosN m numvec g.H g.C).1,
    { g with C := ((distArith T E).lanczosN m numvec g.H g.C).2 })
  lanczosDos := fun idx m z g => { g with toSt := lanczosDos (distArith T E) idx m z g.toSt }
  shift := fun x _ g => { g with
    H := shiftH (distArith T E) (E.kern.ofBase x) g.H
    next := if g.fresh then .bAc else g.next
    fresh := false }
  hemm := fun block α β offset g =>
    { g with toSt := apply (distArith T E) (E.kern.ofBase α) (E.kern.ofBase β) offset block g.locked g.toSt }
  rr := fun block g => ((rr (distArith T E) 0 block g.locked g.toSt).1,
    { g with toSt := (rr (distArith T E) 0 block g.locked g.toSt).2 })
  resd := fun ritzv fixednev g => ((gResd T E ritzv g.locked (E.nevex - fixednev) g.toSt).1,
    { g with toSt := (gResd T E ritzv g.locked (E.nevex - fixednev) g.toSt).2 })
  lock := fun k g => { g with locked := g.locked + k }
  swap := fun _ _ g => g

end Par
end Rounded
end Verif
