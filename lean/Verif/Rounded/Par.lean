/-
The distributed CPU backend in arbitrary arithmetic, as every process runs it: the programs of Backend/MpiSpmd with
every numerical kernel and every reduction a parameter.  Cited are ChASE-MPI/impl/chase_mpidla.hpp as dla,
ChASE-MPI/impl/chase_mpidla_blaslapack.hpp as blas, ChASE-MPI/chase_mpi.hpp as chase_mpi.

A reduction is a function of the whole buffers that the processes of a communicator contribute, and may be another
function on another communicator: MPI only promises a sum in some order of the operations.  Nothing is broadcast to
make the processes agree; each decides by itself, on the numbers it got.

Simplifications, besides those of Backend/MpiSpmd: a kernel is the same function on every process and in every call;
in `RR` the code reduces `nev + nex` rows of the projected matrix (dla 966-967), here only the rows that are used;
a new buffer that a product with `beta = 0` overwrites is filled with zeros.
-/
import Verif.Backend.MpiSpmd
import Verif.Rounded.Seq

namespace Verif
namespace Rounded
namespace Par

open Matrix
open Seq (NextOp)
open Verif.Spmd
open Mpi (Layout Proc redist assemble)
open Mpi.Spmd (Pos Own c2b b2c collectCol andCol swapOwn loopP)

/-- The numerical kernels that a process applies to its own data; `K` is the type `T` of the elements and `R` the type
`Base<T>`. -/
structure Kern (K R : Type) where
  /-- conversion from `Base<T>` to `T` -/
  ofBase : R → K
  zero : K
  one : K
  /-- `operator+=` of `T`, in `shiftMatrix` -/
  add : K → K → K
  /-- `operator-` of `T`, in `mLanczos` -/
  neg : K → K
  /-- the comparison of `checkSymmetryEasy`: dla 809 -/
  differ : K → K → Bool
  /-- `t_gemm` with a block of the matrix on the left: `α H X + β Y` -/
  gemm : ∀ {m n b : ℕ}, Matrix (Fin m) (Fin n) K → K → K → Matrix (Fin n) (Fin b) K → Matrix (Fin m) (Fin b) K →
    Matrix (Fin m) (Fin b) K
  /-- `t_gemm` with its adjoint on the left -/
  gemmAdj : ∀ {m n b : ℕ}, Matrix (Fin m) (Fin n) K → K → K → Matrix (Fin m) (Fin b) K → Matrix (Fin n) (Fin b) K →
    Matrix (Fin n) (Fin b) K
  /-- `t_gemm` of the adjoint of a block of vectors and a block of vectors -/
  proj : ∀ {n b : ℕ}, Matrix (Fin n) (Fin b) K → Matrix (Fin n) (Fin b) K → Matrix (Fin b) (Fin b) K
  /-- `t_gemm` of a block of vectors and a small matrix -/
  back : ∀ {m b c : ℕ}, Matrix (Fin m) (Fin b) K → Matrix (Fin b) (Fin c) K → Matrix (Fin m) (Fin c) K
  /-- `t_heevd` -/
  heevd : ∀ {b : ℕ}, Matrix (Fin b) (Fin b) K → (Fin b → R) × Matrix (Fin b) (Fin b) K
  /-- `t_axpy(n, α, x, 1, y, 1)`: the new content of `y` -/
  axpy : ∀ {n : ℕ}, K → (Fin n → K) → (Fin n → K) → Fin n → K
  /-- `t_scal` -/
  scal : ∀ {n : ℕ}, K → (Fin n → K) → Fin n → K
  /-- `t_dot` -/
  dot : ∀ {n : ℕ}, (Fin n → K) → (Fin n → K) → K
  /-- `t_norm_p2` -/
  normp2 : ∀ {n : ℕ}, (Fin n → K) → R
  /-- the square of `t_nrm2`: dla 1403-1408, 1472-1477 -/
  nrm2sq : ∀ {n : ℕ}, (Fin n → K) → R
  /-- `std::sqrt`, `1 / x` and `std::real` -/
  sqrt : R → R
  inv : R → R
  re : K → R
  /-- `t_geqrf` and `t_gqr` -/
  hhqr : ∀ {m b : ℕ}, Matrix (Fin m) (Fin b) K → Matrix (Fin m) (Fin b) K
  /-- `t_syherk`, `t_potrf` and `t_trsm` -/
  syherk : ∀ {m b : ℕ}, Matrix (Fin m) (Fin b) K → Matrix (Fin b) (Fin b) K
  potrf : ∀ {b : ℕ}, Matrix (Fin b) (Fin b) K → ℤ × Matrix (Fin b) (Fin b) K
  trsm : ∀ {m b : ℕ}, Matrix (Fin b) (Fin b) K → (ℕ → Fin m → K) → ℕ → Fin m → K
  /-- the shift of the Gram matrix for problem size `N`: dla 1250-1262 -/
  shiftGram : ∀ {b : ℕ}, ℕ → Matrix (Fin b) (Fin b) K → Matrix (Fin b) (Fin b) K
  /-- the bound from the coefficients `d`, `e`, `r_beta` of one run of Lanczos: chase_mpi 481-501 -/
  bound : ℕ → (ℕ → R) → (ℕ → R) → (ℕ → R) → R
  /-- the outputs from the coefficients of several runs: chase_mpi 508-545 -/
  multi : ℕ → ℕ → (ℕ → R) → (ℕ → R) → (ℕ → R) → LanczosOut R
  /-- the comparisons of the condition estimate with the two thresholds -/
  above : R → Bool
  below : R → Bool

/-- Run-time parameters of the backend. -/
structure DEnv (K R : Type) extends Params where
  kern : Kern K R
  /-- `gen p k`: the `k`-th number drawn for the start vectors by the processes of row `p` -/
  gen : ℕ → ℕ → K
  /-- the numbers drawn for the symmetry check: dla 767-773 -/
  probe : ℕ → ℕ → K
  /-- `HAS_SCALAPACK` -/
  scalapack : Bool
  /-- runs used to redistribute from the row layout to the column layout and back: dla 141-236 -/
  cRuns : List Dist.Run
  bRuns : List Dist.Run

variable {K R : Type} {N : ℕ} {r c : Layout N}

/-- The reductions (`MPI_Allreduce` with `MPI_SUM`) of elements and of reals on column communicator `j` and row
communicator `i`, for buffers with any index set: a function of the buffers of all members. -/
structure Reds (K R : Type) {N : ℕ} (r c : Layout N) where
  colK : Fin c.procs → ∀ {ι : Type}, (Fin r.procs → ι → K) → ι → K
  rowK : Fin r.procs → ∀ {ι : Type}, (Fin c.procs → ι → K) → ι → K
  colR : Fin c.procs → ∀ {ι : Type}, (Fin r.procs → ι → R) → ι → R
  rowR : Fin r.procs → ∀ {ι : Type}, (Fin c.procs → ι → R) → ι → R

/-! ### Collective operations -/

/-- `MPI_Allreduce` on the column communicator. -/
def redCol {V : Type} (f : Fin c.procs → ∀ {ι : Type}, (Fin r.procs → ι → V) → ι → V) (ι : Fin c.procs → Type) :
    Coll (Pos r c) (fun p => ι p.2 → V) (fun p => ι p.2 → V) where
  comm := fun p q => p.2 = q.2
  equiv := ⟨fun _ => rfl, fun h => h.symm, fun h h' => h.trans h'⟩
  act := fun p x => f p.2 fun i' => x (i', p.2) rfl

/-- `MPI_Allreduce` on the row communicator. -/
def redRow {V : Type} (f : Fin r.procs → ∀ {ι : Type}, (Fin c.procs → ι → V) → ι → V) (ι : Fin r.procs → Type) :
    Coll (Pos r c) (fun p => ι p.1 → V) (fun p => ι p.1 → V) where
  comm := fun p q => p.1 = q.1
  equiv := ⟨fun _ => rfl, fun h => h.symm, fun h h' => h.trans h'⟩
  act := fun p x => f p.1 fun j' => x (p.1, j') rfl

/-- A matrix as a buffer, and back. -/
def flat {m b : ℕ} (X : Matrix (Fin m) (Fin b) K) : Fin m × Fin b → K := fun q => X q.1 q.2
def square {m b : ℕ} (x : Fin m × Fin b → K) : Matrix (Fin m) (Fin b) K := fun a k => x (a, k)

/-- An array of length `n` in an array without end. -/
def ext {X : Type} (z : X) {n : ℕ} (x : Fin n → X) : ℕ → X := fun t => if h : t < n then x ⟨t, h⟩ else z

/-! ### The calls -/

variable (red : Reds K R r c) (E : DEnv K R)

/-- The loop of `checkSymmetryEasy` over the local rows (it leaves at the first mismatch; here it runs on with the
answer fixed): dla 803-814. -/
def agree {m : ℕ} (w u : Fin m → K) : Bool :=
  forRange 0 m (fun k ok => if h : k < m then (ok && !E.kern.differ (w ⟨k, h⟩) (u ⟨k, h⟩)) else ok) true

/-- A vector as a block of one column. -/
def one {m : ℕ} (v : Fin m → K) : Matrix (Fin m) (Fin 1) K := fun a _ => v a

/-- `checkSymmetryEasy`: dla 757-820. -/
def symCheckProg (p : Pos r c) (d : Own K r c p) : Prog (fun p => Bool × Own K r c p) p :=
  let v : Fin (r.size p.1) → K := fun a => E.probe p.1 a
  (c2b p 1 (fun _ => v) E.cRuns (fun _ _ => E.kern.zero)).bind fun v2 =>
  .op (redCol red.colK fun j => Fin (c.size j) × Fin 1)
    (flat (E.kern.gemmAdj d.H E.kern.one E.kern.zero (one v) (one fun _ => E.kern.zero))) fun u =>
  .op (redRow red.rowK fun i => Fin (r.size i) × Fin 1)
    (flat (E.kern.gemm d.H E.kern.one E.kern.zero (one (v2 0)) (one fun _ => E.kern.zero))) fun uT =>
  (b2c p 1 (fun _ b => u (b, 0)) E.bRuns (fun _ => v)).bind fun w =>
  .op andCol (agree E (w 0) fun a => uT (a, 0)) fun b => .ret (b, { d with isSym := b })

/-- `apply`: dla 472-523 with blas 105-140; only the first process of the communicator uses `beta`. -/
def hemmProg (p : Pos r c) (block : ℕ) (α β : K) (offset : ℕ) (d : Own K r c p) :
    Prog (fun p => Unit × Own K r c p) p :=
  match d.next with
  | .bAc =>
    .op (redCol red.colK fun j => Fin (c.size j) × Fin block)
      (flat (E.kern.gemmAdj d.H α (if p.1.val ≠ 0 then E.kern.zero else β) (getBlk (d.locked + offset) block d.C)
        (getBlk (d.locked + offset) block d.B))) fun x =>
    .ret ((), { d with B := setBlk (d.locked + offset) (square x) d.B, next := .cAb })
  | .cAb =>
    .op (redRow red.rowK fun i => Fin (r.size i) × Fin block)
      (flat (E.kern.gemm d.H α (if p.2.val ≠ 0 then E.kern.zero else β) (getBlk (d.locked + offset) block d.B)
        (getBlk (d.locked + offset) block d.C))) fun x =>
    .ret ((), { d with C := setBlk (d.locked + offset) (square x) d.C, next := .bAc })

/-- `asynCxHGatherC`: dla 657-716, blas 168-177. -/
def gatherProg (p : Pos r c) (block : ℕ) (d : Own K r c p) : Prog (fun p => Own K r c p) p :=
  (c2b p block (fun k => d.C2 (d.locked + k)) E.cRuns (fun k => d.B2 (d.locked + k))).bind fun x =>
  .op (redCol red.colK fun j => Fin (c.size j) × Fin block)
    (flat (E.kern.gemmAdj d.H E.kern.one E.kern.zero (getBlk d.locked block d.C) (getBlk d.locked block d.B))) fun y =>
  .ret { d with B2 := writeAt d.B2 d.locked block x, B := setBlk d.locked (square y) d.B }

/-- `RR`: dla 952-982, blas 236-244, 288-299.  The entries of `ritzv` behind the block are not written; here they
are zero. -/
def rrProg [Zero R] (p : Pos r c) (block : ℕ) (d : Own K r c p) : Prog (fun p => (ℕ → R) × Own K r c p) p :=
  (gatherProg red E p block d).bind fun d =>
  .op (redRow red.rowK fun _ => Fin block × Fin block)
    (flat (E.kern.proj (getBlk d.locked block d.B2) (getBlk d.locked block d.B))) fun x =>
  let vals := (E.kern.heevd (square x)).1
  let Z := (E.kern.heevd (square x)).2
  let C := setBlk d.locked (E.kern.back (getBlk d.locked block d.C2) Z) d.C
  .ret (ext 0 vals, { d with C := C, C2 := copyCols d.locked block C d.C2 })

/-- Local part of `Resd`: blas 273-284; `resid[i]` and `B`. -/
def resdLocal [Neg R] [Zero R] (ritzv : ℕ → R) (locked unconverged : ℕ) {m n : ℕ} (p : Proc K m n) :
    (ℕ → R) × (ℕ → Fin n → K) :=
  forRange 0 unconverged (fun i q =>
    let B := Function.update q.2 (locked + i)
      (E.kern.axpy (E.kern.ofBase (-ritzv i)) (p.B2 (locked + i)) (q.2 (locked + i)))
    (Function.update q.1 i (E.kern.normp2 (B (locked + i))), B)) (fun _ => 0, p.B)

/-- `Resd`: dla 984-1020. -/
def resdProg [Neg R] [Zero R] (p : Pos r c) (ritzv : ℕ → R) (fixednev : ℕ) (d : Own K r c p) :
    Prog (fun p => (ℕ → R) × Own K r c p) p :=
  let u := E.nevex - fixednev
  (gatherProg red E p u d).bind fun d =>
  .op (redRow red.rowR fun _ => Fin u) (fun t => (resdLocal E ritzv d.locked u d).1 t) fun x =>
  .ret (ext 0 fun t => E.kern.sqrt (x t), { d with B := (resdLocal E ritzv d.locked u d).2 })

/-- The Gram matrix of the vectors in the column communicator: dla 1160-1163. -/
def gramProg {α : Pos r c → Type} (p : Pos r c) (d : Own K r c p)
    (k : Matrix (Fin E.nevex) (Fin E.nevex) K → Prog α p) : Prog α p :=
  .op (redCol red.colK fun _ => Fin E.nevex × Fin E.nevex) (flat (E.kern.syherk (getBlk 0 E.nevex d.C)))
    fun x => k (square x)

/-- `C` is overwritten. -/
def putC {m n : ℕ} (d : Proc K m n) (C : ℕ → Fin m → K) : Proc K m n := { d with C := C }

/-- `cholQR1`: dla 1145-1179. -/
def cholQR1Prog (p : Pos r c) (d : Own K r c p) : Prog (fun p => ℤ × Own K r c p) p :=
  gramProg red E p d fun A =>
  let x := E.kern.potrf A
  if x.1 ≠ 0 then .ret (x.1, d) else .ret (x.1, putC d (E.kern.trsm x.2 d.C))

/-- `cholQR2`: dla 1181-1227. -/
def cholQR2Prog (p : Pos r c) (d : Own K r c p) : Prog (fun p => ℤ × Own K r c p) p :=
  gramProg red E p d fun A =>
  let x := E.kern.potrf A
  if x.1 ≠ 0 then .ret (x.1, d)
  else
    let d : Own K r c p := putC d (E.kern.trsm x.2 d.C)
    gramProg red E p d fun A =>
    let y := E.kern.potrf A
    .ret (y.1, putC d (E.kern.trsm y.2 d.C))

/-- `shiftedcholQR2`: dla 1229-1306; the result of the third factorisation is not looked at. -/
def shiftedcholQR2Prog (p : Pos r c) (d : Own K r c p) : Prog (fun p => ℤ × Own K r c p) p :=
  gramProg red E p d fun A =>
  let x := E.kern.potrf (E.kern.shiftGram N A)
  if x.1 ≠ 0 then .ret (x.1, d)
  else
    let d : Own K r c p := putC d (E.kern.trsm x.2 d.C)
    gramProg red E p d fun A =>
    let y := E.kern.potrf A
    if y.1 ≠ 0 then .ret (y.1, d)
    else
      let d : Own K r c p := putC d (E.kern.trsm y.2 d.C)
      gramProg red E p d fun A =>
      .ret (y.1, putC d (E.kern.trsm (E.kern.potrf A).2 d.C))

/-- `hhQR`: dla 1054-1118. -/
noncomputable def hhQRProg (p : Pos r c) (d : Own K r c p) : Prog (fun p => Own K r c p) p :=
  .op collectCol d.C fun V =>
  .ret { d with
    C := setBlk 0 (fun a k => E.kern.hhqr (getBlk 0 E.nevex V) (r.glob p.1 a) k) d.C
    next := if E.scalapack then d.next else .bAc }

/-- `lockVectorCopyAndOrthoConcatswap`: dla 1344-1358. -/
def lockCopyOwn {p : Pos r c} (d : Own K r c p) : Own K r c p :=
  let C := copyCols 0 d.locked d.C2 d.C
  { d with C := C, C2 := copyCols d.locked (E.nevex - d.locked) C d.C2 }

/-- `ChaseMpi::QR`: chase_mpi 351-427 (cf. `qrSelect`). -/
noncomputable def qrProg (p : Pos r c) (cond : R) (d : Own K r c p) : Prog (fun p => Unit × Own K r c p) p :=
  if cholDisable E.doCholQR E.envDisable = 1 then
    (hhQRProg E p d).bind fun d => .ret ((), lockCopyOwn E d)
  else
    (if E.kern.above cond then shiftedcholQR2Prog red E p d
      else if E.kern.below cond then cholQR1Prog red E p d
      else cholQR2Prog red E p d).bind fun x =>
    if x.1 ≠ 0 then (hhQRProg E p x.2).bind fun d => .ret ((), lockCopyOwn E d)
    else .ret ((), lockCopyOwn E x.2)

/-- Vectors of `mLanczos` on one process: three blocks and the buffer `C`. -/
structure LVec (K : Type) (m : ℕ) where
  v0 : ℕ → Fin m → K
  v1 : ℕ → Fin m → K
  v2 : ℕ → Fin m → K
  C : ℕ → Fin m → K

/-- Coefficients of `mLanczos`. -/
structure LCoef (R : Type) where
  d : ℕ → R
  e : ℕ → R
  rbeta : ℕ → R

/-- The vectors `v_2` after the two updates of a step: dla 1437-1463. -/
def stepW [Neg R] (numvec k : ℕ) {m : ℕ} (l : LVec K m) (co : LCoef R) (v2 : ℕ → Fin m → K) (nalpha : ℕ → K) :
    ℕ → Fin m → K :=
  let w1 := writeAt v2 0 numvec (fun t => E.kern.axpy (nalpha t) (l.v1 t) (v2 t))
  if k > 0 then writeAt w1 0 numvec (fun t => E.kern.axpy (E.kern.ofBase (-co.rbeta t)) (l.v0 t) (w1 t)) else w1

/-- The coefficients after a step: dla 1445-1453, 1481-1495. -/
def stepCoef (M numvec k : ℕ) (co : LCoef R) (nalpha : ℕ → K) (nrm : ℕ → R) : LCoef R :=
  let rbeta := writeAt co.rbeta 0 numvec (fun t => E.kern.sqrt (nrm t))
  { d := forRange 0 numvec (fun t d => Function.update d (k + M * t) (E.kern.re (E.kern.neg (nalpha t)))) co.d
    e := if k = M - 1 then co.e
      else forRange 0 numvec (fun t e => Function.update e (k + M * t) (rbeta t)) co.e
    rbeta := rbeta }

/-- The vectors after a step: dla 1412-1417, 1487-1497. -/
def stepVec (M numvec : ℕ) (store : Bool) (k : ℕ) {m : ℕ} (l : LVec K m) (w : ℕ → Fin m → K) (rbeta : ℕ → R) :
    LVec K m :=
  let C := if store then forRange 0 numvec (fun t C => Function.update C k (l.v1 t)) l.C else l.C
  if k = M - 1 then { l with C := C, v2 := w }
  else
    { v0 := l.v1
      v1 := writeAt w 0 numvec (fun t => E.kern.scal (E.kern.ofBase (E.kern.inv (rbeta t))) (w t))
      v2 := l.v0
      C := C }

/-- Body of the loop of `mLanczos`: dla 1410-1497. -/
def lanczosStepProg [Neg R] [Zero R] (p : Pos r c) (d : Own K r c p) (M numvec : ℕ) (store : Bool) (k : ℕ)
    (l : LVec K (r.size p.1) × LCoef R) : Prog (fun p => LVec K (r.size p.1) × LCoef R) p :=
  .op (redCol red.colK fun j => Fin (c.size j) × Fin numvec)
    (flat (E.kern.gemmAdj d.H E.kern.one E.kern.zero (getBlk 0 numvec l.1.v1) fun _ _ => E.kern.zero)) fun w =>
  (b2c p numvec (fun t b => if h : t < numvec then w (b, ⟨t, h⟩) else E.kern.zero) E.bRuns l.1.v2).bind fun v2 =>
  .op (redCol red.colK fun _ => Fin numvec) (fun t => E.kern.neg (E.kern.dot (l.1.v1 t) (v2 t))) fun nalpha =>
  .op (redCol red.colR fun _ => Fin numvec)
    (fun t => E.kern.nrm2sq (stepW E numvec k l.1 l.2 v2 (ext E.kern.zero nalpha) t)) fun nrm =>
  let co := stepCoef E M numvec k l.2 (ext E.kern.zero nalpha) (ext 0 nrm)
  .ret (stepVec E M numvec store k l.1 (stepW E numvec k l.1 l.2 v2 (ext E.kern.zero nalpha)) co.rbeta, co)

/-- The state before the loop of `mLanczos`: dla 1396-1411; `d`, `e` are zero-initialised by the caller. -/
def lanczosInit [Zero R] (numvec : ℕ) {m : ℕ} (C : ℕ → Fin m → K) (nrm : ℕ → R) : LVec K m × LCoef R :=
  ({ v0 := fun _ _ => E.kern.zero
     v1 := writeAt (fun _ _ => E.kern.zero) 0 numvec
       fun t => E.kern.scal (E.kern.ofBase (E.kern.inv (E.kern.sqrt (nrm t)))) (C t)
     v2 := fun _ _ => E.kern.zero
     C := C }, { d := fun _ => 0, e := fun _ => 0, rbeta := fun _ => 0 })

/-- What is copied back after the loop: dla 1500-1503. -/
def lanczosDone (numvec : ℕ) (store : Bool) {m : ℕ} (l : LVec K m × LCoef R) : LVec K m × LCoef R :=
  if store then ({ l.1 with C := copyCols 0 numvec l.1.v1 l.1.C }, l.2) else l

/-- `mLanczos`: dla 1376-1505. -/
def mLanczosProg [Neg R] [Zero R] (p : Pos r c) (d : Own K r c p) (M numvec : ℕ) (store : Bool) :
    Prog (fun p => LVec K (r.size p.1) × LCoef R) p :=
  .op (redCol red.colR fun _ => Fin numvec) (fun t => E.kern.nrm2sq (d.C t)) fun nrm =>
  (loopP (fun k l => lanczosStepProg red E p d M numvec store k l) 0 M (lanczosInit E numvec d.C (ext 0 nrm))).bind
    fun l => .ret (lanczosDone numvec store l)

/-- `LanczosDos`: blas 332-340. -/
def lanczosDosOwn {p : Pos r c} (idx m : ℕ) (ritzVc : ℕ → R) (d : Own K r c p) : Own K r c p :=
  let Z : Matrix (Fin m) (Fin idx) K := fun a b => E.kern.ofBase (ritzVc (a + b * m))
  let C2 := setBlk 0 (E.kern.back (getBlk 0 m d.C) Z) d.C2
  { d with C2 := C2, C := copyCols 0 m C2 d.C }

/-- `initVecs` (dla 373-383), after `initRndVecs` (blas 85-95) unless start vectors are given. -/
def initVecsOwn {p : Pos r c} (random : Bool) (d : Own K r c p) : Own K r c p :=
  let C := if random then writeAt d.C 0 E.nevex (fun k a => E.gen p.1 (k * r.size p.1 + a)) else d.C
  { d with C := C, next := .bAc, C2 := copyCols 0 E.nevex C d.C2 }

/-- `shiftMatrix` on one process: blas 144-164.  `Rl`, `Cl` are the tables of the process. -/
def shiftLocal (Rl Cl : Dist.Local) (x : K) (H : Matrix (Fin Rl.size) (Fin Cl.size) K) :
    Matrix (Fin Rl.size) (Fin Cl.size) K :=
  forRange 0 Cl.blocks (fun j H =>
    forRange 0 Rl.blocks (fun i H =>
      forRange 0 (Cl.lens j) (fun q H =>
        forRange 0 (Rl.lens i) (fun p H =>
          if q + Cl.offs j = p + Rl.offs i then
            fun a b => if a.val = p + Rl.offsL i ∧ b.val = q + Cl.offsL j then E.kern.add (H a b) x else H a b
          else H) H) H) H) H

/-- `shiftMatrix`: dla 725-741. -/
def shiftOwn {p : Pos r c} (x : K) (d : Own K r c p) : Own K r c p :=
  { d with
    next := if d.fresh then .bAc else d.next
    fresh := false
    H := shiftLocal E (r.tab p.1) (c.tab p.2) x d.H }

/-- What process `p` does for a call of the interface: chase_mpi 255-560. -/
noncomputable def callProg [Neg R] [Zero R] (p : Pos r c) : (q : Req R) → Own K r c p →
    Prog (fun p => q.Ans × Own K r c p) p
  | .checkSymmetryEasy, d => symCheckProg red E p d
  | .start, d => .ret ((), { d with locked := 0 })
  | .finish, d => .ret ((), d)
  | .initVecs random, d => .ret ((), initVecsOwn E random d)
  | .qr _ cond, d => qrProg red E p cond d
  | .lanczos1 m, d => (mLanczosProg red E p d m 1 false).bind fun l =>
      .ret (E.kern.bound m l.2.d l.2.e l.2.rbeta, d)
  | .lanczosN m numvec, d => (mLanczosProg red E p d m numvec true).bind fun l =>
      .ret (E.kern.multi m numvec l.2.d l.2.e l.2.rbeta, { d with C := l.1.C })
  | .lanczosDos idx m z, d => .ret ((), lanczosDosOwn E idx m z d)
  | .shift x _, d => .ret ((), shiftOwn E (E.kern.ofBase x) d)
  | .hemm block α β offset, d => hemmProg red E p block (E.kern.ofBase α) (E.kern.ofBase β) offset d
  | .rr block, d => rrProg red E p block d
  | .resd ritzv fixednev, d => resdProg red E p ritzv fixednev d
  | .lock k, d => .ret ((), { d with locked := d.locked + k })
  | .swap a b, d => .ret ((), swapOwn a b d)

/-- What process `p` does for a sequence of calls: each process runs the algorithm itself. -/
noncomputable def prog [Neg R] [Zero R] {α : Type} (p : Pos r c) : Script R α → Own K r c p →
    Prog (fun p => α × Own K r c p) p
  | .ret a, d => .ret (a, d)
  | .ask q k, d => (callProg red E p q d).bind fun x => prog p (k x.1) x.2

/-- `Algorithm<T>::solve` on process `p`: algorithm.inc 324-572, called by every process of the grid. -/
noncomputable def solveProg [Add R] [Sub R] [Mul R] [Div R] [Neg R] [Zero R] [One R] [NatCast R] [LT R] [DecidableLT R]
    (P : Plat R) (cfg : Config R) (ritzv0 resid0 : ℕ → R) (p : Pos r c) (d : Own K r c p) :
    Prog (fun p => Except Err (Outcome R Unit) × Own K r c p) p :=
  prog red E p (solveT P cfg ritzv0 resid0) d

end Par
end Rounded
end Verif
