/-
Model of the distributed CPU backend: `ChaseMpiDLA` (ChASE-MPI/impl/chase_mpidla.hpp, cited as dla) on
top of `ChaseMpiDLABlaslapack` (ChASE-MPI/impl/chase_mpidla_blaslapack.hpp, cited as blas), behind
`ChaseMpi` (ChASE-MPI/chase_mpi.hpp, cited as chase_mpi).

The processes form a grid.  Process `(i, j)` holds a block `H` with the rows of process row `i` and the
columns of process column `j`, blocks of vectors `C`, `C2` distributed like the rows (all processes of a
row hold the same), and `B`, `B2` distributed like the columns.  The column communicator of `(i, j)` are
the processes `(i', j)`, the row communicator the processes `(i, j')`.

A collective operation acts on the states of all processes at once; `AllReduce` with `MPI_SUM` is the sum
over the communicator (`Reduction` in MpiProps: every order of summation gives it), `Bcast` copies from
the root.  Values that an operation returns exist once per process; `opsAt` is the backend as seen by one
process.
-/
import Verif.Backend.Common
import Verif.Backend.Qr
import Verif.Backend.Seq
import Verif.Dist.Gather

namespace Verif
namespace Mpi

open Matrix
open Seq (NextOp)

/-- The layout of one dimension of the matrix: for each process its tables (`get_offs_lens`,
chase_mpi_properties.hpp 1154-1166) and the global index of each local one. -/
structure Layout (N : ℕ) where
  procs : ℕ
  tab : Fin procs → Dist.Local
  glob : (p : Fin procs) → Fin (tab p).size → Fin N
  bij : Function.Bijective fun x : Σ p, Fin (tab p).size => glob x.1 x.2
  /-- the tables list local positions with their global index ... -/
  listed : ∀ p, ∀ k < (tab p).blocks, ∀ t < (tab p).lens k,
    ∃ h : (tab p).offsL k + t < (tab p).size, (glob p ⟨_, h⟩).val = (tab p).offs k + t
  /-- ... each once -/
  covers : ∀ p, ∀ l < (tab p).size,
    ∃! kt : ℕ × ℕ, kt.1 < (tab p).blocks ∧ kt.2 < (tab p).lens kt.1 ∧ (tab p).offsL kt.1 + kt.2 = l

/-- Local size: `m_` or `n_`. -/
abbrev Layout.size {N : ℕ} (L : Layout N) (p : Fin L.procs) : ℕ := (L.tab p).size

/-- Data members of one process: dla 1671-1760, blas 470-510; `locked` and `isSym` of `ChaseMpi`.
`next` stands for the two members `next_` (of `ChaseMpiDLA` and `ChaseMpiDLABlaslapack`), which are
always set together. `fresh` is `istartOfFilter_`. -/
structure Proc (K : Type*) (m n : ℕ) where
  H : Matrix (Fin m) (Fin n) K
  C : ℕ → Fin m → K
  C2 : ℕ → Fin m → K
  B : ℕ → Fin n → K
  B2 : ℕ → Fin n → K
  next : NextOp
  locked : ℕ
  isSym : Bool
  fresh : Bool

/-- Parameters of the backend. -/
structure MEnv (K : Type*) [RCLike K] where
  base : Env K
  /-- `gen p k`: the `k`-th number drawn for the start vectors, from `std::mt19937(1337 + p)` -/
  gen : ℕ → ℕ → K
  /-- the numbers drawn for the symmetry check (dla 767-773), also from `std::mt19937(1337 + p)`; kept
  apart because the multi-GPU backend draws its start vectors from another generator -/
  probe : ℕ → ℕ → K
  /-- `HAS_SCALAPACK` -/
  scalapack : Bool
  /-- the tolerance `1e-10` of the symmetry check (dla 809) -/
  symTol : ℝ
  /-- runs used to redistribute from the row layout (`C`) to the column layout (`B`): dla 141-186 -/
  cRuns : List Dist.Run
  /-- runs used in the other direction: dla 190-236 -/
  bRuns : List Dist.Run

variable {K : Type*} [RCLike K] {N : ℕ} (r c : Layout N)

/-- The states of all processes. -/
abbrev Fam (K : Type*) {N : ℕ} (r c : Layout N) : Type _ :=
  (i : Fin r.procs) → (j : Fin c.procs) → Proc K (r.size i) (c.size j)

variable (E : MEnv K) {r c}

/-- `initRndVecs`: blas 85-95; the random numbers fill the buffer in the order of memory. -/
def initRndVecs (s : Fam K r c) : Fam K r c := fun i j =>
  { s i j with C := writeAt (s i j).C 0 E.base.nevex (fun k a => E.gen i (k * r.size i + a)) }

/-- `initVecs`: dla 373-383, blas 75-79. -/
def initVecs (s : Fam K r c) : Fam K r c := fun i j =>
  { s i j with next := .bAc, C2 := copyCols 0 E.base.nevex (s i j).C (s i j).C2 }

/-- Local product of `apply` for `B`: blas 113-123.  Only the first process of the column communicator
uses `beta`. -/
def gemmB (α β : K) (off block rank : ℕ) {m n : ℕ} (p : Proc K m n) : Matrix (Fin n) (Fin block) K :=
  α • (p.Hᴴ * getBlk off block p.C) + (if rank ≠ 0 then (0 : K) else β) • getBlk off block p.B

/-- Local product of `apply` for `C`: blas 127-136. -/
def gemmC (α β : K) (off block rank : ℕ) {m n : ℕ} (p : Proc K m n) : Matrix (Fin m) (Fin block) K :=
  α • (p.H * getBlk off block p.B) + (if rank ≠ 0 then (0 : K) else β) • getBlk off block p.C

/-- `apply`: dla 472-523, with the reductions over the column and the row communicator. -/
def apply (α β : K) (offset block locked : ℕ) (s : Fam K r c) : Fam K r c := fun i j =>
  match (s i j).next with
  | .bAc =>
    { s i j with
      B := setBlk (locked + offset) (∑ i' : Fin r.procs, gemmB α β (locked + offset) block i' (s i' j)) (s i j).B
      next := .cAb }
  | .cAb =>
    { s i j with
      C := setBlk (locked + offset) (∑ j' : Fin c.procs, gemmC α β (locked + offset) block j' (s i j')) (s i j).C
      next := .bAc }

/-- `shiftMatrix` on one process: blas 144-164.  `R`, `Cl` are the tables of the process. -/
def shiftLocal (R Cl : Dist.Local) (x : K) (H : Matrix (Fin R.size) (Fin Cl.size) K) :
    Matrix (Fin R.size) (Fin Cl.size) K :=
  forRange 0 Cl.blocks (fun j H =>
    forRange 0 R.blocks (fun i H =>
      forRange 0 (Cl.lens j) (fun q H =>
        forRange 0 (R.lens i) (fun p H =>
          if q + Cl.offs j = p + R.offs i then
            fun a b => if a.val = p + R.offsL i ∧ b.val = q + Cl.offsL j then H a b + x else H a b
          else H) H) H) H) H

/-- `shiftMatrix`: dla 725-741. -/
def shift (x : K) (s : Fam K r c) : Fam K r c := fun i j =>
  { s i j with
    next := if (s i j).fresh then .bAc else (s i j).next
    fresh := false
    H := shiftLocal (r.tab i) (c.tab j) x (s i j).H }

omit [RCLike K] in
/-- Packing a run at its source, broadcasting and unpacking it, for one column: dla 689-700, 1577-1588.
Entries that the source does not have are left alone here (C++ would read foreign memory). -/
def putRun (run : Dist.Run) {m n : ℕ} (src : Fin m → K) (dst : Fin n → K) : Fin n → K := fun b =>
  if run.destDisp ≤ b.val ∧ b.val < run.destDisp + run.len then
    if h : run.srcDisp + (b.val - run.destDisp) < m then src ⟨_, h⟩ else dst b
  else dst b

omit [RCLike K] in
/-- Redistribution of one column as seen by process `q` of the destination layout: the runs destined for
`q` in turn (dla 685-700 and 1571-1590; when both layouts coincide, dla 662-683 and 1545-1569 copy the
local vectors as a whole, which are the runs of `Dist.sameTable`; the pointer versions dla 1507-1541 and
1594-1631 use MPI data types for the same runs). -/
def redist (runs : List Dist.Run) {P : ℕ} {m : Fin P → ℕ} {n : ℕ} (src : (p : Fin P) → Fin (m p) → K)
    (q : ℕ) (dst : Fin n → K) : Fin n → K :=
  runs.foldl (fun d run =>
    if run.dest = q then
      if h : run.src < P then putRun run (src ⟨run.src, h⟩) d else d
    else d) dst

/-- `asynCxHGatherC`: dla 657-716, blas 168-177. -/
def asynCxHGatherC (locked block : ℕ) (s : Fam K r c) : Fam K r c := fun i j =>
  { s i j with
    B2 := writeAt (s i j).B2 locked block (fun k =>
      redist E.cRuns (fun i' => (s i' j).C2 (locked + k)) j ((s i j).B2 (locked + k)))
    B := setBlk locked (∑ i', (s i' j).Hᴴ * getBlk locked block (s i' j).C) (s i j).B }

/-- The projected matrix on process `(i, j)`: dla 957-966, blas 236-244. -/
def rrMatrix (locked block : ℕ) (s : Fam K r c) (i : Fin r.procs) : Matrix (Fin block) (Fin block) K :=
  ∑ j', (getBlk locked block (s i j').B2)ᴴ * getBlk locked block (s i j').B

/-- `RR`: dla 952-982, blas 288-299; the values every process gets, and the states. -/
def rr (block : ℕ) (locked : Fin r.procs → Fin c.procs → ℕ) (s : Fam K r c) :
    (Fin r.procs → Fin c.procs → ℕ → ℝ) × Fam K r c :=
  let s1 : Fam K r c := fun i j => asynCxHGatherC E (locked i j) block s i j
  (fun i j t => if h : t < block then
      (E.base.lapack.heevd (rrMatrix (locked i j) block s1 i)).1 ⟨t, h⟩ else 0,
   fun i j =>
    let Z := (E.base.lapack.heevd (rrMatrix (locked i j) block s1 i)).2
    let C := setBlk (locked i j) (getBlk (locked i j) block (s1 i j).C2 * Z) (s1 i j).C
    { s1 i j with C := C, C2 := copyCols (locked i j) block C (s1 i j).C2 })

/-- `t_norm_p2`: blas_templates.inc 47-85, with `t_sqrt_norm` the squared modulus. -/
noncomputable def normp2 {m : ℕ} (v : Fin m → K) : ℝ := ∑ i, ‖v i‖ ^ 2

/-- Local part of `Resd`: blas 273-284; `resid[i]` and `B`. -/
noncomputable def resdLocal (ritzv : ℕ → ℝ) (locked unconverged : ℕ) {m n : ℕ} (p : Proc K m n) :
    (ℕ → ℝ) × (ℕ → Fin n → K) :=
  forRange 0 unconverged (fun i q =>
    let B := Function.update q.2 (locked + i)
      ((-(ritzv i : K)) • p.B2 (locked + i) + q.2 (locked + i))
    (Function.update q.1 i (normp2 (B (locked + i))), B)) (fun _ => 0, p.B)

/-- `Resd`: dla 984-1020. -/
noncomputable def resd (ritzv : ℕ → ℝ) (fixednev : ℕ) (locked : Fin r.procs → Fin c.procs → ℕ)
    (s : Fam K r c) : (Fin r.procs → Fin c.procs → ℕ → ℝ) × Fam K r c :=
  let u := E.base.nevex - fixednev
  let s1 : Fam K r c := fun i j => asynCxHGatherC E (locked i j) u s i j
  (fun i j t => if t < u then
      Real.sqrt (∑ j', (resdLocal ritzv (locked i j) u (s1 i j')).1 t) else 0,
   fun i j => { s1 i j with B := (resdLocal ritzv (locked i j) u (s1 i j)).2 })

omit [RCLike K] in
/-- The vectors of all processes of a column communicator put together: `collecRedundantVecs`
(dla 533-628; theorem C35 relates the loops to this), or what ScaLAPACK works on. -/
noncomputable def assemble (L : Layout N) (v : (p : Fin L.procs) → Fin (L.size p) → K) : Fin N → K := fun g =>
  let x := (Equiv.ofBijective _ L.bij).symm g
  v x.1 x.2

/-- `hhQR`: dla 1054-1118.  Both versions factorise the assembled vectors: ScaLAPACK in place, otherwise
every process collects them, factorises and keeps its rows (`preApplication`, dla 424-449, which also
resets `next_`). -/
noncomputable def hhQR (s : Fam K r c) : Fam K r c := fun i j =>
  let V : ℕ → Fin N → K := fun k => assemble r fun i' => (s i' j).C k
  let Q := E.base.lapack.hhqr (getBlk 0 E.base.nevex V)
  { s i j with
    C := setBlk 0 (fun a k => Q (r.glob i a) k) (s i j).C
    next := if E.scalapack then (s i j).next else .bAc }

/-- `cholQR1`: dla 1145-1179, on process column `j`: `info` and the blocks `C` of its processes. -/
noncomputable def cholQR1 (n : ℕ) (C : (i : Fin r.procs) → ℕ → Fin (r.size i) → K) :
    ℤ × ((i : Fin r.procs) → ℕ → Fin (r.size i) → K) :=
  let (info, A) := E.base.lapack.potrf (∑ i', syherk (getBlk 0 n (C i')))
  if info ≠ 0 then (info, C) else (info, fun i => trsm A (C i))

/-- `cholQR2`: dla 1181-1227. -/
noncomputable def cholQR2 (n : ℕ) (C : (i : Fin r.procs) → ℕ → Fin (r.size i) → K) :
    ℤ × ((i : Fin r.procs) → ℕ → Fin (r.size i) → K) :=
  let (info1, A) := E.base.lapack.potrf (∑ i', syherk (getBlk 0 n (C i')))
  if info1 ≠ 0 then (info1, C)
  else
    let C : (i : Fin r.procs) → ℕ → Fin (r.size i) → K := fun i => trsm A (C i)
    let (info, A) := E.base.lapack.potrf (∑ i', syherk (getBlk 0 n (C i')))
    (info, fun i => trsm A (C i))

/-- `shiftedcholQR2`: dla 1229-1306; the result of the third factorisation is not looked at. -/
noncomputable def shiftedcholQR2 (n : ℕ) (C : (i : Fin r.procs) → ℕ → Fin (r.size i) → K) :
    ℤ × ((i : Fin r.procs) → ℕ → Fin (r.size i) → K) :=
  let A := ∑ i', syherk (getBlk 0 n (C i'))
  let (info1, A) := E.base.lapack.potrf (shiftDiag A (cholShift (N := N) E.base.lapack A : K))
  if info1 ≠ 0 then (info1, C)
  else
    let C : (i : Fin r.procs) → ℕ → Fin (r.size i) → K := fun i => trsm A (C i)
    let (info2, A) := E.base.lapack.potrf (∑ i', syherk (getBlk 0 n (C i')))
    if info2 ≠ 0 then (info2, C)
    else
      let C : (i : Fin r.procs) → ℕ → Fin (r.size i) → K := fun i => trsm A (C i)
      let (_, A) := E.base.lapack.potrf (∑ i', syherk (getBlk 0 n (C i')))
      (info2, fun i => trsm A (C i))

/-- `lockVectorCopyAndOrthoConcatswap`: dla 1344-1358; both branches do the same on the host. -/
def lockVectorCopy (locked : Fin r.procs → Fin c.procs → ℕ) (s : Fam K r c) : Fam K r c := fun i j =>
  let C := copyCols 0 (locked i j) (s i j).C2 (s i j).C
  { s i j with C := C, C2 := copyCols (locked i j) (E.base.nevex - locked i j) C (s i j).C2 }

/-- The routines behind `ChaseMpi::QR`; each process column works on its own copy of the vectors, the
result `info` is the one process `(i0, j0)` gets. -/
noncomputable def qrRoutines (j0 : Fin c.procs) (locked : Fin r.procs → Fin c.procs → ℕ) :
    QrRoutines (Fam K r c) where
  hhQR := hhQR E
  cholQR1 := fun s => ((cholQR1 E E.base.nevex fun i => (s i j0).C).1,
    fun i j => { s i j with C := (cholQR1 E E.base.nevex fun i => (s i j).C).2 i })
  cholQR2 := fun s => ((cholQR2 E E.base.nevex fun i => (s i j0).C).1,
    fun i j => { s i j with C := (cholQR2 E E.base.nevex fun i => (s i j).C).2 i })
  shiftedcholQR2 := fun s => ((shiftedcholQR2 E E.base.nevex fun i => (s i j0).C).1,
    fun i j => { s i j with C := (shiftedcholQR2 E E.base.nevex fun i => (s i j).C).2 i })
  lockCopy := fun _ s => lockVectorCopy E locked s

omit [RCLike K] in
/-- `Swap`: dla 1360-1369.  The columns of `C` are exchanged through the buffer `vv`, and then once
more. -/
def swap (a b : ℕ) (s : Fam K r c) : Fam K r c := fun i j =>
  let vv := (s i j).C a
  let C := Function.update (s i j).C a ((s i j).C b)
  let C := Function.update C b vv
  let vv := C a
  let C := Function.update C a (C b)
  let C := Function.update C b vv
  { s i j with C := C }

/-- `LanczosDos`: blas 332-340. -/
def lanczosDos (idx m : ℕ) (ritzVc : ℕ → ℝ) (s : Fam K r c) : Fam K r c := fun i j =>
  let Z : Matrix (Fin m) (Fin idx) K := fun a b => (ritzVc (a + b * m) : K)
  let C2 := setBlk 0 (getBlk 0 m (s i j).C * Z) (s i j).C2
  { s i j with C2 := C2, C := copyCols 0 m C2 (s i j).C }

/-- Local variables of `mLanczos` on all processes. -/
abbrev LFam (K : Type*) {N : ℕ} (r c : Layout N) : Type _ :=
  (i : Fin r.procs) → Fin c.procs → LSt K (r.size i)

/-- `applyVec` and the reduction: blas 400-410, dla 1419-1421; vector `v` of all runs on process column
`j`. -/
def applyVec (s : Fam K r c) (l : LFam K r c) (j : Fin c.procs) (run : ℕ) : Fin (c.size j) → K :=
  ∑ i', (s i' j).Hᴴ.mulVec ((l i' j).v1 run)

/-- Body of the loop of `mLanczos`: dla 1410-1497, with the reductions over the column communicator and
the redistribution `B2C` in the row communicator. -/
noncomputable def lanczosStep (s : Fam K r c) (M numvec : ℕ) (store : Bool) (k : ℕ)
    (l : LFam K r c) : LFam K r c :=
  let C : (i : Fin r.procs) → Fin c.procs → ℕ → Fin (r.size i) → K := fun i j =>
    if store then forRange 0 numvec (fun t C => Function.update C k ((l i j).v1 t)) (l i j).C
    else (l i j).C
  let v2 : (i : Fin r.procs) → Fin c.procs → ℕ → Fin (r.size i) → K := fun i j =>
    writeAt (l i j).v2 0 numvec (fun t =>
      redist E.bRuns (fun j' => applyVec s l j' t) i ((l i j).v2 t))
  -- the negated products are summed
  let nalpha : Fin c.procs → ℕ → K := fun j t => ∑ i', -dotc ((l i' j).v1 t) (v2 i' j t)
  let w1 : (i : Fin r.procs) → Fin c.procs → ℕ → Fin (r.size i) → K := fun i j =>
    writeAt (v2 i j) 0 numvec (fun t => nalpha j t • (l i j).v1 t + v2 i j t)
  let d : (i : Fin r.procs) → Fin c.procs → ℕ → ℝ := fun i j =>
    forRange 0 numvec (fun t d => Function.update d (k + M * t) (RCLike.re (-nalpha j t))) (l i j).d
  let w : (i : Fin r.procs) → Fin c.procs → ℕ → Fin (r.size i) → K := fun i j =>
    if k > 0 then writeAt (w1 i j) 0 numvec
      (fun t => (-((l i j).rbeta t : K)) • (l i j).v0 t + w1 i j t) else w1 i j
  let rbeta : (i : Fin r.procs) → Fin c.procs → ℕ → ℝ := fun i j =>
    writeAt (l i j).rbeta 0 numvec (fun t => Real.sqrt (∑ i', nrm2 (w i' j t) ^ 2))
  if k = M - 1 then fun i j =>
    { l i j with C := C i j, v2 := w i j, d := d i j, rbeta := rbeta i j }
  else fun i j =>
    { v0 := (l i j).v1
      v1 := writeAt (w i j) 0 numvec (fun t => ((1 / rbeta i j t : ℝ) : K) • w i j t)
      v2 := (l i j).v0
      d := d i j
      e := forRange 0 numvec (fun t e => Function.update e (k + M * t) (rbeta i j t)) (l i j).e
      rbeta := rbeta i j
      C := C i j }

/-- `mLanczos`: dla 1376-1505. -/
noncomputable def mLanczos (s : Fam K r c) (M numvec : ℕ) (store : Bool) : LFam K r c :=
  let l0 : LFam K r c := fun i j =>
    { v0 := fun _ _ => 0
      v1 := fun t => ((1 / Real.sqrt (∑ i', nrm2 ((s i' j).C t) ^ 2) : ℝ) : K) • (s i j).C t
      v2 := fun _ _ => 0, d := fun _ => 0, e := fun _ => 0, rbeta := fun _ => 0
      C := (s i j).C }
  let l := forRange 0 M (lanczosStep E s M numvec store) l0
  if store then fun i j => { l i j with C := copyCols 0 numvec (l i j).v1 (l i j).C } else l

/-- `ChaseMpi::Lanczos(M, upperb)` from the coefficients: chase_mpi 481-501. -/
noncomputable def boundOf (L : Lapack K) (M : ℕ) {m : ℕ} (l : LSt K m) : ℝ :=
  let ritzv := (L.stemr M l.d l.e).1
  max |ritzv 0| |ritzv (M - 1)| + |l.rbeta 0|

/-- `ChaseMpi::Lanczos(M, numvec, ...)` from the coefficients: chase_mpi 508-545. -/
noncomputable def multiOf (L : Lapack K) (M numvec : ℕ) {m : ℕ} (l : LSt K m) : LanczosOut ℝ :=
  let out := forRange 0 numvec (fun i (o : LanczosOut ℝ) =>
    let r := L.stemr M (fun k => l.d (i * M + k)) (fun k => l.e (i * M + k))
    { o with
      theta := writeAt o.theta (M * i) M r.1
      ritzV := r.2
      tau := forRange 0 M (fun k t =>
        Function.update t (k + i * M) (|r.2 (k * M)| * |r.2 (k * M)|)) o.tau })
    { upperb := 0, theta := fun _ => 0, tau := fun _ => 0, ritzV := fun _ => 0 }
  let ub0 := max |out.theta 0| |out.theta (M - 1)| + |l.rbeta 0|
  let ub := forRange 1 numvec (fun i ub =>
    max (max |out.theta (i * M)| |out.theta ((i + 1) * M - 1)| + |l.rbeta i|) ub) ub0
  { out with upperb := ub }

/-- Local part of `checkSymmetryEasy` on process `(i, j)`: dla 757-815 (the loop leaves at the first
mismatch; here it runs on with the answer fixed). -/
noncomputable def symLocal (s : Fam K r c) (i : Fin r.procs) : Bool :=
  let v : (i : Fin r.procs) → Fin (r.size i) → K := fun i a => E.probe i a
  let v2 : (j : Fin c.procs) → Fin (c.size j) → K := fun j => redist E.cRuns v j (fun _ => 0)
  let u : (j : Fin c.procs) → Fin (c.size j) → K := fun j => ∑ i', (s i' j).Hᴴ.mulVec (v i')
  let uT : Fin (r.size i) → K := ∑ j', (s i j').H.mulVec (v2 j')
  let w : Fin (r.size i) → K := redist E.bRuns u i (v i)
  open Classical in
  forRange 0 (r.size i) (fun k ok =>
    if h : k < r.size i then (ok && !decide (‖w ⟨k, h⟩ - uT ⟨k, h⟩‖ > E.symTol)) else ok) true

/-- `checkSymmetryEasy`: dla 757-820, with the reduction `MPI_LAND` over the column communicator. -/
noncomputable def symCheck (s : Fam K r c) : Bool :=
  open Classical in decide (∀ i, symLocal E s i = true)

/-- `symOrHermMatrix` up to the call of `ptranc`: dla 836-871.  `upper` is `uplo == 'U'`. -/
noncomputable def halveLocal (upper : Bool) (R Cl : Dist.Local)
    (H : Matrix (Fin R.size) (Fin Cl.size) K) : Matrix (Fin R.size) (Fin Cl.size) K :=
  forRange 0 Cl.blocks (fun j H =>
    forRange 0 R.blocks (fun i H =>
      forRange 0 (Cl.lens j) (fun q H =>
        forRange 0 (R.lens i) (fun p H =>
          fun a b => if a.val = p + R.offsL i ∧ b.val = q + Cl.offsL j then
              if q + Cl.offs j = p + R.offs i then H a b * (1 / 2 : K)
              else if (if upper then q + Cl.offs j < p + R.offs i
                else q + Cl.offs j > p + R.offs i) then 0
              else H a b
            else H a b) H) H) H) H

/-- The distributed matrix put together. -/
noncomputable def assembleH (s : (i : Fin r.procs) → (j : Fin c.procs) → Matrix (Fin (r.size i)) (Fin (c.size j)) K) :
    Matrix (Fin N) (Fin N) K := fun g h =>
  let x := (Equiv.ofBijective _ r.bij).symm g
  let y := (Equiv.ofBijective _ c.bij).symm h
  s x.1 y.1 x.2 y.2

/-- `symOrHermMatrix`: dla 822-888.  `t_ptranc` (ScaLAPACK) is the conjugate transpose of the distributed
matrix; without ScaLAPACK the function only prints a message. -/
noncomputable def symmetrise (upper : Bool) (s : Fam K r c) : Fam K r c :=
  if E.scalapack then fun i j =>
    let T : Matrix (Fin N) (Fin N) K :=
      (assembleH (r := r) (c := c) fun i j => halveLocal upper (r.tab i) (c.tab j) (s i j).H)ᴴ
    { s i j with H := fun a b =>
        halveLocal upper (r.tab i) (c.tab j) (s i j).H a b + T (r.glob i a) (c.glob j b) }
  else s

/-- The backend as process `(i0, j0)` sees it: `ChaseMpi` (chase_mpi 255-560) on top of `ChaseMpiDLA`. -/
noncomputable def opsAt (i0 : Fin r.procs) (j0 : Fin c.procs) : Chase ℝ (Fam K r c) where
  checkSymmetryEasy := fun s => (symCheck E s, fun i j => { s i j with isSym := symCheck E s })
  start := fun s i j => { s i j with locked := 0 }
  finish := fun s => s
  initVecs := fun random s => initVecs E (if random then initRndVecs E s else s)
  qr := fun _ cond s => qrSelect (qrRoutines E j0 fun i j => (s i j).locked) E.base.doCholQR
    E.base.envDisable (open Classical in decide (cond > E.base.condUpper))
    (open Classical in decide (cond < E.base.condLower)) s
  lanczos1 := fun m s => (boundOf E.base.lapack m (mLanczos E s m 1 false i0 j0), s)
  lanczosN := fun m numvec s => (multiOf E.base.lapack m numvec (mLanczos E s m numvec true i0 j0),
    fun i j => { s i j with C := (mLanczos E s m numvec true i j).C })
  lanczosDos := fun idx m z s => lanczosDos idx m z s
  shift := fun x _ s => shift (x : K) s
  hemm := fun block α β offset s i j => apply (α : K) (β : K) offset block (s i j).locked s i j
  rr := fun block s => ((rr E block (fun i j => (s i j).locked) s).1 i0 j0,
    (rr E block (fun i j => (s i j).locked) s).2)
  resd := fun ritzv fixednev s => ((resd E ritzv fixednev (fun i j => (s i j).locked) s).1 i0 j0,
    (resd E ritzv fixednev (fun i j => (s i j).locked) s).2)
  lock := fun k s i j => { s i j with locked := (s i j).locked + k }
  swap := fun a b s => swap a b s

end Mpi
end Verif
