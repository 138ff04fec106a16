/-
Model of the two backends that exchange their two buffers:
 * `ChaseMpiDLABlaslapackSeqInplace` (ChASE-MPI/impl/chase_mpidla_blaslapack_seq_inplace.hpp, inplace),
 * `ChaseMpiDLACudaSeq` (ChASE-MPI/impl/chase_mpidla_cuda_seq.hpp, cuda_seq),
behind `ChaseMpi` (ChASE-MPI/chase_mpi.hpp, chase_mpi).

The two have the same structure; they differ in the Cholesky variants (`CholVariant`), in the
coefficients of the batched Lanczos (`Kind.axpy`), in what `initVecs`, `End` and `Resd` do (`Kind`).
-/
import Verif.Backend.Common
import Verif.Backend.Qr

namespace Verif
namespace InPlace

open Matrix

variable {K : Type*} [RCLike K] {N : ℕ}

/-- Which of the two backends. -/
inductive Kind where
  | cpu | cuda
  deriving DecidableEq

/-- Data members.  `V1`, `V2` are the buffers the pointers `V1_`/`V2_` (`d_V1_`/`d_V2_`) currently point
to.  `user` is the content of the user's array `V` where it is a separate piece of memory (cuda);
for the CPU backend the user's array is one of the two buffers, the one pointed to by `V1_` iff
`flipped = false`.  `H` is the matrix used in products: the user's array (cpu) or `d_H_` (cuda);
`hostH` is the user's matrix where it is a separate piece of memory (cuda).
`dRitz` are the values left on the device by `RR`. -/
structure St (K : Type*) (N : ℕ) where
  H : Matrix (Fin N) (Fin N) K
  hostH : Matrix (Fin N) (Fin N) K
  V1 : ℕ → Fin N → K
  V2 : ℕ → Fin N → K
  user : ℕ → Fin N → K
  flipped : Bool
  dRitz : ℕ → ℝ
  locked : ℕ
  isSym : Bool

/-- What the user reads from the array `V` handed to the constructor. -/
def St.userV (k : Kind) (s : St K N) : ℕ → Fin N → K :=
  match k with
  | .cpu => if s.flipped then s.V2 else s.V1
  | .cuda => s.user

/-- The user's matrix. -/
def St.userH (k : Kind) (s : St K N) : Matrix (Fin N) (Fin N) K :=
  match k with
  | .cpu => s.H
  | .cuda => s.hostH

variable (E : Env K)

/-- `initRndVecs`: inplace 58-69, cuda_seq 279-284. -/
def initRndVecs (s : St K N) : St K N :=
  { s with V1 := writeAt s.V1 0 E.nevex (fun j i => E.lapack.randn j i) }

/-- `initVecs`: inplace 54-57; cuda_seq 273-278 (also copies `H` to the device). -/
def initVecs (k : Kind) (s : St K N) : St K N :=
  let s := { s with V2 := copyCols 0 E.nevex s.V1 s.V2 }
  match k with
  | .cpu => s
  | .cuda => { s with H := s.hostH }

/-- `apply`: inplace 77-86, cuda_seq 293-303. -/
def apply (α β : K) (offset block locked : ℕ) (s : St K N) : St K N :=
  let V2 := setBlk (locked + offset) (α • (s.H * getBlk (locked + offset) block s.V1) +
    β • getBlk (locked + offset) block s.V2) s.V2
  { s with V1 := V2, V2 := s.V1, flipped := !s.flipped }

/-- `RR`: inplace 211-231, cuda_seq 447-478. -/
def rr (block locked : ℕ) (s : St K N) : (ℕ → ℝ) × St K N :=
  let V2 := setBlk locked (s.Hᴴ * getBlk locked block s.V1) s.V2
  let A := (getBlk locked block V2)ᴴ * getBlk locked block s.V1
  let (w, Z) := E.lapack.heevd A
  let V2 := setBlk locked (getBlk locked block s.V1 * Z) V2
  let vals : ℕ → ℝ := fun i => if h : i < block then w ⟨i, h⟩ else 0
  (vals, { s with V1 := V2, V2 := s.V1, flipped := !s.flipped, dRitz := writeAt s.dRitz 0 block vals })

/-- `Resd`: inplace 255-273; cuda_seq 502-519 uses the values `d_ritz_` left by `RR` instead of its
argument. -/
noncomputable def resd (k : Kind) (ritzv : ℕ → ℝ) (locked unconverged : ℕ) (s : St K N) :
    (ℕ → ℝ) × St K N :=
  let vals := match k with
    | .cpu => ritzv
    | .cuda => s.dRitz
  let V2 := setBlk locked (s.Hᴴ * getBlk locked unconverged s.V1) s.V2
  forRange 0 unconverged (fun i p =>
    let V2 := Function.update p.2.V2 (locked + i)
      ((-(vals i : K)) • p.2.V1 (locked + i) + p.2.V2 (locked + i))
    (Function.update p.1 i (nrm2 (V2 (locked + i))), { p.2 with V2 := V2 }))
    (fun _ => 0, { s with V2 := V2 })

/-- The copy `V2[:locked] = V1[:locked]` at the start of every orthogonalisation routine:
inplace 281, 294, 319, 349; cuda_seq 524, 554, 605, 670. -/
def saveLocked (locked : ℕ) (s : St K N) : St K N :=
  { s with V2 := copyCols 0 locked s.V1 s.V2 }

/-- `lockVectorCopyAndOrthoConcatswap`: inplace 411-414, cuda_seq 773-777. -/
def lockVectorCopy (locked : ℕ) (s : St K N) : St K N :=
  { s with V1 := copyCols 0 locked s.V2 s.V1 }

/-- `Swap`: inplace 416-423, cuda_seq 779-787 (only one of the two buffers). -/
def swap (i j : ℕ) (s : St K N) : St K N := { s with V1 := swapAt s.V1 i j }

/-- `LanczosDos`: inplace 425-434, cuda_seq 789-800. -/
def lanczosDos (idx m : ℕ) (ritzVc : ℕ → ℝ) (s : St K N) : St K N :=
  let Z : Matrix (Fin m) (Fin idx) K := fun a b => (ritzVc (a + b * m) : K)
  let V2 := setBlk 0 (getBlk 0 m s.V1 * Z) s.V2
  { s with V2 := V2, V1 := copyCols 0 m V2 s.V1 }

/-- Cholesky variant of the backend. -/
def Kind.chol : Kind → CholVariant
  | .cpu => .inplace
  | .cuda => .cuda

/-- Coefficients used by `axpy_batch` of the backend. -/
def Kind.axpy : Kind → ℕ → ℕ
  | .cpu => axpyOwn
  | .cuda => axpyFirst

/-- The orthogonalisation routines: inplace 275-414, cuda_seq 521-777. -/
noncomputable def qrRoutines (k : Kind) (locked : ℕ) : QrRoutines (St K N) where
  hhQR := fun s =>
    let s := saveLocked locked s
    { s with V1 := hhQRc E.lapack E.nevex s.V1 }
  cholQR1 := fun s =>
    let s := saveLocked locked s
    ((cholQR1c E.lapack E.nevex s.V1).1, { s with V1 := (cholQR1c E.lapack E.nevex s.V1).2 })
  cholQR2 := fun s =>
    let s := saveLocked locked s
    ((cholQR2c E.lapack E.nevex k.chol s.V1).1,
      { s with V1 := (cholQR2c E.lapack E.nevex k.chol s.V1).2 })
  shiftedcholQR2 := fun s =>
    let s := saveLocked locked s
    ((shiftedcholQR2c E.lapack E.nevex k.chol s.V1).1,
      { s with V1 := (shiftedcholQR2c E.lapack E.nevex k.chol s.V1).2 })
  lockCopy := fun _ s => lockVectorCopy locked s

/-- `End`: inplace 185 does nothing, cuda_seq 405-409 copies the current buffer to the user's array. -/
def finish (k : Kind) (s : St K N) : St K N :=
  match k with
  | .cpu => s
  | .cuda => { s with user := copyCols 0 E.nevex s.V1 s.user }

/-- `ChaseMpi` on top of the backend. -/
noncomputable def ops (k : Kind) : Chase ℝ (St K N) where
  checkSymmetryEasy := fun s =>
    (symCheck E.lapack (s.userH k), { s with isSym := symCheck E.lapack (s.userH k) })
  start := fun s => { s with locked := 0 }
  finish := finish E k
  initVecs := fun random s => initVecs E k (if random then initRndVecs E s else s)
  qr := fun _ cond s => qrSelect (qrRoutines E k s.locked) E.doCholQR E.envDisable
    (open Classical in decide (cond > E.condUpper)) (open Classical in decide (cond < E.condLower)) s
  lanczos1 := fun m s => (lanczosBound k.axpy E.lapack s.H m s.V1, s)
  lanczosN := fun m numvec s => ((lanczosMulti k.axpy E.lapack s.H m numvec s.V1).1,
    { s with V1 := (lanczosMulti k.axpy E.lapack s.H m numvec s.V1).2 })
  lanczosDos := fun idx m z s => lanczosDos idx m z s
  shift := fun c _ s => { s with H := shiftH (c : K) s.H }
  hemm := fun block α β offset s => apply (α : K) (β : K) offset block s.locked s
  rr := fun block s => rr E block s.locked s
  resd := fun ritzv fixednev s => resd k ritzv s.locked (E.nevex - fixednev) s
  lock := fun k s => { s with locked := s.locked + k }
  swap := fun i j s => swap i j s

end InPlace
end Verif
