/-
Model of the sequential CPU backend `ChaseMpiDLABlaslapackSeq`
(ChASE-MPI/impl/chase_mpidla_blaslapack_seq.hpp, cited as seq), behind `ChaseMpi`
(ChASE-MPI/chase_mpi.hpp, cited as chase_mpi).
-/
import Verif.Backend.Common
import Verif.Backend.Qr

namespace Verif
namespace Seq

open Matrix

variable {K : Type*} [RCLike K] {N : ℕ}

/-- `NextOp`: seq 642-646. -/
inductive NextOp where
  | cAb | bAc
  deriving DecidableEq

/-- Data members of the backend (seq 642-670), and `locked_`, `is_sym_` of `ChaseMpi`.  `C` is the
user's buffer `V`. -/
structure St (K : Type*) (N : ℕ) where
  H : Matrix (Fin N) (Fin N) K
  C : ℕ → Fin N → K
  B : ℕ → Fin N → K
  C2 : ℕ → Fin N → K
  B2 : ℕ → Fin N → K
  next : NextOp
  locked : ℕ
  isSym : Bool

variable (E : Env K)

/-- `initRndVecs`: seq 62-73. -/
def initRndVecs (s : St K N) : St K N :=
  { s with C := writeAt s.C 0 E.nevex (fun j i => E.lapack.randn j i) }

/-- `initVecs`: seq 57-61. -/
def initVecs (s : St K N) : St K N :=
  { s with next := .bAc, C2 := copyCols 0 E.nevex s.C s.C2 }

/-- `apply`: seq 83-105. -/
def apply (α β : K) (offset block locked : ℕ) (s : St K N) : St K N :=
  match s.next with
  | .bAc =>
    { s with
      B := setBlk (locked + offset) (α • (s.Hᴴ * getBlk (locked + offset) block s.C) +
        β • getBlk (locked + offset) block s.B) s.B
      next := .cAb }
  | .cAb =>
    { s with
      C := setBlk (locked + offset) (α • (s.H * getBlk (locked + offset) block s.B) +
        β • getBlk (locked + offset) block s.C) s.C
      next := .bAc }

/-- `asynCxHGatherC`: seq 115-127. -/
def asynCxHGatherC (locked block : ℕ) (s : St K N) : St K N :=
  { s with
    B := setBlk locked (s.Hᴴ * getBlk locked block s.C) s.B
    B2 := copyCols locked block s.C2 s.B2 }

/-- `RR`: seq 240-262. -/
def rr (block locked : ℕ) (s : St K N) : (ℕ → ℝ) × St K N :=
  let s := asynCxHGatherC locked block s
  let A := (getBlk locked block s.B2)ᴴ * getBlk locked block s.B
  let (w, Z) := E.lapack.heevd A
  let C := setBlk locked (getBlk locked block s.C2 * Z) s.C
  (fun i => if h : i < block then w ⟨i, h⟩ else 0,
   { s with C := C, C2 := copyCols locked block C s.C2 })

/-- `Resd`: seq 286-302. -/
noncomputable def resd (ritzv : ℕ → ℝ) (locked unconverged : ℕ) (s : St K N) :
    (ℕ → ℝ) × St K N :=
  let s := asynCxHGatherC locked unconverged s
  forRange 0 unconverged (fun i p =>
    let B := Function.update p.2.B (locked + i)
      ((-(ritzv i : K)) • p.2.B2 (locked + i) + p.2.B (locked + i))
    (Function.update p.1 i (nrm2 (B (locked + i))), { p.2 with B := B })) (fun _ => 0, s)

/-- `lockVectorCopyAndOrthoConcatswap`: seq 428-433. -/
def lockVectorCopy (locked : ℕ) (s : St K N) : St K N :=
  let C := copyCols 0 locked s.C2 s.C
  { s with C := C, C2 := copyCols locked (E.nevex - locked) C s.C2 }

/-- `Swap`: seq 435-448. -/
def swap (i j : ℕ) (s : St K N) : St K N :=
  { s with C := swapAt s.C i j, C2 := swapAt s.C2 i j }

/-- `LanczosDos`: seq 450-458.  `ritzVc` is column major with leading dimension `m`. -/
def lanczosDos (idx m : ℕ) (ritzVc : ℕ → ℝ) (s : St K N) : St K N :=
  let Z : Matrix (Fin m) (Fin idx) K := fun a b => (ritzVc (a + b * m) : K)
  let C2 := setBlk 0 (getBlk 0 m s.C * Z) s.C2
  { s with C2 := C2, C := copyCols 0 m C2 s.C }

/-- The orthogonalisation routines of seq 304-433, in the form the selection uses. -/
noncomputable def qrRoutines (locked : ℕ) : QrRoutines (St K N) where
  hhQR := fun s => { s with C := hhQRc E.lapack E.nevex s.C }
  cholQR1 := fun s =>
    ((cholQR1c E.lapack E.nevex s.C).1, { s with C := (cholQR1c E.lapack E.nevex s.C).2 })
  cholQR2 := fun s => ((cholQR2c E.lapack E.nevex .seq s.C).1,
    { s with C := (cholQR2c E.lapack E.nevex .seq s.C).2 })
  shiftedcholQR2 := fun s => ((shiftedcholQR2c E.lapack E.nevex .seq s.C).1,
    { s with C := (shiftedcholQR2c E.lapack E.nevex .seq s.C).2 })
  lockCopy := fun _ s => lockVectorCopy E locked s

/-- The backend behind the interface `Chase<T>` of the solver: `ChaseMpi` (chase_mpi 255-560) on top of
`ChaseMpiDLABlaslapackSeq`. -/
noncomputable def ops : Chase ℝ (St K N) where
  checkSymmetryEasy := fun s =>
    (symCheck E.lapack s.H, { s with isSym := symCheck E.lapack s.H })
  start := fun s => { s with locked := 0 }
  finish := fun s => s
  initVecs := fun random s => initVecs E (if random then initRndVecs E s else s)
  qr := fun _ cond s => qrSelect (qrRoutines E s.locked) E.doCholQR E.envDisable
    (open Classical in decide (cond > E.condUpper)) (open Classical in decide (cond < E.condLower)) s
  lanczos1 := fun m s => (lanczosBound axpyOwn E.lapack s.H m s.C, s)
  lanczosN := fun m numvec s => ((lanczosMulti axpyOwn E.lapack s.H m numvec s.C).1,
    { s with C := (lanczosMulti axpyOwn E.lapack s.H m numvec s.C).2 })
  lanczosDos := fun idx m z s => lanczosDos idx m z s
  shift := fun c _ s => { s with H := shiftH (c : K) s.H }
  hemm := fun block α β offset s => apply (α : K) (β : K) offset block s.locked s
  rr := fun block s => rr E block s.locked s
  resd := fun ritzv fixednev s => resd ritzv s.locked (E.nevex - fixednev) s
  lock := fun k s => { s with locked := s.locked + k }
  swap := fun i j s => swap i j s

end Seq
end Verif
