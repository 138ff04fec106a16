/-
The sequential CPU backend `ChaseMpiDLABlaslapackSeq` (ChASE-MPI/impl/chase_mpidla_blaslapack_seq.hpp, cited as seq)
behind `ChaseMpi` (ChASE-MPI/chase_mpi.hpp, cited as chase_mpi), with arbitrary arithmetic: every numerical kernel is a
parameter.  The elements may be floating-point numbers, including those that are not numbers.
-/
import Verif.Backend.Seq

namespace Verif
namespace Rounded



/-- The numerical kernels of the backend on matrices with `N` rows; `K` is the type `T` of the elements and `R` the type
`Base<T>`. -/
structure Arith (K R : Type*) (N : ℕ) where
  /-- conversion from `Base<T>` to `T` -/
  ofBase : R → K
  zero : K
  one : K
  /-- `operator+=` of `T`, in `shiftMatrix` -/
  add : K → K → K
  /-- entry `i` of random column `j` -/
  randn : ℕ → Fin N → K
  /-- the comparison of two products in `checkSymmetryEasy` -/
  symCheck : Matrix (Fin N) (Fin N) K → Bool
  /-- `t_gemm` with `H` (`false`) or its adjoint (`true`) on the left: `α H X + β Y` -/
  gemm : ∀ {b : ℕ}, Bool → Matrix (Fin N) (Fin N) K → K → K → Matrix (Fin N) (Fin b) K → Matrix (Fin N) (Fin b) K →
    Matrix (Fin N) (Fin b) K
  /-- `t_gemm` of the adjoint of a block and a block -/
  gemmProj : ∀ {b : ℕ}, Matrix (Fin N) (Fin b) K → Matrix (Fin N) (Fin b) K → Matrix (Fin b) (Fin b) K
  /-- `t_gemm` of a block and a small matrix -/
  gemmBack : ∀ {b c : ℕ}, Matrix (Fin N) (Fin b) K → Matrix (Fin b) (Fin c) K → Matrix (Fin N) (Fin c) K
  /-- `t_heevd` -/
  heevd : ∀ {b : ℕ}, Matrix (Fin b) (Fin b) K → (Fin b → R) × Matrix (Fin b) (Fin b) K
  /-- `t_axpy(N, α, x, 1, y, 1)`: the new content of `y` -/
  axpy : K → (Fin N → K) → (Fin N → K) → Fin N → K
  /-- `t_nrm2` -/
  nrm2 : (Fin N → K) → R
  /-- the orthogonalisation routines on the columns; the Cholesky variants return `info` -/
  hhQR : (ℕ → Fin N → K) → ℕ → Fin N → K
  cholQR1 : (ℕ → Fin N → K) → ℤ × (ℕ → Fin N → K)
  cholQR2 : (ℕ → Fin N → K) → ℤ × (ℕ → Fin N → K)
  shiftedcholQR2 : (ℕ → Fin N → K) → ℤ × (ℕ → Fin N → K)
  /-- the two Lanczos drivers with `mLanczos` and `t_stemr` -/
  lanczos1 : ℕ → Matrix (Fin N) (Fin N) K → (ℕ → Fin N → K) → R
  lanczosN : ℕ → ℕ → Matrix (Fin N) (Fin N) K → (ℕ → Fin N → K) → LanczosOut R × (ℕ → Fin N → K)
  /-- the comparisons of the condition estimate with the two thresholds -/
  above : R → Bool
  below : R → Bool

/-- Run-time parameters: sizes and the QR switches (chase_mpi 358-377). -/
structure Params where
  nev : ℕ
  nex : ℕ
  doCholQR : Bool
  envDisable : Option ℤ

/-- Number of columns of the search space. -/
def Params.nevex (E : Params) : ℕ := E.nev + E.nex

variable {K R : Type*} {N : ℕ} (A : Arith K R N) (E : Params)

/-- `shiftMatrix`: seq 107-113. -/
def shiftH (c : K) (H : Matrix (Fin N) (Fin N) K) : Matrix (Fin N) (Fin N) K :=
  forRange 0 N (fun k H => fun i j => if i.val = k ∧ j.val = k then A.add (H i j) c else H i j) H

/-- `initRndVecs`: seq 62-73. -/
def initRndVecs (s : Seq.St K N) : Seq.St K N :=
  { s with C := writeAt s.C 0 E.nevex (fun j i => A.randn j i) }

/-- `initVecs`: seq 57-61. -/
def initVecs (s : Seq.St K N) : Seq.St K N :=
  { s with next := .bAc, C2 := copyCols 0 E.nevex s.C s.C2 }

/-- `apply`: seq 83-105. -/
def apply (α β : K) (offset block locked : ℕ) (s : Seq.St K N) : Seq.St K N :=
  match s.next with
  | .bAc =>
    { s with
      B := setBlk (locked + offset) (A.gemm true s.H α β (getBlk (locked + offset) block s.C)
        (getBlk (locked + offset) block s.B)) s.B
      next := .cAb }
  | .cAb =>
    { s with
      C := setBlk (locked + offset) (A.gemm false s.H α β (getBlk (locked + offset) block s.B)
        (getBlk (locked + offset) block s.C)) s.C
      next := .bAc }

/-- `asynCxHGatherC`: seq 115-127. -/
def asynCxHGatherC (locked block : ℕ) (s : Seq.St K N) : Seq.St K N :=
  { s with
    B := setBlk locked (A.gemm true s.H A.one A.zero (getBlk locked block s.C) (getBlk locked block s.B)) s.B
    B2 := copyCols locked block s.C2 s.B2 }

/-- `RR`: seq 240-262. The entries of `ritzv` behind the block are not written; here they are `z`. -/
def rr (z : R) (block locked : ℕ) (s : Seq.St K N) : (ℕ → R) × Seq.St K N :=
  let s := asynCxHGatherC A locked block s
  let M := A.gemmProj (getBlk locked block s.B2) (getBlk locked block s.B)
  let (w, Z) := A.heevd M
  let C := setBlk locked (A.gemmBack (getBlk locked block s.C2) Z) s.C
  (fun i => if h : i < block then w ⟨i, h⟩ else z,
   { s with C := C, C2 := copyCols locked block C s.C2 })

/-- `Resd`: seq 286-302. -/
def resd [Neg R] (z : R) (ritzv : ℕ → R) (locked unconverged : ℕ) (s : Seq.St K N) : (ℕ → R) × Seq.St K N :=
  let s := asynCxHGatherC A locked unconverged s
  forRange 0 unconverged (fun i p =>
    let B := Function.update p.2.B (locked + i)
      (A.axpy (A.ofBase (-ritzv i)) (p.2.B2 (locked + i)) (p.2.B (locked + i)))
    (Function.update p.1 i (A.nrm2 (B (locked + i))), { p.2 with B := B })) (fun _ => z, s)

/-- `lockVectorCopyAndOrthoConcatswap`: seq 428-433. -/
def lockVectorCopy (locked : ℕ) (s : Seq.St K N) : Seq.St K N :=
  let C := copyCols 0 locked s.C2 s.C
  { s with C := C, C2 := copyCols locked (E.nevex - locked) C s.C2 }

/-- `LanczosDos`: seq 450-458. -/
def lanczosDos (idx m : ℕ) (ritzVc : ℕ → R) (s : Seq.St K N) : Seq.St K N :=
  let Z : Matrix (Fin m) (Fin idx) K := fun a b => A.ofBase (ritzVc (a + b * m))
  let C2 := setBlk 0 (A.gemmBack (getBlk 0 m s.C) Z) s.C2
  { s with C2 := C2, C := copyCols 0 m C2 s.C }

/-- The orthogonalisation routines of seq 304-433, in the form the selection uses. -/
def qrRoutines (locked : ℕ) : QrRoutines (Seq.St K N) where
  hhQR := fun s => { s with C := A.hhQR s.C }
  cholQR1 := fun s => ((A.cholQR1 s.C).1, { s with C := (A.cholQR1 s.C).2 })
  cholQR2 := fun s => ((A.cholQR2 s.C).1, { s with C := (A.cholQR2 s.C).2 })
  shiftedcholQR2 := fun s => ((A.shiftedcholQR2 s.C).1, { s with C := (A.shiftedcholQR2 s.C).2 })
  lockCopy := fun _ s => lockVectorCopy E locked s

/-- The backend behind the interface `Chase<T>` of the solver: `ChaseMpi` (chase_mpi 255-560) on top of
`ChaseMpiDLABlaslapackSeq`. -/
def ops [Neg R] [Zero R] : Chase R (Seq.St K N) where
  checkSymmetryEasy := fun s => (A.symCheck s.H, { s with isSym := A.symCheck s.H })
  start := fun s => { s with locked := 0 }
  finish := fun s => s
  initVecs := fun random s => initVecs E (if random then initRndVecs A E s else s)
  qr := fun _ cond s => qrSelect (qrRoutines A E s.locked) E.doCholQR E.envDisable (A.above cond) (A.below cond) s
  lanczos1 := fun m s => (A.lanczos1 m s.H s.C, s)
  lanczosN := fun m numvec s => ((A.lanczosN m numvec s.H s.C).1, { s with C := (A.lanczosN m numvec s.H s.C).2 })
  lanczosDos := fun idx m z s => lanczosDos A idx m z s
  shift := fun c _ s => { s with H := shiftH A (A.ofBase c) s.H }
  hemm := fun block α β offset s => apply A (A.ofBase α) (A.ofBase β) offset block s.locked s
  rr := fun block s => rr A 0 block s.locked s
  resd := fun ritzv fixednev s => resd A 0 ritzv s.locked (E.nevex - fixednev) s
  lock := fun k s => { s with locked := s.locked + k }
  swap := fun i j s => Seq.swap i j s

/-! ### Exact arithmetic is an instance -/

section Exact
open Matrix
variable {K : Type*} [RCLike K] {N : ℕ} (E : Env K)

/-- The kernels of `Verif.Backend.Dense` and `Verif.Backend.Common`. -/
noncomputable def exactArith : Arith K ℝ N where
  ofBase := fun x => (x : K)
  zero := 0
  one := 1
  add := (· + ·)
  randn := fun j i => E.lapack.randn j i
  symCheck := Verif.symCheck E.lapack
  gemm := fun adj H α β X Y => α • ((if adj then Hᴴ else H) * X) + β • Y
  gemmProj := fun X Y => Xᴴ * Y
  gemmBack := fun X Z => X * Z
  heevd := fun M => E.lapack.heevd M
  axpy := fun a x y => a • x + y
  nrm2 := Verif.nrm2
  hhQR := hhQRc E.lapack E.nevex
  cholQR1 := cholQR1c E.lapack E.nevex
  cholQR2 := cholQR2c E.lapack E.nevex .seq
  shiftedcholQR2 := shiftedcholQR2c E.lapack E.nevex .seq
  lanczos1 := fun m H C => lanczosBound axpyOwn E.lapack H m C
  lanczosN := fun m k H C => lanczosMulti axpyOwn E.lapack H m k C
  above := fun c => open Classical in decide (c > E.condUpper)
  below := fun c => open Classical in decide (c < E.condLower)

/-- The sizes and switches of an environment. -/
def paramsOf : Params := ⟨E.nev, E.nex, E.doCholQR, E.envDisable⟩

/-- With exact kernels the model is the model of `Verif.Backend.Seq`. -/
theorem exact_eq : ops (exactArith (N := N) E) (paramsOf E) = Seq.ops E := by
  have hg : ∀ l b (s : Seq.St K N), asynCxHGatherC (exactArith E) l b s = Seq.asynCxHGatherC l b s := by
    intro l b s
    unfold asynCxHGatherC Seq.asynCxHGatherC exactArith
    simp
  unfold ops Seq.ops
  congr 1
  · funext b s
    unfold rr Seq.rr
    rw [hg]
    rfl
  · funext f k s
    unfold resd Seq.resd
    rw [hg]
    simp [exactArith, paramsOf, Params.nevex, Env.nevex]

end Exact
end Rounded
end Verif
