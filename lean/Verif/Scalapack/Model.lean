/-
Model of the calls of BLACS and ScaLAPACK: the contexts and descriptors made by `ChaseMpiProperties`
(ChASE-MPI/chase_mpi_properties.hpp, "prop") and `symOrHermMatrix` and `hhQR` of `ChaseMpiDLA`
(ChASE-MPI/impl/chase_mpidla.hpp, "dla") on the arrays in memory.

The routines themselves are not modelled; what they do is `Run` of Spec.lean.  `t_descinit`
(blas_templates.inc 1470-1493) converts its arguments to `int`; sizes beyond the range of `int` are not
modelled.  The return value `info` is ignored by the code.
-/
import Verif.Scalapack.Spec
import Mathlib.Analysis.RCLike.Basic

namespace Verif
namespace Scalapack

open Dist

/-- `colcomm_ctxt_`: prop 439-459 (block-cyclic), 730-750 (block), 1017-1028 (block, sizes chosen;
the grid is row-major there):
`blacs_gridmap` on the system context with `userMap`, one column.  `rank` is the rank in `comm`. -/
def colCtxt (rowDim colDim : ℕ) (colMajor : Bool) (rank : ℕ) : Ctxt :=
  ⟨rowDim, 1, fun i _ => userMap rowDim colDim colMajor rank i⟩

/-- `comm2d_ctxt_`: prop 467-477, 758-768, 1037-1041: `blacs_gridinit` on the system context with order `'R'` or `'C'`: the
processes `0, 1, ...` of the system context fill the grid by rows or by columns. -/
def gridCtxt (rowDim colDim : ℕ) (colMajor : Bool) : Ctxt :=
  ⟨rowDim, colDim, fun i j => if colMajor then i + j * rowDim else i * colDim + j⟩

/-- `desc1D_Nxnevx_`: prop 460-465 (block-cyclic; `src` is `irsrc_`), 751-756 and 1030-1035 (block; `src`
is 0).  `myrow` is the row of the calling process in the context, `m` its `m_`, `mb` its `mb_`. -/
def vectorDesc (C : Ctxt) (myrow N nevex mb src m : ℕ) : Desc × ℤ :=
  descinit C myrow N nevex mb (min 32 nevex) src 0 m

/-- `desc_H` of `symOrHermMatrix`: dla 825-833.  The source process is `(0, 0)` whatever `irsrc_` and
`icsrc_` are. -/
def matrixDesc (C : Ctxt) (myrow N mb nb ldh : ℕ) : Desc × ℤ :=
  descinit C myrow N N mb nb 0 0 ldh

/-- The columns of the block of vectors: all on every process of a column communicator, in place.
(`ptr()` of `matrices_->C()`, an `m_` by `nev_ + nex_` array with leading dimension `m_`: dla 1066-1078.) -/
def wholeTab (n : ℕ) : Local := ⟨n, 1, fun _ => 0, fun _ => n, fun _ => 0⟩

section
variable {K : Type*} [RCLike K]

/-- `symOrHermMatrix` up to the call of `t_ptranc`, on the array `H` with leading dimension `ldh`:
dla 835-872.  `upper` is `uplo == 'U'`. -/
noncomputable def halveArr (upper : Bool) (R Cl : Local) (ldh : ℕ) (H : ℕ → K) : ℕ → K :=
  forRange 0 Cl.blocks (fun j H =>
    forRange 0 R.blocks (fun i H =>
      forRange 0 (Cl.lens j) (fun q H =>
        forRange 0 (R.lens i) (fun p H =>
          let a := (q + Cl.offsL j) * ldh + p + R.offsL i
          if q + Cl.offs j = p + R.offs i then Function.update H a (H a * (1 / 2 : K))
          else if (if upper then q + Cl.offs j < p + R.offs i else q + Cl.offs j > p + R.offs i) then
            Function.update H a 0
          else H) H) H) H) H

/-- Length of `tmp`: dla 875. -/
def tmpSize (m n nb : ℕ) : ℕ := m * (n + 2 * nb)

/-- The final loop of `symOrHermMatrix`: dla 878-884. -/
def addArr (m n ldh : ℕ) (H tmp : ℕ → K) : ℕ → K :=
  forRange 0 m (fun i H => forRange 0 n (fun j H =>
    Function.update H (i + j * ldh) (H (i + j * ldh) + tmp (i + j * m))) H) H

/-- Conjugate transposition, what `t_ptranc` with `alpha = 1`, `beta = 0` stands for
(blas_templates.inc 1742-1810: `pstran`, `pdtran`, `pctranc`, `pztranc`). -/
def Transposed (N : ℕ) (A B : ℕ → ℕ → K) : Prop := ∀ g < N, ∀ h < N, B g h = star (A h g)

/-- `symOrHermMatrix` with ScaLAPACK on all processes of the grid, if `comm` is `MPI_COMM_WORLD`:
dla 822-884.  `R i`, `Cl j` are the tables of grid row `i` and grid column `j`; `mb`, `nb` are `mb_`, `nb_`;
process number `y` has `H y` with leading dimension `ldh y` before and `H' y` after.  `tmp` is a
`std::vector`, so it starts as zeros; it is modelled without its length, which is `tmpSize`. -/
def SymRun (upper : Bool) (N rowDim colDim : ℕ) (colMajor : Bool) (R Cl : ℕ → Local) (mb nb : ℕ)
    (ldh : ℕ → ℕ) (H H' : ℕ → ℕ → K) : Prop :=
  let row := fun y => (gridCoord rowDim colDim colMajor y).row
  let col := fun y => (gridCoord rowDim colDim colMajor y).col
  let halved := fun y => halveArr upper (R (row y)) (Cl (col y)) (ldh y) (H y)
  let D := fun y => (matrixDesc (gridCtxt rowDim colDim colMajor) (row y) N mb nb (ldh y)).1
  ∃ tmp : ℕ → ℕ → K,
    Run (Set.Iio (rowDim * colDim)) D N N (Transposed N) halved (fun _ _ => 0) tmp ∧
    ∀ y < rowDim * colDim,
      H' y = addArr (R (row y)).size (Cl (col y)).size (ldh y) (halved y) (tmp y)

/-- `hhQR` with ScaLAPACK on the processes `S` of a column communicator, if `comm` is `MPI_COMM_WORLD`:
dla 1053-1080.  Process `y` has the `nevex` columns in `C y` before and in `C' y` after; `rel V Q` is the
meaning of `t_pgeqrf` followed by `t_pgqr`. -/
def QrRun (S : Set ℕ) (rowDim colDim : ℕ) (colMajor : Bool) (N nevex mb src : ℕ) (R : ℕ → Local)
    (rel : (ℕ → ℕ → K) → (ℕ → ℕ → K) → Prop) (C C' : ℕ → ℕ → K) : Prop :=
  let row := fun y => (gridCoord rowDim colDim colMajor y).row
  Run S (fun y => (vectorDesc (colCtxt rowDim colDim colMajor y) (row y) N nevex mb src
    (R (row y)).size).1) N nevex rel C C C'

end

end Scalapack
end Verif
