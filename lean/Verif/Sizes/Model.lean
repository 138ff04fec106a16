/-
Sizes that leave the 32-bit integers: lengths of messages (`int` in MPI) and sizes of LAPACK workspaces (`BlasInt`,
reported by LAPACK as a floating-point number).
-/
import Verif.Bounds.Model
import Mathlib.Algebra.BigOperators.Group.Finset.Basic
import Mathlib.Data.Fintype.Basic

namespace Verif
namespace Sizes

/-- Conversion of a `std::size_t` or `MPI_Count` to `int` (32 bits), as in every call of MPI and LAPACK: reduction
modulo `2^32` into the range of `int`. -/
def toInt (x : ℕ) : ℤ := ((x : ℤ) + 2 ^ 31) % 2 ^ 32 - 2 ^ 31

section Messages
variable {G S : Type*}

/-- `MPI_Allreduce(MPI_IN_PLACE, data, count, …, MPI_SUM, …)` on the arrays of the processes `G` of a communicator, as
called by `AllReduce` (mpi_wrapper.hpp 105-122) and directly in chase_mpidla.hpp.  A negative count is an error. -/
def allReduce [Fintype G] [AddCommMonoid S] (count : ℤ) (buf : G → ℕ → S) : Option (G → ℕ → S) :=
  if count < 0 then none else some fun g i => if i < count.toNat then ∑ g', buf g' i else buf g i

/-- `MPI_Bcast`, as called by `Bcast` (mpi_wrapper.hpp 124-141), and `MPI_Ibcast` with its `MPI_Wait`. -/
def bcast (count : ℤ) (root : G) (buf : G → ℕ → S) : Option (G → ℕ → S) :=
  if count < 0 then none else some fun g i => if i < count.toNat then buf root i else buf g i

/-- `MPI_File_read_all(file, H, count_read, …)`: chase_mpi_properties.hpp 1456-1466 and 1556-1558; `view` are the
elements of the file in the order of the view, `H` the local matrix.  Writing (1508-1519, 1618-1620) is the same with
file and matrix exchanged. -/
def fileTransfer (count : ℤ) (view H : ℕ → S) : Option (ℕ → S) :=
  if count < 0 then none else some fun i => if i < count.toNat then view i else H i

end Messages

/-- The lengths, as computed in `std::size_t`, of the messages of `asynCxHGatherC` on a process: chase_mpidla.hpp (dla)
673, 678 (one of the two), 700 and 710. -/
def gatherMessages (D : Bounds.Mpi.Dims) (block : ℕ) : List ℕ :=
  (if D.same then [block * D.m, block * D.n]
   else (D.cRuns.filter (fun r => r.dest = D.rowRank)).map fun r => r.len * block) ++ [D.n * block]

/-- The same for each call of the distributed backend: `checkSymmetryEasy` dla 788, 799, 817; `qr` dla 1160, 1197, 1212,
1246, 1274, 1290 (Cholesky) and dla 564, 580 (own part of the block, Householder; `send_lens_[0]` of the process is `m`)
and 569, 585 (`block` elements of a derived data type); `lanczos` dla 1410, 1432, 1445, 1479; `hemm` dla 494 or 513, as
the directions alternate; `rr` dla 965; `resd` dla 1002. The copies `C2B`, `B2C` inside these calls (dla 1557, 1562,
1585 and derived data types) are not listed: their blocks are columns of the same arrays. -/
def messages {R : Type*} (D : Bounds.Mpi.Dims) : Call R → List ℕ
  | .checkSymmetryEasy => [D.n, D.m, 1]
  | .qr _ _ => [D.nevex * D.nevex, D.m * D.nevex, D.nevex]
  | .lanczos1 _ => [1, D.n * 1]
  | .lanczosN _ numvec => [numvec, D.n * numvec]
  | .hemm block _ _ _ => [D.n * block, D.m * block]
  | .rr block => gatherMessages D block ++ [D.nevex * block]
  | .resd fixednev => gatherMessages D (D.nevex - fixednev) ++ [D.nevex - fixednev]
  | _ => []

/-- The count that `AllReduce` and `Bcast` compute for NCCL: mpi_wrapper.hpp 94, 113, 132; `w` is 2 for complex and 1
for real elements. A product outside the range of `int` has no defined value. -/
def ncclCount (w len : ℕ) : Option ℤ :=
  let c := (w : ℤ) * toInt len
  if c < -2 ^ 31 ∨ 2 ^ 31 ≤ c then none else some c

section Workspace

/-- A natural number as a binary floating-point number with `p` bits (24 for `float`, 53 for `double`), rounded to the
nearest, to the even one of two. -/
def roundTo (p x : ℕ) : ℕ :=
  if x < 2 ^ p then x else
    let s := Nat.log2 x + 1 - p
    let q := x / 2 ^ s
    let r := x % 2 ^ s
    (if 2 * r < 2 ^ s ∨ (2 * r = 2 ^ s ∧ q % 2 = 0) then q else q + 1) * 2 ^ s

/-- Sizes of the workspaces LAPACK documents as minimal for `xSYEVD` and `xHEEVD` with `JOBZ = 'V'` and order `n > 1`:
`LWORK` real, and `LWORK`, `LRWORK` complex. -/
def syevdMin (n : ℕ) : ℕ := 1 + 6 * n + 2 * n ^ 2

@[inherit_doc syevdMin]
def heevdMin (n : ℕ) : ℕ := 2 * n + n ^ 2

@[inherit_doc syevdMin]
def heevdRealMin (n : ℕ) : ℕ := 1 + 5 * n + 2 * n ^ 2

/-- The size of a workspace that `t_heevd` (blas_templates.inc 872-1036) passes to the second call of LAPACK when the
first one has determined the size `opt`: LAPACK stores it in a floating-point number, the wrapper converts this to
`std::size_t` and then to `int`. -/
def lwork (p opt : ℕ) : ℤ := toInt (roundTo p opt)

/-- What the rest of `t_heevd` does: `std::vector<T>(lwork)` throws if the size is negative (it is then converted to a
`std::size_t` beyond the largest possible size); with a workspace smaller than documented LAPACK sets `INFO` to the
negative of the position of the argument and does nothing, otherwise it solves the problem, `solve` on the matrix and
the values. The assertion that `INFO` is zero is only compiled without `NDEBUG`, and the callers ignore the result:
chase_mpidla_blaslapack_seq.hpp 254, chase_mpidla_blaslapack_seq_inplace.hpp 224, chase_mpidla_blaslapack.hpp 295. -/
def heevdCall {σ : Type*} (position : ℕ) (min : ℕ) (lw : ℤ) (solve : σ → σ) (s : σ) : Option (ℤ × σ) :=
  if lw < 0 then none else if lw < min then some (-position, s) else some (0, solve s)

end Workspace
end Sizes
end Verif
