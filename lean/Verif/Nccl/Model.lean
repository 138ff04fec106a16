/-
Model of the use of NCCL: the communicators made by the constructors of `ChaseMpiProperties`
(ChASE-MPI/chase_mpi_properties.hpp, "prop") and the wrappers `AllReduce` and `Bcast`
(ChASE-MPI/mpi_wrapper.hpp, "wrapper").  Counts beyond the range of `int` are the subject of C71.
-/
import Verif.Nccl.Spec
import Verif.Dist.Model

namespace Verif
namespace Nccl

open Dist

/-- The row communicator: prop 484-496, 776-788, 1048-1060.  Every process makes one id and all ids are
gathered, so `nccl_ids[i]` is the id made by rank `i`; the array has `nprocs_` entries.  `none` if no
iteration of the loop initialises the communicator. -/
def rowInit (rowDim colDim : ℕ) (colMajor : Bool) (nprocs rank : ℕ) : Except Err (Option Init) :=
  let coord := gridCoord rowDim colDim colMajor rank
  forRangeM 0 rowDim (fun i st =>
    if coord.row = i then
      if i < nprocs then .ok (some ⟨(i, 1), colDim, coord.col⟩) else .error .oob
    else .ok st) none

/-- The column communicator: prop 498-511, 790-803, 1062-1075, with ids of the second round. -/
def colInit (rowDim colDim : ℕ) (colMajor : Bool) (nprocs rank : ℕ) : Except Err (Option Init) :=
  let coord := gridCoord rowDim colDim colMajor rank
  forRangeM 0 colDim (fun i st =>
    if coord.col = i then
      if i * rowDim < nprocs then .ok (some ⟨(i * rowDim, 2), rowDim, coord.row⟩) else .error .oob
    else .ok st) none

/-- `datatype_map_` with NCCL: wrapper 46-49. -/
def datatypeMap : Ty → Ty
  | .double => .double
  | .float => .float
  | .complexFloat => .float
  | .complexDouble => .double

/-- `opt_map_` with NCCL: wrapper 42-45. -/
def opMap : Op → Op
  | .max => .max
  | .min => .min
  | .sum => .sum
  | .prod => .prod

/-- `AllReduce` (in place) with the NCCL backend: wrapper 105-122. -/
def allReduce (n : ℕ) (init : ℕ → Init) (ty : Ty) (op : Op) (count : ℕ) (before after : ℕ → ℕ → ℝ) : Prop :=
  AllReduce n init (opMap op) (ty.words * count) before after

/-- `Bcast` with the NCCL backend: wrapper 124-141. -/
def bcast (n : ℕ) (init : ℕ → Init) (ty : Ty) (count root : ℕ) (before after : ℕ → ℕ → ℝ) : Prop :=
  Bcast n init (ty.words * count) root before after

end Nccl
end Verif
