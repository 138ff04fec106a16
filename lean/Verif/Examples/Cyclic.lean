/-
The block-cyclic branches (`USE_BLOCK_CYCLIC`) of the first two examples:
/repo/examples/0_hello_world/0_hello_world.cpp and 1_sequence_eigenproblems/1_sequence_eigenproblems.cpp.

The tables of a process are those of the constructor, `Dist.cyclicLocal`.  The programs fix `N = 1001`, blocks of
`NB = 32` and the first process as the source; here they are arbitrary.
-/
import Verif.Examples.Model
import Verif.Dist.Model

namespace Verif
namespace Examples

section
variable {K : Type*}

/-- The distribution of the vector `Clement` over the blocks of a process with the tables `R` of its rows and `C` of its
columns (0_hello_world.cpp 131-148, 1_sequence_eigenproblems.cpp 147-163).  `m` there is `R.size`. -/
def loadCyclic (N : ℕ) (R C : Dist.Local) (M H : Arr K) : Except Fault (Arr K) :=
  forRangeM 0 C.blocks (fun j H =>
    forRangeM 0 R.blocks (fun i H =>
      forRangeM 0 (C.lens j) (fun q H =>
        forRangeM 0 (R.lens i) (fun p H => do
          let v ← M.read ((q + C.offs j) * N + p + R.offs i)
          H.put ((q + C.offsL j) * R.size + p + R.offsL i) v) H) H) H) H

/-- 0_hello_world.cpp 94-148 with `USE_BLOCK_CYCLIC`: the local array of `ldh * n` elements (the leading dimension is the
number of local rows, chase_mpi_properties.hpp 314) when the solver is called. -/
def helloCyclic [Zero K] (root : ℕ → K) (N : ℕ) (R C : Dist.Local) : Except Fault (Arr K) := do
  let HC ← helloClement root N (Arr.zeros (R.size * C.size), Arr.zeros (N * N))
  loadCyclic N R C HC.2 HC.1

/-- The local array when problem `t` is solved, if it was `H` before (1_sequence_eigenproblems.cpp 106-116, 147-163,
213-221 with `USE_BLOCK_CYCLIC`). -/
def sequenceLocalCyclic [Zero K] [Add K] [Star K] (root : ℕ → K) (p : ℕ → ℕ → ℕ → K) (N : ℕ) (R C : Dist.Local) (t : ℕ)
    (H : Arr K) : Except Fault (Arr K) := do
  let a ← sequenceMatrix root p N t
  loadCyclic N R C a H

end
end Examples
end Verif
