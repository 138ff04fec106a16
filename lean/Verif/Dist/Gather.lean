/-
Scattering a block of vectors over the processes of a communicator and collecting it again:
`ChaseMpiDLA::preApplication` and `ChaseMpiDLA::collecRedundantVecs` (chase_mpidla.hpp 424-449 and
533-628), with the tables of the constructors.

One column is modelled; the C++ code treats the columns of a block alike, column `j` of a buffer with
leading dimension `n` starts at `j * n` (the MPI subarray types of chase_mpidla.hpp 114-131 have the
extent of one column of the receive buffer).
-/
import Verif.Dist.Model
import Verif.Solver.Model

namespace Verif
namespace Dist

/-- The tables about all processes of one dimension: `send_lens_`, `block_counts_`, `block_lens_`,
`block_displs_`. -/
structure AllTables where
  sendLens : ℕ → ℕ
  counts : ℕ → ℕ
  lens : ℕ → ℕ → ℕ
  displs : ℕ → ℕ → ℕ

/-- Block-cyclic constructor, tables about all processes (chase_mpi_properties.hpp 381-437): for each
process `numroc` and the loop over the blocks, which is the one of `fillTables`. -/
def cyclicAll (N mb src dims : ℕ) : Except Err AllTables :=
  forRangeM 0 dims (fun p T =>
    match numroc N mb p src dims with
    | .error e => .error e
    | .ok (size, blocks) =>
      match fillTables N mb dims p blocks N 0 src ⟨fun _ => 0, fun _ => 0, fun _ => 0, 0⟩ with
      | .error e => .error e
      | .ok t => .ok
        { sendLens := Function.update T.sendLens p size
          counts := Function.update T.counts p blocks
          lens := Function.update T.lens p t.lens
          displs := Function.update T.displs p t.offs })
    ⟨fun _ => 0, fun _ => 0, fun _ _ => 0, fun _ _ => 0⟩

/-- `block_cyclic_displs_` (chase_mpidla.hpp 98-112): positions of the blocks when the pieces of the
processes are concatenated.  The state is the counter `displs_cnt` and the table. -/
def cyclicDispls (dims : ℕ) (T : AllTables) : ℕ × (ℕ → ℕ → ℕ) :=
  forRange 0 dims (fun p s =>
    forRange 0 (T.counts p) (fun i s =>
      (s.1 + T.lens p i, Function.update s.2 p (Function.update (s.2 p) i s.1))) s)
    (0, fun _ _ => 0)

/-- The tables `get_offs_lens` reports for the block layout: one block
(chase_mpi_properties.hpp 668-680). -/
def BlockLocal.tables (L : BlockLocal) : Local :=
  ⟨L.size, 1, fun _ => L.off, fun _ => L.size, fun _ => 0⟩

section
variable {K : Type*}

/-- `preApplication` (chase_mpidla.hpp 432-441) on one column, on the process with tables `L`. -/
def scatter (L : Local) (v piece : ℕ → K) : ℕ → K :=
  forRange 0 L.blocks (fun i c => writeAt c (L.offsL i) (L.lens i) fun t => v (L.offs i + t)) piece

/-- `collecRedundantVecs` for the block-cyclic layout (chase_mpidla.hpp 553-627) on one column:
process `p` broadcasts its piece, which every process (the sender by `memcpy`) puts to
`Buff_ + block_cyclic_displs_[p][0]`; then the blocks are copied to their places.  If a process has
no block, entry 0 of an empty table is read: `Err.oob`. -/
def collectCyclic (dims : ℕ) (T : AllTables) (pieces : ℕ → ℕ → K) (buff target : ℕ → K) :
    Except Err (ℕ → K) :=
  let cyc := (cyclicDispls dims T).2
  match forRangeM 0 dims (fun p b =>
      if T.counts p = 0 then .error .oob
      else .ok (writeAt b (cyc p 0) (T.sendLens p) (pieces p))) buff with
  | .error e => .error e
  | .ok buff => .ok (forRange 0 dims (fun p t =>
      forRange 0 (T.counts p) (fun i t =>
        writeAt t (T.displs p i) (T.lens p i) fun x => buff (cyc p i + x)) t) target)

/-- `collecRedundantVecs` for the block layout (chase_mpidla.hpp 570-586 and 602-611) on one column:
the pieces go to `block_cyclic_displs_[p][0]` of the target, where the table holds the sums of the
sizes of the previous processes (one block per process). -/
def collectBlock (dims : ℕ) (tab : ℕ → ℕ × ℕ) (pieces : ℕ → ℕ → K) (target : ℕ → K) : ℕ → K :=
  let cyc := (cyclicDispls dims ⟨fun p => (tab p).1, fun _ => 1, fun p _ => (tab p).1,
    fun p _ => (tab p).2⟩).2
  forRange 0 dims (fun p t => writeAt t (cyc p 0) (tab p).1 (pieces p)) target

end
end Dist
end Verif
