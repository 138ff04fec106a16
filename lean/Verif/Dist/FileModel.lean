/-
Model of the parallel file input and output of `ChaseMpiProperties`
(ChASE-MPI/chase_mpi_properties.hpp 1437-1628).

A file is its length in elements together with its contents; element sizes in bytes, partial elements and the
conversion of sizes to `int` are not modelled.  A local matrix is a flat array, column by column with leading
dimension `m_`.  What the C++ streams and MPI do is modelled from their documentation: a read that runs into
the end of the file delivers what is there and makes the stream fail, a failed stream ignores all further
operations.
-/
import Verif.Dist.Model
import Mathlib.Data.Finset.Card
import Mathlib.Data.Finset.Range

namespace Verif
namespace Dist

/-- A file: number of elements and contents. -/
structure File (T : Type*) where
  size : ℕ
  data : ℕ → T

/-- A `std::ifstream` and the local array it fills. -/
structure Reader (T : Type*) where
  file : File T
  pos : ℕ
  fail : Bool
  /-- the array `H` -/
  mem : ℕ → T

section
variable {T : Type*}

/-- `input.seekg` (1484, 1580): does nothing when the stream has failed. -/
def Reader.seek (p : ℕ) (st : Reader T) : Reader T := if st.fail then st else { st with pos := p }

/-- `input.read(H + dst, len)` (1485, 1581): the elements that are there are stored, the stream fails if there
are not enough of them. -/
def Reader.read (dst len : ℕ) (st : Reader T) : Reader T :=
  if st.fail then st
  else
    let got := min len (st.file.size - st.pos)
    { st with
      mem := forRange 0 got (fun t mem => Function.update mem (dst + t) (st.file.data (st.pos + t))) st.mem
      pos := st.pos + got
      fail := decide (got < len) }

/-- A freshly opened stream (1475, 1567). -/
def Reader.open (F : File T) (mem : ℕ → T) : Reader T := ⟨F, 0, false, mem⟩

/-- `readHamiltonianBlockDist` without MPI-IO (1475-1488): column `y` of the local matrix is read from the
offset of the process. -/
def readBlock (N off0 off1 m n : ℕ) (F : File T) (mem : ℕ → T) : ℕ → T :=
  (forRange 0 n (fun y st => Reader.read (m * y) m (Reader.seek (off0 + N * (off1 + y)) st))
    (Reader.open F mem)).mem

/-- `readHamiltonianBlockCyclicDist` without MPI-IO (1567-1587): block by block, column by column.  `r`, `c`
are the tables of the rows and of the columns. -/
def readCyclic (N : ℕ) (r c : Local) (F : File T) (mem : ℕ → T) : ℕ → T :=
  (forRange 0 c.blocks (fun j => forRange 0 r.blocks fun i => forRange 0 (c.lens j) fun q st =>
      Reader.read ((q + c.offsL j) * r.size + r.offsL i) (r.lens i)
        (Reader.seek ((q + c.offs j) * N + r.offs i) st))
    (Reader.open F mem)).mem

/-- The tables of the block constructors: one block (659-678 and 948-967). -/
def oneBlock (L : BlockLocal) : Local := ⟨L.size, 1, fun _ => L.off, fun _ => L.size, fun _ => 0⟩

/-- The file view made by `MPI_Type_create_subarray` and `MPI_File_set_view` (1457-1465, 1509-1518), Fortran
order: the file position of the `k`-th element the process sees.  The view repeats with the extent of the
whole matrix. -/
def subarrayView (N off0 off1 m n k : ℕ) : ℕ :=
  (off0 + k % (m * n) % m) + (off1 + k % (m * n) / m) * N + k / (m * n) * (N * N)

/-- Number of indices below `N` that `MPI_DISTRIBUTE_CYCLIC` with blocks of `mb` gives to process `p` of
`dims` (MPI standard). -/
def darraySize (N mb dims p : ℕ) : ℕ := ((Finset.range N).filter fun g => g / mb % dims = p).card

/-- The `l`-th of these indices. -/
def darrayIndex (mb dims p l : ℕ) : ℕ := (l / mb * dims + p) * mb + l % mb

/-- The file view made by `MPI_Type_create_darray` and `MPI_File_set_view` (1536-1557, 1599-1619): the MPI
standard lays the ranks out with the last dimension running fastest and gives the first block to the first
process; Fortran order of the elements. -/
def darrayView (N mb nb r c rank k : ℕ) : ℕ :=
  let p := (cartCoords c rank).1
  let q := (cartCoords c rank).2
  let m := darraySize N mb r p
  let n := darraySize N nb c q
  darrayIndex mb r p (k % (m * n) % m) + darrayIndex nb c q (k % (m * n) / m) * N + k / (m * n) * (N * N)

/-- `MPI_File_read_all` of `count` elements through a view (1466, 1558): elements behind the end of the file
are not delivered. -/
def readAll (view : ℕ → ℕ) (count : ℕ) (F : File T) (mem : ℕ → T) : ℕ → T :=
  forRange 0 count (fun k mem => if view k < F.size then Function.update mem k (F.data (view k)) else mem) mem

/-- The element writes of `MPI_File_write_all` of `count` elements through a view (1519, 1620). -/
def writeAll (view : ℕ → ℕ) (count : ℕ) (mem : ℕ → T) : List (ℕ × T) :=
  (List.range count).map fun k => (view k, mem k)

/-- The file after a list of element writes; it grows as needed (`MPI_MODE_CREATE`, 1502 and 1612). -/
def File.write (F : File T) (ws : List (ℕ × T)) : File T :=
  ws.foldl (fun F w => ⟨max F.size (w.1 + 1), Function.update F.data w.1 w.2⟩) F

end
end Dist
end Verif
