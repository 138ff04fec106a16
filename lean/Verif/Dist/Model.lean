/-
Model of the index arithmetic of `ChaseMpiProperties` (ChASE-MPI/chase_mpi_properties.hpp) and of
the redistribution tables of `ChaseMpiDLA` (ChASE-MPI/impl/chase_mpidla.hpp, 136-236).

All sizes are `std::size_t` or `int` in C++ and natural numbers here; a subtraction that would wrap
around is the outcome `Err.wrap`, an access outside of an array `Err.oob`, a division by zero
`Err.divZero`.  Overflow of sizes beyond the range of `int`/`std::size_t` is not modelled.
-/
import Verif.Base.Loop

namespace Verif
namespace Dist

/-- `numroc` (chase_mpi_properties.hpp 51-75): number of rows and number of blocks that process
`iproc` owns.  `nprocs + iproc - isrcproc` is computed in `int`; a negative value is converted to a
huge unsigned number, reported here as `Err.wrap`. -/
def numroc (n nb iproc isrc nprocs : ℕ) : Except Err (ℕ × ℕ) :=
  if nb = 0 ∨ nprocs = 0 then .error .divZero
  else if nprocs + iproc < isrc then .error .wrap
  else
    let mydist := (nprocs + iproc - isrc) % nprocs
    let nblocks := n / nb
    let rows := nblocks / nprocs * nb
    let extrablks := nblocks % nprocs
    let rows :=
      if mydist < extrablks then rows + nb
      else if mydist = extrablks then rows + n % nb
      else rows
    .ok (rows, if rows % nb ≠ 0 then rows / nb + 1 else rows / nb)

/-- The three tables describing the blocks of one process along one dimension: `r_offs_`, `r_lens_`,
`r_offs_l_` (or the `c_` ones), together with the fill count. -/
structure Tables where
  /-- global index of the first element of the block -/
  offs : ℕ → ℕ
  /-- length of the block -/
  lens : ℕ → ℕ
  /-- local index of the first element of the block -/
  offsL : ℕ → ℕ
  /-- number of blocks written so far -/
  cnt : ℕ

/-- The loop filling `r_offs_` and `r_lens_` (chase_mpi_properties.hpp 329-346, and 349-364 for the
columns): `r` runs over the multiples of `mb` below `N`, `send` cycles through the processes.
`cap` is the allocated length of the tables.  The recursion is on a bound for the number of
iterations; `N` iterations are enough because `mb > 0` (checked by the caller). -/
def fillTables (N mb dims coord cap : ℕ) : ℕ → ℕ → ℕ → Tables → Except Err Tables
  | 0, _, _, t => .ok t
  | fuel + 1, r, send, t =>
    if r < N then
      let nr := if N - r < mb then N - r else mb
      if coord = send then
        if t.cnt < cap then
          fillTables N mb dims coord cap fuel (r + mb) ((send + 1) % dims)
            { t with
              offs := Function.update t.offs t.cnt r
              lens := Function.update t.lens t.cnt nr
              cnt := t.cnt + 1 }
        else .error .oob
      else fillTables N mb dims coord cap fuel (r + mb) ((send + 1) % dims) t
    else .ok t

/-- The local offsets (chase_mpi_properties.hpp 366-378): entry 0 is written unconditionally, so the
table must not be empty; the others are the running sums of the block lengths. -/
def localOffsets (cap : ℕ) (t : Tables) : Except Err Tables :=
  if cap = 0 then .error .oob
  else .ok { t with
    offsL := forRange 1 cap
      (fun i f => Function.update f i (f (i - 1) + t.lens (i - 1)))
      (Function.update t.offsL 0 0) }

/-- What one dimension of the block-cyclic constructor computes for the process with coordinate
`coord`: number of rows, number of blocks, tables. -/
structure Local where
  /-- `m_` (`n_`) -/
  size : ℕ
  /-- `mblocks_` (`nblocks_`) -/
  blocks : ℕ
  /-- `r_offs_` (`c_offs_`) -/
  offs : ℕ → ℕ
  /-- `r_lens_` (`c_lens_`) -/
  lens : ℕ → ℕ
  /-- `r_offs_l_` (`c_offs_l_`) -/
  offsL : ℕ → ℕ

/-- One dimension of the block-cyclic constructor (chase_mpi_properties.hpp 231-378): call of
`numroc`, allocation of the (zeroed) tables, the filling loop, the local offsets.  The two
dimensions are treated by the same statements; the code interleaves them, which is immaterial. -/
def cyclicLocal (N mb coord src dims : ℕ) : Except Err Local :=
  match numroc N mb coord src dims with
  | .error e => .error e
  | .ok (size, blocks) =>
    match fillTables N mb dims coord blocks N 0 src ⟨fun _ => 0, fun _ => 0, fun _ => 0, 0⟩ with
    | .error e => .error e
    | .ok t => match localOffsets blocks t with
      | .error e => .error e
      | .ok t => .ok ⟨size, blocks, t.offs, t.lens, t.offsL⟩

/-- `a - b` on `std::size_t`. -/
def subSize (a b : ℕ) : Except Err ℕ := if b ≤ a then .ok (a - b) else .error .wrap

/-- What one dimension of the block constructors computes for the process with coordinate
`coord`. -/
structure BlockLocal where
  /-- `off_[dim]`, also `r_offs_[0]` -/
  off : ℕ
  /-- `m_` (`n_`), also `r_lens_[0]` -/
  size : ℕ
  /-- `mb_` (`nb_`) -/
  mb : ℕ

/-- One dimension of the block constructor with explicit local size (chase_mpi_properties.hpp
618-657): all processes but the last own `len` rows, the last one the rest.  The subtraction is
reported as `Err.wrap` if it wraps. -/
def blockLocal (N len coord dims : ℕ) : Except Err BlockLocal :=
  let off := coord * len
  let size := if coord < dims - 1 then .ok len else subSize N ((dims - 1) * len)
  match size with
  | .error e => .error e
  | .ok size =>
    let mb := if coord = dims - 1 ∧ dims ≠ 1 then (N - size) / (dims - 1) else size
    .ok ⟨off, size, mb⟩

/-- The local size chosen by the constructor without explicit sizes (chase_mpi_properties.hpp
893-901 and 913-920). -/
def autoLen (N dims : ℕ) : ℕ := if N % dims = 0 then N / dims else min N (N / dims + 1)

/-- One dimension of the block constructor without explicit sizes (chase_mpi_properties.hpp
893-946). -/
def autoLocal (N coord dims : ℕ) : Except Err BlockLocal :=
  if dims = 0 then .error .divZero else blockLocal N (autoLen N dims) coord dims

/-- `block_lens_[dim][i][0]`, `block_displs_[dim][i][0]` (chase_mpi_properties.hpp 696-727 and
1000-1033), as seen by every process: the loop writes all entries, then the last entry is
overwritten. -/
def blockTable (N len dims : ℕ) : Except Err (ℕ → ℕ × ℕ) :=
  let t := forRange 0 dims (fun i t => Function.update t i (len, i * (if i = 0 then len else (t 0).1)))
    (fun _ => (0, 0))
  match subSize N ((dims - 1) * len) with
  | .error e => .error e
  | .ok last =>
    let t := Function.update t (dims - 1) (last, (t (dims - 1)).2)
    .ok (Function.update t (dims - 1) ((t (dims - 1)).1, (dims - 1) * (t 0).1))

/-! ### Process grid -/

/-- The coordinates of a process: `coord_[0]` (row) and `coord_[1]` (column). -/
structure Coord where
  row : ℕ
  col : ℕ
  deriving DecidableEq, Repr

/-- `MPI_Cart_coords` on a two dimensional Cartesian communicator without reordering: ranks are
laid out with the last dimension running fastest (MPI standard).  `create2DGrid` passes
`(row_dim, col_dim)` for row-major and `(col_dim, row_dim)` for column-major grids. -/
def cartCoords (d1 rank : ℕ) : ℕ × ℕ := (rank / d1, rank % d1)

/-- `create2DGrid` (chase_mpi_properties.hpp 77-155): the coordinates of a rank. -/
def gridCoord (rowDim colDim : ℕ) (colMajor : Bool) (rank : ℕ) : Coord :=
  if colMajor then
    let t := cartCoords rowDim rank
    ⟨t.2, t.1⟩
  else
    let t := cartCoords colDim rank
    ⟨t.1, t.2⟩

/-- `MPI_Cart_sub`: processes are in the same sub-communicator iff the coordinates of the dropped
dimensions agree, and their rank there is the coordinate of the kept dimension.
`keep0`, `keep1` are the entries of `free_coords`. Returns (colour, rank in the sub-communicator);
only the case with exactly one kept dimension is used. -/
def cartSub (keep0 : Bool) (t : ℕ × ℕ) : ℕ × ℕ := if keep0 then (t.2, t.1) else (t.1, t.2)

/-- The row communicator of `create2DGrid` (colour and rank): `free_coords` is `(1, 0)` for
column-major and `(0, 1)` for row-major grids (chase_mpi_properties.hpp 122-135). -/
def rowComm (rowDim colDim : ℕ) (colMajor : Bool) (rank : ℕ) : ℕ × ℕ :=
  if colMajor then cartSub true (cartCoords rowDim rank) else cartSub false (cartCoords colDim rank)

/-- The column communicator of `create2DGrid` (chase_mpi_properties.hpp 137-150). -/
def colComm (rowDim colDim : ℕ) (colMajor : Bool) (rank : ℕ) : ℕ × ℕ :=
  if colMajor then cartSub false (cartCoords rowDim rank) else cartSub true (cartCoords colDim rank)

/-- `userMap` (chase_mpi_properties.hpp 443-457 and 736-750): the ranks of the ScaLAPACK process
column of the calling process. -/
def userMap (rowDim colDim : ℕ) (colMajor : Bool) (rank i : ℕ) : ℕ :=
  if colMajor then rank / rowDim * rowDim + i else rank % colDim + colDim * i

/-! ### Redistribution between the column communicator and the row communicator -/

/-- One entry of the tables `c_dests, c_srcs, c_lens, b_disps, c_disps`
(chase_mpidla.hpp 141-187), or `b_dests, b_srcs, b_lens, b_disps_2, c_disps_2` (190-236). -/
structure Run where
  dest : ℕ
  src : ℕ
  len : ℕ
  /-- local position in the layout of the destination -/
  destDisp : ℕ
  /-- local position in the layout of the source -/
  srcDisp : ℕ
  deriving DecidableEq, Repr

/-- One element move of a redistribution. -/
structure Move where
  /-- process owning the element in the source layout -/
  src : ℕ
  /-- its local position there -/
  srcPos : ℕ
  /-- process owning the element in the destination layout -/
  dest : ℕ
  /-- its local position there -/
  destPos : ℕ
  deriving DecidableEq, Repr

/-- The element moves a run stands for: pack `len` consecutive rows at the source displacement,
broadcast from the source, unpack at the destination displacement (chase_mpidla.hpp 689-700 in
`asynCxHGatherC`, 1507-1541 and 1571-1590 in `B2C`, 1594-1631 in `C2B`), for each column. -/
def Run.moves (r : Run) : List Move :=
  (List.range r.len).map fun t => ⟨r.src, r.srcDisp + t, r.dest, r.destDisp + t⟩

/-- State of the loop building the runs: the runs already closed and the open one. -/
structure Runs where
  closed : List Run
  cur : Run

/-- Body of the loop over the global indices (chase_mpidla.hpp 164-185 and 213-234). `ms`, `ps` are
block size and number of processes of the source layout, `md`, `pd` those of the destination. -/
def runStep (ms ps md pd i : ℕ) (st : Runs) : Runs :=
  let src := i / ms % ps
  let dest := i / md % pd
  if dest = st.cur.dest ∧ src = st.cur.src then
    { st with cur := { st.cur with len := st.cur.len + 1 } }
  else
    { closed := st.closed ++ [st.cur]
      cur := ⟨dest, src, 1, i % md + i / md / pd * md, i % ms + i / ms / ps * ms⟩ }

/-- The run tables when the two layouts differ (chase_mpidla.hpp 153-186 with source = rows and
destination = columns; 202-235 with the roles exchanged).  `s0`, `d0` are the source processes
`irsrc_`/`icsrc_` (used for the first index only). -/
def runTable (N ms ps s0 md pd d0 : ℕ) : List Run :=
  let st := forRange 1 N (runStep ms ps md pd) ⟨[], ⟨d0, s0, 1, 0, 0⟩⟩
  st.closed ++ [st.cur]

/-- The run tables when the two layouts coincide (chase_mpidla.hpp 143-151 and 192-200);
`lens i` is `send_lens_[dim][i]`. -/
def sameTable (ps : ℕ) (lens : ℕ → ℕ) : List Run :=
  (List.range ps).map fun i => ⟨i, i, lens i, 0, 0⟩

end Dist
end Verif
