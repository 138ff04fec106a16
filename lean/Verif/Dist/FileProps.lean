/-
Property C37: reading and writing the distributed matrix.

Specification: `IsMatrix N A F` says that the file `F` contains the `N x N` matrix `A` column by column;
`HoldsCyclic` and `HoldsBlock` say that the array of a process contains, for every row and every column the
distribution assigns to the process, the entry of `A`, at the local position of that row and column.
-/
import Verif.Dist.FileProof

namespace Verif
namespace Dist
open Finset

section
variable {T : Type*}

/-- The array `mem` of process `(p, q)` of an `r x c` grid contains its part of `A` in the block-cyclic
distribution with blocks `mb x nb` that starts on process `(src0, src1)`. -/
def HoldsCyclic (N mb nb src0 src1 r c p q : ℕ) (A : ℕ → ℕ → T) (mem : ℕ → T) : Prop :=
  ∀ g ∈ owned N mb src0 r p, ∀ g' ∈ owned N nb src1 c q,
    mem (position mb src0 r g + position nb src1 c g' * (owned N mb src0 r p).card) = A g g'

/-- The array `mem` contains the rows `off0 .. off0 + m - 1` and columns `off1 .. off1 + n - 1` of `A`. -/
def HoldsBlock (off0 m off1 n : ℕ) (A : ℕ → ℕ → T) (mem : ℕ → T) : Prop :=
  ∀ g g', off0 ≤ g → g < off0 + m → off1 ≤ g' → g' < off1 + n → mem (g - off0 + (g' - off1) * m) = A g g'

theorem holdsBlock_iff {off0 m off1 n : ℕ} {A : ℕ → ℕ → T} {mem : ℕ → T} :
    HoldsBlock off0 m off1 n A mem ↔ Holds m n (off0 + ·) (off1 + ·) A mem := by
  constructor
  · intro h i hi j hj
    have := h (off0 + i) (off1 + j) (by omega) (by omega) (by omega) (by omega)
    rwa [Nat.add_sub_cancel_left, Nat.add_sub_cancel_left] at this
  · intro h g g' h1 h2 h3 h4
    have := h (g - off0) (by omega) (g' - off1) (by omega)
    rw [this]
    show A (off0 + (g - off0)) (off1 + (g' - off1)) = _
    rw [Nat.add_sub_cancel' h1, Nat.add_sub_cancel' h3]

theorem mem_owned_iff {N mb src dims p : ℕ} (hmb : 0 < mb) (hs : src < dims) (hp : p < dims) (g : ℕ) :
    g ∈ owned N mb src dims p ↔ ∃ l < (owned N mb src dims p).card,
      toGlobal mb dims (dist p src dims) l = g ∧ position mb src dims g = l := by
  have hd : dist p src dims < dims := dist_lt (by omega)
  rw [card_owned hmb hs hp]
  constructor
  · intro hg
    rw [mem_owned, owner_iff hs hp] at hg
    have h1 := toGlobal_toLocal hmb hg.2
    refine ⟨toLocal mb dims g, ?_, h1, position_eq hmb hs⟩
    rw [← toGlobal_lt_iff hmb hd, h1]
    exact hg.1
  · rintro ⟨l, hl, rfl, -⟩
    rw [mem_owned, owner_iff hs hp]
    exact ⟨(toGlobal_lt_iff hmb hd l).2 hl, toGlobal_owner hmb hd l⟩

theorem holdsCyclic_iff {N mb nb src0 src1 r c p q : ℕ} (hmb : 0 < mb) (hnb : 0 < nb) (hs0 : src0 < r)
    (hs1 : src1 < c) (hp : p < r) (hq : q < c) {A : ℕ → ℕ → T} {mem : ℕ → T} :
    HoldsCyclic N mb nb src0 src1 r c p q A mem ↔
      Holds (owned N mb src0 r p).card (owned N nb src1 c q).card (toGlobal mb r (dist p src0 r))
        (toGlobal nb c (dist q src1 c)) A mem := by
  constructor
  · intro h i hi j hj
    have hi' : toGlobal mb r (dist p src0 r) i ∈ owned N mb src0 r p := by
      rw [mem_owned_iff hmb hs0 hp]
      exact ⟨i, hi, rfl, by rw [position_eq hmb hs0, toLocal_toGlobal hmb (dist_lt (by omega))]⟩
    have hj' : toGlobal nb c (dist q src1 c) j ∈ owned N nb src1 c q := by
      rw [mem_owned_iff hnb hs1 hq]
      exact ⟨j, hj, rfl, by rw [position_eq hnb hs1, toLocal_toGlobal hnb (dist_lt (by omega))]⟩
    have := h _ hi' _ hj'
    rwa [position_eq hmb hs0, position_eq hnb hs1, toLocal_toGlobal hmb (dist_lt (by omega)),
      toLocal_toGlobal hnb (dist_lt (by omega))] at this
  · intro h g hg g' hg'
    obtain ⟨i, hi, h1, h2⟩ := (mem_owned_iff hmb hs0 hp g).1 hg
    obtain ⟨j, hj, h3, h4⟩ := (mem_owned_iff hnb hs1 hq g').1 hg'
    rw [h2, h4, h i hi j hj, h1, h3]

theorem TablesCorrect.tablesFor {N mb src dims p : ℕ} {L : Local} (hmb : 0 < mb) (hs : src < dims)
    (hp : p < dims) (h : TablesCorrect N mb src dims p L) :
    TablesFor N (toGlobal mb dims (dist p src dims)) L where
  listed := by
    intro k hk t ht
    obtain ⟨h1, h2⟩ := h.listed k hk t ht
    obtain ⟨l, hl, h3, h4⟩ := (mem_owned_iff hmb hs hp _).1 h1
    obtain rfl : l = L.offsL k + t := h4.symm.trans h2
    rw [h.size]
    exact ⟨hl, h3, (mem_owned.1 h1).1⟩
  cover := by
    intro l hl
    obtain ⟨⟨k, t⟩, ⟨h1, h2, h3⟩, -⟩ := h.local l hl
    exact ⟨k, h1, t, h2, h3⟩

/-! ### Reading -/

/-- **C37**, block distribution, through C++ streams: every process of the grid obtains its part of the
matrix in the file and nothing behind its local matrix is overwritten, for every matrix size, every grid and
all block sizes that fit (the others are a wrap around in the constructor, `C31_wrap_refuted`). -/
theorem C37_read_block {N len0 len1 r c p q : ℕ} {A : ℕ → ℕ → T} {F : File T} (hF : IsMatrix N A F)
    (hp : p < r) (hq : q < c) (h0 : (r - 1) * len0 ≤ N) (h1 : (c - 1) * len1 ≤ N) (mem : ℕ → T) :
    ∃ L0 L1, blockLocal N len0 p r = .ok L0 ∧ blockLocal N len1 q c = .ok L1 ∧
      HoldsBlock L0.off L0.size L1.off L1.size A (readBlock N L0.off L1.off L0.size L1.size F mem) ∧
      ∀ x, L0.size * L1.size ≤ x → readBlock N L0.off L1.off L0.size L1.size F mem x = mem x := by
  obtain ⟨L0, hL0, -, hle0, -⟩ := C31_blocks_partial (by omega) h0
  obtain ⟨L1, hL1, -, hle1, -⟩ := C31_blocks_partial (by omega) h1
  obtain ⟨h2, h3⟩ := readBlock_holds hF (hle0 p hp) (hle1 q hq) mem
  exact ⟨L0 p, L1 q, hL0 p hp, hL1 q hq, holdsBlock_iff.2 h2, h3⟩

theorem subarrayView_eq {N off0 off1 m n k : ℕ} (hk : k < m * n) :
    subarrayView N off0 off1 m n k = (off0 + k % m) + (off1 + k / m) * N := by
  unfold subarrayView
  rw [Nat.mod_eq_of_lt hk, Nat.div_eq_of_lt hk, Nat.zero_mul, Nat.add_zero]

/-- **C37**, block distribution, through MPI-IO: the same. -/
theorem C37_read_block_mpiio {N len0 len1 r c p q : ℕ} {A : ℕ → ℕ → T} {F : File T} (hF : IsMatrix N A F)
    (hp : p < r) (hq : q < c) (h0 : (r - 1) * len0 ≤ N) (h1 : (c - 1) * len1 ≤ N) (mem : ℕ → T) :
    ∃ L0 L1, blockLocal N len0 p r = .ok L0 ∧ blockLocal N len1 q c = .ok L1 ∧
      HoldsBlock L0.off L0.size L1.off L1.size A
        (readAll (subarrayView N L0.off L1.off L0.size L1.size) (L0.size * L1.size) F mem) ∧
      ∀ x, L0.size * L1.size ≤ x →
        readAll (subarrayView N L0.off L1.off L0.size L1.size) (L0.size * L1.size) F mem x = mem x := by
  obtain ⟨L0, hL0, -, hle0, -⟩ := C31_blocks_partial (by omega) h0
  obtain ⟨L1, hL1, -, hle1, -⟩ := C31_blocks_partial (by omega) h1
  have h4 := hle0 p hp
  have h5 := hle1 q hq
  obtain ⟨h2, h3⟩ := readAll_holds (row := ((L0 p).off + ·)) (col := ((L1 q).off + ·)) hF
    (view := subarrayView N (L0 p).off (L1 q).off (L0 p).size (L1 q).size) (fun k hk => subarrayView_eq hk)
    (fun i hi => by omega) (fun j hj => by omega) mem
  exact ⟨L0 p, L1 q, hL0 p hp, hL1 q hq, holdsBlock_iff.2 h2, h3⟩

/-- **C37**, block-cyclic distribution, through C++ streams: every process that owns something obtains its
part of the matrix, for every matrix size, grid, block size and source process (a process that owns nothing
does not get past the constructor, `C30_empty_process_refuted`). -/
theorem C37_read_cyclic {N mb nb src0 src1 r c p q : ℕ} {A : ℕ → ℕ → T} {F : File T} (hF : IsMatrix N A F)
    (hmb : 0 < mb) (hnb : 0 < nb) (hs0 : src0 < r) (hs1 : src1 < c) (hp : p < r) (hq : q < c)
    (hne0 : (owned N mb src0 r p).Nonempty) (hne1 : (owned N nb src1 c q).Nonempty) (mem : ℕ → T) :
    ∃ L0 L1, cyclicLocal N mb p src0 r = .ok L0 ∧ cyclicLocal N nb q src1 c = .ok L1 ∧
      HoldsCyclic N mb nb src0 src1 r c p q A (readCyclic N L0 L1 F mem) ∧
      ∀ x, L0.size * L1.size ≤ x → readCyclic N L0 L1 F mem x = mem x := by
  obtain ⟨L0, hL0, hT0⟩ := C30_tables_partial hmb hs0 hp hne0
  obtain ⟨L1, hL1, hT1⟩ := C30_tables_partial hnb hs1 hq hne1
  obtain ⟨h2, h3⟩ := readCyclic_holds hF (hT0.tablesFor hmb hs0 hp) (hT1.tablesFor hnb hs1 hq) mem
  refine ⟨L0, L1, hL0, hL1, (holdsCyclic_iff hmb hnb hs0 hs1 hp hq).2 ?_, h3⟩
  rw [← hT0.size, ← hT1.size]
  exact h2

theorem darraySize_eq (N mb dims p : ℕ) : darraySize N mb dims p = (owned N mb 0 dims p).card := by
  unfold darraySize owned owner
  simp only [Nat.zero_add]

theorem dist_zero {p dims : ℕ} (hp : p < dims) : dist p 0 dims = p := by
  unfold dist
  rw [Nat.sub_zero, Nat.add_mod_left, Nat.mod_eq_of_lt hp]

theorem darrayView_eq {N mb nb r c rank k : ℕ} (hrank : rank < r * c)
    (hk : k < (owned N mb 0 r (gridCoord r c false rank).row).card *
      (owned N nb 0 c (gridCoord r c false rank).col).card) :
    darrayView N mb nb r c rank k =
      toGlobal mb r (dist (gridCoord r c false rank).row 0 r)
        (k % (owned N mb 0 r (gridCoord r c false rank).row).card) +
      toGlobal nb c (dist (gridCoord r c false rank).col 0 c)
        (k / (owned N mb 0 r (gridCoord r c false rank).row).card) * N := by
  obtain ⟨h1, h2⟩ := C32_coord_range false hrank
  rw [dist_zero h1, dist_zero h2]
  unfold darrayView
  have hk' : k < (owned N mb 0 r (cartCoords c rank).1).card * (owned N nb 0 c (cartCoords c rank).2).card := hk
  simp only [darraySize_eq, Nat.mod_eq_of_lt hk', Nat.div_eq_of_lt hk', Nat.zero_mul, Nat.add_zero]
  rfl

/-- **C37**, block-cyclic distribution, through MPI-IO, for row-major grids and distributions that start on
process (0, 0).  Missing: column-major grids and other sources, see `C37_mpiio_source_refuted` and
`C37_mpiio_grid_refuted`. -/
theorem C37_read_cyclic_mpiio_partial {N mb nb r c rank : ℕ} {A : ℕ → ℕ → T} {F : File T}
    (hF : IsMatrix N A F) (hmb : 0 < mb) (hnb : 0 < nb) (hrank : rank < r * c) (mem : ℕ → T) :
    ∃ m n b b', numroc N mb (gridCoord r c false rank).row 0 r = .ok (m, b) ∧
      numroc N nb (gridCoord r c false rank).col 0 c = .ok (n, b') ∧
      HoldsCyclic N mb nb 0 0 r c (gridCoord r c false rank).row (gridCoord r c false rank).col A
        (readAll (darrayView N mb nb r c rank) (m * n) F mem) ∧
      ∀ x, m * n ≤ x → readAll (darrayView N mb nb r c rank) (m * n) F mem x = mem x := by
  obtain ⟨hp, hq⟩ := C32_coord_range false hrank
  have hr : 0 < r := by omega
  have hc : 0 < c := by omega
  obtain ⟨⟨m, b⟩, h0, h1, -⟩ := C29_numroc_counts (N := N) hmb hr hp
  obtain ⟨⟨n, b'⟩, h2, h3, -⟩ := C29_numroc_counts (N := N) hnb hc hq
  have h1 : m = (owned N mb 0 r (gridCoord r c false rank).row).card := h1
  have h3 : n = (owned N nb 0 c (gridCoord r c false rank).col).card := h3
  subst h1 h3
  obtain ⟨h4, h5⟩ := readAll_holds hF (view := darrayView N mb nb r c rank)
    (fun k hk => darrayView_eq hrank hk)
    (fun i hi => by
      rw [card_owned hmb hr hp] at hi
      exact (toGlobal_lt_iff hmb (dist_lt hr) i).2 hi)
    (fun j hj => by
      rw [card_owned hnb hc hq] at hj
      exact (toGlobal_lt_iff hnb (dist_lt hc) j).2 hj) mem
  exact ⟨_, _, b, b', h0, h2, (holdsCyclic_iff hmb hnb hr hc hp hq).2 h4, h5⟩

/-! ### Writing -/

/-- **C37**, block distribution: if every process holds its part of `A`, the file written contains `A` and what
was behind it in the file, whatever the order in which the elements reach the file; for every matrix size,
grid, order of the ranks and all block sizes that fit. -/
theorem C37_write_block {N len0 len1 r c : ℕ} (maj : Bool) {A : ℕ → ℕ → T} (hr : 0 < r) (hc : 0 < c)
    (h0 : (r - 1) * len0 ≤ N) (h1 : (c - 1) * len1 ≤ N) :
    ∃ L0 L1 : ℕ → BlockLocal, (∀ p < r, blockLocal N len0 p r = .ok (L0 p)) ∧
      (∀ q < c, blockLocal N len1 q c = .ok (L1 q)) ∧
      ∀ (mem : ℕ → ℕ → T) (F : File T),
        (∀ rank < r * c, HoldsBlock (L0 (gridCoord r c maj rank).row).off (L0 (gridCoord r c maj rank).row).size
          (L1 (gridCoord r c maj rank).col).off (L1 (gridCoord r c maj rank).col).size A (mem rank)) →
        ∀ ws : List (ℕ × T), ws.Perm ((List.range (r * c)).flatMap fun rank =>
          writeAll (subarrayView N (L0 (gridCoord r c maj rank).row).off (L1 (gridCoord r c maj rank).col).off
              (L0 (gridCoord r c maj rank).row).size (L1 (gridCoord r c maj rank).col).size)
            ((L0 (gridCoord r c maj rank).row).size * (L1 (gridCoord r c maj rank).col).size) (mem rank)) →
          IsMatrix N A (F.write ws) ∧ ∀ x, N * N ≤ x → (F.write ws).data x = F.data x := by
  obtain ⟨L0, hL0, hcov0, hle0, -⟩ := C31_blocks_partial hr h0
  obtain ⟨L1, hL1, hcov1, hle1, -⟩ := C31_blocks_partial hc h1
  refine ⟨L0, L1, hL0, hL1, fun mem F hA ws hws => ?_⟩
  refine write_isMatrix (procs := r * c) F (row := fun rank i => (L0 (gridCoord r c maj rank).row).off + i)
    (col := fun rank j => (L1 (gridCoord r c maj rank).col).off + j)
    (m := fun rank => (L0 (gridCoord r c maj rank).row).size)
    (n := fun rank => (L1 (gridCoord r c maj rank).col).size) (mem := mem) (fun rank _ k hk => subarrayView_eq hk)
    (fun rank hrank i hi => ?_) (fun rank hrank j hj => ?_) (fun rank hrank => holdsBlock_iff.1 (hA rank hrank))
    (fun g hg g' hg' => ?_) ws hws
  · have := hle0 _ (C32_coord_range maj hrank).1
    show _ + i < N
    omega
  · have := hle1 _ (C32_coord_range maj hrank).2
    show _ + j < N
    omega
  · obtain ⟨p, ⟨hp, h2, h3⟩, -⟩ := hcov0 g hg
    obtain ⟨q, ⟨hq, h4, h5⟩, -⟩ := hcov1 g' hg'
    obtain ⟨rank, ⟨hrank, h6⟩, -⟩ := C32_coord_bijective maj p q hp hq
    refine ⟨rank, hrank, ?_⟩
    simp only [h6]
    exact ⟨⟨g - (L0 p).off, by omega, by omega⟩, ⟨g' - (L1 q).off, by omega, by omega⟩⟩

/-- **C37**, block-cyclic distribution, for row-major grids and distributions that start on process (0, 0): the
file written contains `A`.  Missing: column-major grids and other sources, see `C37_write_refuted`. -/
theorem C37_write_cyclic_partial {N mb nb r c : ℕ} {A : ℕ → ℕ → T} (hmb : 0 < mb) (hnb : 0 < nb) (hr : 0 < r)
    (hc : 0 < c) (mem : ℕ → ℕ → T) (m n : ℕ → ℕ) (F : File T)
    (hm : ∀ p < r, ∃ b, numroc N mb p 0 r = .ok (m p, b)) (hn : ∀ q < c, ∃ b, numroc N nb q 0 c = .ok (n q, b))
    (hA : ∀ rank < r * c, HoldsCyclic N mb nb 0 0 r c (gridCoord r c false rank).row
      (gridCoord r c false rank).col A (mem rank))
    (ws : List (ℕ × T)) (hws : ws.Perm ((List.range (r * c)).flatMap fun rank =>
      writeAll (darrayView N mb nb r c rank)
        (m (gridCoord r c false rank).row * n (gridCoord r c false rank).col) (mem rank))) :
    IsMatrix N A (F.write ws) ∧ ∀ x, N * N ≤ x → (F.write ws).data x = F.data x := by
  have hm' : ∀ p < r, m p = (owned N mb 0 r p).card := by
    intro p hp
    obtain ⟨b, hb⟩ := hm p hp
    obtain ⟨x, h0, h1, -⟩ := C29_numroc_counts (N := N) hmb hr hp
    rw [hb] at h0
    cases h0
    exact h1
  have hn' : ∀ q < c, n q = (owned N nb 0 c q).card := by
    intro q hq
    obtain ⟨b, hb⟩ := hn q hq
    obtain ⟨x, h0, h1, -⟩ := C29_numroc_counts (N := N) hnb hc hq
    rw [hb] at h0
    cases h0
    exact h1
  refine write_isMatrix F
    (row := fun rank => toGlobal mb r (dist (gridCoord r c false rank).row 0 r))
    (col := fun rank => toGlobal nb c (dist (gridCoord r c false rank).col 0 c))
    (fun rank hrank k hk => ?_) (fun rank hrank i hi => ?_) (fun rank hrank j hj => ?_)
    (fun rank hrank => ?_) (fun g hg g' hg' => ?_) ws hws
  · obtain ⟨hp, hq⟩ := C32_coord_range false hrank
    rw [hm' _ hp, hn' _ hq] at hk
    rw [hm' _ hp]
    exact darrayView_eq hrank hk
  · obtain ⟨hp, -⟩ := C32_coord_range false hrank
    rw [hm' _ hp, card_owned hmb hr hp] at hi
    exact (toGlobal_lt_iff hmb (dist_lt hr) i).2 hi
  · obtain ⟨-, hq⟩ := C32_coord_range false hrank
    rw [hn' _ hq, card_owned hnb hc hq] at hj
    exact (toGlobal_lt_iff hnb (dist_lt hc) j).2 hj
  · obtain ⟨hp, hq⟩ := C32_coord_range false hrank
    rw [hm' _ hp, hn' _ hq]
    exact (holdsCyclic_iff hmb hnb hr hc hp hq).1 (hA rank hrank)
  · have hp : owner mb 0 r g < r := Nat.mod_lt _ hr
    have hq : owner nb 0 c g' < c := Nat.mod_lt _ hc
    obtain ⟨rank, ⟨hrank, h6⟩, -⟩ := C32_coord_bijective false _ _ hp hq
    refine ⟨rank, hrank, ?_⟩
    rw [h6]
    obtain ⟨i, hi, h1, -⟩ := (mem_owned_iff hmb hr hp g).1 (mem_owned.2 ⟨hg, rfl⟩)
    obtain ⟨j, hj, h2, -⟩ := (mem_owned_iff hnb hc hq g').1 (mem_owned.2 ⟨hg', rfl⟩)
    exact ⟨⟨i, by rw [hm' _ hp]; exact hi, h1⟩, ⟨j, by rw [hn' _ hq]; exact hj, h2⟩⟩

/-! ### Round trips -/

/-- **C37**: writing in the block distribution on one grid and reading on any other grid, in any order of the
ranks and with any block sizes that fit, gives back the same matrix. -/
theorem C37_roundtrip_block {N len0 len1 r c : ℕ} (maj : Bool) {A : ℕ → ℕ → T} (hr : 0 < r) (hc : 0 < c)
    (h0 : (r - 1) * len0 ≤ N) (h1 : (c - 1) * len1 ≤ N) :
    ∃ L0 L1 : ℕ → BlockLocal, (∀ p < r, blockLocal N len0 p r = .ok (L0 p)) ∧
      (∀ q < c, blockLocal N len1 q c = .ok (L1 q)) ∧
      ∀ (mem : ℕ → ℕ → T) (F : File T),
        (∀ rank < r * c, HoldsBlock (L0 (gridCoord r c maj rank).row).off (L0 (gridCoord r c maj rank).row).size
          (L1 (gridCoord r c maj rank).col).off (L1 (gridCoord r c maj rank).col).size A (mem rank)) →
        ∀ ws : List (ℕ × T), ws.Perm ((List.range (r * c)).flatMap fun rank =>
          writeAll (subarrayView N (L0 (gridCoord r c maj rank).row).off (L1 (gridCoord r c maj rank).col).off
              (L0 (gridCoord r c maj rank).row).size (L1 (gridCoord r c maj rank).col).size)
            ((L0 (gridCoord r c maj rank).row).size * (L1 (gridCoord r c maj rank).col).size) (mem rank)) →
        ∀ len2 len3 r' c' p q, p < r' → q < c' → (r' - 1) * len2 ≤ N → (c' - 1) * len3 ≤ N → ∀ mem' : ℕ → T,
          ∃ L2 L3, blockLocal N len2 p r' = .ok L2 ∧ blockLocal N len3 q c' = .ok L3 ∧
            HoldsBlock L2.off L2.size L3.off L3.size A
              (readBlock N L2.off L3.off L2.size L3.size (F.write ws) mem') := by
  obtain ⟨L0, L1, hL0, hL1, h⟩ := C37_write_block (A := A) maj hr hc h0 h1
  refine ⟨L0, L1, hL0, hL1, fun mem F hA ws hws len2 len3 r' c' p q hp hq h2 h3 mem' => ?_⟩
  obtain ⟨L2, L3, h4, h5, h6, -⟩ := C37_read_block (h mem F hA ws hws).1 hp hq h2 h3 mem'
  exact ⟨L2, L3, h4, h5, h6⟩

/-- **C37**: writing in the block-cyclic distribution (row-major grid, starting on process (0, 0)) and reading
in any block-cyclic distribution gives back the same matrix. -/
theorem C37_roundtrip_cyclic_partial {N mb nb r c : ℕ} {A : ℕ → ℕ → T} (hmb : 0 < mb) (hnb : 0 < nb) (hr : 0 < r)
    (hc : 0 < c) (mem : ℕ → ℕ → T) (m n : ℕ → ℕ) (F : File T)
    (hm : ∀ p < r, ∃ b, numroc N mb p 0 r = .ok (m p, b)) (hn : ∀ q < c, ∃ b, numroc N nb q 0 c = .ok (n q, b))
    (hA : ∀ rank < r * c, HoldsCyclic N mb nb 0 0 r c (gridCoord r c false rank).row
      (gridCoord r c false rank).col A (mem rank))
    (ws : List (ℕ × T)) (hws : ws.Perm ((List.range (r * c)).flatMap fun rank =>
      writeAll (darrayView N mb nb r c rank)
        (m (gridCoord r c false rank).row * n (gridCoord r c false rank).col) (mem rank)))
    {mb' nb' src0 src1 r' c' p q : ℕ} (hmb' : 0 < mb') (hnb' : 0 < nb') (hs0 : src0 < r') (hs1 : src1 < c')
    (hp : p < r') (hq : q < c') (hne0 : (owned N mb' src0 r' p).Nonempty)
    (hne1 : (owned N nb' src1 c' q).Nonempty) (mem' : ℕ → T) :
    ∃ L0 L1, cyclicLocal N mb' p src0 r' = .ok L0 ∧ cyclicLocal N nb' q src1 c' = .ok L1 ∧
      HoldsCyclic N mb' nb' src0 src1 r' c' p q A (readCyclic N L0 L1 (F.write ws) mem') := by
  obtain ⟨L0, L1, h0, h1, h2, -⟩ := C37_read_cyclic
    (C37_write_cyclic_partial hmb hnb hr hc mem m n F hm hn hA ws hws).1 hmb' hnb' hs0 hs1 hp hq hne0 hne1 mem'
  exact ⟨L0, L1, h0, h1, h2⟩

/-! ### The C interface

`chase_c.cpp` 481-496 calls the block-cyclic functions whatever the distribution is. -/

/-- **C37**, block distribution read through the C interface (streams): the block-cyclic reader with the tables
of the block constructor, one block per process (chase_mpi_properties.hpp 659-678), does the same. -/
theorem C37_read_interface {N len0 len1 r c p q : ℕ} {A : ℕ → ℕ → T} {F : File T} (hF : IsMatrix N A F)
    (hp : p < r) (hq : q < c) (h0 : (r - 1) * len0 ≤ N) (h1 : (c - 1) * len1 ≤ N) (mem : ℕ → T) :
    ∃ L0 L1, blockLocal N len0 p r = .ok L0 ∧ blockLocal N len1 q c = .ok L1 ∧
      HoldsBlock L0.off L0.size L1.off L1.size A (readCyclic N (oneBlock L0) (oneBlock L1) F mem) := by
  obtain ⟨L0, hL0, -, hle0, -⟩ := C31_blocks_partial (by omega) h0
  obtain ⟨L1, hL1, -, hle1, -⟩ := C31_blocks_partial (by omega) h1
  have ht : ∀ L : BlockLocal, L.off + L.size ≤ N → TablesFor N (L.off + ·) (oneBlock L) := by
    intro L hle
    refine ⟨fun k hk t ht => ?_, fun l hl => ⟨0, Nat.one_pos, l, hl, Nat.zero_add l⟩⟩
    have ht : t < L.size := ht
    refine ⟨?_, ?_, ?_⟩
    · show 0 + t < L.size
      omega
    · show L.off + (0 + t) = L.off + t
      omega
    · show L.off + t < N
      omega
  obtain ⟨h2, -⟩ := readCyclic_holds hF (ht (L0 p) (hle0 p hp)) (ht (L1 q) (hle1 q hq)) mem
  exact ⟨L0 p, L1 q, hL0 p hp, hL1 q hq, holdsBlock_iff.2 h2⟩

/-! ### What does not hold -/

theorem read_short {dst len p x : ℕ} (st : Reader T) (h : ∀ t < len, dst + t = x → st.file.size ≤ p + t) :
    (Reader.read dst len (Reader.seek p st)).file = st.file ∧
      (Reader.read dst len (Reader.seek p st)).mem x = st.mem x := by
  obtain ⟨G, pos, fail, M⟩ := st
  cases fail with
  | true => exact ⟨rfl, rfl⟩
  | false =>
    refine ⟨rfl, ?_⟩
    refine (writes_loop (n := min len (G.size - p)) (W := fun x => G.data (p + (x - dst)))
      (v := fun t => G.data (p + t)) M (fun t _ => ?_) x).2 ?_
    · show G.data (p + (dst + t - dst)) = _
      rw [Nat.add_sub_cancel_left]
    · rintro ⟨h1, h2⟩
      have h3 := Nat.min_le_left len (G.size - p)
      have h4 := Nat.min_le_right len (G.size - p)
      have h5 : G.size ≤ p + (x - dst) := h (x - dst) (by omega) (by omega)
      omega

/-- A file that is too short is not reported: the entries that are not in the file keep their old contents. -/
theorem C37_short_file {N off0 off1 m n : ℕ} (F : File T) (mem : ℕ → T) (i j : ℕ) (hi : i < m)
    (h : F.size ≤ (off0 + i) + (off1 + j) * N) : readBlock N off0 off1 m n F mem (i + j * m) = mem (i + j * m) := by
  unfold readBlock
  refine (forRange_inv (Nat.zero_le n)
    (fun y st => Reader.read (m * y) m (Reader.seek (off0 + N * (off1 + y)) st))
    (fun _ st => st.file = F ∧ st.mem (i + j * m) = mem (i + j * m)) (s := Reader.open F mem) ⟨rfl, rfl⟩
    (fun y st _ _ hst => ?_)).2
  have key := read_short (dst := m * y) (len := m) (p := off0 + N * (off1 + y)) (x := i + j * m) st
    (fun t ht h1 => by
      obtain ⟨rfl, rfl⟩ := flat_inj (b := y) (b' := j) ht hi (by rw [Nat.mul_comm y]; omega)
      rw [hst.1, Nat.mul_comm N]
      omega)
  exact ⟨key.1.trans hst.1, key.2.trans hst.2⟩

end

/-- The matrix with entries `g + 10 * g'`. -/
def probe : ℕ → ℕ → ℕ := fun g g' => g + 10 * g'

/-- A file containing it. -/
def probeFile (N : ℕ) : File ℕ := ⟨N * N, fun x => probe (x % N) (x / N)⟩

theorem probeFile_isMatrix (N : ℕ) : IsMatrix N probe (probeFile N) := by
  refine ⟨le_refl _, fun g hg g' hg' => ?_⟩
  obtain ⟨h1, h2⟩ := flat_div (j := g') hg
  show probe ((g + g' * N) % N) ((g + g' * N) / N) = _
  rw [h1, h2]

/-- **C37** is false with MPI-IO of distributions that do not start on process 0: two rows on two process rows,
starting on the second one; the process that owns row 1 obtains row 0. -/
theorem C37_mpiio_source_refuted : ∃ m n b b', numroc 2 1 0 1 2 = .ok (m, b) ∧ numroc 2 2 0 0 1 = .ok (n, b') ∧
    ¬ HoldsCyclic 2 1 2 1 0 2 1 0 0 probe
      (readAll (darrayView 2 1 2 2 1 0) (m * n) (probeFile 2) fun _ => 0) := by
  refine ⟨1, 2, 1, 1, rfl, rfl, fun h => ?_⟩
  have := h 1 (by decide) 0 (by decide)
  revert this
  decide +kernel

/-- **C37** is false with MPI-IO of column-major grids: on a 2 x 2 grid, rank 1 owns row 1 and column 0 and
obtains row 0 and column 1. -/
theorem C37_mpiio_grid_refuted : gridCoord 2 2 true 1 = ⟨1, 0⟩ ∧
    ∃ m n b b', numroc 2 1 1 0 2 = .ok (m, b) ∧ numroc 2 1 0 0 2 = .ok (n, b') ∧
    ¬ HoldsCyclic 2 1 1 0 0 2 2 1 0 probe
      (readAll (darrayView 2 1 1 2 2 1) (m * n) (probeFile 2) fun _ => 0) := by
  refine ⟨rfl, 1, 1, 1, 1, rfl, rfl, fun h => ?_⟩
  have := h 1 (by decide) 0 (by decide)
  revert this
  decide +kernel

/-- **C37** is false of files written on column-major grids: the four processes of a 2 x 2 grid hold their
parts, the file contains another matrix (the transpose). -/
theorem C37_write_refuted : ∃ mem : ℕ → ℕ → ℕ,
    (∀ rank < 4, HoldsCyclic 2 1 1 0 0 2 2 (gridCoord 2 2 true rank).row (gridCoord 2 2 true rank).col probe
      (mem rank)) ∧
    ¬ IsMatrix 2 probe ((⟨0, fun _ => 0⟩ : File ℕ).write
      ((List.range 4).flatMap fun rank => writeAll (darrayView 2 1 1 2 2 rank) 1 (mem rank))) := by
  refine ⟨fun rank _ => probe (rank % 2) (rank / 2), ?_, fun h => ?_⟩
  · unfold HoldsCyclic
    decide +kernel
  · have := h.2 1 (by decide) 0 (by decide)
    revert this
    decide +kernel

/-- **C37** is false of the C interface writing a block distribution whose last process owns more than the
others: 5 rows, 2 per process, two processes; MPI-IO takes the last row for one of the first process. -/
theorem C37_interface_write_refuted : ∃ L0 L1 : BlockLocal, blockLocal 5 2 0 2 = .ok L0 ∧
    blockLocal 5 5 0 1 = .ok L1 ∧ darraySize 5 L0.mb 2 0 ≠ L0.size ∧
    darrayView 5 L0.mb L1.mb 2 1 0 2 = 4 := ⟨⟨0, 2, 2⟩, ⟨0, 5, 5⟩, rfl, rfl, by decide +kernel, by decide +kernel⟩

/-- With a block-cyclic distribution a file that is too short loses also entries that are in the file: the
blocks are read one below the other, so the stream has failed in the second column of the first block before
the first column of the second block is read.  4 x 4 matrix, blocks of 2, one process, a file of 5 entries:
entry (2, 0) is in the file and is not read. -/
theorem C37_short_file_cyclic_refuted : ∃ L, cyclicLocal 4 2 0 0 1 = .ok L ∧ 2 + 0 * 4 < 5 ∧
    readCyclic 4 L L ⟨5, (probeFile 4).data⟩ (fun _ => 7) 2 = 7 ∧ probe 2 0 = 2 ∧
    readCyclic 4 L L ⟨5, (probeFile 4).data⟩ (fun _ => 7) 4 = probe 0 1 := by
  exact ⟨_, rfl, by decide, by decide +kernel⟩

/-! ### Non-vacuity -/

/-- A 5 x 5 matrix on a 2 x 2 grid, blocks of 3: process (1, 0) reads rows 3, 4 and columns 0, 1, 2. -/
example : ∃ L0 L1, blockLocal 5 3 1 2 = .ok L0 ∧ blockLocal 5 3 0 2 = .ok L1 ∧
    HoldsBlock L0.off L0.size L1.off L1.size probe
      (readBlock 5 L0.off L1.off L0.size L1.size (probeFile 5) fun _ => 0) := by
  obtain ⟨L0, L1, h0, h1, h, -⟩ := C37_read_block (len0 := 3) (len1 := 3) (r := 2) (c := 2) (p := 1) (q := 0)
    (probeFile_isMatrix 5) (by decide) (by decide) (by decide) (by decide) fun _ => 0
  exact ⟨L0, L1, h0, h1, h⟩

example : readBlock 5 3 0 2 3 (probeFile 5) (fun _ => 7) 3 = 14 ∧
    readBlock 5 3 0 2 3 (probeFile 5) (fun _ => 7) 6 = 7 := by decide +kernel

/-- A 5 x 5 matrix in blocks of 2 x 1 on a 2 x 2 grid, starting on process (1, 0). -/
example : ∃ L0 L1, cyclicLocal 5 2 0 1 2 = .ok L0 ∧ cyclicLocal 5 1 1 0 2 = .ok L1 ∧
    HoldsCyclic 5 2 1 1 0 2 2 0 1 probe (readCyclic 5 L0 L1 (probeFile 5) fun _ => 0) := by
  obtain ⟨L0, L1, h0, h1, h, -⟩ := C37_read_cyclic (mb := 2) (nb := 1) (src0 := 1) (src1 := 0) (r := 2) (c := 2)
    (p := 0) (q := 1) (probeFile_isMatrix 5) (by decide) (by decide) (by decide) (by decide) (by decide) (by decide)
    ⟨2, by decide⟩ ⟨1, by decide⟩ fun _ => 0
  exact ⟨L0, L1, h0, h1, h⟩

/-- Processes of a 2 x 2 grid that hold their parts of a 2 x 2 matrix. -/
example : ∀ rank < 4, HoldsCyclic 2 1 1 0 0 2 2 (gridCoord 2 2 false rank).row (gridCoord 2 2 false rank).col probe
    fun _ => probe (rank / 2) (rank % 2) := by
  unfold HoldsCyclic
  decide +kernel

example : HoldsBlock 0 1 1 1 probe (fun _ => 10) := by
  intro g g' h1 h2 h3 h4
  obtain rfl : g = 0 := by omega
  obtain rfl : g' = 1 := by omega
  rfl

end Dist
end Verif
