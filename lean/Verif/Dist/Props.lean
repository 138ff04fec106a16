/-
Properties of the data distributions: C29 (`numroc`), C30 (block-cyclic tables), C31 (block
distribution), C32 (process grid), C36 (redistribution tables).
-/
import Verif.Dist.RunProof
import Verif.Dist.BlockProof
import Mathlib.Algebra.Group.Action.Defs

namespace Verif
namespace Dist
open Finset

/-! ### C29 -/

/-- C29: for every matrix size, block size, number of processes, source process and process,
`numroc` returns the number of global indices and the number of blocks the process owns. -/
theorem C29_numroc_counts {N nb p src np : ℕ} (hnb : 0 < nb) (hs : src < np) (hp : p < np) :
    ∃ r, numroc N nb p src np = .ok r ∧ r.1 = (owned N nb src np p).card ∧
      r.2 = ((range N).filter fun b => b * nb < N ∧ (src + b) % np = p).card := by
  refine ⟨_, numroc_nblk hnb hs, (card_owned hnb hs hp).symm, ?_⟩
  have hd : dist p src np < np := dist_lt (by omega)
  have : (range N).filter (fun b => b * nb < N ∧ (src + b) % np = p) =
      (range (nblk N nb (dist p src np) np)).image fun k => k * np + dist p src np := by
    ext b
    rw [mem_filter, mem_image]
    have ho : (src + b) % np = p ↔ b % np = dist p src np := by
      have := owner_iff (mb := 1) hs hp b
      rwa [owner, Nat.div_one] at this
    constructor
    · rintro ⟨-, h2, h3⟩
      have h4 : b / np * np + dist p src np = b := by
        rw [← ho.1 h3, mul_comm, Nat.div_add_mod]
      refine ⟨b / np, ?_, h4⟩
      rw [mem_range, lt_nblk_iff hnb hd, h4]; exact h2
    · rintro ⟨k, hk, rfl⟩
      rw [mem_range, lt_nblk_iff hnb hd] at hk
      refine ⟨mem_range.2 (lt_of_le_of_lt (Nat.le_mul_of_pos_right _ hnb) hk), hk, ho.2 ?_⟩
      rw [Nat.add_comm, Nat.add_mul_mod_self_right, Nat.mod_eq_of_lt hd]
  rw [this, card_image_of_injective, card_range]
  intro a b h
  exact Nat.eq_of_mul_eq_mul_right (by omega : 0 < np) (Nat.add_right_cancel h)

/-- C29: the numbers of rows add up to the matrix size. -/
theorem C29_numroc_total {N nb src np : ℕ} (hnb : 0 < nb) (hs : src < np) (size : ℕ → ℕ)
    (hsize : ∀ p, p < np → ∃ b, numroc N nb p src np = .ok (size p, b)) :
    ∑ p ∈ range np, size p = N := by
  have h1 : ∀ p ∈ range np, size p = (owned N nb src np p).card := by
    intro p hp
    obtain ⟨b, hb⟩ := hsize p (mem_range.1 hp)
    obtain ⟨r, hr, h2, -⟩ := C29_numroc_counts (N := N) hnb hs (mem_range.1 hp)
    rw [hb] at hr
    cases hr
    exact h2
  rw [sum_congr rfl h1, ← card_biUnion]
  · rw [show (range np).biUnion (owned N nb src np) = range N by
      ext g
      simp only [mem_biUnion, mem_owned, mem_range]
      exact ⟨fun ⟨_, _, h, _⟩ => h, fun h => ⟨_, Nat.mod_lt _ (by omega), h, rfl⟩⟩, card_range]
  · intro p _ q _ hpq
    rw [Function.onFun, disjoint_left]
    intro g hg hg'
    rw [mem_owned] at hg hg'
    exact hpq (hg.2.symm.trans hg'.2)

/-- 10 indices in blocks of 3 over 2 processes, first block on process 1. -/
example : numroc 10 3 0 1 2 = .ok (4, 2) ∧ numroc 10 3 1 1 2 = .ok (6, 2) ∧
    owned 10 3 1 2 0 = {3, 4, 5, 9} := by decide

/-- C29: a block size of zero or an empty grid is a division by zero. -/
theorem C29_zero_block (N p src np : ℕ) :
    numroc N 0 p src np = .error .divZero ∧ numroc N 1 p src 0 = .error .divZero := by
  constructor <;> simp [numroc]

/-! ### C30 -/

/-- What the tables of a process have to satisfy: the local size is the number of owned indices;
every listed element is owned and is listed at its position; every owned index is listed exactly
once; every local index is described exactly once. -/
structure TablesCorrect (N mb src dims p : ℕ) (L : Local) : Prop where
  size : L.size = (owned N mb src dims p).card
  listed : ∀ k < L.blocks, ∀ t < L.lens k, L.offs k + t ∈ owned N mb src dims p ∧
    position mb src dims (L.offs k + t) = L.offsL k + t
  global : ∀ g ∈ owned N mb src dims p,
    ∃! kt : ℕ × ℕ, kt.1 < L.blocks ∧ kt.2 < L.lens kt.1 ∧ L.offs kt.1 + kt.2 = g
  «local» : ∀ l < L.size,
    ∃! kt : ℕ × ℕ, kt.1 < L.blocks ∧ kt.2 < L.lens kt.1 ∧ L.offsL kt.1 + kt.2 = l

/-- C30 (for processes that own something): the block-cyclic constructor finishes without writing
outside its tables and the tables are correct. Missing for the full statement: processes that own
nothing, see `C30_empty_process_refuted`. -/
theorem C30_tables_partial {N mb src dims p : ℕ} (hmb : 0 < mb) (hs : src < dims) (hp : p < dims)
    (hne : (owned N mb src dims p).Nonempty) :
    ∃ L, cyclicLocal N mb p src dims = .ok L ∧ TablesCorrect N mb src dims p L := by
  have hd : dist p src dims < dims := dist_lt (by omega)
  have hdims : 0 < dims := by omega
  have hpos : 0 < nblk N mb (dist p src dims) dims := by
    obtain ⟨g, hg⟩ := hne
    rw [mem_owned, owner_iff hs hp] at hg
    rw [lt_nblk_iff hmb hd, Nat.zero_mul, Nat.zero_add, ← hg.2]
    have h1 := Nat.mod_le (g / mb) dims
    have h2 := Nat.mul_le_mul_right mb h1
    have h3 := Nat.div_mul_le_self g mb
    omega
  obtain ⟨L, hL, hsize, hblk, htab⟩ := cyclicLocal_spec hmb hs hp hpos
  refine ⟨L, hL, ?_⟩
  -- the element `(k, t)` is the local index `k * mb + t`
  have hdiv : ∀ k t, t < mb → (k * mb + t) / mb = k ∧ (k * mb + t) % mb = t := by
    intro k t ht
    rw [mul_comm, Nat.mul_add_div hmb, Nat.mul_add_mod, Nat.div_eq_of_lt ht, Nat.mod_eq_of_lt ht]
    exact ⟨Nat.add_zero _, rfl⟩
  have helem : ∀ k < L.blocks, ∀ t < L.lens k, t < mb ∧
      L.offs k + t = toGlobal mb dims (dist p src dims) (L.offsL k + t) := by
    intro k hk t ht
    obtain ⟨h1, h2, h3, h4⟩ := htab k hk
    rw [h2] at ht
    have htm : t < mb := lt_of_lt_of_le ht (min_le_left _ _)
    refine ⟨htm, ?_⟩
    obtain ⟨h5, h6⟩ := hdiv k t htm
    rw [h1, h3, toGlobal, h5, h6]
  have hlt : ∀ k < L.blocks, ∀ t < L.lens k, L.offs k + t < N := by
    intro k hk t ht
    obtain ⟨h1, h2, h3, h4⟩ := htab k hk
    rw [h2] at ht
    have := lt_of_lt_of_le ht (min_le_right _ _)
    omega
  have hcover : ∀ l, l < L.size → ∃ k t, k < L.blocks ∧ t < L.lens k ∧ L.offsL k + t = l := by
    intro l hl
    rw [hsize, ← toGlobal_lt_iff hmb hd] at hl
    have hk : l / mb < L.blocks := by
      rw [hblk, lt_nblk_iff hmb hd]
      unfold toGlobal at hl
      omega
    obtain ⟨h1, h2, h3, h4⟩ := htab _ hk
    refine ⟨l / mb, l % mb, hk, ?_, ?_⟩
    · rw [h2, lt_min_iff]
      unfold toGlobal at hl
      exact ⟨Nat.mod_lt _ hmb, by omega⟩
    · rw [h3, mul_comm, Nat.div_add_mod]
  have huniq : ∀ k t k' t', k < L.blocks → t < L.lens k → k' < L.blocks → t' < L.lens k' →
      L.offsL k + t = L.offsL k' + t' → k = k' ∧ t = t' := by
    intro k t k' t' hk ht hk' ht' h
    obtain ⟨-, -, h3, -⟩ := htab k hk
    obtain ⟨-, -, h3', -⟩ := htab k' hk'
    rw [h3, h3'] at h
    have a := hdiv k t (helem k hk t ht).1
    have b := hdiv k' t' (helem k' hk' t' ht').1
    rw [h] at a
    exact ⟨a.1.symm.trans b.1, a.2.symm.trans b.2⟩
  refine ⟨by rw [hsize, card_owned hmb hs hp], ?_, ?_, ?_⟩
  · intro k hk t ht
    have h1 := (helem k hk t ht).2
    refine ⟨mem_owned.2 ⟨hlt k hk t ht, ?_⟩, ?_⟩
    · rw [h1, owner_iff hs hp]; exact toGlobal_owner hmb hd _
    · rw [position_eq hmb hs, h1, toLocal_toGlobal hmb hd]
  · intro g hg
    rw [mem_owned, owner_iff hs hp] at hg
    have hl : toLocal mb dims g < L.size := by
      rw [hsize, ← toGlobal_lt_iff hmb hd, toGlobal_toLocal hmb hg.2]; exact hg.1
    obtain ⟨k, t, hk, ht, hkt⟩ := hcover _ hl
    refine ⟨(k, t), ⟨hk, ht, ?_⟩, ?_⟩
    · rw [(helem k hk t ht).2, hkt, toGlobal_toLocal hmb hg.2]
    · rintro ⟨k', t'⟩ ⟨hk', ht', h⟩
      have hk' : k' < L.blocks := hk'
      have ht' : t' < L.lens k' := ht'
      have h : L.offs k' + t' = g := h
      have h2 : L.offsL k' + t' = toLocal mb dims g := by
        rw [← h, (helem k' hk' t' ht').2, toLocal_toGlobal hmb hd]
      obtain ⟨rfl, rfl⟩ := huniq k' t' k t hk' ht' hk ht (h2.trans hkt.symm)
      rfl
  · intro l hl
    obtain ⟨k, t, hk, ht, hkt⟩ := hcover _ hl
    refine ⟨(k, t), ⟨hk, ht, hkt⟩, ?_⟩
    rintro ⟨k', t'⟩ ⟨hk', ht', h⟩
    obtain ⟨rfl, rfl⟩ := huniq k' t' k t hk' ht' hk ht (Eq.trans h hkt.symm)
    rfl

/-- The hypotheses of `C30_tables_partial` are met, e.g. by process 0 of the example above. -/
example : (owned 10 3 1 2 0).Nonempty := ⟨3, by decide⟩

/-- C30 (negated for empty processes): the constructor of a process that owns no index writes the
first entry of an empty array. -/
theorem C30_empty_process_refuted {N mb src dims p : ℕ} (hmb : 0 < mb) (hs : src < dims)
    (hp : p < dims) (hne : owned N mb src dims p = ∅) :
    cyclicLocal N mb p src dims = .error .oob := by
  have hd : dist p src dims < dims := dist_lt (by omega)
  have h0 : rows N mb (dist p src dims) dims = 0 := by
    rw [← card_owned hmb hs hp, hne, card_empty]
  have hb : nblk N mb (dist p src dims) dims = 0 := by simp [nblk, h0]
  obtain ⟨t, b', ht, -⟩ := fillTables_spec (N := N) hmb hs hp N 0
    ⟨fun _ => 0, fun _ => 0, fun _ => 0, 0⟩
    (by rw [Nat.zero_mul, Nat.zero_add]; exact Nat.le_mul_of_pos_right N hmb)
    ⟨fun k hk => absurd hk (Nat.not_lt_zero _), Nat.zero_le _,
      fun k hk => absurd hk (Nat.not_lt_zero _), fun k hk => absurd hk (Nat.not_lt_zero _),
      fun k hk => absurd hk (Nat.not_lt_zero _)⟩
  rw [Nat.zero_mul, Nat.add_zero, Nat.mod_eq_of_lt hs, hb] at ht
  unfold cyclicLocal
  rw [numroc_nblk hmb hs, hb]
  simp only [ht, localOffsets, if_true]

/-- Six rows in blocks of 4 over 3 processes: process 2 owns nothing. -/
example : owned 6 4 0 3 2 = ∅ ∧ cyclicLocal 6 4 2 0 3 = .error .oob :=
  ⟨by decide, C30_empty_process_refuted (by decide) (by decide) (by decide) (by decide)⟩

/-! ### C31 -/

/-- C31 (for sizes that fit): if `(dims - 1) * len ≤ N`, the block constructor assigns every row to
exactly one process, the sizes add up to `N`, and all processes of a grid with more than one process
agree on the block size.  Missing for the full statement: sizes that do not fit, see
`C31_wrap_refuted`. -/
theorem C31_blocks_partial {N len dims : ℕ} (hd : 0 < dims) (hfit : (dims - 1) * len ≤ N) :
    ∃ L : ℕ → BlockLocal, (∀ p < dims, blockLocal N len p dims = .ok (L p)) ∧
      (∀ g < N, ∃! p, p < dims ∧ (L p).off ≤ g ∧ g < (L p).off + (L p).size) ∧
      (∀ p < dims, (L p).off + (L p).size ≤ N) ∧
      ∑ p ∈ range dims, (L p).size = N ∧
      (1 < dims → ∀ p < dims, (L p).mb = len) := by
  refine ⟨fun p => ⟨p * len, if p < dims - 1 then len else N - (dims - 1) * len,
      if dims = 1 then N else len⟩, fun p hp => blockLocal_eq hp hfit, ?_, ?_, ?_, ?_⟩
  · intro g hg
    by_cases hlen : g < (dims - 1) * len
    · have hl : 0 < len := Nat.pos_of_ne_zero (by rintro rfl; simp at hlen)
      have hq : g / len < dims - 1 := (Nat.div_lt_iff_lt_mul hl).2 hlen
      refine ⟨g / len, ⟨by omega, Nat.div_mul_le_self g len, ?_⟩, ?_⟩
      · show g < g / len * len + (if g / len < dims - 1 then len else _)
        rw [if_pos hq, mul_comm]
        exact Nat.lt_mul_div_succ g hl
      · rintro q ⟨hq1, hq2, hq3⟩
        have hq2 : q * len ≤ g := hq2
        have hq3 : g < q * len + (if q < dims - 1 then len else N - (dims - 1) * len) := hq3
        by_cases hqd : q < dims - 1
        · rw [if_pos hqd] at hq3
          exact (Nat.div_eq_of_lt_le (by omega) (by rw [Nat.succ_mul]; omega)).symm
        · obtain rfl : q = dims - 1 := by omega
          omega
    · refine ⟨dims - 1, ⟨by omega, by show (dims - 1) * len ≤ g; omega, ?_⟩, ?_⟩
      · show g < (dims - 1) * len + (if dims - 1 < dims - 1 then len else N - (dims - 1) * len)
        rw [if_neg (lt_irrefl _)]; omega
      · rintro q ⟨hq1, hq2, hq3⟩
        have hq1 : q < dims := hq1
        have hq3 : g < q * len + (if q < dims - 1 then len else N - (dims - 1) * len) := hq3
        by_contra hne
        have hqd : q < dims - 1 := by omega
        rw [if_pos hqd] at hq3
        have := Nat.mul_le_mul_right len (Nat.succ_le_of_lt hqd)
        rw [Nat.succ_mul] at this
        omega
  · intro p hp
    show p * len + (if p < dims - 1 then len else N - (dims - 1) * len) ≤ N
    by_cases h : p < dims - 1
    · rw [if_pos h]
      have := Nat.mul_le_mul_right len (Nat.succ_le_of_lt h)
      rw [Nat.succ_mul] at this
      omega
    · obtain rfl : p = dims - 1 := by omega
      rw [if_neg h]; omega
  · obtain ⟨e, rfl⟩ : ∃ e, dims = e + 1 := ⟨dims - 1, by omega⟩
    rw [sum_range_succ]
    simp only [Nat.add_sub_cancel, lt_irrefl, if_false] at hfit ⊢
    rw [sum_congr rfl (g := fun _ => len) (fun p hp => if_pos (mem_range.1 hp)), sum_const,
      card_range, nsmul_eq_mul, Nat.cast_id]
    omega
  · intro h p _
    show (if dims = 1 then N else len) = len
    rw [if_neg (by omega)]

/-- C31: the tables every process keeps about all others agree with the others' own sizes. -/
theorem C31_tables_agree {N len dims : ℕ} (hd : 0 < dims) (hfit : (dims - 1) * len ≤ N) :
    ∃ t, blockTable N len dims = .ok t ∧ ∀ p < dims, ∃ L, blockLocal N len p dims = .ok L ∧
      t p = (L.size, L.off) := by
  obtain ⟨t, ht, h⟩ := blockTable_eq hd hfit
  exact ⟨t, ht, fun p hp => ⟨_, blockLocal_eq hp hfit, h p hp⟩⟩

/-- C31 (negated): if the sizes do not fit, the last process computes a wrapped size. -/
theorem C31_wrap_refuted {N len dims : ℕ} (hfit : N < (dims - 1) * len) :
    blockLocal N len (dims - 1) dims = .error .wrap := by
  unfold blockLocal subSize
  simp [Nat.not_le.2 hfit]

/-- C31: exact condition under which the sizes chosen by the constructor without explicit sizes
fit. -/
theorem C31_auto_fits_iff {N dims : ℕ} (hd : 0 < dims) (hN : 0 < N) :
    (∀ p < dims, ∃ L, autoLocal N p dims = .ok L) ↔
      N % dims = 0 ∨ dims - 1 ≤ N / dims + N % dims := by
  rw [← autoLen_fits_iff hd hN]
  constructor
  · intro h
    by_contra hc
    obtain ⟨L, hL⟩ := h (dims - 1) (by omega)
    unfold autoLocal at hL
    rw [if_neg (by omega), C31_wrap_refuted (Nat.lt_of_not_le hc)] at hL
    cases hL
  · intro h p hp
    unfold autoLocal
    rw [if_neg (by omega)]
    exact ⟨_, blockLocal_eq hp h⟩

/-- C31: a sufficient condition: the matrix is at least `dims * (dims - 1)` large. -/
theorem C31_auto_large {N dims p : ℕ} (hN : 0 < N) (hp : p < dims) (h : dims * (dims - 1) ≤ N) :
    ∃ L, autoLocal N p dims = .ok L := by
  refine (C31_auto_fits_iff (by omega) hN).2 (.inr ?_) p hp
  have : dims - 1 ≤ N / dims := (Nat.le_div_iff_mul_le (by omega)).2 (by rw [mul_comm]; exact h)
  omega

/-- C31 (negated, concrete): a 5 x 5 matrix on 4 process rows. -/
theorem C31_auto_refuted : autoLocal 5 3 4 = .error .wrap := rfl

example : ∃ L, autoLocal 13 3 4 = .ok L ∧ L.size = 1 := ⟨⟨12, 1, 4⟩, rfl, rfl⟩

/-- C31: when the blocks are no larger than needed, the block distribution is the block-cyclic one
with one block per process, and positions are offsets from the start of the block. -/
theorem C31_as_cyclic {len dims g : ℕ} (hlen : 0 < len) (hd : 0 < dims) (hg : g < dims * len) :
    blockOwner len dims g = owner len 0 dims g ∧
      position len 0 dims g = g - blockOwner len dims g * len := by
  have h1 : g / len < dims := (Nat.div_lt_iff_lt_mul hlen).2 hg
  have h2 : blockOwner len dims g = g / len := by unfold blockOwner; omega
  refine ⟨by rw [h2, owner, Nat.zero_add, Nat.mod_eq_of_lt h1], ?_⟩
  rw [position_eq hlen hd, h2, toLocal, Nat.div_eq_of_lt h1, Nat.zero_mul, Nat.zero_add]
  have := Nat.div_add_mod g len
  rw [mul_comm] at this
  omega

/-! ### C32 -/

/-- C32: every rank has coordinates inside the grid. -/
theorem C32_coord_range {r c rank : ℕ} (maj : Bool) (h : rank < r * c) :
    (gridCoord r c maj rank).row < r ∧ (gridCoord r c maj rank).col < c := by
  have hr : 0 < r := Nat.pos_of_ne_zero (by rintro rfl; simp at h)
  have hc : 0 < c := Nat.pos_of_ne_zero (by rintro rfl; simp at h)
  cases maj
  · exact ⟨(Nat.div_lt_iff_lt_mul hc).2 h, Nat.mod_lt _ hc⟩
  · exact ⟨Nat.mod_lt _ hr, (Nat.div_lt_iff_lt_mul hr).2 (by rw [mul_comm]; exact h)⟩

/-- C32: every pair of coordinates inside the grid belongs to exactly one rank. -/
theorem C32_coord_bijective {r c : ℕ} (maj : Bool) (i j : ℕ) (hi : i < r) (hj : j < c) :
    ∃! rank, rank < r * c ∧ gridCoord r c maj rank = ⟨i, j⟩ := by
  cases maj
  · refine ⟨i * c + j, ⟨?_, ?_⟩, ?_⟩
    · calc i * c + j < i * c + c := by omega
        _ = (i + 1) * c := by ring
        _ ≤ r * c := Nat.mul_le_mul_right _ hi
    · show Coord.mk ((i * c + j) / c) ((i * c + j) % c) = _
      rw [mul_comm, Nat.mul_add_div (by omega), Nat.mul_add_mod, Nat.div_eq_of_lt hj,
        Nat.mod_eq_of_lt hj, Nat.add_zero]
    · rintro x ⟨-, hx⟩
      have h1 : x / c = i := congrArg Coord.row hx
      have h2 : x % c = j := congrArg Coord.col hx
      rw [← h1, ← h2, mul_comm, Nat.div_add_mod]
  · refine ⟨j * r + i, ⟨?_, ?_⟩, ?_⟩
    · calc j * r + i < j * r + r := by omega
        _ = (j + 1) * r := by ring
        _ ≤ c * r := Nat.mul_le_mul_right _ hj
        _ = r * c := mul_comm _ _
    · show Coord.mk ((j * r + i) % r) ((j * r + i) / r) = _
      rw [mul_comm, Nat.mul_add_div (by omega), Nat.mul_add_mod, Nat.div_eq_of_lt hi,
        Nat.mod_eq_of_lt hi, Nat.add_zero]
    · rintro x ⟨-, hx⟩
      have h1 : x % r = i := congrArg Coord.row hx
      have h2 : x / r = j := congrArg Coord.col hx
      rw [← h1, ← h2, mul_comm, Nat.div_add_mod]

/-- C32: two processes share the row communicator iff they share the row coordinate, and the rank
there is the column coordinate; likewise for the column communicator. -/
theorem C32_communicators (r c : ℕ) (maj : Bool) (x y : ℕ) :
    ((rowComm r c maj x).1 = (rowComm r c maj y).1 ↔
      (gridCoord r c maj x).row = (gridCoord r c maj y).row) ∧
    (rowComm r c maj x).2 = (gridCoord r c maj x).col ∧
    ((colComm r c maj x).1 = (colComm r c maj y).1 ↔
      (gridCoord r c maj x).col = (gridCoord r c maj y).col) ∧
    (colComm r c maj x).2 = (gridCoord r c maj x).row := by
  cases maj <;> exact ⟨Iff.rfl, rfl, Iff.rfl, rfl⟩

/-- C32: the process column handed to ScaLAPACK is the column communicator of the process, in
order: its `i`-th entry is the rank with row coordinate `i` and the column coordinate of the
caller. -/
theorem C32_scalapack_map {r c rank i : ℕ} (maj : Bool) (h : rank < r * c) (hi : i < r) :
    userMap r c maj rank i < r * c ∧
      gridCoord r c maj (userMap r c maj rank i) = ⟨i, (gridCoord r c maj rank).col⟩ := by
  obtain ⟨-, hj⟩ := C32_coord_range maj h
  cases maj
  · have hj : rank % c < c := hj
    refine ⟨?_, ?_⟩
    · show rank % c + c * i < r * c
      calc rank % c + c * i < c + c * i := by omega
        _ = (i + 1) * c := by ring
        _ ≤ r * c := Nat.mul_le_mul_right _ hi
    · show Coord.mk ((rank % c + c * i) / c) ((rank % c + c * i) % c) = ⟨i, rank % c⟩
      rw [Nat.add_comm, Nat.mul_add_div (by omega), Nat.mul_add_mod, Nat.div_eq_of_lt hj,
        Nat.mod_eq_of_lt hj, Nat.add_zero]
  · have hj : rank / r < c := hj
    refine ⟨?_, ?_⟩
    · show rank / r * r + i < r * c
      calc rank / r * r + i < rank / r * r + r := by omega
        _ = (rank / r + 1) * r := by ring
        _ ≤ c * r := Nat.mul_le_mul_right _ hj
        _ = r * c := mul_comm _ _
    · show Coord.mk ((rank / r * r + i) % r) ((rank / r * r + i) / r) = ⟨i, rank / r⟩
      rw [mul_comm (rank / r) r, Nat.mul_add_div (by omega), Nat.mul_add_mod, Nat.div_eq_of_lt hi,
        Nat.mod_eq_of_lt hi, Nat.add_zero]

example : gridCoord 2 3 false 4 = ⟨1, 1⟩ ∧ gridCoord 2 3 true 4 = ⟨0, 2⟩ := by decide

/-! ### C36 -/

/-- The moves that take every global index below `N`, in order, from its owner and position in the
source layout to its owner and position in the destination layout. -/
def allMoves (N ms ps s0 md pd d0 : ℕ) : List Move :=
  (List.range N).map fun g =>
    ⟨owner ms s0 ps g, position ms s0 ps g, owner md d0 pd g, position md d0 pd g⟩

/-- C36 (for source processes 0): the run tables list exactly the moves that redistribute every
global index, for all matrix sizes, block sizes and grid shapes.  Missing for the full statement:
distributions that do not start on process 0, see `C36_sources_refuted`. -/
theorem C36_runs_partial {N ms ps md pd : ℕ} (hN : 0 < N) (hms : 0 < ms) (hps : 0 < ps)
    (hmd : 0 < md) (hpd : 0 < pd) :
    (runTable N ms ps 0 md pd 0).flatMap Run.moves = allMoves N ms ps 0 md pd 0 := by
  rw [runTable_moves hN hms hps hmd hpd]
  unfold goalMoves allMoves
  refine List.map_congr_left fun g _ => ?_
  rw [position_eq hms hps, position_eq hmd hpd, owner, owner, Nat.zero_add, Nat.zero_add]

/-- C36: the tables of the opposite direction are the same runs with source and destination
exchanged; the code mixes the displacement tables of the two directions, which is therefore
harmless. -/
theorem C36_directions_agree (N ms ps s0 md pd d0 : ℕ) :
    runTable N md pd d0 ms ps s0 =
      (runTable N ms ps s0 md pd d0).map fun r => ⟨r.src, r.dest, r.len, r.srcDisp, r.destDisp⟩ :=
  runTable_swap N ms ps s0 md pd d0

/-- C36: when both layouts coincide (for any common source process), the table lists exactly the
moves of all global indices, each once. -/
theorem C36_same_layout {N mb src ps : ℕ} (hmb : 0 < mb) (hs : src < ps) (lens : ℕ → ℕ)
    (hlens : ∀ p < ps, ∃ b, numroc N mb p src ps = .ok (lens p, b)) :
    ((sameTable ps lens).flatMap Run.moves).Perm (allMoves N mb ps src mb ps src) := by
  have hps : 0 < ps := by omega
  have hl : ∀ p < ps, lens p = rows N mb (dist p src ps) ps := by
    intro p hp
    obtain ⟨b, hb⟩ := hlens p hp
    rw [numroc_nblk hmb hs] at hb
    exact (congrArg Prod.fst (Except.ok.inj hb)).symm
  refine (List.perm_ext_iff_of_nodup ?_ ?_).2 ?_
  · rw [List.nodup_flatMap]
    constructor
    · intro r hr
      refine List.Nodup.map ?_ List.nodup_range
      intro a b h
      have := congrArg Move.srcPos h
      simpa using this
    · unfold sameTable
      rw [List.pairwise_map]
      refine List.Pairwise.imp ?_ List.nodup_range
      intro a b hab
      rw [Function.onFun, List.disjoint_left]
      intro x hx hx'
      unfold Run.moves at hx hx'
      rw [List.mem_map] at hx hx'
      obtain ⟨t, -, rfl⟩ := hx
      obtain ⟨t', -, h⟩ := hx'
      exact hab (congrArg Move.src h).symm
  · unfold allMoves
    rw [List.nodup_map_iff_inj_on List.nodup_range]
    intro g hg g' hg' h
    have h1 : owner mb src ps g = owner mb src ps g' := congrArg Move.src h
    have h2 : position mb src ps g = position mb src ps g' := congrArg Move.srcPos h
    rw [position_eq hmb hs, position_eq hmb hs] at h2
    have ho : owner mb src ps g < ps := Nat.mod_lt _ hps
    rw [← toGlobal_toLocal hmb ((owner_iff hs ho g).1 rfl),
      ← toGlobal_toLocal hmb ((owner_iff hs ho g').1 h1.symm), h2]
  · intro x
    unfold sameTable allMoves Run.moves
    simp only [List.mem_flatMap, List.mem_map, List.mem_range]
    constructor
    · rintro ⟨_, ⟨p, hp, rfl⟩, t, ht, rfl⟩
      have hd : dist p src ps < ps := dist_lt hps
      have ht : t < lens p := ht
      rw [hl p hp, ← toGlobal_lt_iff hmb hd] at ht
      have ho : owner mb src ps (toGlobal mb ps (dist p src ps) t) = p :=
        (owner_iff hs hp _).2 (toGlobal_owner hmb hd t)
      refine ⟨_, ht, ?_⟩
      rw [ho, position_eq hmb hs, toLocal_toGlobal hmb hd]
      simp
    · rintro ⟨g, hg, rfl⟩
      have hp : owner mb src ps g < ps := Nat.mod_lt _ hps
      have ho := (owner_iff (mb := mb) hs hp g).1 rfl
      refine ⟨_, ⟨owner mb src ps g, hp, rfl⟩, position mb src ps g, ?_, ?_⟩
      · show _ < lens _
        rw [hl _ hp, position_eq hmb hs, ← toGlobal_lt_iff hmb (dist_lt hps),
          toGlobal_toLocal hmb ho]
        exact hg
      · simp

/-- A 3 x 2 grid with blocks of 2 and 3. -/
example : runTable 7 2 3 0 3 2 0 =
    [⟨0, 0, 2, 0, 0⟩, ⟨0, 1, 1, 2, 0⟩, ⟨1, 1, 1, 0, 1⟩, ⟨1, 2, 2, 1, 0⟩, ⟨0, 0, 1, 3, 2⟩] := by decide

/-- C36 (negated for other source processes): with the rows starting on process 1 of 2 and one
process column, the second index is taken from process 0 although process 1 owns it. -/
theorem C36_sources_refuted :
    (runTable 4 2 2 1 4 1 0).flatMap Run.moves ≠ allMoves 4 2 2 1 4 1 0 ∧
    ⟨0, 1, 0, 1⟩ ∈ (runTable 4 2 2 1 4 1 0).flatMap Run.moves ∧ owner 2 1 2 1 = 1 := by decide

/-- C36 (negated for block distributions with a larger last block): 10 rows on 2 process rows with
`m = 3` given by the user fit (the last process owns 7 rows), but the run table takes index 6 from
process 0, at a position that process does not have. -/
theorem C36_block_refuted : (∃ L, blockLocal 10 3 0 2 = .ok L ∧ L.size = 3) ∧
    blockOwner 3 2 6 = 1 ∧
    ((runTable 10 3 2 0 10 1 0).flatMap Run.moves)[6]? = some ⟨0, 3, 0, 6⟩ :=
  ⟨⟨⟨0, 3, 3⟩, rfl, rfl⟩, by decide, by decide⟩

/-- C36: for block distributions whose blocks are no larger than needed the run tables are right:
every index moves between its owners, at its offsets from the starts of the blocks. -/
theorem C36_block_partial {N lr pr lc pc g : ℕ} (hlr : 0 < lr) (hpr : 0 < pr) (hlc : 0 < lc)
    (hpc : 0 < pc) (hr : N ≤ pr * lr) (hc : N ≤ pc * lc) (hg : g < N) :
    ((runTable N lr pr 0 lc pc 0).flatMap Run.moves)[g]? =
      some ⟨blockOwner lr pr g, g - blockOwner lr pr g * lr, blockOwner lc pc g,
        g - blockOwner lc pc g * lc⟩ := by
  rw [C36_runs_partial (by omega) hlr hpr hlc hpc]
  obtain ⟨a1, a2⟩ := C31_as_cyclic (g := g) hlr hpr (by omega)
  obtain ⟨b1, b2⟩ := C31_as_cyclic (g := g) hlc hpc (by omega)
  unfold allMoves
  rw [List.getElem?_map, List.getElem?_range hg, Option.map_some, ← a2, ← b2, a1, b1]

end Dist
end Verif
