/-
C82: what ScaLAPACK is told about the distribution of the matrix and the vectors is what the processes
have, so that symmetrisation and Householder QR act on the user's matrix and on the vectors.

`Cyclic L mb src` (Proof.lean) says that a layout deals out blocks of `mb` rows cyclically; it holds for
the layouts of the constructors (`cyclic_cyclicLayout`, `cyclic_blockLayout`).  `world y` is the rank in
`MPI_COMM_WORLD` of the process with rank `y` in the communicator of the user.
-/
import Verif.Scalapack.Proof

namespace Verif
namespace Scalapack

open Dist Mpi

variable {N : ℕ}

/-! ### The block of vectors -/

/-- **C82** (vectors) On the communicator of all processes, and for every layout that is block-cyclic, the
descriptor of the vectors describes what every process has, and it is accepted without an error code by
every process that owns rows. -/
theorem C82_vectors_partial {L : Layout N} {mb src nevex : ℕ} (hL : Cyclic L mb src) (hne : 0 < nevex)
    (c : ℕ) (maj : Bool) {y : ℕ} (hy : y < L.procs * c) (i : Fin L.procs)
    (hi : (gridCoord L.procs c maj y).row = i) {world : ℕ → ℕ} (hw : world y = y) :
    Describes (vectorDesc (colCtxt L.procs c maj y) i N nevex mb src (L.size i)).1 (world y) (L.tab i)
        (wholeTab nevex) (L.size i) N nevex ∧
      (0 < L.size i → (vectorDesc (colCtxt L.procs c maj y) i N nevex mb src (L.size i)).2 = 0) := by
  have hp := hL.srcLt
  have hmb := hL.pos
  have e1 : max 1 mb = mb := by omega
  have e2 : min src (L.procs - 1) = src := by omega
  have hcard := hL.card_le i
  constructor
  · intro g hg h hh a
    show Keeps _ _ _ _ _ _ ↔
      userMap L.procs c maj y (owner (max 1 mb) (min src (L.procs - 1)) L.procs g) = world y ∧
        g2l (max 1 mb) L.procs g + max (L.size i) (max 1 (owned N (max 1 mb) (min src (L.procs - 1))
          L.procs i).card) * g2l (max 1 (min 32 nevex)) 1 h = a
    rw [e1, e2, hw, userMap_eq_iff maj hy (owner_lt (by omega)), hi, g2l_one]
    constructor
    · rintro ⟨x, z, hx, hz, rfl⟩
      obtain ⟨-, h1, h2⟩ := (hL.at_iff i g x).1 hx
      obtain ⟨-, rfl⟩ := (at_whole nevex h z).1 hz
      refine ⟨h1, ?_⟩
      rw [h2, hL.lld le_rfl (hL.size_pos hg h1)]
    · rintro ⟨h1, rfl⟩
      refine ⟨_, h, (hL.at_iff i g _).2 ⟨hg, h1, rfl⟩, (at_whole nevex h h).2 ⟨hh, rfl⟩, ?_⟩
      rw [hL.lld le_rfl (hL.size_pos hg h1)]
  · intro hs
    show (if mb < 1 then (-4 : ℤ) else if min 32 nevex < 1 then -5 else if L.procs ≤ src then -6
      else if 1 ≤ 0 then -7 else if L.size i < max 1 (owned N mb src L.procs i).card then -9 else 0) = 0
    rw [if_neg (by omega), if_neg (by omega), if_neg (by omega)]
    refine (if_neg (show ¬ (1 ≤ 0) by omega)).trans (if_neg ?_)
    omega

/-- **C82** (vectors, block-cyclic constructor): `C82_vectors_partial` for the tables of the constructor. -/
theorem C82_vectors_cyclic_partial {mb src dims nevex : ℕ} (hL : CyclicOk N mb src dims)
    (hne : 0 < nevex) (c : ℕ) (maj : Bool) {y : ℕ} (hy : y < dims * c) {L : Local}
    (hT : cyclicLocal N mb (gridCoord dims c maj y).row src dims = .ok L) {world : ℕ → ℕ}
    (hw : world y = y) :
    Describes (vectorDesc (colCtxt dims c maj y) (gridCoord dims c maj y).row N nevex mb src L.size).1
      (world y) L (wholeTab nevex) L.size N nevex := by
  have hi := (C32_coord_range maj hy).1
  have h := (C82_vectors_partial (cyclic_cyclicLayout hL) hne c maj hy ⟨_, hi⟩ rfl hw).1
  have e : (cyclicLayout hL).tab ⟨_, hi⟩ = L := by
    show tabOf (cyclicLocal N mb (gridCoord dims c maj y).row src dims) = L
    rw [hT]
    rfl
  unfold Layout.size at h
  rw [e] at h
  exact h

/-- **C82** (vectors, block constructors): if the last block is not longer than the others, the descriptor
with the `mb_` of the constructor describes the vectors. -/
theorem C82_vectors_block_partial {len dims nevex : ℕ} (hlen : 0 < len)
    (hfit : (dims - 1) * len ≤ N) (hN : N ≤ dims * len) (hN0 : 0 < N) (hne : 0 < nevex)
    (c : ℕ) (maj : Bool) {y : ℕ} (hy : y < dims * c) {L : BlockLocal}
    (hT : blockLocal N len (gridCoord dims c maj y).row dims = .ok L) {world : ℕ → ℕ}
    (hw : world y = y) :
    Describes (vectorDesc (colCtxt dims c maj y) (gridCoord dims c maj y).row N nevex L.mb 0 L.size).1
      (world y) L.tables (wholeTab nevex) L.size N nevex := by
  have hi := (C32_coord_range maj hy).1
  have hd : 0 < dims := by omega
  have hL := blockLocal_eq hi hfit
  rw [hT] at hL
  obtain rfl := Except.ok.inj hL
  by_cases h1 : dims = 1
  · subst h1
    have hr : (gridCoord 1 c maj y).row = 0 := by omega
    have hfit' : (1 - 1) * N ≤ N := by simp
    have hcyc := cyclic_blockLayout (N := N) (len := N) (dims := 1) one_pos hfit' hN0 (by omega)
    have h := (C82_vectors_partial hcyc hne c maj hy (0 : Fin 1) hr hw).1
    have e : (blockLayout (N := N) (len := N) (dims := 1) one_pos hfit').tab (0 : Fin 1) =
        ⟨N, 1, fun _ => 0, fun _ => N, fun _ => 0⟩ := by
      refine (blockTab_eq hfit' (p := 0) one_pos).trans ?_
      simp
    unfold Layout.size at h
    rw [e] at h
    rw [hr]
    simp only [Nat.sub_self, Nat.not_lt_zero, if_false, if_true, Nat.zero_mul, Nat.sub_zero]
    exact h
  · have hcyc := cyclic_blockLayout hd hfit hlen hN
    have h := (C82_vectors_partial hcyc hne c maj hy ⟨_, hi⟩ rfl hw).1
    have e : (blockLayout hd hfit).tab ⟨_, hi⟩ = _ := blockTab_eq hfit hi
    unfold Layout.size at h
    rw [e] at h
    rw [if_neg h1]
    exact h

/-- Seven rows in blocks of two over three process rows, starting with the second; and in blocks of three:
three, three and one. -/
example : CyclicOk 7 2 1 3 ∧ (3 - 1) * 3 ≤ 7 ∧ 7 ≤ 3 * 3 :=
  ⟨⟨by decide, by decide, by decide⟩, by decide, by decide⟩

/-- **C82 is false for the block constructor with an oversized last block**: ScaLAPACK looks for row
`dims * len` on the first process row, but the last process row has it. -/
theorem C82_vectors_block_refuted {len dims nevex : ℕ} (hlen : 0 < len) (hd : 1 < dims)
    (hN : dims * len < N) (hne : 0 < nevex) (c : ℕ) (maj : Bool) {y : ℕ} (hy : y < dims * c)
    (hlast : (gridCoord dims c maj y).row = dims - 1) {L : BlockLocal}
    (hT : blockLocal N len (dims - 1) dims = .ok L) :
    ¬ Describes (vectorDesc (colCtxt dims c maj y) (dims - 1) N nevex L.mb 0 L.size).1 y L.tables
      (wholeTab nevex) L.size N nevex := by
  have hfit : (dims - 1) * len ≤ N := by
    have := Nat.mul_le_mul_right len (Nat.sub_le dims 1)
    omega
  have hdd : dims * len = (dims - 1) * len + len := by
    obtain ⟨e, rfl⟩ : ∃ e, dims = e + 1 := ⟨dims - 1, by omega⟩
    rw [Nat.succ_mul, Nat.add_sub_cancel]
  have hL := blockLocal_eq (p := dims - 1) (by omega) hfit
  rw [hT] at hL
  obtain rfl := Except.ok.inj hL
  intro h
  rw [if_neg (lt_irrefl _), if_neg (by omega)] at h
  have hk : Keeps (BlockLocal.tables ⟨(dims - 1) * len, N - (dims - 1) * len, len⟩) (wholeTab nevex)
      (N - (dims - 1) * len) (dims * len) 0 (len + (N - (dims - 1) * len) * 0) :=
    ⟨len, 0, ⟨0, Nat.one_pos, len, by show len < N - (dims - 1) * len; omega, hdd.symm, Nat.zero_add _⟩,
      (at_whole _ _ _).2 ⟨hne, rfl⟩, rfl⟩
  have h2 := ((h _ hN 0 hne _).1 hk).1
  have e1 : max 1 len = len := by omega
  have h3 : userMap dims c maj y (owner (max 1 len) (min 0 (dims - 1)) dims (dims * len)) = y := h2
  rw [e1, Nat.zero_min, userMap_eq_iff maj hy (owner_lt (by omega)), hlast, owner,
    Nat.mul_div_cancel _ hlen, Nat.zero_add, Nat.mod_self] at h3
  omega

/-- Ten rows in two blocks, the first of three rows. -/
example : 2 * 3 < 10 ∧ blockLocal 10 3 1 2 = .ok ⟨3, 7, 3⟩ := ⟨by decide, rfl⟩

/-- **C82 is false on another communicator than `MPI_COMM_WORLD`**: if the process has another rank there,
ScaLAPACK takes the rows it owns to be on the process of that number. -/
theorem C82_vectors_communicator_refuted {L : Layout N} {mb src nevex : ℕ} (hL : Cyclic L mb src)
    (hne : 0 < nevex) (c : ℕ) (maj : Bool) {y : ℕ} (hy : y < L.procs * c) (i : Fin L.procs)
    (hi : (gridCoord L.procs c maj y).row = i) (hs : 0 < L.size i) {world : ℕ → ℕ} (hw : world y ≠ y) :
    (∃ g < N, ∀ h < nevex, (∃ a, Keeps (L.tab i) (wholeTab nevex) (L.size i) g h a) ∧
      (vectorDesc (colCtxt L.procs c maj y) i N nevex mb src (L.size i)).1.home g h = y) ∧
    ¬ Describes (vectorDesc (colCtxt L.procs c maj y) i N nevex mb src (L.size i)).1 (world y) (L.tab i)
      (wholeTab nevex) (L.size i) N nevex := by
  have hD := (C82_vectors_partial hL hne c maj hy i hi (world := id) rfl).1
  have hA := at_glob L i ⟨0, hs⟩
  have hg := (L.glob i ⟨0, hs⟩).2
  have key : ∀ h < nevex, Keeps (L.tab i) (wholeTab nevex) (L.size i) (L.glob i ⟨0, hs⟩) h
      (0 + L.size i * h) := fun h hh => ⟨_, h, hA, (at_whole _ _ _).2 ⟨hh, rfl⟩, rfl⟩
  have hhome : ∀ h < nevex, (vectorDesc (colCtxt L.procs c maj y) i N nevex mb src (L.size i)).1.home
      (L.glob i ⟨0, hs⟩) h = y := fun h hh => ((hD _ hg h hh _).1 (key h hh)).1
  refine ⟨⟨_, hg, fun h hh => ⟨⟨_, key h hh⟩, hhome h hh⟩⟩, fun h => hw ?_⟩
  have h1 := ((h _ hg 0 hne _).1 (key 0 hne)).1
  rw [hhome 0 hne] at h1
  exact h1.symm

/-- **C82** (Householder QR) Let the processes of one column of the grid hold the rows of `V`.  Then after
`hhQR` they hold the rows of one result of the factorisation of `V`: all routines see `V`, and every
process gets its rows back where it expects them. -/
theorem C82_hhQR_partial {K : Type*} [RCLike K] {L : Layout N} {mb src nevex : ℕ}
    (hL : Cyclic L mb src) (hne : 0 < nevex) (c j : ℕ) (maj : Bool) {R : ℕ → Local}
    (hR : ∀ i : Fin L.procs, R i = L.tab i) {rel : (ℕ → ℕ → K) → (ℕ → ℕ → K) → Prop}
    {C C' : ℕ → ℕ → K}
    (hrun : QrRun {y | y < L.procs * c ∧ (gridCoord L.procs c maj y).col = j} L.procs c maj N nevex mb src
      R rel C C') {V : ℕ → ℕ → K}
    (hV : ∀ y < L.procs * c, ∀ i, gridCoord L.procs c maj y = ⟨i, j⟩ → ∀ g k a,
      Keeps (R i) (wholeTab nevex) (R i).size g k a → C y a = V g k) :
    ∃ Q, rel V Q ∧ ∀ y < L.procs * c, ∀ i, gridCoord L.procs c maj y = ⟨i, j⟩ → ∀ g k a,
      Keeps (R i) (wholeTab nevex) (R i).size g k a → C' y a = Q g k := by
  have hD : ∀ y < L.procs * c, ∀ i, gridCoord L.procs c maj y = ⟨i, j⟩ →
      Describes (vectorDesc (colCtxt L.procs c maj y) (gridCoord L.procs c maj y).row N nevex mb src
        (R (gridCoord L.procs c maj y).row).size).1 y (R i) (wholeTab nevex) (R i).size N nevex := by
    intro y hy i hi
    have hir : (gridCoord L.procs c maj y).row < L.procs := (C32_coord_range maj hy).1
    have e : (gridCoord L.procs c maj y).row = i := by rw [hi]
    have h := (C82_vectors_partial hL hne c maj hy ⟨_, hir⟩ rfl (world := id) rfl).1
    rw [Layout.size, ← hR ⟨_, hir⟩] at h
    dsimp only at h
    rw [e] at h ⊢
    exact h
  obtain ⟨Q, hQ, hH⟩ := hrun.result V (by
    rintro y ⟨hy, hj⟩ g hg k hk hhome
    have hc : gridCoord L.procs c maj y = ⟨(gridCoord L.procs c maj y).row, j⟩ := by rw [← hj]
    exact hV y hy _ hc g k _ ((hD y hy _ hc g hg k hk _).2 ⟨hhome, rfl⟩))
  refine ⟨Q, hQ, ?_⟩
  intro y hy i hi g k a hK
  have hg : g < N ∧ k < nevex := by
    obtain ⟨x, z, hx, hz, -⟩ := hK
    have hir : i < L.procs := by
      have := (C32_coord_range maj hy).1
      rw [hi] at this
      exact this
    rw [hR ⟨i, hir⟩] at hx
    exact ⟨((hL.at_iff _ _ _).1 hx).1, ((at_whole _ _ _).1 hz).1⟩
  obtain ⟨h1, h2⟩ := (hD y hy i hi g hg.1 k hg.2 a).1 hK
  rw [← h2]
  exact hH y ⟨hy, by rw [hi]⟩ g hg.1 k hg.2 h1

/-! ### The matrix -/

/-- **C82** (matrix) For block-cyclic layouts that start on process row and column 0 the descriptor of the
matrix describes what every process has, if the leading dimension is large enough. -/
theorem C82_matrix_partial {r c : Layout N} {mb nb : ℕ} (hr : Cyclic r mb 0) (hc : Cyclic c nb 0)
    (maj : Bool) {y : ℕ} (hy : y < r.procs * c.procs) (i : Fin r.procs) (j : Fin c.procs)
    (hij : gridCoord r.procs c.procs maj y = ⟨i, j⟩) {ldh : ℕ} (hld : r.size i ≤ ldh)
    {world : ℕ → ℕ} (hw : world y = y) :
    Describes (matrixDesc (gridCtxt r.procs c.procs maj) i N mb nb ldh).1 (world y) (r.tab i) (c.tab j) ldh
      N N := by
  have hp := hr.srcLt
  have hmb := hr.pos
  have hq := hc.srcLt
  have hnb := hc.pos
  have e1 : max 1 mb = mb := by omega
  have e2 : max 1 nb = nb := by omega
  intro g hg h hh a
  show Keeps _ _ _ _ _ _ ↔
    (gridCtxt r.procs c.procs maj).proc (owner (max 1 mb) (min 0 (r.procs - 1)) r.procs g)
      (owner (max 1 nb) (min 0 (c.procs - 1)) c.procs h) = world y ∧
      g2l (max 1 mb) r.procs g + max ldh (max 1 (owned N (max 1 mb) (min 0 (r.procs - 1))
        r.procs i).card) * g2l (max 1 nb) c.procs h = a
  rw [e1, e2, Nat.zero_min, Nat.zero_min, hw,
    gridCtxt_eq_iff maj (owner_lt (by omega)) (owner_lt (by omega)) hy, hij, Coord.mk.injEq]
  constructor
  · rintro ⟨x, z, hx, hz, rfl⟩
    obtain ⟨-, h1, h2⟩ := (hr.at_iff i g x).1 hx
    obtain ⟨-, h3, h4⟩ := (hc.at_iff j h z).1 hz
    refine ⟨⟨h1.symm, h3.symm⟩, ?_⟩
    rw [h2, h4, hr.lld hld (hr.size_pos hg h1)]
  · rintro ⟨⟨h1, h3⟩, rfl⟩
    refine ⟨_, _, (hr.at_iff i g _).2 ⟨hg, h1.symm, rfl⟩, (hc.at_iff j h _).2 ⟨hh, h3.symm, rfl⟩, ?_⟩
    rw [hr.lld hld (hr.size_pos hg h1.symm)]

/-- **C82 is false for a block-cyclic matrix that does not start on process row 0**: the descriptor puts
row 0 on process row 0, but another process row has it. -/
theorem C82_matrix_source_refuted {r c : Layout N} {mb nb src srcc : ℕ} (hr : Cyclic r mb src)
    (hc : Cyclic c nb srcc) (hsrc : src ≠ 0) (hN : 0 < N) (maj : Bool) {y : ℕ}
    (hy : y < r.procs * c.procs) (i : Fin r.procs) (j : Fin c.procs)
    (hij : gridCoord r.procs c.procs maj y = ⟨i, j⟩) (hi : i.val = src) (hj : j.val = srcc) (ldh : ℕ) :
    ¬ Describes (matrixDesc (gridCtxt r.procs c.procs maj) i N mb nb ldh).1 y (r.tab i) (c.tab j) ldh
      N N := by
  intro h
  have h0 : ∀ {mb src p : ℕ}, src < p → owner mb src p 0 = src := by
    intro mb src p h
    rw [owner, Nat.zero_div, Nat.add_zero, Nat.mod_eq_of_lt h]
  have k1 := (hr.at_iff i 0 _).2 ⟨hN, (h0 hr.srcLt).trans hi.symm, rfl⟩
  have k2 := (hc.at_iff j 0 _).2 ⟨hN, (h0 hc.srcLt).trans hj.symm, rfl⟩
  have h1 : (gridCtxt r.procs c.procs maj).proc (owner (max 1 mb) (min 0 (r.procs - 1)) r.procs 0)
      (owner (max 1 nb) (min 0 (c.procs - 1)) c.procs 0) = y :=
    ((h 0 hN 0 hN _).1 ⟨_, _, k1, k2, rfl⟩).1
  have hp := hr.srcLt
  have hq := hc.srcLt
  rw [Nat.zero_min, Nat.zero_min,
    gridCtxt_eq_iff maj (owner_lt (by omega)) (owner_lt (by omega)) hy, hij, Coord.mk.injEq,
    h0 (by omega)] at h1
  omega

/-- Seven rows in blocks of two over two process rows and three process columns, starting with the second
process row. -/
example : CyclicOk 7 2 1 2 ∧ CyclicOk 7 2 0 3 :=
  ⟨⟨by decide, by decide, by decide⟩, ⟨by decide, by decide, by decide⟩⟩

/-- **C82** (work space of the symmetrisation) If the leading dimension is the number of local rows, the
transposed matrix fits into `tmp`. -/
theorem C82_tmp_fits_partial {r c : Layout N} {mb nb : ℕ} (hr : Cyclic r mb 0) (hc : Cyclic c nb 0)
    (maj : Bool) {y : ℕ} (hy : y < r.procs * c.procs) (i : Fin r.procs) (j : Fin c.procs)
    (hij : gridCoord r.procs c.procs maj y = ⟨i, j⟩) {g h : ℕ} (hg : g < N) (hh : h < N)
    (hhome : (matrixDesc (gridCtxt r.procs c.procs maj) i N mb nb (r.size i)).1.home g h = y) :
    (matrixDesc (gridCtxt r.procs c.procs maj) i N mb nb (r.size i)).1.addr g h <
      tmpSize (r.size i) (c.size j) nb := by
  obtain ⟨x, z, hx, hz, he⟩ :=
    (C82_matrix_partial hr hc maj hy i j hij le_rfl (world := id) rfl g hg h hh _).2 ⟨hhome, rfl⟩
  obtain ⟨x, rfl, -⟩ := (at_layout_iff r i g x).1 hx
  obtain ⟨z, rfl, -⟩ := (at_layout_iff c j h z).1 hz
  rw [he, tmpSize]
  calc x.val + r.size i * z.val < r.size i * 1 + r.size i * z.val := by
        rw [Nat.mul_one]; exact Nat.add_lt_add_right x.2 _
    _ = r.size i * (1 + z.val) := (Nat.mul_add _ _ _).symm
    _ ≤ r.size i * (c.size j + 2 * nb) := Nat.mul_le_mul_left _ (by have := z.2; omega)

/-- **C82 is false for large leading dimensions**: ScaLAPACK then writes the transposed matrix beyond the
end of `tmp`. -/
theorem C82_tmp_overflow_refuted {r c : Layout N} {mb nb : ℕ} (hr : Cyclic r mb 0) (hc : Cyclic c nb 0)
    (maj : Bool) {y : ℕ} (hy : y < r.procs * c.procs) (i : Fin r.procs) (j : Fin c.procs)
    (hij : gridCoord r.procs c.procs maj y = ⟨i, j⟩) {ldh : ℕ} (hm : 0 < r.size i) (hn : 0 < c.size j)
    (hld : tmpSize (r.size i) (c.size j) nb ≤ r.size i - 1 + ldh * (c.size j - 1)) :
    ∃ g < N, ∃ h < N, (matrixDesc (gridCtxt r.procs c.procs maj) i N mb nb ldh).1.home g h = y ∧
      tmpSize (r.size i) (c.size j) nb ≤
        (matrixDesc (gridCtxt r.procs c.procs maj) i N mb nb ldh).1.addr g h := by
  have hge : r.size i ≤ ldh := by
    by_contra hlt
    push Not at hlt
    have h1 : ldh * (c.size j - 1) ≤ r.size i * (c.size j - 1) := Nat.mul_le_mul_right _ hlt.le
    have h2 : tmpSize (r.size i) (c.size j) nb = r.size i * (c.size j - 1) + r.size i * (1 + 2 * nb) := by
      rw [tmpSize, ← Nat.mul_add]
      congr 1
      omega
    have h3 : r.size i * 1 ≤ r.size i * (1 + 2 * nb) := Nat.mul_le_mul_left _ (by omega)
    omega
  have k1 := at_glob r i ⟨r.size i - 1, by omega⟩
  have k2 := at_glob c j ⟨c.size j - 1, by omega⟩
  obtain ⟨h1, h2⟩ := (C82_matrix_partial hr hc maj hy i j hij hge (world := id) rfl _ (Fin.is_lt _) _
    (Fin.is_lt _) _).1 ⟨_, _, k1, k2, rfl⟩
  exact ⟨_, Fin.is_lt _, _, Fin.is_lt _, h1, by rw [h2]; exact hld⟩

/-- A 2 by 2 matrix on one process with block size 2: `tmp` has 12 entries; leading dimension 11 is too
much. -/
example : tmpSize 2 2 2 ≤ 2 - 1 + 11 * (2 - 1) ∧ CyclicOk 2 2 0 1 :=
  ⟨by decide, ⟨by decide, by decide, by decide⟩⟩

/-! ### Symmetrisation -/

section
variable {K : Type*} [RCLike K]

/-- What halving leaves in the array of process `(i, j)`: the halved global matrix. -/
theorem halveArr_keeps {r c : Layout N} (upper : Bool) (i : Fin r.procs) (j : Fin c.procs) {ldh : ℕ}
    (hld : r.size i ≤ ldh) {H : ℕ → K} {G : ℕ → ℕ → K}
    (hH : ∀ g h a, Keeps (r.tab i) (c.tab j) ldh g h a → H a = G g h) {g h a : ℕ}
    (hK : Keeps (r.tab i) (c.tab j) ldh g h a) :
    halveArr upper (r.tab i) (c.tab j) ldh H a =
      if h = g then G g h * (1 / 2 : K)
      else if (if upper then h < g else h > g) then 0 else G g h := by
  have hG := hH g h a hK
  obtain ⟨x, z, hx, hz, rfl⟩ := hK
  obtain ⟨x, rfl, rfl⟩ := (at_layout_iff r i g x).1 hx
  obtain ⟨z, rfl, rfl⟩ := (at_layout_iff c j h z).1 hz
  have e := congrFun (congrFun (view_halveArr i j upper hld H) x) z
  rw [halveLocal_eq] at e
  refine (show _ = _ from e).trans ?_
  rw [show view (r.size i) (c.size j) ldh H x z = H (x.val + ldh * z.val) from rfl, hG]
  simp only [Fin.ext_iff, Fin.lt_def, gt_iff_lt]

theorem addArr_keeps {r c : Layout N} (i : Fin r.procs) (j : Fin c.procs) {ldh : ℕ}
    (hld : r.size i ≤ ldh) (H tmp : ℕ → K) {g h x z : ℕ} (hx : At (r.tab i) g x) (hz : At (c.tab j) h z) :
    addArr (r.size i) (c.size j) ldh H tmp (x + ldh * z) = H (x + ldh * z) + tmp (x + z * r.size i) := by
  obtain ⟨x, rfl, rfl⟩ := (at_layout_iff r i g x).1 hx
  obtain ⟨z, rfl, rfl⟩ := (at_layout_iff c j h z).1 hz
  exact view_addArr hld H tmp x z

/-- **C82** (symmetrisation; C45 with descriptors and memory) On `MPI_COMM_WORLD`, for block-cyclic layouts
that start on process row and column 0 and local arrays without padding, symmetrising with ScaLAPACK keeps
the chosen triangle, mirrors it into the other one and makes the diagonal real. -/
theorem C82_symmetrise_partial {r c : Layout N} {mb nb : ℕ} (hr : Cyclic r mb 0) (hc : Cyclic c nb 0)
    (maj upper : Bool) {R Cl : ℕ → Local} (hR : ∀ i : Fin r.procs, R i = r.tab i)
    (hC : ∀ j : Fin c.procs, Cl j = c.tab j) {ldh : ℕ → ℕ}
    (hld : ∀ y < r.procs * c.procs, ldh y = (R (gridCoord r.procs c.procs maj y).row).size)
    {H H' : ℕ → ℕ → K} (hrun : SymRun upper N r.procs c.procs maj R Cl mb nb ldh H H')
    {G : ℕ → ℕ → K}
    (hH : ∀ y < r.procs * c.procs, ∀ i j, gridCoord r.procs c.procs maj y = ⟨i, j⟩ → ∀ g h a,
      Keeps (R i) (Cl j) (ldh y) g h a → H y a = G g h) :
    ∃ S : ℕ → ℕ → K, (∀ p < N, ∀ q < N, S q p = star (S p q)) ∧
      (∀ p q, (if upper then p < q else q < p) → S p q = G p q) ∧
      (∀ p, S p p = (RCLike.re (G p p) : K)) ∧
      ∀ y < r.procs * c.procs, ∀ i j, gridCoord r.procs c.procs maj y = ⟨i, j⟩ → ∀ g h a,
        Keeps (R i) (Cl j) (ldh y) g h a → H' y a = S g h := by
  obtain ⟨tmp, hT, hadd⟩ := hrun
  let U : ℕ → ℕ → K := fun g h =>
    if h = g then G g h * (1 / 2 : K) else if (if upper then h < g else h > g) then 0 else G g h
  have hcoord : ∀ y < r.procs * c.procs, ∃ (i : Fin r.procs) (j : Fin c.procs),
      gridCoord r.procs c.procs maj y = ⟨i, j⟩ := fun y hy =>
    ⟨⟨_, (C32_coord_range maj hy).1⟩, ⟨_, (C32_coord_range maj hy).2⟩, rfl⟩
  obtain ⟨B, hB, hHB⟩ := hT.result U (by
    intro y hy g hg h hh hhome
    have hy : y < r.procs * c.procs := hy
    obtain ⟨i, j, hij⟩ := hcoord y hy
    have hl := hld y hy
    have hHy := hH y hy i j hij
    simp only [hij, hR, hC] at hl hHy hhome ⊢
    have hK := (C82_matrix_partial hr hc maj hy i j hij hl.ge (world := id) rfl g hg h hh _).2
      ⟨hhome, rfl⟩
    exact halveArr_keeps upper i j hl.ge hHy hK)
  refine ⟨fun g h => U g h + star (U h g), ?_, ?_, ?_, ?_⟩
  · intro p _ q _
    rw [star_add, star_star, add_comm]
  · intro p q hpq
    have e1 : U p q = G p q := by
      show (if q = p then _ else if _ then _ else _) = _
      cases upper <;> simp only [if_true, Bool.false_eq_true, if_false] at hpq ⊢ <;>
        rw [if_neg (by omega), if_neg (by omega)]
    have e2 : U q p = 0 := by
      show (if p = q then _ else if _ then _ else _) = _
      cases upper <;> simp only [if_true, Bool.false_eq_true, if_false] at hpq ⊢ <;>
        rw [if_neg (by omega), if_pos (by omega)]
    show U p q + star (U q p) = _
    rw [e1, e2, star_zero, add_zero]
  · intro p
    show (if p = p then _ else _) + star (if p = p then _ else _) = _
    rw [if_pos rfl, RCLike.star_def, map_mul, map_div₀, map_one, map_ofNat, ← add_mul, RCLike.add_conj]
    field_simp
  · intro y hy i' j' hij' g h a hK
    obtain ⟨i, j, hij⟩ := hcoord y hy
    obtain ⟨rfl, rfl⟩ : i.val = i' ∧ j.val = j' := by
      have := hij.symm.trans hij'
      simpa using this
    have hl := hld y hy
    have hHy := hH y hy i j hij
    have hA := hadd y hy
    have hHB := hHB y hy
    simp only [hij, hR, hC] at hl hHy hK hA hHB
    have hK' := hK
    obtain ⟨x, z, hx, hz, rfl⟩ := hK
    have hg := ((hr.at_iff i g x).1 hx).1
    have hh := ((hc.at_iff j h z).1 hz).1
    rw [hA, addArr_keeps i j hl.ge _ _ hx hz, halveArr_keeps upper i j hl.ge hHy hK']
    obtain ⟨h1, h2⟩ := (C82_matrix_partial hr hc maj hy i j hij hl.ge (world := id) rfl g hg h hh _).1 hK'
    have h3 := hHB g hg h hh h1
    rw [h2, hB g hg h hh] at h3
    have e : x + z * r.size i = x + ldh y * z := by rw [hl, mul_comm]
    rw [e, h3]

/-- Runs exist, if every address belongs to at most one entry. -/
theorem run_exists {S : Set ℕ} {D : ℕ → Desc} {m n s0 : ℕ} {rel : (ℕ → ℕ → K) → (ℕ → ℕ → K) → Prop}
    (hsame : ∀ s ∈ S, ∀ g h, (D s).home g h = (D s0).home g h) (hmem : ∀ g h, (D s0).home g h ∈ S)
    (hinj : ∀ s ∈ S, ∀ g < m, ∀ h < n, ∀ g' < m, ∀ h' < n, (D s).home g h = s →
      (D s).home g' h' = s → (D s).addr g h = (D s).addr g' h' → g = g' ∧ h = h')
    (htot : ∀ A, ∃ B, rel A B)
    (hext : ∀ A A' B, (∀ g < m, ∀ h < n, A g h = A' g h) → rel A B → rel A' B)
    (input before : ℕ → ℕ → K) : ∃ out, Run S D m n rel input before out := by
  classical
  let A : ℕ → ℕ → K := fun g h => input ((D s0).home g h) ((D ((D s0).home g h)).addr g h)
  obtain ⟨B, hB⟩ := htot A
  let P := fun s a (gh : ℕ × ℕ) => gh.1 < m ∧ gh.2 < n ∧ (D s).home gh.1 gh.2 = s ∧ (D s).addr gh.1 gh.2 = a
  refine ⟨fun s a => if hP : ∃ gh, P s a gh then B hP.choose.1 hP.choose.2 else before s a, ?_, ?_⟩
  · intro A' hA'
    refine ⟨B, hext A A' B (fun g hg h hh => ?_) hB, ?_⟩
    · exact hA' _ (hmem g h) g hg h hh (hsame _ (hmem g h) g h)
    · intro s hs g hg h hh h1
      have hP : ∃ gh, P s ((D s).addr g h) gh := ⟨(g, h), hg, hh, h1, rfl⟩
      have hc := hP.choose_spec
      obtain ⟨h2, h3⟩ := hinj s hs _ hc.1 _ hc.2.1 g hg h hh hc.2.2.1 h1 hc.2.2.2
      show (if hP : ∃ gh, P s ((D s).addr g h) gh then B hP.choose.1 hP.choose.2 else _) = _
      rw [dif_pos hP, h2, h3]
  · intro s hs a ha
    show (if hP : ∃ gh, P s a gh then B hP.choose.1 hP.choose.2 else _) = _
    rw [dif_neg]
    rintro ⟨gh, h1, h2, h3, h4⟩
    exact ha gh.1 h1 gh.2 h2 h3 h4

/-- Runs exist: for every content of the arrays the symmetrisation of `C82_symmetrise_partial` has an
outcome. -/
theorem symRun_exists {r c : Layout N} {mb nb : ℕ} (hr : Cyclic r mb 0) (hc : Cyclic c nb 0)
    (maj upper : Bool) {R Cl : ℕ → Local} (hR : ∀ i : Fin r.procs, R i = r.tab i)
    {ldh : ℕ → ℕ}
    (hld : ∀ y < r.procs * c.procs, (R (gridCoord r.procs c.procs maj y).row).size ≤ ldh y)
    (H : ℕ → ℕ → K) : ∃ H', SymRun upper N r.procs c.procs maj R Cl mb nb ldh H H' := by
  let row := fun y => (gridCoord r.procs c.procs maj y).row
  let col := fun y => (gridCoord r.procs c.procs maj y).col
  let halved := fun y => halveArr upper (R (row y)) (Cl (col y)) (ldh y) (H y)
  let D := fun y => (matrixDesc (gridCtxt r.procs c.procs maj) (row y) N mb nb (ldh y)).1
  have hcoord : ∀ y < r.procs * c.procs, ∃ (i : Fin r.procs) (j : Fin c.procs),
      gridCoord r.procs c.procs maj y = ⟨i, j⟩ := fun y hy =>
    ⟨⟨_, (C32_coord_range maj hy).1⟩, ⟨_, (C32_coord_range maj hy).2⟩, rfl⟩
  -- an address belongs to one entry
  have hinj : ∀ y < r.procs * c.procs, ∀ g < N, ∀ h < N, ∀ g' < N, ∀ h' < N, (D y).home g h = y →
      (D y).home g' h' = y → (D y).addr g h = (D y).addr g' h' → g = g' ∧ h = h' := by
    intro y hy g hg h hh g' hg' h' hh' h1 h1' he
    obtain ⟨i, j, hij⟩ := hcoord y hy
    have hl := hld y hy
    have hDy : D y = (matrixDesc (gridCtxt r.procs c.procs maj) i N mb nb (ldh y)).1 := by
      show (matrixDesc _ (gridCoord r.procs c.procs maj y).row N mb nb (ldh y)).1 = _
      rw [hij]
    simp only [hij, hR] at hl
    rw [hDy] at h1 h1' he
    have hM := C82_matrix_partial hr hc maj hy i j hij hl (world := id) rfl
    obtain ⟨x, z, hx, hz, e1⟩ := (hM g hg h hh _).2 ⟨h1, rfl⟩
    obtain ⟨x', z', hx', hz', e2⟩ := (hM g' hg' h' hh' _).2 ⟨h1', rfl⟩
    obtain ⟨x, rfl, rfl⟩ := (at_layout_iff r i g x).1 hx
    obtain ⟨z, rfl, rfl⟩ := (at_layout_iff c j h z).1 hz
    obtain ⟨x', rfl, rfl⟩ := (at_layout_iff r i g' x').1 hx'
    obtain ⟨z', rfl, rfl⟩ := (at_layout_iff c j h' z').1 hz'
    rw [e1, e2] at he
    obtain ⟨h3, h4⟩ := addr_inj (lt_of_lt_of_le x.2 hl) (lt_of_lt_of_le x'.2 hl) he
    rw [Fin.ext h3, Fin.ext h4]
    exact ⟨rfl, rfl⟩
  have hp := hr.srcLt
  have hq := hc.srcLt
  obtain ⟨tmp, hT⟩ := run_exists (S := Set.Iio (r.procs * c.procs)) (D := D) (m := N) (n := N)
    (rel := Transposed N) (s0 := 0) (fun _ _ _ _ => rfl) (by
      intro g h
      obtain ⟨z, ⟨hz1, hz2⟩, -⟩ := C32_coord_bijective maj _ _
        (owner_lt (mb := (D 0).mb) (src := (D 0).rsrc) (g := g) hp)
        (owner_lt (mb := (D 0).nb) (src := (D 0).csrc) (g := h) hq)
      have e : (D 0).home g h = z := (gridCtxt_eq_iff maj (owner_lt hp) (owner_lt hq) hz1).2 hz2
      rw [e]
      exact hz1) hinj (fun A => ⟨fun g h => star (A h g), fun _ _ _ _ => rfl⟩)
    (fun A A' B hAA hB g hg h hh => by rw [hB g hg h hh, hAA h hh g hg]) halved (fun _ _ => 0)
  exact ⟨fun y => addArr (R (row y)).size (Cl (col y)).size (ldh y) (halved y) (tmp y), tmp, hT,
    fun _ _ => rfl⟩

/-- Runs of `hhQR` exist for every meaning of the factorisation that depends on the vectors only. -/
theorem qrRun_exists {L : Layout N} {mb src nevex : ℕ} (hL : Cyclic L mb src) (hne : 0 < nevex) {c j : ℕ}
    (hj : j < c) (maj : Bool) {R : ℕ → Local} (hR : ∀ i : Fin L.procs, R i = L.tab i)
    {rel : (ℕ → ℕ → K) → (ℕ → ℕ → K) → Prop} (htot : ∀ A, ∃ B, rel A B)
    (hext : ∀ A A' B, (∀ g < N, ∀ h < nevex, A g h = A' g h) → rel A B → rel A' B) (C : ℕ → ℕ → K) :
    ∃ C', QrRun {y | y < L.procs * c ∧ (gridCoord L.procs c maj y).col = j} L.procs c maj N nevex mb src
      R rel C C' := by
  have hp := hL.srcLt
  obtain ⟨s0, ⟨hs0, hc0⟩, -⟩ := C32_coord_bijective maj 0 j (show 0 < L.procs by omega) hj
  refine run_exists (s0 := s0) ?_ ?_ ?_ htot hext C C
  · rintro s ⟨hs, hsj⟩ g h
    show userMap L.procs c maj s (owner _ _ L.procs g) = userMap L.procs c maj s0 (owner _ _ L.procs g)
    have ho : owner (max 1 mb) (min src (L.procs - 1)) L.procs g < L.procs := owner_lt (by omega)
    obtain ⟨h1, h2⟩ := C32_scalapack_map maj hs ho
    obtain ⟨h3, h4⟩ := C32_scalapack_map maj hs0 ho
    obtain ⟨z, -, hz⟩ := C32_coord_bijective maj _ j ho hj
    rw [hsj] at h2
    rw [hc0] at h4
    exact (hz _ ⟨h1, h2⟩).trans (hz _ ⟨h3, h4⟩).symm
  · intro g h
    have ho : owner (max 1 mb) (min src (L.procs - 1)) L.procs g < L.procs := owner_lt (by omega)
    obtain ⟨h3, h4⟩ := C32_scalapack_map maj hs0 ho
    refine ⟨h3, ?_⟩
    exact (congrArg Coord.col h4).trans (by rw [hc0])
  · rintro y ⟨hy, -⟩ g hg h hh g' hg' h' hh' h1 h1' he
    have hir : (gridCoord L.procs c maj y).row < L.procs := (C32_coord_range maj hy).1
    have hM := (C82_vectors_partial hL hne c maj hy ⟨_, hir⟩ rfl (world := id) rfl).1
    dsimp only at h1 h1' he
    rw [hR ⟨_, hir⟩] at h1 h1' he
    obtain ⟨x, z, hx, hz, e1⟩ := (hM g hg h hh _).2 ⟨h1, rfl⟩
    obtain ⟨x', z', hx', hz', e2⟩ := (hM g' hg' h' hh' _).2 ⟨h1', rfl⟩
    obtain ⟨x, rfl, rfl⟩ := (at_layout_iff L _ g x).1 hx
    obtain ⟨x', rfl, rfl⟩ := (at_layout_iff L _ g' x').1 hx'
    obtain ⟨-, rfl⟩ := (at_whole _ _ _).1 hz
    obtain ⟨-, rfl⟩ := (at_whole _ _ _).1 hz'
    dsimp only at e1 e2
    rw [e1, e2] at he
    obtain ⟨h3, h4⟩ := addr_inj x.2 x'.2 he
    rw [Fin.ext h3]
    exact ⟨rfl, h4⟩

/-- Seven rows in blocks of two over three process rows, starting with the second, five vectors: the
hypotheses of `C82_hhQR_partial` can be met. -/
example (C : ℕ → ℕ → ℂ) (f : (ℕ → ℕ → ℂ) → ℕ → ℕ → ℂ) :
    ∃ C', QrRun {y | y < 3 * 2 ∧ (gridCoord 3 2 true y).col = 1} 3 2 true 7 5 2 1
      (fun p => tabOf (cyclicLocal 7 2 p 1 3))
      (fun V Q => ∃ V', (∀ g < 7, ∀ h < 5, V g h = V' g h) ∧ Q = f V') C C' :=
  qrRun_exists (cyclic_cyclicLayout (N := 7) (mb := 2) (src := 1) (dims := 3)
      ⟨by decide, by decide, by decide⟩) (by decide) (by decide) true (fun _ => rfl)
    (fun A => ⟨f A, A, fun _ _ _ _ => rfl, rfl⟩)
    (by
      rintro A A' B hA ⟨V', h1, rfl⟩
      exact ⟨V', fun g hg h hh => (hA g hg h hh).symm.trans (h1 g hg h hh), rfl⟩) C

/-- A 7 by 7 matrix in blocks of two by three on two process rows and two process columns: the hypotheses
of `C82_symmetrise_partial` can be met. -/
example (H : ℕ → ℕ → ℂ) :
    ∃ H', SymRun true 7 2 2 false (fun p => tabOf (cyclicLocal 7 2 p 0 2))
      (fun p => tabOf (cyclicLocal 7 3 p 0 2)) 2 3
      (fun y => (tabOf (cyclicLocal 7 2 (gridCoord 2 2 false y).row 0 2)).size) H H' :=
  symRun_exists (cyclic_cyclicLayout (N := 7) (mb := 2) (src := 0) (dims := 2)
      ⟨by decide, by decide, by decide⟩)
    (cyclic_cyclicLayout (N := 7) (mb := 3) (src := 0) (dims := 2) ⟨by decide, by decide, by decide⟩)
    false true (fun _ => rfl) (fun _ _ => le_rfl) H

/-- **C82 (C45) is false for a block-cyclic matrix that does not start on process row 0**: two rows on two
processes, the first row on the second process.  After the symmetrisation of the upper triangle the entry
below the diagonal is zero, whatever is above the diagonal. -/
theorem C82_symmetrise_source_refuted {H H' : ℕ → ℕ → K}
    (hrun : SymRun true 2 2 1 false (fun p => tabOf (cyclicLocal 2 1 p 1 2))
      (fun p => tabOf (cyclicLocal 2 1 p 0 1)) 1 1 (fun _ => 1) H H') :
    Keeps (tabOf (cyclicLocal 2 1 0 1 2)) (tabOf (cyclicLocal 2 1 0 0 1)) 1 1 0 0 ∧ H' 0 0 = 0 := by
  have hr : CyclicOk 2 1 1 2 := ⟨by decide, by decide, by decide⟩
  have hc : CyclicOk 2 1 0 1 := ⟨by decide, by decide, by decide⟩
  have cr := cyclic_cyclicLayout hr
  have cc := cyclic_cyclicLayout hc
  have k1 : At (tabOf (cyclicLocal 2 1 0 1 2)) 1 0 := (cr.at_iff (0 : Fin 2) 1 0).2
    ⟨by decide, (by decide : owner 1 1 2 1 = 0), (by decide : g2l 1 2 1 = 0)⟩
  have k2 : At (tabOf (cyclicLocal 2 1 0 0 1)) 0 0 := (cc.at_iff (0 : Fin 1) 0 0).2
    ⟨by decide, (by decide : owner 1 0 1 0 = 0), (by decide : g2l 1 1 0 = 0)⟩
  refine ⟨⟨0, 0, k1, k2, rfl⟩, ?_⟩
  obtain ⟨tmp, hT, hadd⟩ := hrun
  have hs : ((cyclicLayout hr).tab (0 : Fin 2)).size = 1 :=
    (hr.size (p := 0) (by decide)).trans (by decide)
  -- the entry below the diagonal is cleared
  have hz : halveArr true ((cyclicLayout hr).tab (0 : Fin 2)) ((cyclicLayout hc).tab (0 : Fin 1)) 1 (H 0) 0
      = 0 := by
    have := congrFun (congrFun (view_halveArr (r := cyclicLayout hr) (c := cyclicLayout hc) (0 : Fin 2)
      (0 : Fin 1) true hs.le (H 0)) ⟨0, lt_of_lt_of_eq (by decide : 0 < 1) hs.symm⟩)
      ⟨0, lt_of_lt_of_eq (by decide : 0 < 2) ((hc.size (p := 0) (by decide)).trans (by decide)).symm⟩
    refine Eq.trans (show _ = _ from this) ?_
    refine (halveLocal_eq (r := cyclicLayout hr) (c := cyclicLayout hc) true (0 : Fin 2) (0 : Fin 1) _ _
      _).trans ?_
    refine (if_neg (fun h => ?_)).trans (if_pos ?_)
    · have h : toGlobal 1 1 (dist 0 0 1) 0 = toGlobal 1 2 (dist 0 1 2) 0 := congrArg Fin.val h
      exact absurd h (by decide)
    · show toGlobal 1 1 (dist 0 0 1) 0 < toGlobal 1 2 (dist 0 1 2) 0
      decide
  obtain ⟨B, hB, hHB⟩ := hT.result (fun g h => (fun y : ℕ => halveArr true
      (tabOf (cyclicLocal 2 1 (gridCoord 2 1 false y).row 1 2))
      (tabOf (cyclicLocal 2 1 (gridCoord 2 1 false y).col 0 1)) 1 (H y) h) g) (by
    intro y hy g hg h hh h1
    have e1 : g = y := by
      have h1 : (matrixDesc (gridCtxt 2 1 false) 0 2 1 1 1).1.home g h = y := h1
      rw [← h1]
      clear h1
      interval_cases g <;> interval_cases h <;> decide
    subst e1
    have e2 : (matrixDesc (gridCtxt 2 1 false) (gridCoord 2 1 false g).row 2 1 1 1).1.addr g h = h := by
      interval_cases g <;> interval_cases h <;> decide
    show halveArr _ _ _ _ _ ((matrixDesc (gridCtxt 2 1 false) (gridCoord 2 1 false g).row 2 1 1 1).1.addr
      g h) = _
    rw [e2])
  have h3 := hHB 0 (by show 0 < 2; decide) 0 (by decide) 0 (by decide) (by decide)
  have e3 : (matrixDesc (gridCtxt 2 1 false) (gridCoord 2 1 false 0).row 2 1 1 1).1.addr 0 0 = 0 := by
    decide
  have h3 : tmp 0 ((matrixDesc (gridCtxt 2 1 false) (gridCoord 2 1 false 0).row 2 1 1 1).1.addr 0 0) =
    B 0 0 := h3
  rw [e3, hB 0 (by decide) 0 (by decide)] at h3
  have h3 : tmp 0 0 = star (halveArr true ((cyclicLayout hr).tab (0 : Fin 2))
    ((cyclicLayout hc).tab (0 : Fin 1)) 1 (H 0) 0) := h3
  rw [hz, star_zero] at h3
  have h4 := hadd 0 (by decide)
  have h5 := addArr_keeps (r := cyclicLayout hr) (c := cyclicLayout hc) (0 : Fin 2) (0 : Fin 1) hs.le
    (halveArr true ((cyclicLayout hr).tab (0 : Fin 2)) ((cyclicLayout hc).tab (0 : Fin 1)) 1 (H 0)) (tmp 0)
    k1 k2
  rw [h4]
  refine Eq.trans (show _ = _ from h5) ?_
  rw [Nat.zero_mul, Nat.mul_zero, Nat.add_zero, hz, h3, add_zero]

/-- **C82 (C45) is false for local arrays with padding**: a 2 by 2 matrix on one process with leading
dimension at least 3.  The second entry of the diagonal is halved. -/
theorem C82_symmetrise_padding_refuted {ldh : ℕ} (hld : 3 ≤ ldh) {H H' : ℕ → ℕ → K}
    (hrun : SymRun true 2 1 1 false (fun p => tabOf (cyclicLocal 2 2 p 0 1))
      (fun p => tabOf (cyclicLocal 2 2 p 0 1)) 2 2 (fun _ => ldh) H H') :
    Keeps (tabOf (cyclicLocal 2 2 0 0 1)) (tabOf (cyclicLocal 2 2 0 0 1)) ldh 1 1 (1 + ldh * 1) ∧
      H' 0 (1 + ldh * 1) = H 0 (1 + ldh * 1) * (1 / 2 : K) := by
  have hr : CyclicOk 2 2 0 1 := ⟨by decide, by decide, by decide⟩
  have cr := cyclic_cyclicLayout hr
  have hk : ∀ g < 2, At ((cyclicLayout hr).tab (0 : Fin 1)) g g := by
    intro g hg
    exact (cr.at_iff (0 : Fin 1) g g).2 ⟨hg, owner_one 2 g, g2l_one 2 g⟩
  have hK : ∀ g < 2, ∀ h < 2, Keeps ((cyclicLayout hr).tab (0 : Fin 1)) ((cyclicLayout hr).tab (0 : Fin 1))
      ldh g h (g + ldh * h) := fun g hg h hh => ⟨g, h, hk g hg, hk h hh, rfl⟩
  refine ⟨hK 1 (by decide) 1 (by decide), ?_⟩
  obtain ⟨tmp, hT, hadd⟩ := hrun
  have hs : ((cyclicLayout hr).tab (0 : Fin 1)).size = 2 := (hr.size (p := 0) (by decide)).trans (by decide)
  have hsl : ((cyclicLayout hr).tab (0 : Fin 1)).size ≤ ldh := by omega
  let X : ℕ → K := halveArr true ((cyclicLayout hr).tab (0 : Fin 1)) ((cyclicLayout hr).tab (0 : Fin 1))
    ldh (H 0)
  have hM := C82_matrix_partial cr cr false (y := 0) (by decide : 0 < 1 * 1) (0 : Fin 1) (0 : Fin 1)
    (by decide : gridCoord 1 1 false 0 = ⟨0, 0⟩) hsl
    (world := id) rfl
  have hX : ∀ g < 2, ∀ h < 2, X (g + ldh * h) = if h = g then H 0 (g + ldh * h) * (1 / 2 : K)
      else if h < g then 0 else H 0 (g + ldh * h) := by
    intro g hg h hh
    refine (halveArr_keeps (r := cyclicLayout hr) (c := cyclicLayout hr) true (0 : Fin 1) (0 : Fin 1) hsl
      (G := fun g h => H 0 (g + ldh * h)) ?_ (hK g hg h hh)).trans rfl
    rintro g h a ⟨x, z, hx, hz, rfl⟩
    obtain ⟨h1, -, h2⟩ := (cr.at_iff _ _ _).1 hx
    obtain ⟨h3, -, h4⟩ := (cr.at_iff _ _ _).1 hz
    have e : ∀ g x, g < 2 → g2l 2 1 g = x → g = x := by
      intro g x hg
      rw [g2l_one]
      exact id
    rw [e g x h1 h2, e h z h3 h4]
  have haddr : ∀ g < 2, ∀ h < 2, (matrixDesc (gridCtxt 1 1 false) 0 2 2 2 ldh).1.addr g h = g + ldh * h ∧
      (matrixDesc (gridCtxt 1 1 false) 0 2 2 2 ldh).1.home g h = 0 := fun g hg h hh =>
    ⟨((hM g hg h hh _).1 (hK g hg h hh)).2, ((hM g hg h hh _).1 (hK g hg h hh)).1⟩
  -- what is at address 3 of the work space
  have h3 : tmp 0 3 = 0 := by
    by_cases hl3 : ldh = 3
    · obtain ⟨B, hB, hHB⟩ := hT.result (fun g h => X (g + ldh * h)) (by
        intro y hy g hg h hh h1
        have hy : y < 1 * 1 := hy
        obtain rfl : y = 0 := by omega
        exact congrArg X (haddr g hg h hh).1)
      have h1 := hHB 0 (by show 0 < 1 * 1; decide) 0 (by decide) 1 (by decide)
        (haddr 0 (by decide) 1 (by decide)).2
      have h1 : tmp 0 ((matrixDesc (gridCtxt 1 1 false) 0 2 2 2 ldh).1.addr 0 1) = B 0 1 := h1
      rw [(haddr 0 (by decide) 1 (by decide)).1, hB 0 (by decide) 1 (by decide)] at h1
      have h2 := hX 1 (by decide) 0 (by decide)
      rw [if_neg (by decide), if_pos (by decide)] at h2
      have h1 : tmp 0 (0 + ldh * 1) = star (X (1 + ldh * 0)) := h1
      rw [h2, star_zero, hl3] at h1
      exact h1
    · refine hT.frame 0 (by show 0 < 1 * 1; decide) 3 ?_
      intro g hg h hh _
      have := (haddr g hg h hh).1
      intro hc
      have hc : (matrixDesc (gridCtxt 1 1 false) 0 2 2 2 ldh).1.addr g h = 3 := hc
      rw [this] at hc
      interval_cases h <;> omega
  have h4 := hadd 0 (by decide)
  have h5 := addArr_keeps (r := cyclicLayout hr) (c := cyclicLayout hr) (0 : Fin 1) (0 : Fin 1) hsl X (tmp 0)
    (hk 1 (by decide)) (hk 1 (by decide))
  rw [h4]
  refine Eq.trans (show _ = _ from h5) ?_
  rw [show 1 + 1 * ((cyclicLayout hr).tab (0 : Fin 1)).size = 3 by rw [hs], h3, add_zero,
    hX 1 (by decide) 1 (by decide), if_pos rfl]

/-- There are such runs. -/
example (H : ℕ → ℕ → ℂ) : ∃ H', SymRun true 2 1 1 false (fun p => tabOf (cyclicLocal 2 2 p 0 1))
      (fun p => tabOf (cyclicLocal 2 2 p 0 1)) 2 2 (fun _ => 5) H H' :=
  symRun_exists (cyclic_cyclicLayout (N := 2) (mb := 2) (src := 0) (dims := 1)
      ⟨by decide, by decide, by decide⟩)
    (cyclic_cyclicLayout (N := 2) (mb := 2) (src := 0) (dims := 1) ⟨by decide, by decide, by decide⟩)
    false true (fun _ => rfl) (by decide) H

end

end Scalapack
end Verif
