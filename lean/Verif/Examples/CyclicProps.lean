/-
C94 for the block-cyclic branches of the first two examples.
-/
import Verif.Examples.Cyclic
import Verif.Examples.Props
import Verif.Dist.FileProps

namespace Verif
namespace Examples

/-! ### Specification -/

section
variable {K : Type*}

/-- The local array of process `(p, q)` of an `r` × `c` grid has exactly one element for every row and column the
block-cyclic distribution gives to the process, and holds the entry of `A` there, at the local position of that row and
column. -/
def HoldsCyclic (A : ℕ → ℕ → K) (N mb nb src0 src1 r c p q : ℕ) (a : Arr K) : Prop :=
  a.size = (Dist.owned N mb src0 r p).card * (Dist.owned N nb src1 c q).card ∧
  ∀ g ∈ Dist.owned N mb src0 r p, ∀ g' ∈ Dist.owned N nb src1 c q,
    a.get (Dist.position mb src0 r g + Dist.position nb src1 c g' * (Dist.owned N mb src0 r p).card) = some (A g g')

end

/-! ### Proof -/

section
variable {K : Type*}

/-- A piece of program that keeps the size, keeps the elements that are already as `W` says, and makes those in `S`
so. -/
def Fills (sz : ℕ) (W : ℕ → Option K) (S : ℕ → Prop) (f : Arr K → Except Fault (Arr K)) : Prop :=
  ∀ s : Arr K, s.size = sz → ∃ s', f s = .ok s' ∧ s'.size = sz ∧ (∀ x, s.get x = W x → s'.get x = W x) ∧
    ∀ x, S x → s'.get x = W x

theorem Fills.loop {sz n : ℕ} {W : ℕ → Option K} {S : ℕ → ℕ → Prop} {f : ℕ → Arr K → Except Fault (Arr K)}
    (h : ∀ i < n, Fills sz W (S i) (f i)) : Fills sz W (fun x => ∃ i < n, S i x) (forRangeM 0 n f) := by
  intro s hs
  obtain ⟨s', e, h1, h2, h3⟩ := forRangeM_inv (Nat.zero_le n) f
    (fun k s' => s'.size = sz ∧ (∀ x, s.get x = W x → s'.get x = W x) ∧ ∀ x, (∃ i < k, S i x) → s'.get x = W x)
    (s := s) ⟨hs, fun x hx => hx, fun x ⟨i, hi, _⟩ => absurd hi (Nat.not_lt_zero i)⟩ fun i s1 _ hi h1 => by
      obtain ⟨s2, e2, g1, g2, g3⟩ := h i hi s1 h1.1
      refine ⟨s2, e2, g1, fun x hx => g2 x (h1.2.1 x hx), fun x ⟨k, hk, hx⟩ => ?_⟩
      by_cases c : k < i
      · exact g2 x (h1.2.2 x ⟨k, c, hx⟩)
      · obtain rfl : k = i := by omega
        exact g3 x hx
  exact ⟨s', e, h1, h2, h3⟩

theorem loadCyclic_fills {N : ℕ} {R C : Dist.Local} {row col : ℕ → ℕ} (hR : Dist.TablesFor N row R)
    (hC : Dist.TablesFor N col C) {A : ℕ → ℕ → K} {M : Arr K} (hM : Full N N (fun r c => some (A r c)) M) {H : Arr K}
    (hH : H.size = R.size * C.size) :
    ∃ H', loadCyclic N R C M H = .ok H' ∧ H'.size = R.size * C.size ∧
      ∀ i < R.size, ∀ j < C.size, H'.get (i + j * R.size) = some (A (row i) (col j)) := by
  obtain ⟨H', e, h1, -, h3⟩ := (Fills.loop fun j hj => Fills.loop fun i hi => Fills.loop fun q hq => Fills.loop
    fun p hp => show Fills (R.size * C.size) (fun x => some (A (row (x % R.size)) (col (x / R.size))))
        (fun x => x = (q + C.offsL j) * R.size + p + R.offsL i)
        (fun H => do
          let v ← M.read ((q + C.offs j) * N + p + R.offs i)
          H.put ((q + C.offsL j) * R.size + p + R.offsL i) v) by
      obtain ⟨a1, a2, a3⟩ := hR.listed i hi p hp
      obtain ⟨b1, b2, b3⟩ := hC.listed j hj q hq
      intro s hs
      have hv : M.read ((q + C.offs j) * N + p + R.offs i) = .ok (A (R.offs i + p) (C.offs j + q)) := by
        rw [show (q + C.offs j) * N + p + R.offs i = (R.offs i + p) + N * (C.offs j + q) by
          rw [Nat.mul_comm, Nat.add_comm q]; omega]
        exact read_ok (by rw [hM.1]; exact pos_lt a3 b3) (hM.2 _ _ a3 b3)
      have hx : (q + C.offsL j) * R.size + p + R.offsL i = (R.offsL i + p) + (C.offsL j + q) * R.size := by
        rw [Nat.add_comm q]; omega
      have hd := Dist.flat_div (j := C.offsL j + q) a1
      have hput := put_ok (a := s) (i := (q + C.offsL j) * R.size + p + R.offsL i)
        (by rw [hs, hx]; exact Dist.flat_lt a1 b1) (A (R.offs i + p) (C.offs j + q))
      have hW : some (A (R.offs i + p) (C.offs j + q)) = (fun x => some (A (row (x % R.size)) (col (x / R.size))))
          ((q + C.offsL j) * R.size + p + R.offsL i) := by
        show _ = some (A (row (_ % R.size)) (col (_ / R.size)))
        rw [hx, hd.1, hd.2, a2, b2]
      refine ⟨⟨s.size, Function.update s.get _ _⟩, (show (M.read _ >>= _) = _ by rw [hv, bind_ok]; exact hput), hs, fun x h => ?_, fun x h => ?_⟩
      · show Function.update s.get _ _ x = _
        rw [Function.update_apply]
        split_ifs with c
        · rw [c]; exact hW
        · exact h
      · have h : x = _ := h
        subst h
        show Function.update s.get _ _ _ = _
        rw [Function.update_self]
        exact hW) H hH
  refine ⟨H', e, h1, fun l hl l' hl' => ?_⟩
  obtain ⟨i, hi, p, hp, rfl⟩ := hR.cover l hl
  obtain ⟨j, hj, q, hq, rfl⟩ := hC.cover l' hl'
  have hd := Dist.flat_div (j := C.offsL j + q) hl
  have := h3 (R.offsL i + p + (C.offsL j + q) * R.size) ⟨j, hj, i, hi, q, hq, p, hp, by rw [Nat.add_comm q]; omega⟩
  rw [this]
  show some (A (row (_ % R.size)) (col (_ / R.size))) = _
  rw [hd.1, hd.2]

/-- The same in terms of the distribution. -/
theorem loadCyclic_holds {N mb nb src0 src1 r c p q : ℕ} {R C : Dist.Local} (hmb : 0 < mb) (hnb : 0 < nb)
    (hs0 : src0 < r) (hs1 : src1 < c) (hp : p < r) (hq : q < c) (hR : Dist.TablesCorrect N mb src0 r p R)
    (hC : Dist.TablesCorrect N nb src1 c q C) {A : ℕ → ℕ → K} {M : Arr K} (hM : Full N N (fun r c => some (A r c)) M)
    {H : Arr K} (hH : H.size = R.size * C.size) :
    ∃ H', loadCyclic N R C M H = .ok H' ∧ HoldsCyclic A N mb nb src0 src1 r c p q H' := by
  obtain ⟨H', e, h1, h2⟩ := loadCyclic_fills (hR.tablesFor hmb hs0 hp) (hC.tablesFor hnb hs1 hq) hM hH
  refine ⟨H', e, by rw [h1, hR.size, hC.size], fun g hg g' hg' => ?_⟩
  obtain ⟨i, hi, a1, a2⟩ := (Dist.mem_owned_iff hmb hs0 hp g).1 hg
  obtain ⟨j, hj, b1, b2⟩ := (Dist.mem_owned_iff hnb hs1 hq g').1 hg'
  have := h2 i (by rw [hR.size]; exact hi) j (by rw [hC.size]; exact hj)
  rw [a1, b1, hR.size] at this
  rw [a2, b2, this]

end

/-! ### C94 -/

section
variable {K : Type*} [AddMonoid K] [StarAddMonoid K]

/-- **C94**, the example with a sequence of problems, block-cyclic distribution: on every process that owns a row and a
column, for every size, block size, grid, source process, number of the problem and random numbers, no access is outside
an array, nothing is read before it is assigned, and the local array holds the process's part of the same Hermitian
matrix as in `C94_sequence_partial`.  A process that owns nothing does not get past the constructor,
`Dist.C30_empty_process_refuted`. -/
theorem C94_sequence_cyclic_partial (root : ℕ → K) (pert : ℕ → ℕ → ℕ → K) (N t : ℕ) {mb nb src0 src1 r c p q : ℕ}
    (hmb : 0 < mb) (hnb : 0 < nb) (hs0 : src0 < r) (hs1 : src1 < c) (hp : p < r) (hq : q < c)
    (hne0 : (Dist.owned N mb src0 r p).Nonempty) (hne1 : (Dist.owned N nb src1 c q).Nonempty) :
    ∃ R C, Dist.cyclicLocal N mb p src0 r = .ok R ∧ Dist.cyclicLocal N nb q src1 c = .ok C ∧
      ∀ H : Arr K, H.size = R.size * C.size → ∃ H', sequenceLocalCyclic root pert N R C t H = .ok H' ∧
        HoldsCyclic (sequenceEntry root pert N t) N mb nb src0 src1 r c p q H' := by
  obtain ⟨R, eR, hR⟩ := Dist.C30_tables_partial hmb hs0 hp hne0
  obtain ⟨C, eC, hC⟩ := Dist.C30_tables_partial hnb hs1 hq hne1
  refine ⟨R, C, eR, eC, fun H hH => ?_⟩
  obtain ⟨M, e, h⟩ := sequenceMatrix_full root pert N t
  obtain ⟨H', e', h'⟩ := loadCyclic_holds hmb hnb hs0 hs1 hp hq hR hC h hH
  exact ⟨H', by unfold sequenceLocalCyclic; rw [e, bind_ok, e'], h'⟩

end

section
variable {K : Type*} [Zero K]

/-- **C94**, the first example, block-cyclic distribution, on one process. -/
theorem C94_hello_cyclic_partial (root : ℕ → K) {N mb nb : ℕ} (hN : 0 < N) (hmb : 0 < mb) (hnb : 0 < nb) :
    ∃ R C, Dist.cyclicLocal N mb 0 0 1 = .ok R ∧ Dist.cyclicLocal N nb 0 0 1 = .ok C ∧
      ∃ H, helloCyclic root N R C = .ok H ∧ HoldsCyclic (clementEntry root N) N mb nb 0 0 1 1 0 0 H := by
  have hall : ∀ b, Dist.owned N b 0 1 0 = Finset.range N := fun b => by
    ext g
    rw [Dist.mem_owned, Finset.mem_range]
    exact ⟨fun h => h.1, fun h => ⟨h, by unfold Dist.owner; exact Nat.mod_one _⟩⟩
  have hne : ∀ b, (Dist.owned N b 0 1 0).Nonempty := fun b => ⟨0, by rw [hall]; exact Finset.mem_range.2 hN⟩
  obtain ⟨R, eR, hR⟩ := Dist.C30_tables_partial hmb Nat.one_pos Nat.one_pos (hne mb)
  obtain ⟨C, eC, hC⟩ := Dist.C30_tables_partial hnb Nat.one_pos Nat.one_pos (hne nb)
  have sR : R.size = N := by rw [hR.size, hall, Finset.card_range]
  have sC : C.size = N := by rw [hC.size, hall, Finset.card_range]
  obtain ⟨HC, e, h1, h2⟩ := helloClement_ok root N
  obtain ⟨H', e', h'⟩ := loadCyclic_holds hmb hnb Nat.one_pos Nat.one_pos Nat.one_pos Nat.one_pos hR hC h2
    (H := HC.1) (by rw [h1, sR, sC])
  exact ⟨R, C, eR, eC, H', by unfold helloCyclic; rw [sR, sC, e, bind_ok, e'], h'⟩

/-- **C94 is refuted** for the first example with block-cyclic distribution as well: on every process that does not own
the whole matrix the diagonal is written outside the local array. -/
theorem C94_hello_cyclic_refuted (root : ℕ → K) {N mb nb src0 src1 r c p q : ℕ} (hmb : 0 < mb) (hnb : 0 < nb)
    (hs0 : src0 < r) (hs1 : src1 < c) (hp : p < r) (hq : q < c) (hne0 : (Dist.owned N mb src0 r p).Nonempty)
    (hne1 : (Dist.owned N nb src1 c q).Nonempty)
    (hpart : (∃ g < N, g ∉ Dist.owned N mb src0 r p) ∨ ∃ g < N, g ∉ Dist.owned N nb src1 c q) :
    ∃ R C, Dist.cyclicLocal N mb p src0 r = .ok R ∧ Dist.cyclicLocal N nb q src1 c = .ok C ∧
      helloCyclic root N R C = .error .outside := by
  obtain ⟨R, eR, hR⟩ := Dist.C30_tables_partial hmb hs0 hp hne0
  obtain ⟨C, eC, hC⟩ := Dist.C30_tables_partial hnb hs1 hq hne1
  refine ⟨R, C, eR, eC, ?_⟩
  have hle : ∀ {b s d x : ℕ}, (Dist.owned N b s d x).card ≤ N := fun {b s d x} => by
    calc (Dist.owned N b s d x).card ≤ (Finset.range N).card :=
          Finset.card_le_card fun g hg => Finset.mem_range.2 (Dist.mem_owned.1 hg).1
      _ = N := Finset.card_range N
  have hlt : ∀ {b s d x : ℕ}, (∃ g < N, g ∉ Dist.owned N b s d x) → (Dist.owned N b s d x).card < N := by
    rintro b s d x ⟨g, hg, hn⟩
    calc (Dist.owned N b s d x).card < (Finset.range N).card := Finset.card_lt_card
          ⟨fun g hg => Finset.mem_range.2 (Dist.mem_owned.1 hg).1, fun h => hn (h (Finset.mem_range.2 hg))⟩
      _ = N := Finset.card_range N
  have hsz : R.size * C.size < N * N := by
    rw [hR.size, hC.size]
    rcases hpart with h | h
    · exact Nat.mul_lt_mul_of_lt_of_le (hlt h) hle (Finset.card_pos.2 hne1 |>.trans_le hle)
    · exact Nat.mul_lt_mul_of_le_of_lt hle (hlt h) (Finset.card_pos.2 hne0 |>.trans_le hle)
  unfold helloCyclic
  rw [helloClement_outside root N _ hsz]
  rfl

end

/-- The hypotheses are met: the program's `N = 1001` with blocks of 32 on a grid of 2 × 2 processes gives process (1, 0)
rows and columns, and not all. -/
example : (Dist.owned 1001 32 0 2 1).Nonempty ∧ (Dist.owned 1001 32 0 2 0).Nonempty ∧
    (∃ g < 1001, g ∉ Dist.owned 1001 32 0 2 1) := by
  refine ⟨⟨32, ?_⟩, ⟨0, ?_⟩, ⟨0, by norm_num, ?_⟩⟩ <;> rw [Dist.mem_owned] <;> decide

end Examples
end Verif
