/-
C83: with NCCL the processes reduce and broadcast over the same groups, with the same ranks and with the
same results as with MPI.
-/
import Verif.Nccl.Model
import Verif.Dist.Props

namespace Verif
namespace Nccl

open Dist Finset

/-- A loop that acts in one iteration only. -/
theorem once {α : Type*} (n k : ℕ) (hk : k < n) (v : ℕ → Except Err α) {x : α} (hv : v k = .ok x) :
    forRangeM 0 n (fun i (st : Option α) => if k = i then (match v i with
      | .ok a => .ok (some a)
      | .error e => .error e) else .ok st) none = .ok (some x) := by
  have key : ∀ (m lo : ℕ) (st : Option α), (lo ≤ k → k < lo + m ∨ st = some x) → (k < lo → st = some x) →
      lo ≤ k + 1 ∨ st = some x →
      loopM (fun i (st : Option α) => if k = i then (match v i with
        | .ok a => .ok (some a)
        | .error e => .error e) else .ok st) lo m st = .ok (some x) := by
    intro m
    induction m with
    | zero =>
      intro lo st h1 h2 _
      show Except.ok st = _
      rcases Nat.lt_or_ge k lo with h | h
      · rw [h2 h]
      · rcases h1 h with h3 | h3
        · omega
        · rw [h3]
    | succ m ih =>
      intro lo st h1 h2 _
      unfold loopM
      by_cases hlo : k = lo
      · subst hlo
        simp only [if_true, hv]
        exact ih (k + 1) (some x) (fun _ => Or.inr rfl) (fun _ => rfl) (Or.inr rfl)
      · simp only [if_neg hlo]
        refine ih (lo + 1) st (fun h => ?_) (fun h => ?_) ?_
        · rcases h1 (by omega) with h3 | h3
          · left; omega
          · right; exact h3
        · exact h2 (by omega)
        · rcases Nat.lt_or_ge k lo with h | h
          · right; exact h2 h
          · left; omega
  exact key n 0 none (fun _ => Or.inl (by omega)) (fun h => absurd h (Nat.not_lt_zero _)) (Or.inl (by omega))

/-- What the row communicators are made of. -/
theorem rowInit_eq {r c y : ℕ} (maj : Bool) (hy : y < r * c) :
    rowInit r c maj (r * c) y =
      .ok (some ⟨((gridCoord r c maj y).row, 1), c, (gridCoord r c maj y).col⟩) := by
  obtain ⟨h1, h2⟩ := C32_coord_range maj hy
  have hlt : (gridCoord r c maj y).row < r * c :=
    lt_of_lt_of_le h1 (Nat.le_mul_of_pos_right r (by omega))
  have := once r _ h1 (fun i => if i < r * c then (.ok ⟨(i, 1), c, (gridCoord r c maj y).col⟩ : Except Err Init)
    else .error .oob) (x := ⟨((gridCoord r c maj y).row, 1), c, (gridCoord r c maj y).col⟩) (if_pos hlt)
  unfold rowInit
  rw [← this]
  dsimp only
  congr 1
  funext i st
  by_cases h : (gridCoord r c maj y).row = i
  · simp only [if_pos h]
    by_cases h3 : i < r * c <;> simp [h3]
  · simp only [if_neg h]

theorem colInit_eq {r c y : ℕ} (maj : Bool) (hy : y < r * c) :
    colInit r c maj (r * c) y =
      .ok (some ⟨((gridCoord r c maj y).col * r, 2), r, (gridCoord r c maj y).row⟩) := by
  obtain ⟨h1, h2⟩ := C32_coord_range maj hy
  have hlt : (gridCoord r c maj y).col * r < r * c := by
    rw [mul_comm r c]
    exact Nat.mul_lt_mul_of_pos_right h2 (by omega)
  have := once c _ h2 (fun i => if i * r < r * c then
    (.ok ⟨(i * r, 2), r, (gridCoord r c maj y).row⟩ : Except Err Init)
    else .error .oob) (x := ⟨((gridCoord r c maj y).col * r, 2), r, (gridCoord r c maj y).row⟩) (if_pos hlt)
  unfold colInit
  rw [← this]
  dsimp only
  congr 1
  funext i st
  by_cases h : (gridCoord r c maj y).col = i
  · simp only [if_pos h]
    by_cases h3 : i * r < r * c <;> simp [h3]
  · simp only [if_neg h]

/-- What a process initialised; the value for other processes does not matter. -/
def initOf (x : Except Err (Option Init)) : Init :=
  match x with
  | .ok (some I) => I
  | _ => ⟨(0, 0), 0, 0⟩

theorem card_col {r c y : ℕ} (maj : Bool) (hy : y < r * c) :
    ((range (r * c)).filter fun x => (gridCoord r c maj x).row = (gridCoord r c maj y).row).card = c := by
  obtain ⟨h1, h2⟩ := C32_coord_range maj hy
  refine (card_bij (t := range c) (fun x _ => (gridCoord r c maj x).col) ?_ ?_ ?_).trans (card_range c)
  · intro x hx
    rw [mem_filter, mem_range] at hx
    rw [mem_range]
    exact (C32_coord_range maj hx.1).2
  · intro x hx x' hx' he
    rw [mem_filter, mem_range] at hx hx'
    obtain ⟨z, -, hz⟩ := C32_coord_bijective maj _ _ h1 (C32_coord_range maj hx.1).2
    rw [hz x ⟨hx.1, by rw [← hx.2]⟩, hz x' ⟨hx'.1, by rw [he, ← hx'.2]⟩]
  · intro j hj
    rw [mem_range] at hj
    obtain ⟨z, ⟨hz1, hz2⟩, -⟩ := C32_coord_bijective maj _ _ h1 hj
    exact ⟨z, by rw [mem_filter, mem_range]; exact ⟨hz1, by rw [hz2]⟩, by rw [hz2]⟩

theorem card_row {r c y : ℕ} (maj : Bool) (hy : y < r * c) :
    ((range (r * c)).filter fun x => (gridCoord r c maj x).col = (gridCoord r c maj y).col).card = r := by
  obtain ⟨h1, h2⟩ := C32_coord_range maj hy
  refine (card_bij (t := range r) (fun x _ => (gridCoord r c maj x).row) ?_ ?_ ?_).trans (card_range r)
  · intro x hx
    rw [mem_filter, mem_range] at hx
    rw [mem_range]
    exact (C32_coord_range maj hx.1).1
  · intro x hx x' hx' he
    rw [mem_filter, mem_range] at hx hx'
    obtain ⟨z, -, hz⟩ := C32_coord_bijective maj _ _ (C32_coord_range maj hx.1).1 h2
    rw [hz x ⟨hx.1, by rw [← hx.2]⟩, hz x' ⟨hx'.1, by rw [he, ← hx'.2]⟩]
  · intro j hj
    rw [mem_range] at hj
    obtain ⟨z, ⟨hz1, hz2⟩, -⟩ := C32_coord_bijective maj _ _ hj h2
    exact ⟨z, by rw [mem_filter, mem_range]; exact ⟨hz1, by rw [hz2]⟩, by rw [hz2]⟩

/-- **C83** (communicators) For every shape and numbering of the grid, all processes initialise both NCCL
communicators without reading outside the gathered ids; two processes are in the same one iff they are in
the same MPI communicator; they have the same rank there; the number of processes is right, and the ids of
row and column communicators are different. -/
theorem C83_communicators (r c : ℕ) (maj : Bool) :
    ∃ row col : ℕ → Init,
      (∀ y < r * c, rowInit r c maj (r * c) y = .ok (some (row y)) ∧
        colInit r c maj (r * c) y = .ok (some (col y))) ∧
      WellFormed (r * c) row ∧ WellFormed (r * c) col ∧
      (∀ x < r * c, ∀ y < r * c,
        ((row x).id = (row y).id ↔ (rowComm r c maj x).1 = (rowComm r c maj y).1) ∧
        ((col x).id = (col y).id ↔ (colComm r c maj x).1 = (colComm r c maj y).1) ∧
        (row x).id ≠ (col y).id) ∧
      ∀ y < r * c, (row y).rank = (rowComm r c maj y).2 ∧ (col y).rank = (colComm r c maj y).2 := by
  refine ⟨fun y => ⟨((gridCoord r c maj y).row, 1), c, (gridCoord r c maj y).col⟩,
    fun y => ⟨((gridCoord r c maj y).col * r, 2), r, (gridCoord r c maj y).row⟩,
    fun y hy => ⟨rowInit_eq maj hy, colInit_eq maj hy⟩, ?_, ?_, ?_, ?_⟩
  · intro y hy
    have hm : members (r * c) (fun x => ((gridCoord r c maj x).row, 1)) y =
        (range (r * c)).filter fun x => (gridCoord r c maj x).row = (gridCoord r c maj y).row := by
      unfold members
      simp only [Prod.mk.injEq, and_true]
    refine ⟨by dsimp only; rw [hm, card_col maj hy], ?_⟩
    dsimp only
    rw [hm]
    intro x hx
    rw [mem_filter, mem_range] at hx
    refine ⟨rfl, (C32_coord_range maj hx.1).2, fun x' hx' he => ?_⟩
    rw [mem_filter, mem_range] at hx'
    obtain ⟨z, -, hz⟩ := C32_coord_bijective maj _ _ (C32_coord_range maj hy).1 (C32_coord_range maj hx.1).2
    rw [hz x ⟨hx.1, by rw [← hx.2]⟩, hz x' ⟨hx'.1, by rw [← he, ← hx'.2]⟩]
  · intro y hy
    have hr : 0 < r := by have := (C32_coord_range maj hy).1; omega
    have hm : members (r * c) (fun x => ((gridCoord r c maj x).col * r, 2)) y =
        (range (r * c)).filter fun x => (gridCoord r c maj x).col = (gridCoord r c maj y).col := by
      unfold members
      simp only [Prod.mk.injEq, and_true, Nat.mul_left_inj hr.ne']
    refine ⟨by dsimp only; rw [hm, card_row maj hy], ?_⟩
    dsimp only
    rw [hm]
    intro x hx
    rw [mem_filter, mem_range] at hx
    refine ⟨rfl, (C32_coord_range maj hx.1).1, fun x' hx' he => ?_⟩
    rw [mem_filter, mem_range] at hx'
    obtain ⟨z, -, hz⟩ := C32_coord_bijective maj _ _ (C32_coord_range maj hx.1).1 (C32_coord_range maj hy).2
    rw [hz x ⟨hx.1, by rw [← hx.2]⟩, hz x' ⟨hx'.1, by rw [← he, ← hx'.2]⟩]
  · intro x hx y hy
    have hr : 0 < r := by have := (C32_coord_range maj hy).1; omega
    obtain ⟨h1, -, h2, -⟩ := C32_communicators r c maj x y
    refine ⟨?_, ?_, ?_⟩
    · rw [h1]
      simp only [Prod.mk.injEq, and_true]
    · rw [h2]
      simp only [Prod.mk.injEq, and_true, Nat.mul_left_inj hr.ne']
    · intro h
      exact absurd (show 1 = 2 from congrArg Prod.snd h) (by decide)
  · intro y hy
    obtain ⟨-, h1, -, h2⟩ := C32_communicators r c maj y y
    exact ⟨h1.symm, h2.symm⟩

/-- Two by three processes, column-major. -/
example : rowInit 2 3 true 6 3 = .ok (some ⟨(1, 1), 3, 1⟩) ∧
    colInit 2 3 true 6 3 = .ok (some ⟨(2, 2), 2, 1⟩) := by
  constructor <;> rfl

theorem members_congr {α β : Type*} [DecidableEq α] [DecidableEq β] {n y : ℕ} {f : ℕ → α} {g : ℕ → β}
    (hy : y < n) (h : ∀ x < n, ∀ y < n, f x = f y ↔ g x = g y) : members n f y = members n g y := by
  unfold members
  exact filter_congr fun x hx => h x (mem_range.1 hx) y hy

/-- **C83** (reduction) For all four element types and every count, the reduction by NCCL with `MPI_SUM`
does what `MPI_Allreduce` does on the same groups: `init` are NCCL communicators with the groups `colour`. -/
theorem C83_allreduce {α : Type*} [DecidableEq α] {n : ℕ} {init : ℕ → Init} {colour : ℕ → α}
    (hcol : ∀ x < n, ∀ y < n, (init x).id = (init y).id ↔ colour x = colour y) (ty : Ty) (count : ℕ)
    {before after : ℕ → ℕ → ℝ} (h : allReduce n init ty .sum count before after) :
    MpiSum n colour ty count before after := by
  intro y hy
  obtain ⟨h1, h2⟩ := h y hy
  refine ⟨fun e he => ?_, h2⟩
  rw [members_congr (f := fun x => (init x).id) hy hcol] at h1
  have h1 : ∀ w < ty.words * count, after y w = ∑ x ∈ members n colour y, before x w := h1
  unfold Ty.elem
  by_cases hw : ty.words = 1
  · simp only [if_pos hw]
    rw [h1 e (by rw [hw]; omega), Complex.ofReal_sum]
  · have hw2 : ty.words = 2 := by cases ty <;> simp_all [Ty.words]
    simp only [if_neg hw]
    rw [h1 (2 * e) (by rw [hw2]; omega), h1 (2 * e + 1) (by rw [hw2]; omega)]
    apply Complex.ext
    · rw [Complex.re_sum]
    · rw [Complex.im_sum]

/-- **C83** (broadcast) The broadcast by NCCL does what `MPI_Bcast` does on the same groups with the same
ranks. -/
theorem C83_bcast {α : Type*} [DecidableEq α] {n : ℕ} {init : ℕ → Init} {colour : ℕ → α} {rank : ℕ → ℕ}
    (hcol : ∀ x < n, ∀ y < n, (init x).id = (init y).id ↔ colour x = colour y)
    (hrank : ∀ y < n, (init y).rank = rank y) (ty : Ty) (count root : ℕ)
    {before after : ℕ → ℕ → ℝ} (h : bcast n init ty count root before after) :
    MpiBcast n colour rank ty count root before after := by
  intro y hy
  obtain ⟨h1, h2⟩ := h y hy
  refine ⟨fun x hx hr e he => ?_, h2⟩
  rw [members_congr (f := fun x => (init x).id) hy hcol] at h1
  have hxn : x < n := mem_range.1 (mem_filter.1 hx).1
  have h1 := h1 x hx (by rw [hrank x hxn, hr])
  unfold Ty.elem
  by_cases hw : ty.words = 1
  · simp only [if_pos hw]
    rw [h1 e (by rw [hw]; omega)]
  · have hw2 : ty.words = 2 := by cases ty <;> simp_all [Ty.words]
    simp only [if_neg hw]
    rw [h1 (2 * e) (by rw [hw2]; omega), h1 (2 * e + 1) (by rw [hw2]; omega)]

/-- **C83** (types) The numbers given to NCCL have the type they have in memory. -/
theorem C83_types (ty : Ty) : datatypeMap ty = ty.base := by
  cases ty <;> rfl

/-- **C83** on the communicators of the library: sums and broadcasts over the rows and over the columns of
the process grid agree with those of MPI, for every grid, element type and count. -/
theorem C83_collectives (r c : ℕ) (maj : Bool) :
    let row := fun y => initOf (rowInit r c maj (r * c) y)
    let col := fun y => initOf (colInit r c maj (r * c) y)
    ∀ (ty : Ty) (count root : ℕ) (before after : ℕ → ℕ → ℝ),
      (allReduce (r * c) row ty .sum count before after →
        MpiSum (r * c) (fun x => (rowComm r c maj x).1) ty count before after) ∧
      (allReduce (r * c) col ty .sum count before after →
        MpiSum (r * c) (fun x => (colComm r c maj x).1) ty count before after) ∧
      (bcast (r * c) row ty count root before after →
        MpiBcast (r * c) (fun x => (rowComm r c maj x).1) (fun x => (rowComm r c maj x).2) ty count root
          before after) ∧
      (bcast (r * c) col ty count root before after →
        MpiBcast (r * c) (fun x => (colComm r c maj x).1) (fun x => (colComm r c maj x).2) ty count root
          before after) := by
  intro row col ty count root before after
  obtain ⟨row', col', h1, -, -, h2, h3⟩ := C83_communicators r c maj
  have er : ∀ y < r * c, row y = row' y := fun y hy => by
    show initOf _ = _
    rw [(h1 y hy).1]
    rfl
  have ec : ∀ y < r * c, col y = col' y := fun y hy => by
    show initOf _ = _
    rw [(h1 y hy).2]
    rfl
  have hr : ∀ x < r * c, ∀ y < r * c,
      (row x).id = (row y).id ↔ (rowComm r c maj x).1 = (rowComm r c maj y).1 := fun x hx y hy => by
    rw [er x hx, er y hy]; exact (h2 x hx y hy).1
  have hc : ∀ x < r * c, ∀ y < r * c,
      (col x).id = (col y).id ↔ (colComm r c maj x).1 = (colComm r c maj y).1 := fun x hx y hy => by
    rw [ec x hx, ec y hy]; exact (h2 x hx y hy).2.1
  exact ⟨C83_allreduce hr ty count, C83_allreduce hc ty count,
    C83_bcast hr (fun y hy => by rw [er y hy]; exact (h3 y hy).1) ty count root,
    C83_bcast hc (fun y hy => by rw [ec y hy]; exact (h3 y hy).2) ty count root⟩

/-- Such operations exist: NCCL's result is a function of the input. -/
example (n : ℕ) (init : ℕ → Init) (ty : Ty) (count : ℕ) (before : ℕ → ℕ → ℝ) :
    ∃ after, allReduce n init ty .sum count before after :=
  ⟨fun y w => if w < ty.words * count then
      reduce .sum (members n (fun x => (init x).id) y) fun x => before x w else before y w,
    fun y _ => ⟨fun w hw => if_pos hw, fun w hw => if_neg (by omega)⟩⟩

/-- Why it matters that the library only sums: **the product of complex numbers with NCCL is not the product
of MPI**.  Two processes, one complex number each, both the imaginary unit: NCCL gives `i`, not `-1`. -/
theorem C83_product_refuted {before after : ℕ → ℕ → ℝ}
    (hb : ∀ y, before y 0 = 0 ∧ before y 1 = 1)
    (h : allReduce 2 (fun y => ⟨(0, 0), 2, y⟩) .complexDouble .prod 1 before after) :
    Ty.complexDouble.elem (after 0) 0 = Complex.I ∧
      ∏ x ∈ members 2 (fun _ => 0) 0, Ty.complexDouble.elem (before x) 0 = -1 := by
  obtain ⟨h1, -⟩ := h 0 (by decide)
  have hm : ∀ y, members 2 (fun _ : ℕ => (0, 0)) y = range 2 := fun y => by
    unfold members
    simp
  have e : ∀ y, Ty.complexDouble.elem (before y) 0 = Complex.I := by
    intro y
    unfold Ty.elem
    rw [if_neg (by decide)]
    apply Complex.ext
    · simpa using (hb y).1
    · simpa using (hb y).2
  constructor
  · have h2 := h1 0 (by decide)
    have h3 := h1 1 (by decide)
    simp only [opMap, reduce, hm] at h2 h3
    unfold Ty.elem
    rw [if_neg (by decide)]
    apply Complex.ext
    · show after 0 0 = _
      rw [h2]
      simp [(hb _).1]
    · show after 0 1 = _
      rw [h3]
      simp [(hb _).2]
  · rw [show members 2 (fun _ : ℕ => 0) 0 = range 2 by unfold members; simp]
    simp only [e, prod_range_succ, prod_range_zero, one_mul]
    exact Complex.I_mul_I

end Nccl
end Verif
