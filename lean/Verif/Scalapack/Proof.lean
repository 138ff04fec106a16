/-
Lemmas about layouts that deal out blocks cyclically, and about the loops of `symOrHermMatrix`.
-/
import Verif.Scalapack.Model
import Verif.Backend.MpiLayout
import Verif.Backend.MpiProps

namespace Verif
namespace Scalapack

open Dist Mpi

variable {N : ℕ}

/-- The layout deals out blocks of `mb` indices cyclically, starting with process `src`, and every process
packs its indices in order. -/
structure Cyclic (L : Layout N) (mb src : ℕ) : Prop where
  pos : 0 < mb
  srcLt : src < L.procs
  deals : ∀ p x, owner mb src L.procs (L.glob p x) = p ∧ g2l mb L.procs (L.glob p x) = x

theorem g2l_eq_toLocal (mb dims g : ℕ) : g2l mb dims g = toLocal mb dims g := by
  rw [g2l, toLocal, Nat.div_div_eq_div_mul, mul_comm]

theorem cyclic_cyclicLayout {mb src dims : ℕ} (h : CyclicOk N mb src dims) :
    Cyclic (cyclicLayout h) mb src where
  pos := h.mb
  srcLt := h.src
  deals := by
    intro p x
    show owner mb src dims (toGlobal mb dims (dist p src dims) x) = p.val ∧
      g2l mb dims (toGlobal mb dims (dist p src dims) x) = x.val
    refine ⟨(owner_iff h.src p.2 _).2 (toGlobal_owner h.mb (dist_lt h.pos) x), ?_⟩
    rw [g2l_eq_toLocal, toLocal_toGlobal h.mb (dist_lt h.pos)]

theorem cyclic_blockLayout {len dims : ℕ} (hd : 0 < dims) (hfit : (dims - 1) * len ≤ N) (hlen : 0 < len)
    (hN : N ≤ dims * len) : Cyclic (blockLayout hd hfit) len 0 where
  pos := hlen
  srcLt := hd
  deals := by
    intro p x
    have hx : p.val * len + x.val < N := ((blockLayout hd hfit).glob p x).2
    have hsz : x.val < len := by
      have hx2 := lt_of_lt_of_eq x.2 (congrArg Local.size (blockTab_eq hfit p.2))
      dsimp only at hx2
      split_ifs at hx2 with h
      · exact hx2
      · obtain ⟨e, rfl⟩ : ∃ e, dims = e + 1 := ⟨dims - 1, by omega⟩
        rw [Nat.succ_mul] at hN
        rw [Nat.add_sub_cancel] at hx2
        omega
    show owner len 0 dims (p.val * len + x.val) = p.val ∧ g2l len dims (p.val * len + x.val) = x.val
    have hpd : p.val < dims := p.2
    have h1 : (p.val * len + x.val) / len = p.val := by
      rw [mul_comm, Nat.mul_add_div hlen, Nat.div_eq_of_lt hsz, Nat.add_zero]
    have h2 : (p.val * len + x.val) % len = x.val := by
      rw [mul_comm, Nat.mul_add_mod, Nat.mod_eq_of_lt hsz]
    refine ⟨?_, ?_⟩
    · rw [owner, h1, Nat.zero_add, Nat.mod_eq_of_lt hpd]
    · rw [g2l, ← Nat.div_div_eq_div_mul, h1, h2, Nat.div_eq_of_lt hpd, Nat.mul_zero, Nat.zero_add]

theorem at_glob (L : Layout N) (p : Fin L.procs) (x : Fin (L.size p)) :
    At (L.tab p) (L.glob p x) x := by
  obtain ⟨⟨k, t⟩, ⟨hk, ht, hkt⟩, -⟩ := L.covers p x x.2
  obtain ⟨h1, h2⟩ := L.listed p k hk t ht
  refine ⟨k, hk, t, ht, ?_, hkt⟩
  rw [← h2]
  congr 2
  exact Fin.ext hkt

theorem at_layout_iff (L : Layout N) (p : Fin L.procs) (g x : ℕ) :
    At (L.tab p) g x ↔ ∃ y : Fin (L.size p), y.val = x ∧ (L.glob p y).val = g := by
  constructor
  · rintro ⟨k, hk, t, ht, rfl, rfl⟩
    obtain ⟨h1, h2⟩ := L.listed p k hk t ht
    exact ⟨⟨_, h1⟩, rfl, h2⟩
  · rintro ⟨y, rfl, rfl⟩
    exact at_glob L p y

theorem Cyclic.at_iff {L : Layout N} {mb src : ℕ} (hL : Cyclic L mb src) (p : Fin L.procs) (g x : ℕ) :
    At (L.tab p) g x ↔ g < N ∧ owner mb src L.procs g = p ∧ g2l mb L.procs g = x := by
  rw [at_layout_iff]
  constructor
  · rintro ⟨y, rfl, rfl⟩
    exact ⟨(L.glob p y).2, hL.deals p y⟩
  · rintro ⟨hg, h1, h2⟩
    obtain ⟨q, y, hy⟩ := L.exists_glob ⟨g, hg⟩
    have hy' : (L.glob q y).val = g := congrArg Fin.val hy
    obtain ⟨h3, h4⟩ := hL.deals q y
    rw [hy', h1] at h3
    rw [hy', h2] at h4
    obtain rfl : p = q := Fin.ext h3
    exact ⟨y, h4.symm, hy'⟩

theorem Cyclic.card_le {L : Layout N} {mb src : ℕ} (hL : Cyclic L mb src) (p : Fin L.procs) :
    (owned N mb src L.procs p).card ≤ L.size p := by
  rw [← Finset.card_range (L.size p)]
  refine Finset.card_le_card_of_injOn (g2l mb L.procs) ?_ ?_
  · intro g hg
    rw [Finset.mem_coe, owned, Finset.mem_filter, Finset.mem_range] at hg
    obtain ⟨y, hy, -⟩ := (at_layout_iff L p g _).1 ((hL.at_iff p g _).2 ⟨hg.1, hg.2, rfl⟩)
    rw [Finset.mem_coe, Finset.mem_range, ← hy]
    exact y.2
  · intro g hg g' hg' he
    rw [Finset.mem_coe, owned, Finset.mem_filter, Finset.mem_range] at hg hg'
    obtain ⟨y, hy, h1⟩ := (at_layout_iff L p g _).1 ((hL.at_iff p g _).2 ⟨hg.1, hg.2, rfl⟩)
    obtain ⟨y', hy', h1'⟩ := (at_layout_iff L p g' _).1 ((hL.at_iff p g' _).2 ⟨hg'.1, hg'.2, rfl⟩)
    obtain rfl : y = y' := Fin.ext (by rw [hy, hy']; exact he)
    exact h1.symm.trans h1'

theorem Cyclic.lld {L : Layout N} {mb src : ℕ} (hL : Cyclic L mb src) {p : Fin L.procs} {ld : ℕ}
    (hld : L.size p ≤ ld) (hs : 0 < L.size p) :
    max ld (max 1 (owned N mb src L.procs p).card) = ld := by
  have := hL.card_le p
  omega

theorem Cyclic.size_pos {L : Layout N} {mb src : ℕ} (hL : Cyclic L mb src) {p : Fin L.procs} {g : ℕ}
    (hg : g < N) (hp : owner mb src L.procs g = p) : 0 < L.size p := by
  obtain ⟨y, -, -⟩ := (at_layout_iff L p g _).1 ((hL.at_iff p g _).2 ⟨hg, hp, rfl⟩)
  exact Nat.lt_of_le_of_lt (Nat.zero_le _) y.2

theorem at_whole (n h y : ℕ) : At (wholeTab n) h y ↔ h < n ∧ h = y := by
  constructor
  · rintro ⟨k, -, t, ht, rfl, rfl⟩
    exact ⟨lt_of_eq_of_lt (Nat.zero_add t) ht, rfl⟩
  · rintro ⟨hn, rfl⟩
    exact ⟨0, Nat.one_pos, h, hn, Nat.zero_add h, Nat.zero_add h⟩

theorem owner_lt {mb src dims g : ℕ} (h : 0 < dims) : owner mb src dims g < dims := Nat.mod_lt _ h

theorem owner_one (nb h : ℕ) : owner nb 0 1 h = 0 := Nat.mod_one _

theorem g2l_one (nb h : ℕ) : g2l nb 1 h = h := by rw [g2l, Nat.mul_one, Nat.div_add_mod]

/-- The process column contains the calling process at its own row and nowhere else. -/
theorem userMap_eq_iff {r c y i : ℕ} (maj : Bool) (hy : y < r * c) (hi : i < r) :
    userMap r c maj y i = y ↔ i = (gridCoord r c maj y).row := by
  obtain ⟨h1, h2⟩ := C32_scalapack_map maj hy hi
  constructor
  · intro h
    rw [h] at h2
    rw [h2]
  · intro h
    have e : gridCoord r c maj (userMap r c maj y i) = gridCoord r c maj y := by rw [h2, h]
    obtain ⟨z, -, hz⟩ := C32_coord_bijective maj _ _ (C32_coord_range maj hy).1 (C32_coord_range maj hy).2
    rw [hz _ ⟨h1, e⟩, hz y ⟨hy, rfl⟩]

/-- `blacs_gridinit` numbers the processes as `create2DGrid` does. -/
theorem gridCtxt_eq_iff {r c y i j : ℕ} (maj : Bool) (hi : i < r) (hj : j < c) (hy : y < r * c) :
    (gridCtxt r c maj).proc i j = y ↔ gridCoord r c maj y = ⟨i, j⟩ := by
  obtain ⟨z, ⟨hz1, hz2⟩, hz⟩ := C32_coord_bijective maj i j hi hj
  have hr : 0 < r := by omega
  have hc : 0 < c := by omega
  have key : gridCoord r c maj ((gridCtxt r c maj).proc i j) = ⟨i, j⟩ ∧
      (gridCtxt r c maj).proc i j < r * c := by
    cases maj
    · show Coord.mk ((i * c + j) / c) ((i * c + j) % c) = _ ∧ i * c + j < r * c
      refine ⟨?_, ?_⟩
      · rw [mul_comm, Nat.mul_add_div hc, Nat.mul_add_mod, Nat.div_eq_of_lt hj, Nat.mod_eq_of_lt hj,
          Nat.add_zero]
      · have := Nat.mul_le_mul_right c (show i + 1 ≤ r from hi)
        rw [Nat.succ_mul] at this
        omega
    · show Coord.mk ((i + j * r) % r) ((i + j * r) / r) = _ ∧ i + j * r < r * c
      refine ⟨?_, ?_⟩
      · rw [Nat.add_comm, mul_comm, Nat.mul_add_div hr, Nat.mul_add_mod, Nat.div_eq_of_lt hi,
          Nat.mod_eq_of_lt hi, Nat.add_zero]
      · have := Nat.mul_le_mul_right r (show j + 1 ≤ c from hj)
        rw [Nat.succ_mul, mul_comm c r] at this
        omega
  constructor
  · rintro rfl
    exact key.1
  · intro h
    rw [hz _ ⟨key.2, key.1⟩, hz y ⟨hy, h⟩]

section
variable {K : Type*} [RCLike K]

/-- The matrix stored by columns in an array. -/
def view (m n ld : ℕ) (H : ℕ → K) : Matrix (Fin m) (Fin n) K := fun x y => H (x + ld * y)

theorem addr_inj {ld x x' y y' : ℕ} (hx : x < ld) (hx' : x' < ld) (h : x + ld * y = x' + ld * y') :
    x = x' ∧ y = y' := by
  have hpos : 0 < ld := by omega
  have h1 := congrArg (· % ld) h
  have h2 := congrArg (· / ld) h
  simp only [Nat.add_mul_mod_self_left, Nat.mod_eq_of_lt hx, Nat.mod_eq_of_lt hx',
    Nat.add_mul_div_left _ _ hpos, Nat.div_eq_of_lt hx, Nat.div_eq_of_lt hx', Nat.zero_add] at h1 h2
  exact ⟨h1, h2⟩

omit [RCLike K] in
theorem view_update {m n ld p q : ℕ} (hm : m ≤ ld) (hp : p < m) (H : ℕ → K) (v : K) (a : Fin m)
    (b : Fin n) : view m n ld (Function.update H (p + ld * q) v) a b =
      if a.val = p ∧ b.val = q then v else view m n ld H a b := by
  unfold view
  rw [Function.update_apply]
  by_cases h : a.val = p ∧ b.val = q
  · rw [if_pos h, if_pos (by rw [h.1, h.2])]
  · rw [if_neg h, if_neg]
    intro he
    exact h (addr_inj (lt_of_lt_of_le a.2 hm) (lt_of_lt_of_le hp hm) he)

theorem view_halveArr {r c : Layout N} (i : Fin r.procs) (j : Fin c.procs) (upper : Bool) {ld : ℕ}
    (hld : r.size i ≤ ld) (H : ℕ → K) :
    view (r.size i) (c.size j) ld (halveArr upper (r.tab i) (c.tab j) ld H) =
      halveLocal upper (r.tab i) (c.tab j) (view (r.size i) (c.size j) ld H) := by
  unfold halveArr halveLocal
  refine forRange_map _ _ _ (fun bj H _ hbj => ?_) H
  refine forRange_map _ _ _ (fun bi H _ hbi => ?_) H
  refine forRange_map _ _ _ (fun q H _ hq => ?_) H
  refine forRange_map _ _ _ (fun p H _ hp => ?_) H
  obtain ⟨h1, -⟩ := r.listed i bi hbi p hp
  have h1 : p + (r.tab i).offsL bi < r.size i := by rw [Nat.add_comm]; exact h1
  have ea : (q + (c.tab j).offsL bj) * ld + p + (r.tab i).offsL bi =
      (p + (r.tab i).offsL bi) + ld * (q + (c.tab j).offsL bj) := by ring
  funext a b
  dsimp only
  rw [ea]
  by_cases c1 : q + (c.tab j).offs bj = p + (r.tab i).offs bi
  · rw [if_pos c1, if_pos c1, view_update hld h1]
    by_cases c2 : a.val = p + (r.tab i).offsL bi ∧ b.val = q + (c.tab j).offsL bj
    · rw [if_pos c2, if_pos c2, view, c2.1, c2.2]
    · rw [if_neg c2, if_neg c2]
  · rw [if_neg c1, if_neg c1]
    by_cases c3 : (if upper = true then q + (c.tab j).offs bj < p + (r.tab i).offs bi
        else q + (c.tab j).offs bj > p + (r.tab i).offs bi)
    · rw [if_pos c3, if_pos c3, view_update hld h1]
    · rw [if_neg c3, if_neg c3, ite_self]

theorem view_addArr {m n ld : ℕ} (hld : m ≤ ld) (H tmp : ℕ → K) (a : Fin m) (b : Fin n) :
    view m n ld (addArr m n ld H tmp) a b = view m n ld H a b + tmp (a + b * m) := by
  unfold addArr
  have inner : ∀ i < m, ∀ (X : ℕ → K) (k : ℕ),
      view m n ld (forRange 0 k (fun j X =>
        Function.update X (i + j * ld) (X (i + j * ld) + tmp (i + j * m))) X) a b =
      if a.val = i ∧ b.val < k then view m n ld X a b + tmp (i + b * m) else view m n ld X a b := by
    intro i hi X k
    induction k with
    | zero => rw [forRange_self, if_neg (by omega)]
    | succ k ih =>
      rw [forRange_succ (Nat.zero_le _), mul_comm k ld, view_update hld hi, ih]
      by_cases c2 : a.val = i ∧ b.val = k
      · rw [if_pos c2, if_pos ⟨c2.1, by omega⟩]
        have ih' := ih
        rw [if_neg (by omega)] at ih'
        rw [← ih', view, c2.1, c2.2]
      · rw [if_neg c2]
        by_cases c3 : a.val = i ∧ b.val < k
        · rw [if_pos c3, if_pos ⟨c3.1, by omega⟩]
        · rw [if_neg c3, if_neg (by omega)]
  have outer : ∀ k ≤ m, view m n ld (forRange 0 k (fun i X => forRange 0 n (fun j X =>
        Function.update X (i + j * ld) (X (i + j * ld) + tmp (i + j * m))) X) H) a b =
      if a.val < k then view m n ld H a b + tmp (a + b * m) else view m n ld H a b := by
    intro k hk
    induction k with
    | zero => rw [forRange_self, if_neg (by omega)]
    | succ k ih =>
      rw [forRange_succ (Nat.zero_le _), inner k (by omega), ih (by omega)]
      by_cases c2 : a.val = k
      · rw [if_pos ⟨c2, b.2⟩, if_neg (by omega), if_pos (by omega), c2]
      · rw [if_neg (by omega)]
        by_cases c3 : a.val < k
        · rw [if_pos c3, if_pos (by omega)]
        · rw [if_neg c3, if_neg (by omega)]
  rw [outer m le_rfl, if_pos a.2]

end

end Scalapack
end Verif
