/-
The layouts of the constructors of `ChaseMpiProperties` as layouts of the distributed backend, and the
redistribution tables of `ChaseMpiDLA` between them.
-/
import Verif.Backend.MpiSpec
import Verif.Dist.Props

namespace Verif
namespace Mpi

open Matrix

variable {N : ℕ}

/-- What a constructor produced; nothing if it failed. -/
def tabOf : Except Err Dist.Local → Dist.Local
  | .ok L => L
  | .error _ => ⟨0, 0, fun _ => 0, fun _ => 0, fun _ => 0⟩

/-- As `tabOf`, for the block constructors (chase_mpi_properties.hpp 560-680, 843-980). -/
def blockTabOf : Except Err Dist.BlockLocal → Dist.Local
  | .ok L => L.tables
  | .error _ => ⟨0, 0, fun _ => 0, fun _ => 0, fun _ => 0⟩

/-- The redistribution tables the constructor of `ChaseMpiDLA` builds from layout 1 (block size `m1`,
`p1` processes, first process `s1`, local sizes `lens`) to layout 2: chase_mpidla.hpp 140-236 (called
with rows, columns for the first table and columns, rows for the second). -/
def commRuns (N m1 p1 s1 m2 p2 s2 : ℕ) (lens : ℕ → ℕ) : List Dist.Run :=
  if p1 = p2 ∧ s1 = s2 ∧ m1 = m2 then Dist.sameTable p1 lens
  else Dist.runTable N m1 p1 s1 m2 p2 s2

section cyclic
variable (N) (mb src dims : ℕ)

/-- Conditions under which the block-cyclic constructor works on all processes (C30). -/
structure CyclicOk : Prop where
  owns : ∀ p < dims, (Dist.owned N mb src dims p).Nonempty
  src : src < dims
  mb : 0 < mb

variable {N mb src dims}

theorem CyclicOk.tab (h : CyclicOk N mb src dims) {p : ℕ} (hp : p < dims) :
    Dist.cyclicLocal N mb p src dims = .ok (tabOf (Dist.cyclicLocal N mb p src dims)) ∧
      Dist.TablesCorrect N mb src dims p (tabOf (Dist.cyclicLocal N mb p src dims)) := by
  obtain ⟨L, h1, h2⟩ := Dist.C30_tables_partial h.mb h.src hp (h.owns p hp)
  rw [h1]
  exact ⟨rfl, h2⟩

theorem CyclicOk.size (h : CyclicOk N mb src dims) {p : ℕ} (hp : p < dims) :
    (tabOf (Dist.cyclicLocal N mb p src dims)).size =
      Dist.rows N mb (Dist.dist p src dims) dims := by
  rw [(h.tab hp).2.size, Dist.card_owned h.mb h.src hp]

theorem CyclicOk.pos (h : CyclicOk N mb src dims) : 0 < dims := Nat.lt_of_le_of_lt (Nat.zero_le _) h.src

/-- The layout of the block-cyclic constructor (chase_mpi_properties.hpp 231-437). -/
def cyclicLayout (h : CyclicOk N mb src dims) : Layout N where
  procs := dims
  tab := fun p => tabOf (Dist.cyclicLocal N mb p src dims)
  glob := fun p l => ⟨Dist.toGlobal mb dims (Dist.dist p src dims) l,
    (Dist.toGlobal_lt_iff h.mb (Dist.dist_lt h.pos) l).2 (by
      rw [← h.size p.2]; exact l.2)⟩
  bij := by
    constructor
    · rintro ⟨p, a⟩ ⟨q, b⟩ hab
      have hab : Dist.toGlobal mb dims (Dist.dist p src dims) a =
        Dist.toGlobal mb dims (Dist.dist q src dims) b := congrArg Fin.val hab
      have h1 := Dist.toGlobal_owner h.mb (Dist.dist_lt (p := p) (src := src) h.pos) a
      have h2 := Dist.toGlobal_owner h.mb (Dist.dist_lt (p := q) (src := src) h.pos) b
      rw [hab] at h1
      have h3 := (Dist.owner_iff h.src p.2 _).2 h1
      have h4 := (Dist.owner_iff h.src q.2 _).2 h2
      have hpq : p = q := Fin.ext (h3.symm.trans h4)
      subst hpq
      have h5 := congrArg (Dist.toLocal mb dims) hab
      rw [Dist.toLocal_toGlobal h.mb (Dist.dist_lt h.pos),
        Dist.toLocal_toGlobal h.mb (Dist.dist_lt h.pos)] at h5
      rw [Fin.ext h5]
    · intro g
      have hp : Dist.owner mb src dims g < dims := Nat.mod_lt _ h.pos
      have h1 := (Dist.owner_iff h.src hp g).1 rfl
      have h2 := Dist.toGlobal_toLocal h.mb h1
      refine ⟨⟨⟨Dist.owner mb src dims g, hp⟩, ⟨Dist.toLocal mb dims g, ?_⟩⟩, Fin.ext h2⟩
      show _ < (tabOf (Dist.cyclicLocal N mb (Dist.owner mb src dims g) src dims)).size
      rw [h.size hp, ← Dist.toGlobal_lt_iff h.mb (Dist.dist_lt h.pos), h2]
      exact g.2
  listed := by
    intro p k hk t ht
    obtain ⟨h1, h2⟩ := (h.tab p.2).2.listed k hk t ht
    rw [Dist.mem_owned, Dist.owner_iff h.src p.2] at h1
    rw [Dist.position_eq h.mb h.src] at h2
    have h3 := Dist.toGlobal_toLocal h.mb h1.2
    rw [h2] at h3
    refine ⟨?_, h3⟩
    rw [h.size p.2, ← Dist.toGlobal_lt_iff h.mb (Dist.dist_lt h.pos), h3]
    exact h1.1
  covers := fun p l hl => (h.tab p.2).2.local l hl

end cyclic

section block
variable {len dims : ℕ}

theorem blockTab_eq (hfit : (dims - 1) * len ≤ N) {p : ℕ} (hp : p < dims) :
    blockTabOf (Dist.blockLocal N len p dims) =
      ⟨if p < dims - 1 then len else N - (dims - 1) * len, 1, fun _ => p * len,
        fun _ => if p < dims - 1 then len else N - (dims - 1) * len, fun _ => 0⟩ := by
  rw [Dist.blockLocal_eq hp hfit]
  rfl

theorem block_lt (hfit : (dims - 1) * len ≤ N) {p l : ℕ} (hp : p < dims)
    (hl : l < if p < dims - 1 then len else N - (dims - 1) * len) : p * len + l < N := by
  split_ifs at hl with h
  · have := Nat.mul_le_mul_right len (show p + 1 ≤ dims - 1 by omega)
    have h2 : (p + 1) * len = p * len + len := Nat.succ_mul _ _
    omega
  · have : p = dims - 1 := by omega
    subst this
    omega

/-- The layout of the block constructor (chase_mpi_properties.hpp 560-680). -/
def blockLayout (hd : 0 < dims) (hfit : (dims - 1) * len ≤ N) : Layout N where
  procs := dims
  tab := fun p => blockTabOf (Dist.blockLocal N len p dims)
  glob := fun p l => ⟨p * len + l, block_lt hfit p.2
    (lt_of_lt_of_eq l.2 (congrArg Dist.Local.size (blockTab_eq hfit p.2)))⟩
  bij := by
    have hsz : ∀ p : Fin dims, (blockTabOf (Dist.blockLocal N len p dims)).size =
        if p.val < dims - 1 then len else N - (dims - 1) * len := fun p => by
      rw [blockTab_eq hfit p.2]
    constructor
    · rintro ⟨p, a⟩ ⟨q, b⟩ hab
      have hab : p * len + a.val = q * len + b.val := congrArg Fin.val hab
      have key : ∀ (p q : Fin dims) (a b : ℕ), p < q → a < (if p.val < dims - 1 then len else
          N - (dims - 1) * len) → p * len + a = q * len + b → False := by
        intro p q a b hpq ha hab
        have hpq : p.val < q.val := hpq
        rw [if_pos (by omega)] at ha
        have := Nat.mul_le_mul_right len (show p.val + 1 ≤ q.val from hpq)
        have h2 : (p.val + 1) * len = p * len + len := Nat.succ_mul _ _
        omega
      have ha := lt_of_lt_of_eq a.2 (hsz p)
      have hb := lt_of_lt_of_eq b.2 (hsz q)
      rcases lt_trichotomy p q with hlt | heq | hlt
      · exact (key p q a b hlt ha hab).elim
      · subst heq
        rw [Fin.ext (show a.val = b.val by omega)]
      · exact (key q p b a hlt hb hab.symm).elim
    · intro g
      by_cases hlast : (dims - 1) * len ≤ g.val
      · refine ⟨⟨⟨dims - 1, by omega⟩, ⟨g - (dims - 1) * len, ?_⟩⟩, Fin.ext ?_⟩
        · rw [hsz, if_neg (by simp)]
          have := g.2
          omega
        · show (dims - 1) * len + (g - (dims - 1) * len) = g.val
          omega
      · have hlen : 0 < len := Nat.pos_of_ne_zero (by rintro rfl; simp at hlast)
        have h1 : g.val / len < dims - 1 := (Nat.div_lt_iff_lt_mul hlen).2 (by omega)
        refine ⟨⟨⟨g / len, by omega⟩, ⟨g % len, ?_⟩⟩, Fin.ext ?_⟩
        · rw [hsz, if_pos h1]
          exact Nat.mod_lt _ hlen
        · show g / len * len + g % len = g.val
          rw [mul_comm]
          exact Nat.div_add_mod _ _
  listed := by
    intro p k hk t ht
    have e := blockTab_eq (len := len) hfit p.2
    rw [e] at ht
    have h1 : (blockTabOf (Dist.blockLocal N len p dims)).offsL k = 0 := by rw [e]
    have h2 : (blockTabOf (Dist.blockLocal N len p dims)).offs k = p * len := by rw [e]
    refine ⟨by rw [h1, Nat.zero_add, e]; exact ht, ?_⟩
    show p * len + ((blockTabOf (Dist.blockLocal N len p dims)).offsL k + t) =
      (blockTabOf (Dist.blockLocal N len p dims)).offs k + t
    rw [h1, h2, Nat.zero_add]
  covers := by
    intro p l hl
    rw [blockTab_eq hfit p.2] at hl ⊢
    refine ⟨(0, l), ⟨Nat.one_pos, hl, Nat.zero_add _⟩, ?_⟩
    rintro ⟨k, t⟩ ⟨hk, -, ht⟩
    have hk : k < 1 := hk
    have ht : 0 + t = l := ht
    have h1 : k = 0 := by omega
    have h2 : t = l := by omega
    rw [h1, h2]

end block

/-! ### Redistribution tables -/

/-- Process `p` holds global index `g` at local position `a`. -/
def Layout.Owns (L : Layout N) (g p a : ℕ) : Prop :=
  ∃ (hp : p < L.procs) (ha : a < L.size ⟨p, hp⟩), (L.glob ⟨p, hp⟩ ⟨a, ha⟩).val = g

theorem Layout.Owns.unique {L : Layout N} {g p a : ℕ} (h : L.Owns g p a) (j : Fin L.procs)
    (b : Fin (L.size j)) (hg : (L.glob j b).val = g) : p = j ∧ a = b := by
  obtain ⟨hp, ha, h1⟩ := h
  have h2 : (⟨⟨p, hp⟩, ⟨a, ha⟩⟩ : Σ p, Fin (L.tab p).size) = ⟨j, b⟩ :=
    L.bij.1 (Fin.ext (h1.trans hg.symm))
  rw [Sigma.mk.injEq] at h2
  obtain ⟨h3, h4⟩ := h2
  subst h3
  exact ⟨rfl, congrArg Fin.val (eq_of_heq h4)⟩

/-- Runs whose element moves connect the places of the same index and reach every index. -/
theorem runsOk_of_moves {r c : Layout N} {runs : List Dist.Run}
    (h1 : ∀ mv ∈ runs.flatMap Dist.Run.moves, ∃ g, r.Owns g mv.src mv.srcPos ∧
      c.Owns g mv.dest mv.destPos)
    (h2 : ∀ g < N, ∃ mv ∈ runs.flatMap Dist.Run.moves, c.Owns g mv.dest mv.destPos) :
    RunsOk r c runs where
  valid := by
    intro run hrun t ht
    obtain ⟨g, ⟨hs, ha, hg⟩, ⟨hd, hb, hg'⟩⟩ := h1 ⟨run.src, run.srcDisp + t, run.dest, run.destDisp + t⟩
      (List.mem_flatMap.2 ⟨run, hrun, List.mem_map.2 ⟨t, List.mem_range.2 ht, rfl⟩⟩)
    exact ⟨hs, hd, ha, hb, Fin.ext (hg.trans hg'.symm)⟩
  reach := by
    intro j b
    obtain ⟨mv, hmv, ho⟩ := h2 (c.glob j b) (c.glob j b).2
    obtain ⟨h3, h4⟩ := ho.unique j b rfl
    obtain ⟨run, hrun, hm⟩ := List.mem_flatMap.1 hmv
    obtain ⟨t, ht, rfl⟩ := List.mem_map.1 hm
    rw [List.mem_range] at ht
    have h4 : run.destDisp + t = b := h4
    exact ⟨run, hrun, h3, by omega, by omega⟩

theorem cyclic_owns {mb src dims : ℕ} (h : CyclicOk N mb src dims) {g : ℕ} (hg : g < N) :
    (cyclicLayout h).Owns g (Dist.owner mb src dims g) (Dist.position mb src dims g) := by
  have hp : Dist.owner mb src dims g < dims := Nat.mod_lt _ h.pos
  have h1 := (Dist.owner_iff h.src hp g).1 rfl
  have h2 := Dist.toGlobal_toLocal h.mb h1
  refine ⟨hp, ?_, ?_⟩
  · show _ < (tabOf (Dist.cyclicLocal N mb (Dist.owner mb src dims g) src dims)).size
    rw [h.size hp, ← Dist.toGlobal_lt_iff h.mb (Dist.dist_lt h.pos), Dist.position_eq h.mb h.src, h2]
    exact hg
  · show Dist.toGlobal mb dims _ (Dist.position mb src dims g) = g
    rw [Dist.position_eq h.mb h.src]
    exact h2

/-- Runs that list exactly the moves of all indices. -/
theorem runsOk_of_perm {m1 p1 s1 m2 p2 s2 : ℕ} (h1 : CyclicOk N m1 s1 p1) (h2 : CyclicOk N m2 s2 p2)
    {runs : List Dist.Run}
    (h : ∀ mv, mv ∈ runs.flatMap Dist.Run.moves ↔ mv ∈ Dist.allMoves N m1 p1 s1 m2 p2 s2) :
    RunsOk (cyclicLayout h1) (cyclicLayout h2) runs := by
  refine runsOk_of_moves ?_ ?_
  · intro mv hmv
    obtain ⟨g, hg, rfl⟩ := List.mem_map.1 ((h mv).1 hmv)
    rw [List.mem_range] at hg
    exact ⟨g, cyclic_owns h1 hg, cyclic_owns h2 hg⟩
  · intro g hg
    exact ⟨_, (h _).2 (List.mem_map.2 ⟨g, List.mem_range.2 hg, rfl⟩), cyclic_owns h2 hg⟩

/-- Block-cyclic layouts of rows and columns that start on process 0, or that coincide: the tables
redistribute correctly. -/
theorem cyclic_runs {m1 p1 s1 m2 p2 s2 : ℕ} (hN : 0 < N) (h1 : CyclicOk N m1 s1 p1)
    (h2 : CyclicOk N m2 s2 p2) (hs : (p1 = p2 ∧ s1 = s2 ∧ m1 = m2) ∨ (s1 = 0 ∧ s2 = 0))
    {lens : ℕ → ℕ} (hlens : ∀ p < p1, ∃ b, Dist.numroc N m1 p s1 p1 = .ok (lens p, b)) :
    RunsOk (cyclicLayout h1) (cyclicLayout h2) (commRuns N m1 p1 s1 m2 p2 s2 lens) := by
  refine runsOk_of_perm h1 h2 fun mv => ?_
  unfold commRuns
  by_cases hsame : p1 = p2 ∧ s1 = s2 ∧ m1 = m2
  · rw [if_pos hsame]
    obtain ⟨rfl, rfl, rfl⟩ := hsame
    exact (Dist.C36_same_layout h1.mb h1.src lens hlens).mem_iff
  · rw [if_neg hsame]
    obtain ⟨rfl, rfl⟩ := hs.resolve_left hsame
    rw [Dist.C36_runs_partial hN h1.mb h1.pos h2.mb h2.pos]

section block

theorem block_owns {len dims : ℕ} (hlen : 0 < len) (hd : 0 < dims) (hfit : (dims - 1) * len ≤ N)
    {g : ℕ} (hg : g < N) : (blockLayout hd hfit).Owns g (Dist.blockOwner len dims g)
      (g - Dist.blockOwner len dims g * len) := by
  have hp : Dist.blockOwner len dims g < dims := by unfold Dist.blockOwner; omega
  have hle : Dist.blockOwner len dims g * len ≤ g :=
    (Nat.mul_le_mul_right len (Nat.min_le_left _ _)).trans (Nat.div_mul_le_self g len)
  refine ⟨hp, ?_, ?_⟩
  · show _ < (blockTabOf (Dist.blockLocal N len (Dist.blockOwner len dims g) dims)).size
    rw [blockTab_eq hfit hp]
    show _ < if _ then _ else _
    split_ifs with h
    · have h1 : Dist.blockOwner len dims g = g / len := by
        unfold Dist.blockOwner at h ⊢; omega
      rw [h1]
      have := Nat.div_add_mod g len
      have h3 := Nat.mod_lt g hlen
      rw [mul_comm] at this
      omega
    · have h1 : Dist.blockOwner len dims g = dims - 1 := by omega
      rw [h1] at hle ⊢
      exact Nat.sub_lt_sub_right hle hg
  · exact Nat.add_sub_of_le hle

/-- The block size `mb_` all processes of the block layout report. -/
def blockMb (N len dims : ℕ) : ℕ := if dims = 1 then N else len

/-- Block layouts of rows and columns whose blocks are no larger than needed: the tables redistribute
correctly. -/
theorem block_runs {l1 p1 l2 p2 : ℕ} (hN : 0 < N) (hl1 : 0 < l1) (hp1 : 0 < p1)
    (hf1 : (p1 - 1) * l1 ≤ N) (hl2 : 0 < l2) (hp2 : 0 < p2) (hf2 : (p2 - 1) * l2 ≤ N)
    (hs : (p1 = p2 ∧ blockMb N l1 p1 = blockMb N l2 p2) ∨
      (N ≤ p1 * blockMb N l1 p1 ∧ N ≤ p2 * blockMb N l2 p2))
    {lens : ℕ → ℕ} (hlens : ∀ p < p1, ∃ L, Dist.blockLocal N l1 p p1 = .ok L ∧ lens p = L.size) :
    RunsOk (blockLayout hp1 hf1) (blockLayout hp2 hf2)
      (commRuns N (blockMb N l1 p1) p1 0 (blockMb N l2 p2) p2 0 lens) := by
  -- only the layout of a single process depends on `mb_` and `len` differently
  have own : ∀ {l p : ℕ} (hl : 0 < l) (hp : 0 < p) (hf : (p - 1) * l ≤ N) {g : ℕ}, g < N →
      (blockLayout hp hf).Owns g (Dist.blockOwner (blockMb N l p) p g)
        (g - Dist.blockOwner (blockMb N l p) p g * blockMb N l p) := by
    intro l p hl hp hf g hg
    unfold blockMb
    by_cases h1 : p = 1
    · subst h1
      have := block_owns hl hp hf hg
      simpa [Dist.blockOwner] using this
    · rw [if_neg h1]
      exact block_owns hl hp hf hg
  have hm : ∀ {l p : ℕ}, 0 < l → 0 < blockMb N l p := by
    intro l p hl; unfold blockMb; split_ifs <;> omega
  unfold commRuns
  by_cases hsame : p1 = p2 ∧ 0 = 0 ∧ blockMb N l1 p1 = blockMb N l2 p2
  · rw [if_pos hsame]
    obtain ⟨rfl, -, hmb⟩ := hsame
    have hsz : ∀ {l : ℕ} (hf : (p1 - 1) * l ≤ N) (p : Fin p1),
        (blockLayout hp1 hf).size p = if p.val < p1 - 1 then l else N - (p1 - 1) * l := fun hf p =>
      congrArg Dist.Local.size (blockTab_eq hf p.2)
    have hle : ∀ p < p1, lens p = if p < p1 - 1 then l1 else N - (p1 - 1) * l1 := by
      intro p hp
      obtain ⟨L, hL, he⟩ := hlens p hp
      rw [Dist.blockLocal_eq hp hf1] at hL
      rw [he, ← Except.ok.inj hL]
    have heq : ∀ p < p1, (if p < p1 - 1 then l1 else N - (p1 - 1) * l1) =
        (if p < p1 - 1 then l2 else N - (p1 - 1) * l2) ∧ p * l1 = p * l2 := by
      intro p hp
      unfold blockMb at hmb
      by_cases h1 : p1 = 1
      · subst h1
        have : p = 0 := by omega
        subst this
        simp
      · rw [if_neg h1, if_neg h1] at hmb
        subst hmb
        exact ⟨rfl, rfl⟩
    have hown : ∀ p < p1, ∀ t < lens p, (blockLayout hp1 hf1).Owns (p * l1 + t) p t ∧
        (blockLayout hp1 hf2).Owns (p * l1 + t) p t := by
      intro p hp t ht
      rw [hle p hp] at ht
      refine ⟨⟨hp, ?_, rfl⟩, ⟨hp, ?_, ?_⟩⟩
      · exact lt_of_lt_of_eq ht (hsz hf1 ⟨p, hp⟩).symm
      · exact lt_of_lt_of_eq ht ((heq p hp).1.trans (hsz hf2 ⟨p, hp⟩).symm)
      · show p * l2 + t = _
        rw [(heq p hp).2]
    refine runsOk_of_moves ?_ ?_
    · intro mv hmv
      obtain ⟨run, hrun, hm⟩ := List.mem_flatMap.1 hmv
      obtain ⟨t, ht, rfl⟩ := List.mem_map.1 hm
      obtain ⟨p, hp, rfl⟩ := List.mem_map.1 hrun
      rw [List.mem_range] at ht hp
      refine ⟨p * l1 + t, ?_⟩
      show (blockLayout hp1 hf1).Owns _ p (0 + t) ∧ (blockLayout hp1 hf2).Owns _ p (0 + t)
      rw [Nat.zero_add]
      exact hown p hp t ht
    · intro g hg
      obtain ⟨x, hx⟩ := (blockLayout hp1 hf1).bij.2 ⟨g, hg⟩
      have ht : x.2.val < lens x.1 := by
        rw [hle _ x.1.2, ← hsz hf1 x.1]; exact x.2.2
      have hx : x.1 * l1 + x.2.val = g := congrArg Fin.val hx
      refine ⟨⟨x.1, 0 + x.2, x.1, 0 + x.2⟩, List.mem_flatMap.2 ⟨⟨x.1, x.1, lens x.1, 0, 0⟩,
        List.mem_map.2 ⟨x.1, List.mem_range.2 x.1.2, rfl⟩,
        List.mem_map.2 ⟨x.2, List.mem_range.2 ht, rfl⟩⟩, ?_⟩
      show (blockLayout hp1 hf2).Owns g x.1 (0 + x.2.val)
      rw [Nat.zero_add, ← hx]
      exact (hown x.1 x.1.2 x.2 ht).2
  · rw [if_neg hsame]
    obtain ⟨h1, h2⟩ := hs.resolve_left fun hc => hsame ⟨hc.1, rfl, hc.2⟩
    have key : ∀ mv, mv ∈ (Dist.runTable N (blockMb N l1 p1) p1 0 (blockMb N l2 p2) p2 0).flatMap
        Dist.Run.moves ↔ mv ∈ Dist.allMoves N (blockMb N l1 p1) p1 0 (blockMb N l2 p2) p2 0 := by
      intro mv
      rw [Dist.C36_runs_partial hN (hm hl1) hp1 (hm hl2) hp2]
    have conv : ∀ {l p : ℕ} (hl : 0 < l) (hp : 0 < p) (hf : (p - 1) * l ≤ N) {g : ℕ},
        N ≤ p * blockMb N l p → g < N →
        (blockLayout hp hf).Owns g (Dist.owner (blockMb N l p) 0 p g)
          (Dist.position (blockMb N l p) 0 p g) := by
      intro l p hl hp hf g hle hg
      obtain ⟨h3, h4⟩ := Dist.C31_as_cyclic (hm hl) hp (lt_of_lt_of_le hg hle)
      rw [h4, ← h3]
      exact own hl hp hf hg
    refine runsOk_of_moves ?_ ?_
    · intro mv hmv
      obtain ⟨g, hg, rfl⟩ := List.mem_map.1 ((key mv).1 hmv)
      rw [List.mem_range] at hg
      exact ⟨g, conv hl1 hp1 hf1 h1 hg, conv hl2 hp2 hf2 h2 hg⟩
    · intro g hg
      exact ⟨_, (key _).2 (List.mem_map.2 ⟨g, List.mem_range.2 hg, rfl⟩), conv hl2 hp2 hf2 h2 hg⟩

end block
end Mpi
end Verif
