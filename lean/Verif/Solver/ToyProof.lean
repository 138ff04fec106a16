/-
The toy backend keeps the contracts used in the theorems (non-vacuity).
-/
import Verif.Solver.Toy
import Verif.Solver.Count
import Mathlib.Data.List.Sort
import Mathlib.Data.List.Range
import Mathlib.Data.List.Nodup
import Mathlib.Tactic.Linarith

set_option linter.unusedSectionVars false

namespace Verif.Toy

open Verif

theorem ins_perm (key : ℕ → ℚ) (x : ℕ) : ∀ l, (ins key x l).Perm (x :: l)
  | [] => List.Perm.refl _
  | y :: ys => by
    unfold ins
    split_ifs
    · exact List.Perm.refl _
    · exact ((ins_perm key x ys).cons y).trans (List.Perm.swap _ _ _)

theorem ins_sorted (key : ℕ → ℚ) (x : ℕ) :
    ∀ l : List ℕ, l.Pairwise (fun a b => key a ≤ key b) →
      (ins key x l).Pairwise (fun a b => key a ≤ key b)
  | [], _ => by simp [ins]
  | y :: ys, h => by
    unfold ins
    rw [List.pairwise_cons] at h
    split_ifs with hc
    · refine List.pairwise_cons.mpr ⟨?_, List.pairwise_cons.mpr h⟩
      intro z hz
      rcases List.mem_cons.mp hz with rfl | hz
      · exact hc.le
      · exact hc.le.trans (h.1 z hz)
    · refine List.pairwise_cons.mpr ⟨?_, ins_sorted key x ys h.2⟩
      intro z hz
      rcases List.mem_cons.mp ((ins_perm key x ys).mem_iff.mp hz) with rfl | hz
      · exact not_lt.mp hc
      · exact h.1 z hz

theorem ins_last (key : ℕ → ℚ) (x : ℕ) :
    ∀ l : List ℕ, (∀ y ∈ l, key y ≤ key x) → ins key x l = l ++ [x]
  | [], _ => rfl
  | y :: ys, h => by
    unfold ins
    rw [if_neg (not_lt.mpr (h y (List.mem_cons_self ..))),
      ins_last key x ys (fun z hz => h z (List.mem_cons_of_mem _ hz))]
    rfl

theorem sortList_succ (u : ℕ) (key : ℕ → ℚ) :
    sortList (u + 1) key = ins key u (sortList u key) := by
  simp [sortList, List.range_succ]

theorem sortList_perm (u : ℕ) (key : ℕ → ℚ) : (sortList u key).Perm (List.range u) := by
  induction u with
  | zero => exact List.Perm.refl _
  | succ u ih =>
    rw [sortList_succ, List.range_succ]
    exact (ins_perm key u _).trans ((ih.cons u).trans (List.perm_append_singleton u _).symm)

theorem sortList_sorted (u : ℕ) (key : ℕ → ℚ) :
    (sortList u key).Pairwise (fun a b => key a ≤ key b) := by
  induction u with
  | zero => simp [sortList]
  | succ u ih => rw [sortList_succ]; exact ins_sorted key u _ ih

theorem sortList_id (u : ℕ) (key : ℕ → ℚ) (h : SortedOn 0 u key) :
    sortList u key = List.range u := by
  induction u with
  | zero => rfl
  | succ u ih =>
    rw [sortList_succ, ih (fun a b h1 h2 h3 => h a b h1 h2 (by omega)), List.range_succ]
    refine ins_last key u _ ?_
    intro y hy
    exact h y u (Nat.zero_le _) (by rw [List.mem_range] at hy; omega) (by omega)

theorem sortList_getD {u : ℕ} {key : ℕ → ℚ} {k : ℕ} (hk : k < u) :
    ∃ h : k < (sortList u key).length,
      (sortList u key)[k]?.getD 0 = (sortList u key)[k] := by
  have hl : (sortList u key).length = u := by
    rw [(sortList_perm u key).length_eq, List.length_range]
  refine ⟨by omega, ?_⟩
  rw [List.getElem?_eq_getElem (by omega)]
  rfl

theorem plat_sorts : SortsIndices plat := by
  intro u key
  refine ⟨?_, ?_, ?_⟩
  · intro k hk
    obtain ⟨h, e⟩ := sortList_getD (key := key) hk
    show (sortList u key)[k]?.getD 0 < u
    rw [e]
    exact List.mem_range.mp ((sortList_perm u key).mem_iff.mp (List.getElem_mem h))
  · intro k l hk hl he
    obtain ⟨h, e⟩ := sortList_getD (key := key) hk
    obtain ⟨h', e'⟩ := sortList_getD (key := key) hl
    have he : (sortList u key)[k]?.getD 0 = (sortList u key)[l]?.getD 0 := he
    rw [e, e'] at he
    exact (((sortList_perm u key).nodup_iff.mpr List.nodup_range).getElem_inj_iff).mp he
  · intro k l hkl hl
    obtain ⟨h, e⟩ := sortList_getD (key := key) (show k < u by omega)
    obtain ⟨h', e'⟩ := sortList_getD (key := key) hl
    show key ((sortList u key)[k]?.getD 0) ≤ key ((sortList u key)[l]?.getD 0)
    rw [e, e']
    rcases Nat.eq_or_lt_of_le hkl with rfl | hlt
    · exact le_rfl
    · exact List.pairwise_iff_getElem.mp (sortList_sorted u key) k l h h' hlt

theorem plat_keeps : SortKeepsSorted plat := by
  intro u key h k hk
  show (sortList u key)[k]?.getD 0 = k
  rw [sortList_id u key h]
  simp [hk]

/-- No conditions on the state are needed for the toy backend. -/
def phases : Phases TS := ⟨fun _ => True, fun _ => True, fun _ => True, fun _ => True⟩

/-- The toy backend keeps the bookkeeping contract. -/
theorem ops_bookkeeping (vals : ℕ → ℕ → ℚ) (resOf : ℚ → ℚ) (sym : Bool) (N n : ℕ) :
    Bookkeeping (ops vals resOf sym) TS.cols TS.nl phases N n where
  swap := ops_swaps vals resOf sym n
  swap_nl := fun _ _ _ => rfl
  swap_inv := fun _ _ _ _ _ _ _ _ => trivial
  swap_synced := fun _ _ _ _ _ _ _ _ => trivial
  filter := by
    intro deg av degrees lambda lower upper s s' _ _ _ _ h
    have := filter_pres (ops := ops vals resOf sym) (fun t : TS => t = s) (fun _ _ _ h => h)
      (fun _ _ _ _ _ h => h) h rfl
    rw [this]; exact ⟨rfl, trivial, fun _ _ => rfl⟩
  qr := fun _ _ _ _ => ⟨rfl, trivial, trivial, fun _ _ => rfl⟩
  rr := by
    intro s _ _
    refine ⟨rfl, trivial, fun i hi => ?_⟩
    show writeAt s.cols s.nl _ _ i = _
    rw [writeAt, if_neg (by omega)]
  resd := fun _ _ _ _ => ⟨rfl, trivial, rfl⟩
  lock := fun _ _ _ _ => ⟨rfl, trivial, rfl⟩
  start := fun _ _ => ⟨rfl, trivial⟩
  check := fun _ _ => trivial
  initVecs := fun _ _ _ h => ⟨h, trivial⟩
  lanczos1 := fun _ _ _ h => ⟨h, trivial⟩
  lanczosN := fun _ _ _ _ h => ⟨h, trivial⟩
  lanczosDos := fun _ _ _ _ _ h => ⟨h, trivial⟩
  finish := fun _ => rfl

/-- A test on a successful outcome. -/
def okAnd {α : Type*} (p : α → Bool) : Except Err α → Bool
  | .ok a => p a
  | .error _ => false

theorem okAnd_elim {α : Type*} {p : α → Bool} {x : Except Err α} (h : okAnd p x = true) :
    ∃ a, x = .ok a ∧ p a = true := by
  cases x with
  | error => cases h
  | ok a => exact ⟨a, rfl, h⟩

/-- `solveLoop` by structural recursion, for evaluation. -/
def loopFuel {R S : Type*} [Add R] [Sub R] [Mul R] [Div R] [Neg R] [Zero R] [One R] [NatCast R] [LT R] [DecidableLT R] (P : Plat R) (ops : Chase R S)
    (cfg : Config R) : ℕ → St R S → Except Err (St R S)
  | 0, st => .ok st
  | n + 1, st =>
    if running cfg st then
      match iter P ops cfg st with
      | .error e => .error e
      | .ok st' => loopFuel P ops cfg n st'
    else .ok st

theorem loopFuel_eq {R S : Type*} [Add R] [Sub R] [Mul R] [Div R] [Neg R] [Zero R] [One R] [NatCast R] [LT R] [DecidableLT R] (P : Plat R) (ops : Chase R S)
    (cfg : Config R) : ∀ n (st : St R S), cfg.maxIter - st.iteration = n →
      solveLoop P ops cfg st = loopFuel P ops cfg n st
  | 0, st, h => by
    rw [solveLoop, dif_neg (fun hr => by have := hr.2; omega)]; rfl
  | n + 1, st, h => by
    rw [solveLoop, loopFuel]
    by_cases hr : running cfg st
    · rw [dif_pos hr, if_pos hr]
      split
      · rename_i e he; rw [he]
      · rename_i st' he
        rw [he]
        have := iter_iteration _ _ _ _ _ he
        exact loopFuel_eq P ops cfg n st' (by omega)
    · rw [dif_neg hr, if_neg hr]

/-- `solve` with `loopFuel`, for evaluation. -/
def solveE {R S : Type*} [Add R] [Sub R] [Mul R] [Div R] [Neg R] [Zero R] [One R] [NatCast R] [LT R] [DecidableLT R] (P : Plat R) (ops : Chase R S)
    (cfg : Config R) (ritzv0 resid0 : ℕ → R) (be : S) : Except Err (Outcome R S) :=
  let (ok, be) := if cfg.symCheck then ops.checkSymmetryEasy be else (true, be)
  if ok = false then
    .ok { ritzv := ritzv0, resid := resid0, iterations := 0, locked := 0, be }
  else
    match initState P ops cfg ritzv0 resid0 be with
    | .error e => .error e
    | .ok st =>
      match loopFuel P ops cfg (cfg.maxIter - st.iteration) st with
      | .error e => .error e
      | .ok st =>
        if cfg.nev = 0 then .error .wrap else
        let (ritzv, be) := finalSort ops cfg.nev st.ritzv st.be
        .ok { ritzv, resid := st.resid, iterations := st.iteration, locked := st.locked,
              be := ops.finish be }

theorem solve_eq_solveE {R S : Type*} [Add R] [Sub R] [Mul R] [Div R] [Neg R] [Zero R] [One R] [NatCast R] [LT R] [DecidableLT R] (P : Plat R) (ops : Chase R S)
    (cfg : Config R) (ritzv0 resid0 : ℕ → R) (be : S) :
    solve P ops cfg ritzv0 resid0 be = solveE P ops cfg ritzv0 resid0 be := by
  unfold solve solveE
  simp only [loopFuel_eq P ops cfg _ _ rfl]
  rfl

/-- Script: first round finds 5, 6, 7, the second one 3, 4. -/
def vals1 (b i : ℕ) : ℚ := if b = 3 then 5 + i else 3 + i

/-- Residuals: 5 and 3 have converged, with different residuals. -/
def res1 (x : ℚ) : ℚ := if x = 5 then 1 / 100 else if x = 3 then 1 / 20 else 1

/-- Two wanted pairs, one extra column, tolerance 1/10. -/
def cfg1 : Config ℚ where
  N := 10
  nev := 2
  nex := 1
  approx := false
  maxIter := 5
  tol := 1 / 10
  deg := 4
  optimization := false
  maxDeg := 8
  degExtra := 2
  lanczosIter := 4
  numLanczos := 2
  cholqr := false
  symCheck := true

end Verif.Toy
