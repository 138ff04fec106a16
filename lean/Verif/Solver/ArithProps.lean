/-
The solver with arbitrary arithmetic.  The model and most theorems assume no law about the numbers, so
they hold for floating point numbers; this file shows instances and what happens to a residual that is
not a number (C68).
-/
import Verif.Solver.Props
import Verif.Solver.Toy

set_option linter.unusedSectionVars false

namespace Verif

/-! ### Vocabulary -/

/-- `x` is not a number as far as comparisons are concerned: every comparison with it is false. -/
def NotANumber {R : Type*} [LT R] (x : R) : Prop := ∀ y, ¬ x < y ∧ ¬ y < x

/-- In an ordered type there is no such element unless it is the only one. -/
theorem not_notANumber {R : Type*} [LinearOrder R] {x y : R} (hxy : x ≠ y) : ¬ NotANumber x :=
  fun h => (lt_or_gt_of_ne hxy).elim (h y).1 (h y).2

section
variable {R S : Type*}

/-- When all residuals of the window are not numbers, the walk of `locking` takes every pair. -/
theorem lockLoop_nan [LT R] [DecidableLT R] {ops : Chase R S} {tol : R} {index : ℕ → ℕ} {locked u : ℕ}
    (hidx : ∀ k, k < u → index k < u) (n k : ℕ) (st : LockSt R S) (hk : k + n = u)
    (hc : st.converged = k) (hnan : ∀ i, i < u → NotANumber (st.resid (locked + i))) :
    (lockLoop ops tol index locked n k st).converged = u ∧
    (∀ i, i < u → NotANumber ((lockLoop ops tol index locked n k st).resid (locked + i))) ∧
    (∀ i, i < locked ∨ locked + u ≤ i → (lockLoop ops tol index locked n k st).resid i = st.resid i) := by
  induction n generalizing k st with
  | zero => exact ⟨by show st.converged = u; omega, hnan, fun _ _ => rfl⟩
  | succ n ih =>
    unfold lockLoop
    dsimp only
    rw [if_neg (fun h => (hnan _ (hidx k (by omega)) _).2 h.1)]
    have hik := hidx k (by omega)
    have e : (st.exchange ops locked (index k)).converged = st.converged := by
      unfold LockSt.exchange; split_ifs <;> rfl
    have er : (st.exchange ops locked (index k)).resid =
        if index k ≠ st.converged then swapAt st.resid (locked + index k) (locked + st.converged)
        else st.resid := by
      unfold LockSt.exchange; split_ifs <;> rfl
    obtain ⟨h1, h2, h3⟩ := ih (k + 1)
      { st.exchange ops locked (index k) with
        converged := (st.exchange ops locked (index k)).converged + 1 } (by omega)
      (by show (st.exchange ops locked (index k)).converged + 1 = k + 1; rw [e, hc])
      (by
        intro i hi
        show NotANumber ((st.exchange ops locked (index k)).resid (locked + i))
        rw [er]
        split_ifs
        · rw [swapAt_apply]
          split_ifs
          exacts [hnan _ (by omega), hnan _ (by omega), hnan _ hi]
        · exact hnan i hi)
    refine ⟨h1, h2, fun i hi => (h3 i hi).trans ?_⟩
    show (st.exchange ops locked (index k)).resid i = st.resid i
    rw [er]
    split_ifs
    · rw [swapAt_apply, if_neg (by omega), if_neg (by omega)]
    · rfl

variable [Add R] [Sub R] [Mul R] [Div R] [Neg R] [Zero R] [One R] [NatCast R] [LT R] [DecidableLT R]

/-- **C68 is refuted**, for every backend, configuration and arithmetic: if the residuals a backend
reports are not numbers, a solve that makes a round stops after that round and counts all `nev` wanted
pairs as converged, although the residuals it leaves in the caller's array are not numbers
(algorithm.inc 87-104: such a residual is not greater than the tolerance). -/
theorem C68_refuted (P : Plat R) (hP : PermutesIndices P) (ops : Chase R S) (cfg : Config R)
    (hnan : ∀ vals fixed s i, NotANumber ((ops.resd vals fixed s).1 i))
    (ritzv0 resid0 : ℕ → R) (be : S) (out : Outcome R S) (hmax : 0 < cfg.maxIter)
    (hsym : cfg.symCheck = true → (ops.checkSymmetryEasy be).1 = true)
    (h : solve P ops cfg ritzv0 resid0 be = .ok out) :
    out.locked = cfg.nev ∧ out.iterations = 1 ∧
      ∀ i, i < cfg.nev + cfg.nex → NotANumber (out.resid i) := by
  obtain ⟨be0, st0, st, -, h0, hst, hnr, hnev, rfl⟩ := solve_ok h hsym
  have key := reach_inv (ops := ops) (fun st : St R S =>
    (st.locked = 0 ∧ st.unconverged = cfg.nev + cfg.nex ∧ st.iteration = 0) ∨
    (st.locked = cfg.nev ∧ st.unconverged = cfg.nex ∧ st.iteration = 1 ∧
      ∀ i, i < cfg.nev + cfg.nex → NotANumber (st.resid i))) ?_ ?_ (steps_reach (.init h0) hst)
  · rcases key with ⟨k1, k2, k3⟩ | ⟨k1, k2, k3, k4⟩
    · exfalso
      refine hnr ⟨?_, ?_⟩ <;> omega
    · exact ⟨k1, k3, k4⟩
  · intro st hi
    obtain ⟨be1, l, -, -, -, rfl⟩ := initState_ok hi
    exact Or.inl ⟨rfl, rfl, rfl⟩
  · rintro st st' - hi ⟨hr, hit⟩
    rcases hi with ⟨k1, k2, k3⟩ | ⟨k1, k2, k3, k4⟩
    · right
      have hit' := iter_iteration _ _ _ _ _ hit
      obtain ⟨st1, av, be2, g1, g2, rfl⟩ := iter_ok hit
      have e : st1.locked = st.locked ∧ st1.unconverged = st.unconverged := by
        rcases optimise_ok g1 with ⟨rfl, -⟩ | ⟨deg, p, hc, rfl⟩ <;> exact ⟨rfl, rfl⟩
      obtain ⟨e1, e2⟩ := e
      generalize hst3 : project P ops cfg { st1 with be := be2 } = st3 at hit' ⊢
      have l3 : st3.locked = 0 := by rw [← hst3]; exact e1.trans k1
      have u3 : st3.unconverged = cfg.nev + cfg.nex := by rw [← hst3]; exact e2.trans k2
      have hn3 : ∀ i, i < cfg.nev + cfg.nex → NotANumber (st3.resid i) := by
        intro i hi
        rw [← hst3]
        show NotANumber (writeAt st1.resid st1.locked (cfg.nev + cfg.nex - st1.locked) _ i)
        rw [writeAt, if_pos (by omega)]
        exact hnan _ _ _ _
      obtain ⟨c1, c2, c3⟩ := lockLoop_nan (ops := ops) (tol := cfg.tol) (locked := 0)
        (index := P.sortIdx cfg.nev (fun i => st3.ritzv (0 + i))) (u := cfg.nev)
        (fun k hk => (hP _ _).1 k hk) cfg.nev 0
        ⟨st3.ritzv, st3.resid, st3.residLast, st3.be, 0⟩ (by omega) rfl (fun i hi => by rw [Nat.zero_add]; exact hn3 i (by omega))
      have hl : locking P ops (st3.unconverged - cfg.nex) cfg.tol st3.locked st3.ritzv st3.resid
          st3.residLast st3.be = lockLoop ops cfg.tol (P.sortIdx cfg.nev (fun i => st3.ritzv (0 + i)))
          0 cfg.nev 0 ⟨st3.ritzv, st3.resid, st3.residLast, st3.be, 0⟩ := by
        rw [l3, u3, Nat.add_sub_cancel]; rfl
      refine ⟨?_, ?_, by omega, ?_⟩
      · show st3.locked + (locking P ops _ _ _ _ _ _ _).converged = _
        rw [hl, c1, l3, Nat.zero_add]
      · show st3.unconverged - (locking P ops _ _ _ _ _ _ _).converged = _
        rw [hl, c1, u3]; omega
      · intro i hi
        show NotANumber ((locking P ops _ _ _ _ _ _ _).resid i)
        rw [hl]
        by_cases hc : i < cfg.nev
        · have := c2 i hc
          rwa [Nat.zero_add] at this
        · rw [c3 i (Or.inr (by omega))]
          exact hn3 i hi
    · exfalso
      have := hr.1
      omega

end

/-! ### Numbers with a value that is not a number -/

/-- Rational numbers and one value `nan`: an example of an arithmetic without the laws of a field or an
order. -/
structure QNan where
  val : Option ℚ
deriving DecidableEq

namespace QNan

/-- an operation applied to numbers, `nan` otherwise -/
def lift (f : ℚ → ℚ → Option ℚ) (a b : QNan) : QNan := ⟨a.val.bind fun x => b.val.bind fun y => f x y⟩

instance : Add QNan := ⟨lift fun x y => some (x + y)⟩
instance : Sub QNan := ⟨lift fun x y => some (x - y)⟩
instance : Mul QNan := ⟨lift fun x y => some (x * y)⟩
instance : Div QNan := ⟨lift fun x y => if y = 0 then none else some (x / y)⟩
instance : Neg QNan := ⟨fun a => ⟨a.val.map fun x => -x⟩⟩
instance : Zero QNan := ⟨⟨some 0⟩⟩
instance : One QNan := ⟨⟨some 1⟩⟩
instance : NatCast QNan := ⟨fun n => ⟨some n⟩⟩
/-- every comparison with `nan` is false -/
instance : LT QNan := ⟨fun a b => (match a.val, b.val with
  | some x, some y => decide (x < y)
  | _, _ => false) = true⟩
instance : DecidableLT QNan := fun a b => inferInstanceAs (Decidable (_ = true))

/-- the value that is not a number -/
def nan : QNan := ⟨none⟩

theorem nan_spec : NotANumber nan := fun y => ⟨nofun, by
  rintro h
  have h' : (match y.val, nan.val with
    | some x, some y => decide (x < y)
    | _, _ => false) = true := h
  cases hy : y.val <;> rw [hy] at h' <;> exact absurd h' (by simp [nan])⟩

/-- the laws of a field fail -/
theorem nan_sub : nan - nan ≠ (0 : QNan) := by decide

/-- insertion of an index into a list, by key -/
def ins (key : ℕ → QNan) (x : ℕ) : List ℕ → List ℕ
  | [] => [x]
  | y :: ys => if key x < key y then x :: y :: ys else y :: ins key x ys

/-- Library functions for the examples; the sort is insertion sort with the comparison of `QNan`. -/
def plat : Plat QNan where
  maxVal := ⟨some 1000000⟩
  degNeeded := fun _ _ _ _ _ => some 10
  condEst := fun _ _ _ _ _ _ => 1
  sortIdx := fun u key k => ((List.range u).foldl (fun l x => ins key x l) [])[k]?.getD 0
  gauss := fun _ => 1 / 2

theorem ins_perm (key : ℕ → QNan) (x : ℕ) (l : List ℕ) : (ins key x l).Perm (x :: l) := by
  induction l with
  | nil => exact .refl _
  | cons y ys ih =>
    unfold ins
    split_ifs
    · exact .refl _
    · exact (ih.cons y).trans (.swap x y ys)

theorem foldl_perm (key : ℕ → QNan) (l acc : List ℕ) :
    (l.foldl (fun l x => ins key x l) acc).Perm (l ++ acc) := by
  induction l generalizing acc with
  | nil => exact .refl _
  | cons x xs ih =>
    exact (ih _).trans (((ins_perm key x acc).append_left xs).trans List.perm_middle)

theorem plat_permutes : PermutesIndices plat := by
  intro u key
  have hp := foldl_perm key (List.range u) []
  rw [List.append_nil] at hp
  generalize hl : (List.range u).foldl (fun l x => ins key x l) [] = l at hp
  have hlen : l.length = u := by rw [hp.length_eq, List.length_range]
  have hget : ∀ k (hk : k < u), plat.sortIdx u key k = l[k]'(by omega) := by
    intro k hk
    show ((List.range u).foldl (fun l x => ins key x l) [])[k]?.getD 0 = _
    rw [hl, List.getElem?_eq_getElem (by omega)]
    rfl
  refine ⟨fun k hk => ?_, fun k j hk hj he => ?_⟩
  · rw [hget k hk]
    exact List.mem_range.mp (hp.mem_iff.mp (List.getElem_mem _))
  · rw [hget k hk, hget j hj] at he
    exact (hp.nodup_iff.mpr List.nodup_range).getElem_inj_iff.mp he

/-- A backend with one column label per position whose residuals come out as `nan`. -/
def ops : Chase QNan Unit where
  checkSymmetryEasy := fun s => (true, s)
  start := id
  finish := id
  initVecs := fun _ s => s
  qr := fun _ _ s => s
  lanczos1 := fun _ s => (10, s)
  lanczosN := fun m _ s =>
    ({ upperb := 10, theta := fun i => ((i % m : ℕ) : QNan), tau := fun _ => 1 / 4, ritzV := fun _ => 0 }, s)
  lanczosDos := fun _ _ _ s => s
  shift := fun _ _ s => s
  hemm := fun _ _ _ _ s => s
  rr := fun _ s => (fun i => (i : QNan), s)
  resd := fun _ _ s => (fun _ => nan, s)
  lock := fun _ s => s
  swap := fun _ _ s => s

/-- the configuration of the example: three wanted pairs out of five -/
def cfg : Config QNan := { Config.mk' .d 100 3 2 with approx := true }

/-- Non-vacuity of `C68_refuted`: the hypotheses hold for this backend, and the solve returns. -/
example : PermutesIndices plat ∧ (∀ vals fixed s i, NotANumber ((ops.resd vals fixed s).1 i)) ∧
    0 < cfg.maxIter ∧ (cfg.symCheck = true → (ops.checkSymmetryEasy ()).1 = true) ∧
    ∃ out, solve plat ops cfg (fun _ => 0) (fun _ => 0) () = .ok out :=
  ⟨plat_permutes, fun _ _ _ _ => nan_spec, by decide, fun _ => rfl,
    by
      obtain ⟨out, h, -⟩ := Toy.okAnd_elim (p := fun _ : Outcome QNan Unit => true)
        (x := solve plat ops cfg (fun _ => 0) (fun _ => 0) ())
        (by rw [Toy.solve_eq_solveE]; decide +kernel)
      exact ⟨out, h⟩⟩

/-- The same run with a backend that reports numbers below the tolerance from the second pair on: the
pair with the residual `nan` is counted together with the others, one behind it that has not converged
stops the walk. -/
example : (locking plat ops 3 (1 / 10) 0 (fun i => (i : QNan))
    (fun i => if i = 0 then nan else if i = 1 then 1 / 100 else 1) (fun _ => 2) ()).converged = 2 := by
  decide +kernel

end QNan

/-! ### Floating point numbers

The model with the `Float` of Lean (binary64, operations of the machine).  The statements are instances,
nothing about `Float` is assumed. -/

section
local instance : Zero Float := ⟨0.0⟩
local instance : One Float := ⟨1.0⟩
local instance : NatCast Float := ⟨Float.ofNat⟩
variable {S V : Type*} (P : Plat Float) (ops : Chase Float S) (cfg : Config Float)
  (ritzv0 resid0 : ℕ → Float) (be : S)

/-- **C01** and **C02** for binary64 numbers. -/
example (st : St Float S) (h : Reach P ops cfg ritzv0 resid0 be st) :
    st.locked + st.unconverged = cfg.nev + cfg.nex ∧ st.locked ≤ cfg.nev :=
  C02_accounting P ops cfg ritzv0 resid0 be st h

/-- **C68** for binary64 numbers. -/
example (hP : PermutesIndices P)
    (hnan : ∀ vals fixed s i, NotANumber ((ops.resd vals fixed s).1 i)) (out : Outcome Float S)
    (hmax : 0 < cfg.maxIter) (hsym : cfg.symCheck = true → (ops.checkSymmetryEasy be).1 = true)
    (h : solve P ops cfg ritzv0 resid0 be = .ok out) : out.locked = cfg.nev :=
  (C68_refuted P hP ops cfg hnan ritzv0 resid0 be out hmax hsym h).1

end

end Verif
