/-
C22, C23: the density-of-states step (`lanczos` of algorithm.inc): start values, index ranges,
interspersing.
-/
import Verif.Solver.Spec
import Verif.Solver.Toy
import Verif.Base.Exchange
import Mathlib.Algebra.BigOperators.Fin
import Mathlib.Algebra.Order.BigOperators.Group.Finset
import Mathlib.Algebra.Order.Field.Basic
import Mathlib.Algebra.Order.AbsoluteValue.Basic
import Mathlib.Tactic.FieldSimp
import Mathlib.Tactic.Positivity
import Mathlib.Tactic.NormNum

set_option linter.unusedSectionVars false

namespace Verif

variable {R S V : Type*} [Field R] [LinearOrder R]

/-! ### C23 Interspersing -/

theorem intersperse_index {idx nevex i : ℕ} (hidx : idx ≤ nevex) (hi : i < idx) :
    i * (nevex / idx) + nevex / idx ≤ nevex := by
  calc i * (nevex / idx) + nevex / idx = (i + 1) * (nevex / idx) := by ring
    _ ≤ idx * (nevex / idx) := Nat.mul_le_mul_right _ hi
    _ ≤ nevex := Nat.mul_div_le _ _

/-- **C23** Interspersing any number `idx ≤ nev+nex` of vectors stays inside the arrays and applies one
permutation of `[0, nev+nex)` to the columns and to the start values; position 0 stays, and the last
position stays unless every column is a Lanczos vector. -/
theorem C23_intersperse_permutes {R : Type*} (ops : Chase R S) (cols : S → ℕ → V) (idx nevex : ℕ)
    (hidx : idx ≤ nevex) (hswap : SwapsColumns ops cols nevex) (ritzv : ℕ → R) (be : S) :
    ∃ r be', intersperse ops idx nevex ritzv be = .ok (r, be') ∧
      ∃ σ : Equiv.Perm ℕ, PermOn 0 nevex σ ∧ r = ritzv ∘ σ ∧ cols be' = cols be ∘ σ ∧
        σ 0 = 0 ∧ (idx < nevex → σ (nevex - 1) = nevex - 1) := by
  rcases Nat.lt_or_ge idx 1 with h0 | h0
  · refine ⟨ritzv, be, ?_, 1, fun _ _ => rfl, rfl, rfl, rfl, fun _ => rfl⟩
    unfold intersperse
    rw [forRangeM_of_le (by omega)]
  obtain ⟨⟨r, be'⟩, h, hr⟩ := forRangeM_inv (E := Err) h0
    (fun i (st : (ℕ → R) × S) =>
      if i * (nevex / idx) < nevex ∧ i < nevex then
        .ok (swapAt st.1 i (i * (nevex / idx)), ops.swap i (i * (nevex / idx)) st.2)
      else .error .oob)
    (fun _ st => ∃ σ : Equiv.Perm ℕ, PermOn 0 nevex σ ∧ st.1 = ritzv ∘ σ ∧ cols st.2 = cols be ∘ σ ∧
        σ 0 = 0 ∧ (idx < nevex → σ (nevex - 1) = nevex - 1))
    (s := (ritzv, be)) ⟨1, fun _ _ => rfl, rfl, rfl, rfl, fun _ => rfl⟩ (by
      rintro i ⟨r, be⟩ hi1 hi2 ⟨σ, hσ, e1, e2, e3, e4⟩
      have hq : 1 ≤ nevex / idx := (Nat.one_le_div_iff (by omega)).mpr hidx
      have hj := intersperse_index hidx hi2
      have hij : i ≤ i * (nevex / idx) := Nat.le_mul_of_pos_right _ hq
      refine ⟨_, if_pos ⟨by omega, by omega⟩, σ * Equiv.swap i (i * (nevex / idx)), ?_, ?_, ?_, ?_, ?_⟩
      · intro k hk
        show σ (Equiv.swap i (i * (nevex / idx)) k) = k
        rw [Equiv.swap_apply_of_ne_of_ne (by omega) (by omega)]
        exact hσ k hk
      · dsimp only at e1 ⊢
        rw [swapAt_eq_comp, e1]; rfl
      · dsimp only at e2 ⊢
        rw [hswap _ _ _ (by omega) (by omega), swapAt_eq_comp, e2]; rfl
      · show σ (Equiv.swap i (i * (nevex / idx)) 0) = 0
        rw [Equiv.swap_apply_of_ne_of_ne (by omega) (by omega)]
        exact e3
      · intro hlt
        show σ (Equiv.swap i (i * (nevex / idx)) (nevex - 1)) = nevex - 1
        by_cases hs : i * (nevex / idx) = i
        · rw [hs, Equiv.swap_self]; exact e4 hlt
        · have hq2 : 2 ≤ nevex / idx := by
            by_contra hcon
            have : nevex / idx = 1 := by omega
            rw [this, Nat.mul_one] at hs
            exact hs rfl
          rw [Equiv.swap_apply_of_ne_of_ne (by omega) (by omega)]
          exact e4 hlt)
  exact ⟨r, be', h, hr⟩

/-- Non-vacuity: three vectors spread over ten columns. -/
example : ∃ r be', intersperse (Toy.ops (fun _ _ => 0) id true) 3 10 (fun i => (i : ℚ)) Toy.start
    = .ok (r, be') ∧ (List.range 10).map r = [0, 3, 6, 1, 4, 5, 2, 7, 8, 9] ∧
      (List.range 10).map be'.cols = [0, 3, 6, 1, 4, 5, 2, 7, 8, 9] := ⟨_, _, rfl, by decide +kernel,
        by decide +kernel⟩

/-! ### C22 Start values -/

/-- Specification: smoothed step function at distance `y` behind a Ritz value (an error function near
the step). -/
def smoothStep (gauss : R → R) (y : R) : R :=
  if y < -(1 / 80) then 0 else if 1 / 80 < y then 1 else gauss y

/-- Specification: cumulative density of states at `x`, the mean over the runs of the weights of the Ritz
values below `x`. -/
def cumDensity (gauss : R → R) (theta tau : ℕ → R) (total numvec : ℕ) (x : R) : R :=
  (∑ j ∈ Finset.range total, tau j * smoothStep gauss (x - theta j)) / numvec

theorem dosCurr_eq [IsStrictOrderedRing R] (P : Plat R) (theta tau : ℕ → R) (total numvec : ℕ) (x : R) :
    dosCurr P theta tau total numvec x = cumDensity P.gauss theta tau total numvec x := by
  unfold dosCurr cumDensity
  dsimp only
  congr 1
  induction total with
  | zero => simp [forRange_self]
  | succ n ih =>
    rw [forRange_succ (Nat.zero_le n), Finset.sum_range_succ, ← ih]
    have ht : (2 * (1 / 4) * (1 / 4) / 10 : R) = 1 / 80 := by norm_num
    rw [ht]
    unfold smoothStep
    have c1 : x < theta n - 1 / 80 ↔ x - theta n < -(1 / 80) := by
      constructor <;> intro h <;> linarith
    have c2 : x > theta n + 1 / 80 ↔ 1 / 80 < x - theta n := by
      constructor <;> intro h <;> linarith
    by_cases h1 : x - theta n < -(1 / 80)
    · rw [if_pos (c1.mpr h1), if_pos h1, mul_zero]
    · rw [if_neg (fun h => h1 (c1.mp h)), if_neg h1]
      by_cases h2 : 1 / 80 < x - theta n
      · rw [if_pos (c2.mpr h2), if_pos h2]
      · rw [if_neg (fun h => h2 (c2.mp h)), if_neg h2]

/-- Specification: `v` is the lower bound for the density `d` sampled at the ascending points `sorted`:
with `i` the first sample above `search`, `v` is the sample point of the nearer of the values `d i` and
`d (i-1)` (which exists). -/
def IsDosBound (d sorted : ℕ → R) (total : ℕ) (search v : R) : Prop :=
  ∃ i, i < total ∧ d i > search ∧ (∀ k, k < i → d k ≤ search) ∧
    ((i = 0 ∧ |d 0 - search| < |0 - search| ∧ v = sorted 0) ∨
     (0 < i ∧ |d i - search| < |d (i - 1) - search| ∧ v = sorted i) ∨
     (0 < i ∧ ¬ |d i - search| < |d (i - 1) - search| ∧ v = sorted (i - 1)))

theorem dosSearch_spec [IsStrictOrderedRing R] (P : Plat R) (theta tau sorted : ℕ → R) (total numvec : ℕ)
    (search v : R) :
    dosSearch P theta tau sorted total numvec search total 0 0 = .ok v ↔
      IsDosBound (fun i => cumDensity P.gauss theta tau total numvec (sorted i)) sorted total search v := by
  set d := fun i => cumDensity P.gauss theta tau total numvec (sorted i) with hd
  have hcur : ∀ i, dosCurr P theta tau total numvec (sorted i) = d i := fun i => dosCurr_eq P _ _ _ _ _
  have key : ∀ n i prev, (∀ k, k < i → d k ≤ search) → prev = (if i = 0 then 0 else d (i - 1)) →
      (dosSearch P theta tau sorted total numvec search n i prev = .ok v ↔
        ∃ k, i ≤ k ∧ k < i + n ∧ d k > search ∧ (∀ l, l < k → d l ≤ search) ∧
        ((k = 0 ∧ |d 0 - search| < |0 - search| ∧ v = sorted 0) ∨
         (0 < k ∧ |d k - search| < |d (k - 1) - search| ∧ v = sorted k) ∨
         (0 < k ∧ ¬ |d k - search| < |d (k - 1) - search| ∧ v = sorted (k - 1)))) := by
    intro n
    induction n with
    | zero =>
      intro i prev _ _
      simp only [dosSearch, reduceCtorEq, false_iff]
      rintro ⟨k, h1, h2, -⟩
      omega
    | succ n ih =>
      intro i prev hlt hprev
      rw [dosSearch, hcur]
      simp only [stdAbs_eq]
      by_cases hc : d i > search
      · rw [if_pos hc]
        have huniq : ∀ k, i ≤ k → (∀ l, l < k → d l ≤ search) → k = i := by
          intro k h1 h2
          by_contra hne
          exact absurd (h2 i (by omega)) (not_le.mpr hc)
        by_cases h0 : i = 0
        · subst h0
          rw [if_pos rfl] at hprev
          subst hprev
          constructor
          · intro h
            by_cases hh : |d 0 - search| < |0 - search|
            · rw [if_pos hh] at h
              exact ⟨0, le_rfl, by omega, hc, by omega, Or.inl ⟨rfl, hh, by cases h; rfl⟩⟩
            · rw [if_neg hh, if_pos rfl] at h
              cases h
          · rintro ⟨k, h1, -, -, h4, h5⟩
            have := huniq k h1 h4
            subst this
            rcases h5 with ⟨-, h6, h7⟩ | ⟨h6, -⟩ | ⟨h6, -⟩
            · rw [if_pos h6, h7]
            · omega
            · omega
        · rw [if_neg h0] at hprev
          subst hprev
          constructor
          · intro h
            refine ⟨i, le_rfl, by omega, hc, hlt, Or.inr ?_⟩
            by_cases hh : |d i - search| < |d (i - 1) - search|
            · rw [if_pos hh] at h
              exact Or.inl ⟨by omega, hh, by cases h; rfl⟩
            · rw [if_neg hh, if_neg h0] at h
              exact Or.inr ⟨by omega, hh, by cases h; rfl⟩
          · rintro ⟨k, h1, -, -, h4, h5⟩
            have := huniq k h1 h4
            subst this
            rcases h5 with ⟨h6, -⟩ | ⟨-, h6, h7⟩ | ⟨-, h6, h7⟩
            · omega
            · rw [if_pos h6, h7]
            · rw [if_neg h6, if_neg h0, h7]
      · rw [if_neg hc]
        have hlt' : ∀ k, k < i + 1 → d k ≤ search := by
          intro k hk
          rcases Nat.lt_or_ge k i with h | h
          · exact hlt k h
          · rw [show k = i by omega]; exact not_lt.mp hc
        rw [ih (i + 1) (d i) hlt' (by simp)]
        constructor
        · rintro ⟨k, h1, h2, h3⟩
          exact ⟨k, by omega, by omega, h3⟩
        · rintro ⟨k, h1, h2, h3, h4⟩
          refine ⟨k, ?_, by omega, h3, h4⟩
          by_contra hcon
          exact hc (by rwa [show k = i by omega] at h3)
  rw [key total 0 0 (by omega) (by simp)]
  constructor
  · rintro ⟨k, -, h2, h3, h4, h5⟩
    exact ⟨k, by omega, h3, h4, h5⟩
  · rintro ⟨k, h2, h3, h4, h5⟩
    exact ⟨k, by omega, by omega, h3, h4, h5⟩

/-- Number of extracted vectors, for arbitrary arithmetic. -/
theorem dosIdx_lt {R : Type*} [LT R] [DecidableLT R] (theta : ℕ → R) (base m : ℕ) (lowerb : R) (idx : ℕ)
    (h : dosIdx theta base m lowerb = idx) : idx = 0 ∨ idx + 1 < m := by
  unfold dosIdx at h
  cases hf : (List.range m).find? (fun i => decide (theta (base + i) > lowerb)) with
  | none =>
    rw [hf] at h
    have h' : (0 : ℤ) = idx := h
    omega
  | some i =>
    rw [hf] at h
    have := List.mem_range.mp (List.mem_of_find?_eq_some hf)
    dsimp only at h
    omega

/-- Number of extracted vectors, when it is not negative. -/
theorem dosIdx_spec (theta : ℕ → R) (base m : ℕ) (lowerb : R) :
    (dosIdx theta base m lowerb = -1 ↔ 0 < m ∧ theta base > lowerb) ∧
    (∀ idx : ℕ, dosIdx theta base m lowerb = idx → (idx = 0 ∨ idx + 1 < m) ∧
      ∀ k, k < idx → theta (base + k) ≤ lowerb) ∧
    (-1 ≤ dosIdx theta base m lowerb) := by
  unfold dosIdx
  cases h : (List.range m).find? (fun i => decide (theta (base + i) > lowerb)) with
  | none =>
    rw [List.find?_eq_none] at h
    refine ⟨⟨fun h0 => by simp at h0, fun h0 => ?_⟩, ?_, by decide⟩
    · have := h 0 (List.mem_range.mpr h0.1)
      simp only [Nat.add_zero, decide_eq_true_eq] at this
      exact absurd h0.2 this
    · intro idx hi
      have hi' : (0 : ℤ) = idx := hi
      have : idx = 0 := by omega
      exact ⟨Or.inl this, by omega⟩
  | some i =>
    obtain ⟨h1, h2⟩ := List.find?_eq_some_iff_append.mp h
    obtain ⟨as, bs, h3, h4⟩ := h2
    have him : i < m := List.mem_range.mp (h3 ▸ List.mem_append_right as List.mem_cons_self)
    have hbefore : ∀ k, k < i → theta (base + k) ≤ lowerb := by
      intro k hk
      have hlen : as.length = i := by
        have e1 := congrArg (fun l : List ℕ => l[as.length]?) h3
        simp only [List.getElem?_append_right le_rfl, Nat.sub_self, List.getElem?_cons_zero] at e1
        obtain ⟨hl, e2⟩ := List.getElem?_eq_some_iff.mp e1
        rwa [List.getElem_range] at e2
      have hkas : k ∈ as := by
        have e1 := congrArg (fun l : List ℕ => l[k]?) h3
        simp only [List.getElem?_append_left (show k < as.length by omega)] at e1
        rw [List.getElem?_range (by omega)] at e1
        exact List.mem_of_getElem? e1.symm
      have := h4 k hkas
      simpa using this
    have hi0 : theta (base + i) > lowerb := by simpa using h1
    dsimp only
    refine ⟨⟨fun h0 => ?_, fun h0 => ?_⟩, ?_, by omega⟩
    · have : i = 0 := by omega
      subst this
      exact ⟨by omega, hi0⟩
    · have : i = 0 := by
        by_contra hne
        exact absurd (hbefore 0 (by omega)) (not_le.mpr h0.2)
      subst this
      rfl
    · intro idx hidx
      have : i = idx + 1 := by omega
      subst this
      exact ⟨Or.inr him, fun k hk => hbefore k (by omega)⟩

/-- The values written by the step. -/
theorem dosValues_spec (theta : ℕ → R) (base idx nevex : ℕ) (lambda lowerb : R) (ritzv : ℕ → R)
    (hn : 1 ≤ nevex) (k : ℕ) :
    dosValues theta base idx nevex lambda lowerb ritzv k =
      if k = nevex - 1 then lowerb else if k < idx then theta (base + k)
      else if k < nevex then lambda else ritzv k := by
  unfold dosValues
  by_cases hk : k = nevex - 1
  · subst hk; rw [Function.update_self, if_pos rfl]
  rw [Function.update_of_ne hk, if_neg hk]
  have h1 : ∀ k, forRange 0 idx (fun i r => Function.update r i (theta (base + i))) ritzv k =
      if k < idx then theta (base + k) else ritzv k := by
    refine forRange_inv (Nat.zero_le idx) _ (fun m (r : ℕ → R) => ∀ k, r k = if k < m then
      theta (base + k) else ritzv k) (fun k => by simp) ?_
    intro i r _ _ ih k
    by_cases h : k = i
    · subst h; rw [Function.update_self, if_pos (by omega)]
    · rw [Function.update_of_ne h, ih]
      by_cases h2 : k < i
      · rw [if_pos h2, if_pos (by omega)]
      · rw [if_neg h2, if_neg (by omega)]
  generalize forRange 0 idx (fun i r => Function.update r i (theta (base + i))) ritzv = r0 at h1
  rcases Nat.lt_or_ge idx (nevex - 1) with hle | hle
  · have h2 : ∀ k, forRange idx (nevex - 1) (fun i r => Function.update r i lambda) r0 k =
        if idx ≤ k ∧ k < nevex - 1 then lambda else r0 k := by
      refine forRange_inv hle.le _ (fun m (r : ℕ → R) => ∀ k, r k = if idx ≤ k ∧ k < m then
        lambda else r0 k) (fun k => by rw [if_neg (by omega)]) ?_
      intro i r _ _ ih k
      by_cases h : k = i
      · subst h; rw [Function.update_self, if_pos (by omega)]
      · rw [Function.update_of_ne h, ih]
        by_cases h2 : idx ≤ k ∧ k < i
        · rw [if_pos h2, if_pos (by omega)]
        · rw [if_neg h2, if_neg (by omega)]
    rw [h2, h1]
    by_cases a : k < idx
    · rw [if_neg (by omega), if_pos a, if_pos a]
    · rw [if_neg a, if_neg a]
      by_cases b : k < nevex
      · rw [if_pos (by omega), if_pos b]
      · rw [if_neg (by omega), if_neg b]
  · rw [forRange_of_le hle, h1]
    by_cases a : k < idx
    · rw [if_pos a, if_pos a]
    · rw [if_neg a, if_neg a, if_neg (by omega)]

/-- **C22** (partial: "when it is defined") If the density-of-states step succeeds, it has written the
start values of all `nev+nex` columns and nothing else: the last one is the lower bound found by the
specification, every other one is a Lanczos Ritz value. At most `m - 2` vectors are extracted.
`C22_defined_iff` says exactly when the step succeeds. -/
theorem C22_start_values_partial [IsStrictOrderedRing R] (P : Plat R) (hP : SortsIndices P)
    (ops : Chase R S) (cols : S → ℕ → V) (N numvec m nevex : ℕ) (ritzv : ℕ → R) (be : S)
    (hm : m ≤ nevex) (hswap : SwapsColumns ops cols nevex) (l : LanczosRes R S)
    (h : lanczos P ops N numvec m nevex true ritzv be = .ok l) :
    let o := (ops.lanczosN m numvec be).1
    let sorted := fun i => o.theta (P.sortIdx (numvec * m) o.theta i)
    l.upperb = o.upperb ∧ (l.idx = 0 ∨ l.idx + 1 < m) ∧
    IsDosBound (fun i => cumDensity P.gauss o.theta o.tau (numvec * m) numvec (sorted i)) sorted
      (numvec * m) (nevex / N) (l.ritzv (nevex - 1)) ∧
    (∃ j, j < numvec * m ∧ l.ritzv (nevex - 1) = o.theta j) ∧
    (∀ i, i < nevex - 1 → ∃ j, j < numvec * m ∧ l.ritzv i = o.theta j) ∧
    (∀ i, nevex ≤ i → l.ritzv i = ritzv i) := by
  intro o sorted
  unfold lanczos at h
  by_cases h0 : m = 0
  · rw [if_pos h0] at h; cases h
  rw [if_neg h0, if_neg (by simp)] at h
  dsimp only at h
  by_cases h1 : numvec * m = 0
  · rw [if_pos h1] at h; cases h
  rw [if_neg h1] at h
  split at h
  · cases h
  rename_i lowerb hb
  rw [dosSearch_spec] at hb
  split at h
  · cases h
  rename_i idx hidx
  have hidx' : dosIdx o.theta ((numvec - 1) * m) m lowerb = (idx : ℤ) := hidx
  by_cases h2 : nevex = 0 ∨ nevex < idx
  · rw [if_pos h2] at h; cases h
  rw [if_neg h2] at h
  obtain ⟨hi1, hi2⟩ := (dosIdx_spec o.theta ((numvec - 1) * m) m lowerb).2.1 idx hidx'
  have hn : 1 ≤ nevex := by omega
  have hlt : idx < nevex := by omega
  have hnv : 1 ≤ numvec := by
    rcases Nat.eq_zero_or_pos numvec with hz | hz
    · rw [hz, Nat.zero_mul] at h1; exact absurd rfl h1
    · exact hz
  have hbase : (numvec - 1) * m + m = numvec * m := by
    conv_rhs => rw [show numvec = (numvec - 1) + 1 by omega, Nat.add_mul, Nat.one_mul]
  obtain ⟨hs1, -, -⟩ := hP (numvec * m) o.theta
  have htot : 0 < numvec * m := Nat.pos_of_ne_zero h1
  obtain ⟨r, be', hint, σ, hσ, e1, -, e3, e4⟩ := C23_intersperse_permutes ops cols idx nevex hlt.le hswap
    (dosValues o.theta ((numvec - 1) * m) idx nevex (sorted 0) lowerb ritzv)
    (if idx > 0 then ops.lanczosDos idx m o.ritzV (ops.lanczosN m numvec be).2
      else (ops.lanczosN m numvec be).2)
  rw [show intersperse ops idx nevex _ _ = .ok (r, be') from hint] at h
  cases h
  have hlast : r (nevex - 1) = lowerb := by
    rw [e1, Function.comp, e4 hlt, dosValues_spec _ _ _ _ _ _ _ hn, if_pos rfl]
  have hbound : ∃ j, j < numvec * m ∧ lowerb = o.theta j := by
    obtain ⟨i, hi, -, -, hcase⟩ := hb
    rcases hcase with ⟨-, -, e⟩ | ⟨-, -, e⟩ | ⟨-, -, e⟩
    · exact ⟨_, hs1 0 htot, e⟩
    · exact ⟨_, hs1 i hi, e⟩
    · exact ⟨_, hs1 (i - 1) (by omega), e⟩
  refine ⟨rfl, hi1, ?_, ?_, ?_, ?_⟩
  · show IsDosBound _ _ _ _ (r (nevex - 1))
    rw [hlast]
    exact hb
  · show ∃ j, j < numvec * m ∧ r (nevex - 1) = _
    rw [hlast]
    exact hbound
  · intro i hi
    show ∃ j, j < numvec * m ∧ r i = _
    have hne : σ i ≠ nevex - 1 := by
      intro he
      have : i = nevex - 1 := σ.injective (he.trans (e4 hlt).symm)
      omega
    have hin : σ i < nevex := by
      by_contra hcon
      have := σ.injective (hσ (σ i) (by omega))
      omega
    rw [e1, Function.comp, dosValues_spec _ _ _ _ _ _ _ hn, if_neg hne]
    by_cases a : σ i < idx
    · rw [if_pos a]
      exact ⟨(numvec - 1) * m + σ i, by omega, rfl⟩
    · rw [if_neg a, if_pos hin]
      exact ⟨_, hs1 0 htot, rfl⟩
  · intro i hi
    show r i = _
    rw [e1, Function.comp, hσ i (by omega), dosValues_spec _ _ _ _ _ _ _ hn, if_neg (by omega),
      if_neg (by omega), if_neg (by omega)]

/-- **C22** (exact domain of definition) For `1 ≤ m ≤ nev+nex` and at least one run, the
density-of-states step stays inside its arrays and reads only initialised data if and only if the
density crosses `(nev+nex)/N` somewhere, not too steeply at the first sample, and the smallest Ritz value
of the last run does not exceed the lower bound. -/
theorem C22_defined_iff [IsStrictOrderedRing R] (P : Plat R) (ops : Chase R S) (cols : S → ℕ → V)
    (N numvec m nevex : ℕ) (ritzv : ℕ → R) (be : S) (hm1 : 1 ≤ m) (hm : m ≤ nevex) (hv : 1 ≤ numvec)
    (hswap : SwapsColumns ops cols nevex) :
    let o := (ops.lanczosN m numvec be).1
    let sorted := fun i => o.theta (P.sortIdx (numvec * m) o.theta i)
    (∃ l, lanczos P ops N numvec m nevex true ritzv be = .ok l) ↔
      ∃ lowerb, IsDosBound (fun i => cumDensity P.gauss o.theta o.tau (numvec * m) numvec (sorted i))
        sorted (numvec * m) (nevex / N) lowerb ∧ o.theta ((numvec - 1) * m) ≤ lowerb := by
  intro o sorted
  have htot : numvec * m ≠ 0 := Nat.mul_ne_zero (by omega) (by omega)
  constructor
  · rintro ⟨l, h⟩
    unfold lanczos at h
    rw [if_neg (by omega), if_neg (by simp)] at h
    dsimp only at h
    rw [if_neg htot] at h
    split at h
    · cases h
    rename_i lowerb hb
    rw [dosSearch_spec] at hb
    split at h
    · cases h
    rename_i idx hidx
    refine ⟨lowerb, hb, ?_⟩
    by_contra hcon
    have := (dosIdx_spec o.theta ((numvec - 1) * m) m lowerb).1.mpr ⟨by omega, not_le.mp hcon⟩
    have hidx' : dosIdx o.theta ((numvec - 1) * m) m lowerb = (idx : ℤ) := hidx
    omega
  · rintro ⟨lowerb, hb, hle⟩
    obtain ⟨g1, g2, g3⟩ := dosIdx_spec o.theta ((numvec - 1) * m) m lowerb
    have hne : dosIdx o.theta ((numvec - 1) * m) m lowerb ≠ -1 := fun h =>
      absurd (g1.mp h).2 (not_lt.mpr hle)
    obtain ⟨idx, hidx⟩ : ∃ idx : ℕ, dosIdx o.theta ((numvec - 1) * m) m lowerb = idx :=
      ⟨(dosIdx o.theta ((numvec - 1) * m) m lowerb).toNat, by omega⟩
    obtain ⟨hi1, -⟩ := g2 idx hidx
    obtain ⟨r, be', hint, -⟩ := C23_intersperse_permutes ops cols idx nevex (by omega) hswap
      (dosValues o.theta ((numvec - 1) * m) idx nevex (sorted 0) lowerb ritzv)
      (if idx > 0 then ops.lanczosDos idx m o.ritzV (ops.lanczosN m numvec be).2
        else (ops.lanczosN m numvec be).2)
    refine ⟨⟨o.upperb, r, idx, be'⟩, ?_⟩
    unfold lanczos
    rw [if_neg (by omega), if_neg (by simp)]
    dsimp only
    rw [if_neg htot]
    have hb' := (dosSearch_spec P o.theta o.tau sorted (numvec * m) numvec (nevex / N) lowerb).mpr hb
    rw [show dosSearch P _ _ _ _ _ _ _ 0 0 = .ok lowerb from hb']
    dsimp only
    rw [show dosIdx _ _ _ lowerb = Int.ofNat idx from hidx]
    dsimp only
    rw [if_neg (by omega), show intersperse ops idx nevex _ _ = .ok (r, be') from hint]

/-- **C22 is false** when the search space is the whole space (`nev+nex ≥ N`): for all Ritz values and all
non-negative weights with sum one per run, the density never exceeds `(nev+nex)/N`, and the lower bound
is used uninitialised. -/
theorem C22_full_space_refuted [IsStrictOrderedRing R] (P : Plat R) (ops : Chase R S)
    (N numvec m nevex : ℕ) (ritzv : ℕ → R) (be : S) (hm1 : 1 ≤ m) (hv : 1 ≤ numvec) (hN : 1 ≤ N)
    (hfull : N ≤ nevex) (hgauss : ∀ x, P.gauss x ≤ 1)
    (hpos : ∀ j, 0 ≤ (ops.lanczosN m numvec be).1.tau j)
    (hsum : ∑ j ∈ Finset.range (numvec * m), (ops.lanczosN m numvec be).1.tau j = numvec) :
    lanczos P ops N numvec m nevex true ritzv be = .error .uninit := by
  have htot : numvec * m ≠ 0 := Nat.mul_ne_zero (by omega) (by omega)
  have hnv : (0 : R) < numvec := by exact_mod_cast hv
  have hNv : (0 : R) < N := by exact_mod_cast hN
  have hle : ∀ x, dosCurr P (ops.lanczosN m numvec be).1.theta (ops.lanczosN m numvec be).1.tau
      (numvec * m) numvec x ≤ nevex / N := by
    intro x
    rw [dosCurr_eq, cumDensity]
    have h1 : (1 : R) ≤ nevex / N := by
      rw [le_div_iff₀ hNv, one_mul]
      exact_mod_cast hfull
    refine le_trans ?_ h1
    rw [div_le_one hnv, ← hsum]
    apply Finset.sum_le_sum
    intro j _
    have : smoothStep P.gauss (x - (ops.lanczosN m numvec be).1.theta j) ≤ 1 := by
      unfold smoothStep
      split_ifs
      · exact zero_le_one
      · exact le_rfl
      · exact hgauss _
    calc _ ≤ (ops.lanczosN m numvec be).1.tau j * 1 := mul_le_mul_of_nonneg_left this (hpos j)
      _ = _ := mul_one _
  have hs : ∀ sorted n i prev, dosSearch P (ops.lanczosN m numvec be).1.theta
      (ops.lanczosN m numvec be).1.tau sorted (numvec * m) numvec (nevex / N) n i prev
        = .error .uninit := by
    intro sorted n
    induction n with
    | zero => intros; rfl
    | succ n ih =>
      intro i prev
      rw [dosSearch, if_neg (not_lt.mpr (hle _))]
      exact ih _ _
  unfold lanczos
  rw [if_neg (by omega), if_neg (by simp)]
  dsimp only
  rw [if_neg htot, hs]

/-- **C22 is false** when the density at the smallest Ritz value is at least twice the searched one (small
search spaces): the code reads in front of the array of sorted Ritz values. -/
theorem C22_early_crossing_refuted [IsStrictOrderedRing R] (P : Plat R) (ops : Chase R S)
    (N numvec m nevex : ℕ) (ritzv : ℕ → R) (be : S) (hm1 : 1 ≤ m) (hv : 1 ≤ numvec)
    (hpos : 1 ≤ nevex) (hN : 1 ≤ N)
    (hcross : 2 * (nevex / N : R) ≤ cumDensity P.gauss (ops.lanczosN m numvec be).1.theta
      (ops.lanczosN m numvec be).1.tau (numvec * m) numvec ((ops.lanczosN m numvec be).1.theta
        (P.sortIdx (numvec * m) (ops.lanczosN m numvec be).1.theta 0))) :
    lanczos P ops N numvec m nevex true ritzv be = .error .oob := by
  have htot : numvec * m ≠ 0 := Nat.mul_ne_zero (by omega) (by omega)
  obtain ⟨n, hn⟩ : ∃ n, numvec * m = n + 1 := ⟨numvec * m - 1, by omega⟩
  have hs : (0 : R) < nevex / N := div_pos (by exact_mod_cast hpos) (by exact_mod_cast hN)
  unfold lanczos
  rw [if_neg (by omega), if_neg (by simp)]
  dsimp only
  rw [if_neg htot]
  have : dosSearch P (ops.lanczosN m numvec be).1.theta (ops.lanczosN m numvec be).1.tau
      (fun i => (ops.lanczosN m numvec be).1.theta
        (P.sortIdx (numvec * m) (ops.lanczosN m numvec be).1.theta i)) (numvec * m) numvec (nevex / N)
      (numvec * m) 0 0 = .error .oob := by
    have e : ∀ f : ℕ → R, dosSearch P (ops.lanczosN m numvec be).1.theta
        (ops.lanczosN m numvec be).1.tau f (numvec * m) numvec (nevex / N) (n + 1) 0 0 =
        (let curr := dosCurr P (ops.lanczosN m numvec be).1.theta (ops.lanczosN m numvec be).1.tau
          (numvec * m) numvec (f 0)
        if curr > nevex / N then
          if stdAbs (curr - nevex / N) < stdAbs ((0 : R) - nevex / N) then .ok (f 0)
          else if 0 = 0 then .error .oob else .ok (f (0 - 1))
        else dosSearch P (ops.lanczosN m numvec be).1.theta (ops.lanczosN m numvec be).1.tau f
          (numvec * m) numvec (nevex / N) n (0 + 1) curr) := fun f => rfl
    conv_lhs => rw [show (dosSearch P (ops.lanczosN m numvec be).1.theta
      (ops.lanczosN m numvec be).1.tau (fun i => (ops.lanczosN m numvec be).1.theta
        (P.sortIdx (numvec * m) (ops.lanczosN m numvec be).1.theta i)) (numvec * m) numvec (nevex / N)
      (numvec * m) 0 0) = dosSearch P (ops.lanczosN m numvec be).1.theta
      (ops.lanczosN m numvec be).1.tau (fun i => (ops.lanczosN m numvec be).1.theta
        (P.sortIdx (numvec * m) (ops.lanczosN m numvec be).1.theta i)) (numvec * m) numvec (nevex / N)
      (n + 1) 0 0 from congrArg (fun x => dosSearch P (ops.lanczosN m numvec be).1.theta
      (ops.lanczosN m numvec be).1.tau (fun i => (ops.lanczosN m numvec be).1.theta
        (P.sortIdx (numvec * m) (ops.lanczosN m numvec be).1.theta i)) (numvec * m) numvec (nevex / N)
      x 0 0) hn]
    rw [e]
    dsimp only
    rw [dosCurr_eq, if_pos (by linarith), if_neg, if_pos rfl]
    rw [not_lt, stdAbs_eq, stdAbs_eq, zero_sub, abs_neg, abs_of_pos hs, abs_of_pos (by linarith)]
    linarith
  rw [this]

/-- **C22 is false** when the smallest Ritz value of the last run exceeds the lower bound: the number of
extracted vectors becomes `-1` and the code writes in front of the user's array of Ritz values. -/
theorem C22_negative_index_refuted [IsStrictOrderedRing R] (P : Plat R) (ops : Chase R S)
    (N numvec m nevex : ℕ) (ritzv : ℕ → R) (be : S) (hm1 : 1 ≤ m) (hv : 1 ≤ numvec) (lowerb : R)
    (hb : IsDosBound (fun i => cumDensity P.gauss (ops.lanczosN m numvec be).1.theta
        (ops.lanczosN m numvec be).1.tau (numvec * m) numvec ((ops.lanczosN m numvec be).1.theta
          (P.sortIdx (numvec * m) (ops.lanczosN m numvec be).1.theta i)))
      (fun i => (ops.lanczosN m numvec be).1.theta
          (P.sortIdx (numvec * m) (ops.lanczosN m numvec be).1.theta i)) (numvec * m) (nevex / N) lowerb)
    (hlow : lowerb < (ops.lanczosN m numvec be).1.theta ((numvec - 1) * m)) :
    lanczos P ops N numvec m nevex true ritzv be = .error .oob := by
  have htot : numvec * m ≠ 0 := Nat.mul_ne_zero (by omega) (by omega)
  have hb' := (dosSearch_spec P _ _ _ _ _ _ _).mpr hb
  have hi := (dosIdx_spec (ops.lanczosN m numvec be).1.theta ((numvec - 1) * m) m lowerb).1.mpr
    ⟨by omega, hlow⟩
  unfold lanczos
  rw [if_neg (by omega), if_neg (by simp)]
  dsimp only
  rw [if_neg htot, hb']
  dsimp only
  rw [show dosIdx _ _ _ lowerb = Int.negSucc 0 from hi]

/-! Non-vacuity: scripted Lanczos results. -/

/-- The toy backend with scripted Lanczos results. -/
def exLanczos (theta tau : List ℚ) : Chase ℚ Toy.TS :=
  { Toy.ops (fun _ _ => 0) id true with
    lanczosN := fun _ _ s => (⟨10, fun i => theta[i]?.getD 0, fun i => tau[i]?.getD 0, fun _ => 0⟩, s) }

/-- Observation of a result. -/
def exDosObs (n : ℕ) (r : Except Err (LanczosRes ℚ Toy.TS)) : Except Err (List ℚ × ℕ) :=
  r.map (fun l => ((List.range n).map l.ritzv, l.idx))

/-- A successful step that extracts two vectors. -/
example : exDosObs 6 (lanczos Toy.plat (exLanczos [0, 1, 2, 3, 4] [1/5, 1/5, 1/5, 1/5, 1/5]) 10 1 5 6 true
    (fun _ => 100) Toy.start) = .ok ([0, 0, 0, 1, 0, 2], 2) := by decide +kernel

/-- The four cases of undefined behaviour occur. -/
example : lanczos Toy.plat (exLanczos [0, 1, 2, 3] [1/4, 1/4, 1/4, 1/4]) 4 1 4 4 true
    (fun _ => 100) Toy.start = .error .uninit :=
  C22_full_space_refuted _ _ _ _ _ _ _ _ (by decide) (by decide) (by decide) (by decide)
    (fun _ => by show (1 / 2 : ℚ) ≤ 1; norm_num)
    (by
      intro j
      show (0 : ℚ) ≤ [1/4, 1/4, 1/4, 1/4][j]?.getD 0
      rcases j with _ | _ | _ | _ | j <;> simp)
    (by decide +kernel)

example : lanczos Toy.plat (exLanczos [0, 1, 2, 3] [1/4, 1/4, 1/4, 1/4]) 100 1 4 4 true
    (fun _ => 100) Toy.start = .error .oob :=
  C22_early_crossing_refuted _ _ _ _ _ _ _ _ (by decide) (by decide) (by decide) (by decide)
    (by decide +kernel)

example : lanczos Toy.plat (exLanczos [0, 1, 5, 6] [1/2, 1/2, 1/2, 1/2]) 20 2 2 4 true
    (fun _ => 100) Toy.start = .error .oob :=
  C22_negative_index_refuted _ _ _ _ _ _ _ _ (by decide) (by decide) 0
    ⟨1, by decide, by decide +kernel, by decide +kernel, Or.inr (Or.inr ⟨by decide, by decide +kernel,
      by decide +kernel⟩)⟩ (by decide +kernel)

end Verif
