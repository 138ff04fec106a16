/-
C63: the interval the filter damps and the point it is scaled at, in every round of a solve
(algorithm.inc 421-422, 424-462).  The filter divides by `(upper - lower) / 2` and by
`lambda - (upper + lower) / 2` (algorithm.inc 124-132), and C10, C14 say what it does to the
eigenvectors for `lambda ≤ lower < upper`.
-/
import Verif.Solver.Props
import Verif.Solver.DosProps

namespace Verif

open Verif

variable {R S : Type*}

section
variable [LinearOrder R]

/-! ### Specification -/

/-- `x` is the largest of the `n` values `f 0, …, f (n-1)`. -/
def IsLargest (f : ℕ → R) (n : ℕ) (x : R) : Prop := (∃ i, i < n ∧ f i = x) ∧ ∀ i, i < n → f i ≤ x

/-- `x` is the smallest of the `n` values `f 0, …, f (n-1)`. -/
def IsSmallest (f : ℕ → R) (n : ℕ) (x : R) : Prop := (∃ i, i < n ∧ f i = x) ∧ ∀ i, i < n → x ≤ f i

/-! ### `max_element` and `min_element` -/

theorem maxElem_spec (f : ℕ → R) (lo n : ℕ) (hn : 0 < n) :
    IsLargest (fun i => f (lo + i)) n (maxElem f lo n) := by
  obtain ⟨k, rfl⟩ : ∃ k, n = k + 1 := ⟨n - 1, by omega⟩
  clear hn
  unfold maxElem
  induction k with
  | zero =>
    rw [forRange_self]
    exact ⟨⟨0, by omega, rfl⟩, fun i hi => by rw [show i = 0 by omega]; exact le_rfl⟩
  | succ k ih =>
    rw [show lo + (k + 1 + 1) = lo + (k + 1) + 1 by omega,
      forRange_succ (show lo + 1 ≤ lo + (k + 1) by omega)]
    obtain ⟨⟨j, hj, ej⟩, hub⟩ := ih
    split_ifs with h
    · refine ⟨⟨k + 1, by omega, rfl⟩, fun i hi => ?_⟩
      rcases Nat.lt_succ_iff_lt_or_eq.mp hi with hi | rfl
      · exact (hub i hi).trans h.le
      · exact le_rfl
    · refine ⟨⟨j, by omega, ej⟩, fun i hi => ?_⟩
      rcases Nat.lt_succ_iff_lt_or_eq.mp hi with hi | rfl
      · exact hub i hi
      · exact not_lt.mp h

theorem minElem_spec (f : ℕ → R) (lo n : ℕ) (hn : 0 < n) :
    IsSmallest (fun i => f (lo + i)) n (minElem f lo n) := by
  obtain ⟨k, rfl⟩ : ∃ k, n = k + 1 := ⟨n - 1, by omega⟩
  clear hn
  unfold minElem
  induction k with
  | zero =>
    rw [forRange_self]
    exact ⟨⟨0, by omega, rfl⟩, fun i hi => by rw [show i = 0 by omega]; exact le_rfl⟩
  | succ k ih =>
    rw [show lo + (k + 1 + 1) = lo + (k + 1) + 1 by omega,
      forRange_succ (show lo + 1 ≤ lo + (k + 1) by omega)]
    obtain ⟨⟨j, hj, ej⟩, hub⟩ := ih
    split_ifs with h
    · refine ⟨⟨k + 1, by omega, rfl⟩, fun i hi => ?_⟩
      rcases Nat.lt_succ_iff_lt_or_eq.mp hi with hi | rfl
      · exact h.le.trans (hub i hi)
      · exact le_rfl
    · refine ⟨⟨j, by omega, ej⟩, fun i hi => ?_⟩
      rcases Nat.lt_succ_iff_lt_or_eq.mp hi with hi | rfl
      · exact hub i hi
      · exact not_lt.mp h

end

section
variable [Add R] [Sub R] [Mul R] [Div R] [Neg R] [Zero R] [One R] [NatCast R] [LT R] [DecidableLT R]

/-! ### The parameters of the filter in a round -/

/-- The three numbers the filter gets. -/
structure Interval (R : Type*) where
  /-- scaling point -/
  lambda : R
  /-- lower end of the damped interval -/
  lower : R
  /-- upper end of the damped interval -/
  upper : R

/-- In the round that starts in state `st` the filter is called with the interval `I`. -/
def FilterRuns (P : Plat R) (ops : Chase R S) (cfg : Config R) (st : St R S) (I : Interval R) : Prop :=
 running cfg st ∧
  ∃ st1, optimise P ops cfg (updateBounds (cfg.nev + cfg.nex) st) = .ok st1 ∧
    I = ⟨st1.lambda, st1.lowerb, st1.upperb⟩

theorem filterRuns_eq {P : Plat R} {ops : Chase R S} {cfg : Config R} {st : St R S} {I : Interval R}
    (h : FilterRuns P ops cfg st I) :
    I.lambda = (updateBounds (cfg.nev + cfg.nex) st).lambda ∧
    I.lower = (updateBounds (cfg.nev + cfg.nex) st).lowerb ∧ I.upper = st.upperb := by
  obtain ⟨-, st1, h1, rfl⟩ := h
  rcases optimise_ok h1 with ⟨rfl, -⟩ | ⟨deg, p, -, rfl⟩ <;> exact ⟨rfl, rfl, rfl⟩

/-- Every round that ends calls the filter, with one interval. -/
theorem filterRuns_of_iter {P : Plat R} {ops : Chase R S} {cfg : Config R} {st st' : St R S}
    (hr : running cfg st) (h : iter P ops cfg st = .ok st') :
    ∃ (I : Interval R) (st1 : St R S) (av : ℕ) (be : S), FilterRuns P ops cfg st I ∧
      filter ops cfg.N st1.unconverged st1.deg st1.degrees (cfg.nev + cfg.nex) st1.locked
        I.lambda I.lower I.upper st1.be = .ok (av, be) := by
  obtain ⟨st1, av, be, h1, h2, -⟩ := iter_ok h
  exact ⟨_, st1, av, be, ⟨hr, st1, h1, rfl⟩, h2⟩

/-- The spectral bound of a solve: what the Lanczos step reported. -/
def boundOf (ops : Chase R S) (cfg : Config R) (be : S) : R :=
  let m := min (cfg.nev + cfg.nex) (min (cfg.N / 2) cfg.lanczosIter)
  let be0 := ops.initVecs (!cfg.approx) (ops.start be)
  if cfg.approx then (ops.lanczos1 m be0).1
  else (ops.lanczosN m cfg.numLanczos (ops.qr 0 1 be0)).1.upperb

theorem lanczos_upperb {P : Plat R} {ops : Chase R S} {N numvec m nevex : ℕ} {random : Bool}
    {ritzv : ℕ → R} {be : S} {l : LanczosRes R S}
    (h : lanczos P ops N numvec m nevex random ritzv be = .ok l) :
    l.upperb = if random = false then (ops.lanczos1 m be).1 else (ops.lanczosN m numvec be).1.upperb := by
  unfold lanczos at h
  split_ifs at h with h1 h2
  · cases h; rw [if_pos h2]
  rw [if_neg h2]
  dsimp only at h
  split_ifs at h
  split at h
  · cases h
  split at h
  · cases h
  split_ifs at h <;>
  · split at h
    · cases h
    · cases h; rfl

theorem init_upperb {P : Plat R} {ops : Chase R S} {cfg : Config R} {ritzv0 resid0 : ℕ → R}
    {be : S} {st : St R S} (h : initState P ops cfg ritzv0 resid0 be = .ok st) :
    st.upperb = boundOf ops cfg be := by
  obtain ⟨be1, l, rfl, hl, -, rfl⟩ := initState_ok h
  show l.upperb = _
  rw [lanczos_upperb hl]
  unfold boundOf
  cases cfg.approx <;> simp

theorem step_upperb {P : Plat R} {ops : Chase R S} {cfg : Config R} {st st' : St R S}
    (h : iter P ops cfg st = .ok st') : st'.upperb = st.upperb := by
  obtain ⟨st1, av, be, h1, -, rfl⟩ := iter_ok h
  show st1.upperb = _
  rcases optimise_ok h1 with ⟨rfl, -⟩ | ⟨deg, p, -, rfl⟩ <;> rfl

theorem reach_upperb {P : Plat R} {ops : Chase R S} {cfg : Config R} {ritzv0 resid0 : ℕ → R} {be : S}
    {st : St R S} (h : Reach P ops cfg ritzv0 resid0 be st) : st.upperb = boundOf ops cfg be :=
  reach_inv (fun st => st.upperb = boundOf ops cfg be) (fun _ h => init_upperb h)
    (fun _ _ _ hi hs => (step_upperb hs.2).trans hi) h

theorem iteration_zero {P : Plat R} {ops : Chase R S} {cfg : Config R} {ritzv0 resid0 : ℕ → R} {be : S}
    {st : St R S} (h : Reach P ops cfg ritzv0 resid0 be st) (h0 : st.iteration = 0) :
    initState P ops cfg ritzv0 resid0 be = .ok st := by
  cases h with
  | init h => exact h
  | step hr hs =>
    exfalso
    have := iter_iteration _ _ _ _ _ hs.2
    omega

end

section
variable [Add R] [Sub R] [Mul R] [Div R] [Neg R] [Zero R] [One R] [NatCast R] [LinearOrder R]

/-- **C63**, the part that holds for every backend and input: in every round the damped interval ends
at the bound the Lanczos step of this solve reported, and it does not start above its end. -/
theorem C63_interval_partial (P : Plat R) (ops : Chase R S) (cfg : Config R) (ritzv0 resid0 : ℕ → R)
    (be : S) (st : St R S) (h : Reach P ops cfg ritzv0 resid0 be st) (I : Interval R)
    (hI : FilterRuns P ops cfg st I) : I.upper = boundOf ops cfg be ∧ I.lower ≤ I.upper := by
  obtain ⟨-, h2, h3⟩ := filterRuns_eq hI
  refine ⟨h3.trans (reach_upperb h), ?_⟩
  rw [h2, h3]
  have clamp : ∀ x : R, (if x > st.upperb then st.upperb else x) ≤ st.upperb := fun x => by
    split_ifs with hg
    · exact le_rfl
    · exact not_lt.mp hg
  exact clamp _

/-- **C63**, scaling point: in the first round, and in every round after the first pair was locked, the
filter is scaled at the smallest of the current values, so no current value lies below it. -/
theorem C63_scaling_point_partial (P : Plat R) (ops : Chase R S) (cfg : Config R)
    (ritzv0 resid0 : ℕ → R) (be : S) (st : St R S) (h : Reach P ops cfg ritzv0 resid0 be st)
    (hst : st.iteration = 0 ∨ 0 < st.locked) (I : Interval R) (hI : FilterRuns P ops cfg st I) :
    IsSmallest st.ritzv (cfg.nev + cfg.nex) I.lambda := by
  obtain ⟨h1, -, -⟩ := filterRuns_eq hI
  have hacc := (reach_acc h).1
  have hpos : 0 < cfg.nev + cfg.nex := by
    have : ∀ {st}, Reach P ops cfg ritzv0 resid0 be st → cfg.nev + cfg.nex ≠ 0 := fun h =>
      reach_inv (ops := ops) (fun _ => cfg.nev + cfg.nex ≠ 0)
        (fun _ h => by obtain ⟨-, -, -, -, hn, -⟩ := initState_ok h; exact hn) (fun _ _ _ hi _ => hi) h
    exact Nat.pos_of_ne_zero (this h)
  have key := minElem_spec st.ritzv 0 _ hpos
  simp only [Nat.zero_add] at key
  have hl : I.lambda = if st.unconverged < cfg.nev + cfg.nex then minElem st.ritzv 0 (cfg.nev + cfg.nex)
      else st.lambda := h1
  by_cases hk : 0 < st.locked
  · rw [hl, if_pos (by omega)]; exact key
  · have hi := iteration_zero h (hst.resolve_right hk)
    rw [hl, if_neg (by omega)]
    obtain ⟨be1, l, -, -, -, rfl⟩ := initState_ok hi
    exact key

/-- **C63**, lower end: in the first round it is the largest start value, in a round after a pair was
locked in which no active residual exceeds `1/2` it is the last active value, each cut off at the upper
end; in all other rounds it is not moved unless it exceeds the upper end. -/
theorem C63_lower_end_partial (P : Plat R) (ops : Chase R S) (cfg : Config R) (ritzv0 resid0 : ℕ → R)
    (be : S) (st : St R S) (h : Reach P ops cfg ritzv0 resid0 be st) (I : Interval R)
    (hI : FilterRuns P ops cfg st I) :
    (st.iteration = 0 → ∃ x, IsLargest st.ritzv (cfg.nev + cfg.nex) x ∧ I.lower = min x I.upper) ∧
    (0 < st.locked → (∀ i, i < st.unconverged → st.resid (st.locked + i) ≤ 1 / 2) →
      I.lower = min (st.ritzv (cfg.nev + cfg.nex - 1)) I.upper) ∧
    ((st.locked = 0 ∨ ∃ i, i < st.unconverged ∧ 1 / 2 < st.resid (st.locked + i)) →
      I.lower = min st.lowerb I.upper) := by
  obtain ⟨-, h2, h3⟩ := filterRuns_eq hI
  have hacc := (reach_acc h).1
  have clamp : ∀ x : R, (if x > st.upperb then st.upperb else x) = min x st.upperb := fun x => by
    split_ifs with hg
    · exact (min_eq_right hg.le).symm
    · exact (min_eq_left (not_lt.mp hg)).symm
  have hl : I.lower = min (if st.unconverged < cfg.nev + cfg.nex ∧
        (List.range st.unconverged).all (fun i => !decide (st.resid (st.locked + i) > 1 / 2)) then
      st.ritzv (st.locked + (st.unconverged - 1)) else st.lowerb) I.upper := by
    rw [h2, h3, ← clamp]; rfl
  have h5 : (st.locked = 0 ∨ ∃ i, i < st.unconverged ∧ 1 / 2 < st.resid (st.locked + i)) →
      I.lower = min st.lowerb I.upper := by
    intro hc
    rw [hl, if_neg]
    rintro ⟨c1, c2⟩
    rcases hc with hc | ⟨i, hi, hr⟩
    · omega
    · rw [List.all_eq_true] at c2
      have := c2 i (List.mem_range.mpr hi)
      simp at this
      exact absurd hr (not_lt.mpr (by simpa using this))
  refine ⟨fun h0 => ?_, fun hk hr => ?_, h5⟩
  · have hi := iteration_zero h h0
    obtain ⟨be1, l, -, -, hn, rfl⟩ := initState_ok hi
    have key := maxElem_spec l.ritzv 0 _ (Nat.pos_of_ne_zero hn)
    simp only [Nat.zero_add] at key
    exact ⟨_, key, h5 (Or.inl rfl)⟩
  · rw [hl, if_pos, show st.locked + (st.unconverged - 1) = cfg.nev + cfg.nex - 1 from ?_]
    · have := hI.1.1
      omega
    · refine ⟨by omega, List.all_eq_true.mpr fun i hi => ?_⟩
      have := hr i (List.mem_range.mp hi)
      simpa using this

/-- Whatever holds for all start values and whatever is one of them, interspersing keeps it. -/
theorem intersperse_values {ops : Chase R S} {idx nevex : ℕ} {r r' : ℕ → R} {be be' : S} (Q : R → Prop)
    (x : R) (h : intersperse ops idx nevex r be = .ok (r', be'))
    (h0 : (∀ k, k < nevex → Q (r k)) ∧ ∃ k, k < nevex ∧ r k = x) :
    (∀ k, k < nevex → Q (r' k)) ∧ ∃ k, k < nevex ∧ r' k = x := by
  refine forRangeM_pres_partial _
    (fun s : (ℕ → R) × S => (∀ k, k < nevex → Q (s.1 k)) ∧ ∃ k, k < nevex ∧ s.1 k = x) h0 ?_ h
  rintro i s s' _ _ ⟨hs, k0, hk0, e0⟩ hb
  dsimp only at hb
  split_ifs at hb with hc
  cases hb
  obtain ⟨hj, hi⟩ := hc
  have hsw : ∀ k, swapAt s.1 i (i * (nevex / idx)) k =
      if k = i * (nevex / idx) then s.1 i else if k = i then s.1 (i * (nevex / idx)) else s.1 k :=
    fun k => by unfold swapAt; simp only [Function.update_apply]
  refine ⟨fun k hk => ?_, ?_⟩
  · show Q (swapAt s.1 i _ k)
    rw [hsw]
    split_ifs
    exacts [hs _ hi, hs _ hj, hs _ hk]
  · show ∃ k, k < nevex ∧ swapAt s.1 i _ k = x
    simp only [hsw]
    by_cases h1 : k0 = i
    · exact ⟨_, hj, by rw [if_pos rfl, ← h1, e0]⟩
    by_cases h2 : k0 = i * (nevex / idx)
    · refine ⟨i, hi, ?_⟩
      rw [if_neg (fun e => h1 (h2.trans e.symm)), if_pos rfl, ← h2, e0]
    · exact ⟨k0, hk0, by rw [if_neg h2, if_neg h1, e0]⟩

end

/-- **C63**, first round of a solve with random start vectors: when the bound reported by the Lanczos
runs is at least every Ritz value they reported (C20 for the backends of the library), the filter runs on
`lambda ≤ lower ≤ upper`, where `lower` is the value chosen by the density search and nothing is cut
off. -/
theorem C63_first_round_random [Field R] [LinearOrder R] [IsStrictOrderedRing R] (P : Plat R) (hP : SortsIndices P)
    (ops : Chase R S) (cfg : Config R)
    (ritzv0 resid0 : ℕ → R) (be : S) (st : St R S) (happ : cfg.approx = false)
    (o : LanczosOut R)
    (ho : o = (ops.lanczosN (min (cfg.nev + cfg.nex) (min (cfg.N / 2) cfg.lanczosIter)) cfg.numLanczos
      (ops.qr 0 1 (ops.initVecs true (ops.start be)))).1)
    (total : ℕ)
    (htot : total = cfg.numLanczos * min (cfg.nev + cfg.nex) (min (cfg.N / 2) cfg.lanczosIter))
    (hub : ∀ j, j < total → o.theta j ≤ o.upperb)
    (h : Reach P ops cfg ritzv0 resid0 be st) (h0 : st.iteration = 0) (I : Interval R)
    (hI : FilterRuns P ops cfg st I) :
    I.lambda ≤ I.lower ∧ I.lower ≤ I.upper ∧
    IsDosBound (fun i => cumDensity P.gauss o.theta o.tau total cfg.numLanczos
        (o.theta (P.sortIdx total o.theta i)))
      (fun i => o.theta (P.sortIdx total o.theta i)) total
      (((cfg.nev + cfg.nex : ℕ) : R) / (cfg.N : R)) I.lower := by
  obtain ⟨⟨k0, hk0, e0⟩, hlam⟩ := C63_scaling_point_partial P ops cfg ritzv0 resid0 be st h (Or.inl h0) I hI
  obtain ⟨x, ⟨⟨k1, hk1, e1⟩, hx⟩, hl⟩ := (C63_lower_end_partial P ops cfg ritzv0 resid0 be st h I hI).1 h0
  obtain ⟨hu, hle⟩ := C63_interval_partial P ops cfg ritzv0 resid0 be st h I hI
  have hu' : I.upper = o.upperb := by
    rw [hu, boundOf, happ, ho]; rfl
  set sorted := fun i => o.theta (P.sortIdx total o.theta i) with hsd
  suffices hs : ∃ v, IsDosBound (fun i => cumDensity P.gauss o.theta o.tau total cfg.numLanczos (sorted i))
      sorted total (((cfg.nev + cfg.nex : ℕ) : R) / (cfg.N : R)) v ∧
      (∀ k, k < cfg.nev + cfg.nex → st.ritzv k ≤ v) ∧ ∃ k, k < cfg.nev + cfg.nex ∧ st.ritzv k = v by
    obtain ⟨v, hv, hv1, k2, hk2, e2⟩ := hs
    have hxv : x = v := le_antisymm (e1 ▸ hv1 _ hk1) (e2 ▸ hx _ hk2)
    have hvu : v ≤ I.upper := by
      rw [hu']
      have hso : ∀ k, k < total → sorted k ≤ o.upperb := fun k hk => hub _ ((hP total o.theta).1 k hk)
      obtain ⟨i, hi, -, -, ⟨-, -, rfl⟩ | ⟨-, -, rfl⟩ | ⟨-, -, rfl⟩⟩ := hv <;> exact hso _ (by omega)
    have hlv : I.lower = v := by rw [hl, hxv, min_eq_left hvu]
    refine ⟨?_, hle, hlv ▸ hv⟩
    rw [hlv, ← e0]; exact hv1 _ hk0
  have hinit := iteration_zero h h0
  obtain ⟨be1, l, hbe1, hlz, hn, rfl⟩ := initState_ok hinit
  show ∃ v, _ ∧ (∀ k, _ → l.ritzv k ≤ v) ∧ ∃ k, _ ∧ l.ritzv k = v
  rw [happ] at hbe1 hlz
  rw [show be1 = ops.qr 0 1 (ops.initVecs true (ops.start be)) from hbe1] at hlz
  unfold lanczos at hlz
  split_ifs at hlz with c1 c2
  · cases c2
  dsimp only at hlz
  split_ifs at hlz with c3
  rw [← ho, ← htot] at hlz
  split at hlz
  · cases hlz
  rename_i v hv
  have hv' := (dosSearch_spec P o.theta o.tau sorted total cfg.numLanczos _ v).mp hv
  refine ⟨v, hv', ?_⟩
  split at hlz
  · cases hlz
  rename_i idx hidx
  have hlow := ((dosIdx_spec _ _ _ _).2.1 idx hidx).2
  have hs0 : sorted 0 ≤ v := by
    have hso : ∀ k, k < total → sorted 0 ≤ sorted k := fun k hk =>
      (hP total o.theta).2.2 0 k (Nat.zero_le _) hk
    obtain ⟨i, hi, -, -, ⟨-, -, rfl⟩ | ⟨-, -, rfl⟩ | ⟨-, -, rfl⟩⟩ := hv' <;> exact hso _ (by omega)
  have hval : (∀ k, k < cfg.nev + cfg.nex → dosValues o.theta
      ((cfg.numLanczos - 1) * min (cfg.nev + cfg.nex) (min (cfg.N / 2) cfg.lanczosIter)) idx
      (cfg.nev + cfg.nex) (sorted 0) v ritzv0 k ≤ v) ∧ ∃ k, k < cfg.nev + cfg.nex ∧ dosValues o.theta
      ((cfg.numLanczos - 1) * min (cfg.nev + cfg.nex) (min (cfg.N / 2) cfg.lanczosIter)) idx
      (cfg.nev + cfg.nex) (sorted 0) v ritzv0 k = v := by
    refine ⟨fun k hk => ?_, cfg.nev + cfg.nex - 1, by omega, ?_⟩
    · rw [dosValues_spec _ _ _ _ _ _ _ (by omega)]
      split_ifs with d1 d2
      exacts [le_rfl, hlow k d2, hs0]
    · rw [dosValues_spec _ _ _ _ _ _ _ (by omega), if_pos rfl]
  split_ifs at hlz <;>
  · split at hlz
    · cases hlz
    · rename_i r be' hint
      cases hlz
      exact intersperse_values (fun y => y ≤ v) v hint hval

/-- **C63 is refuted in approximation mode**, for every backend: when one of the start values the caller
passes is not below the bound of the Lanczos step (values of an earlier, larger matrix), the first filter
runs on an interval of length zero, by half of which `filter` divides (algorithm.inc 125-131). -/
theorem C63_refuted_empty_interval [Add R] [Sub R] [Mul R] [Div R] [Neg R] [Zero R] [One R] [NatCast R] [LinearOrder R]
    (P : Plat R) (ops : Chase R S) (cfg : Config R)
    (ritzv0 resid0 : ℕ → R) (be : S) (st : St R S) (happ : cfg.approx = true)
    (i : ℕ) (hi : i < cfg.nev + cfg.nex) (hbig : boundOf ops cfg be ≤ ritzv0 i)
    (h : Reach P ops cfg ritzv0 resid0 be st) (h0 : st.iteration = 0) (I : Interval R)
    (hI : FilterRuns P ops cfg st I) : I.lower = I.upper := by
  obtain ⟨x, ⟨-, hx⟩, hl⟩ := (C63_lower_end_partial P ops cfg ritzv0 resid0 be st h I hI).1 h0
  obtain ⟨hu, -⟩ := C63_interval_partial P ops cfg ritzv0 resid0 be st h I hI
  have hinit := iteration_zero h h0
  have hr : st.ritzv = ritzv0 := by
    obtain ⟨be1, l, -, hlz, -, rfl⟩ := initState_ok hinit
    unfold lanczos at hlz
    rw [happ] at hlz
    split_ifs at hlz
    · cases hlz; rfl
    · exact absurd rfl ‹_›
  rw [hl]
  refine min_eq_right ?_
  rw [hu]
  rw [hr] at hx
  exact hbig.trans (hx i hi)

/-- A configuration for the examples: approximation mode. -/
def Toy.cfgApprox : Config ℚ := { Toy.cfg1 with approx := true }

/-- **C63 is refuted** also for the scaling point: it does not follow from the algorithm that the
scaling point lies below the damped interval.  The lower end stays where the density search of the
Lanczos step put it as long as some active residual exceeds `1/2`, while the scaling point moves up with
the locked values: here a round filters `[1, 10]` scaled at `5`. -/
theorem C63_refuted_scaling_point :
    ∃ (st : St ℚ Toy.TS) (I : Interval ℚ),
      Reach Toy.plat (Toy.ops Toy.vals1 Toy.res1 true) Toy.cfg1 (fun _ => 0) (fun _ => 0) Toy.start st ∧
      FilterRuns Toy.plat (Toy.ops Toy.vals1 Toy.res1 true) Toy.cfg1 st I ∧
      I.lower < I.lambda ∧ I.lambda < I.upper := by
  have key : Toy.okAnd (fun st0 => decide (running Toy.cfg1 st0) &&
      Toy.okAnd (fun st => decide (running Toy.cfg1 st) &&
        Toy.okAnd (fun st1 => decide (st1.lowerb < st1.lambda) && decide (st1.lambda < st1.upperb))
          (optimise Toy.plat (Toy.ops Toy.vals1 Toy.res1 true) Toy.cfg1
            (updateBounds (Toy.cfg1.nev + Toy.cfg1.nex) st)))
        (iter Toy.plat (Toy.ops Toy.vals1 Toy.res1 true) Toy.cfg1 st0))
      (initState Toy.plat (Toy.ops Toy.vals1 Toy.res1 true) Toy.cfg1 (fun _ => 0) (fun _ => 0) Toy.start)
      = true := by decide +kernel
  obtain ⟨st0, h0, k0⟩ := Toy.okAnd_elim key
  obtain ⟨r0, k0⟩ := Bool.and_eq_true_iff.mp k0
  obtain ⟨st, h1, k1⟩ := Toy.okAnd_elim k0
  obtain ⟨r1, k1⟩ := Bool.and_eq_true_iff.mp k1
  obtain ⟨st1, h2, k2⟩ := Toy.okAnd_elim k1
  obtain ⟨c1, c2⟩ := Bool.and_eq_true_iff.mp k2
  exact ⟨st, ⟨st1.lambda, st1.lowerb, st1.upperb⟩, .step (.init h0) ⟨of_decide_eq_true r0, h1⟩,
    ⟨of_decide_eq_true r1, st1, h2, rfl⟩, of_decide_eq_true c1, of_decide_eq_true c2⟩

/-- Non-vacuity of `C63_interval_partial`, `C63_scaling_point_partial`, `C63_lower_end_partial` and of
`C63_first_round_random`: the first round of a solve with random start vectors, on the interval
`[1, 10]` scaled at `0`; the Ritz values of the runs do not exceed the bound. -/
example : Toy.okAnd (fun st0 => decide (running Toy.cfg1 st0) &&
      Toy.okAnd (fun st1 => st1.lambda == 0 && st1.lowerb == 1 && st1.upperb == 10)
        (optimise Toy.plat (Toy.ops Toy.vals1 Toy.res1 true) Toy.cfg1
          (updateBounds (Toy.cfg1.nev + Toy.cfg1.nex) st0)))
      (initState Toy.plat (Toy.ops Toy.vals1 Toy.res1 true) Toy.cfg1 (fun _ => 0) (fun _ => 0) Toy.start)
      = true := by decide +kernel

example : ∀ j, j < 2 * 3 → ((j % 3 : ℕ) : ℚ) ≤ 10 := by decide +kernel

/-- Non-vacuity of the second case of `C63_lower_end_partial`: with residuals `1/4` of the pairs that are
not converged, the second round of a solve renews the lower end. -/
example : Toy.okAnd (fun st0 => Toy.okAnd (fun st => decide (running Toy.cfg1 st) && st.locked == 1 &&
        decide (∀ i, i < st.unconverged → st.resid (st.locked + i) ≤ 1 / 2) &&
        Toy.okAnd (fun st1 => st1.lowerb == 7 && st1.lambda == 5)
          (optimise Toy.plat (Toy.ops Toy.vals1 (fun x => if x = 5 then 1 / 100 else 1 / 4) true) Toy.cfg1
            (updateBounds (Toy.cfg1.nev + Toy.cfg1.nex) st)))
        (iter Toy.plat (Toy.ops Toy.vals1 (fun x => if x = 5 then 1 / 100 else 1 / 4) true) Toy.cfg1 st0))
      (initState Toy.plat (Toy.ops Toy.vals1 (fun x => if x = 5 then 1 / 100 else 1 / 4) true) Toy.cfg1
        (fun _ => 0) (fun _ => 0) Toy.start) = true := by decide +kernel

/-- Non-vacuity of `C63_refuted_empty_interval`: start values `0, 11, 22` where the bound is `10`. -/
example : Toy.okAnd (fun st0 => decide (running Toy.cfgApprox st0) &&
      Toy.okAnd (fun st1 => st1.lambda == 0 && st1.lowerb == 10 && st1.upperb == 10)
        (optimise Toy.plat (Toy.ops Toy.vals1 Toy.res1 true) Toy.cfgApprox
          (updateBounds (Toy.cfgApprox.nev + Toy.cfgApprox.nex) st0)))
      (initState Toy.plat (Toy.ops Toy.vals1 Toy.res1 true) Toy.cfgApprox (fun i => 11 * i) (fun _ => 0)
        Toy.start) = true := by decide +kernel

example : boundOf (Toy.ops Toy.vals1 Toy.res1 true) Toy.cfgApprox Toy.start ≤ (11 * (1 : ℕ) : ℚ) := by
  decide +kernel

end Verif
