/-
C12, C15: work count and memory safety of the Chebyshev filter, for every backend.
-/
import Verif.Solver.FilterProof
import Verif.Solver.ToyProof

set_option linter.unusedSectionVars false

namespace Verif

variable {R S : Type*} [Add R] [Sub R] [Mul R] [Div R] [Neg R] [Zero R] [One R] [NatCast R] [LT R] [DecidableLT R]

/-! ### C12 -/

/-- **C12** For ascending degrees, all at least 2 and at most the degree argument, a filter call
succeeds, reports the sum of the degrees, and that is also the sum of the block sizes which a
recorder of the interface sees in `HEMM` calls (on top of those recorded before); for every
backend. -/
theorem C12_work_count (ops : Chase R S) {n u deg : ℕ} {degrees : ℕ → ℕ} {dsize p0 : ℕ}
    (lambda1 lower upper : R) (s : S) (tr : List (Call R)) (hn : n ≠ 0) (hu : 0 < u)
    (hsz : p0 + u ≤ dsize) (hs : SortedOn p0 (p0 + u) degrees)
    (hd : ∀ j, j < u → 2 ≤ degrees (p0 + j) ∧ degrees (p0 + j) ≤ deg) :
    ∃ s' : S × List (Call R),
      filter (traced ops) n u deg degrees dsize p0 lambda1 lower upper (s, tr) =
        .ok (∑ j ∈ Finset.range u, degrees (p0 + j), s') ∧
      hemmSum s'.2 = hemmSum tr + ∑ j ∈ Finset.range u, degrees (p0 + j) := by
  have h := filter_eq (traced ops) (n := n) (deg := deg) lambda1 lower upper (s, tr) hn hu hsz hs
    (fun j hj => (hd j hj).2) (hd (u - 1) (by omega)).1
  have e : ∑ j ∈ Finset.range u, max 1 (degrees (p0 + j)) =
      ∑ j ∈ Finset.range u, degrees (p0 + j) :=
    Finset.sum_congr rfl fun j hj => by
      have := (hd j (Finset.mem_range.mp hj)).1; omega
  rw [e] at h
  refine ⟨_, h, ?_⟩
  have := filter_count (traced_weights_hemm ops) h
  simpa using this

/-- Non-vacuity: degrees 2, 4, 4, 6 at positions 1..4 of an array of length 5. -/
example : SortedOn 1 5 (fun i => if i = 1 then 2 else if i = 4 then 6 else 4) ∧
    Toy.okAnd (fun r => r.1 == 16 && hemmSum r.2.2 == 16)
      (filter (traced (Toy.ops Toy.vals1 Toy.res1 true)) 10 4 6
        (fun i => if i = 1 then 2 else if i = 4 then 6 else 4) 5 1 (-1) 0 1 (Toy.start, [])) := by
  refine ⟨?_, by decide +kernel⟩
  intro a b h1 h2 h3
  dsimp only
  split_ifs <;> omega

/-! ### C15 -/

/-- **C15** (partial: one call).  With ascending degrees of which the last is at least 2 and none
exceeds the degree argument, a filter call does not leave the degree array and the number of
unprocessed columns does not wrap, whatever the backend. -/
theorem C15_filter_safe_partial (ops : Chase R S) {n u deg : ℕ} {degrees : ℕ → ℕ} {dsize p0 : ℕ}
    (lambda1 lower upper : R) (s : S) (hn : n ≠ 0) (hu : 0 < u) (hsz : p0 + u ≤ dsize)
    (hs : SortedOn p0 (p0 + u) degrees) (hd : ∀ j, j < u → degrees (p0 + j) ≤ deg)
    (hlast : 2 ≤ degrees (p0 + (u - 1))) :
    ∃ r, filter ops n u deg degrees dsize p0 lambda1 lower upper s = .ok r :=
  ⟨_, filter_eq ops lambda1 lower upper s hn hu hsz hs hd hlast⟩

/-- The degree arrays handed to the filter in a solve, for every backend. -/
theorem reach_degInv {P : Plat R} {ops : Chase R S} {cfg : Config R} (hmax : Even cfg.maxDeg)
    (h2 : 1 ≤ cfg.deg) (h3 : 2 ≤ cfg.maxDeg) (h4 : 1 ≤ cfg.degExtra)
    {ritzv0 resid0 : ℕ → R} {be : S} {st : St R S} (h : Reach P ops cfg ritzv0 resid0 be st) :
    DegInv (cfg.nev + cfg.nex) st ∧ 2 ≤ st.deg := by
  have opt : ∀ st st' : St R S, st.locked + st.unconverged = cfg.nev + cfg.nex →
      DegInv (cfg.nev + cfg.nex) st ∧ 2 ≤ st.deg → optimise P ops cfg st = .ok st' →
      DegInv (cfg.nev + cfg.nex) st' ∧ 2 ≤ st'.deg := by
    intro st st' hacc hi ho
    refine ⟨optimise_degInv hmax hacc hi.1 ho, ?_⟩
    rcases optimise_ok ho with ⟨rfl, -⟩ | ⟨deg, p, h1, rfl⟩
    · exact hi.2
    · obtain ⟨-, -, -, i, gi1, gi2, gi3⟩ := C16_degrees_even_bounded_ascending P ops cfg hmax h1
      obtain ⟨σ, -, -, -, -, -, g, -⟩ := C17_degrees_permute_pairs P ops
        (cols := fun _ _ => ()) cfg (fun _ _ _ _ _ => rfl) h1
      obtain ⟨j, -, -, k, -, hr⟩ := g (i - st.locked) (by omega)
      rw [show st.locked + (i - st.locked) = i by omega, gi3] at hr
      show 2 ≤ deg
      obtain ⟨⟨r1, r2⟩, -⟩ := hr
      rw [Nat.even_iff] at *
      omega
  refine reach_inv (fun st => DegInv (cfg.nev + cfg.nex) st ∧ 2 ≤ st.deg) ?_ ?_ h
  · intro st hi
    obtain ⟨be1, l, -, -, -, rfl⟩ := initState_ok hi
    have hE : Even (min (cfg.deg + cfg.deg % 2) cfg.maxDeg) := by
      rw [Nat.even_iff] at *
      omega
    exact ⟨⟨hE, fun _ _ _ _ _ => le_rfl, fun _ _ _ => ⟨hE, le_rfl⟩, fun _ => rfl⟩,
      by show 2 ≤ min (cfg.deg + cfg.deg % 2) cfg.maxDeg; omega⟩
  · rintro st st' hreach hi ⟨-, hit⟩
    obtain ⟨st1, av, be2, g1, g2, rfl⟩ := iter_ok hit
    have hacc : st.locked + st.unconverged = cfg.nev + cfg.nex := (reach_acc hreach).1
    obtain ⟨i1, i2⟩ := opt (updateBounds _ st) st1 hacc
      ⟨⟨hi.1.even, hi.1.sorted, hi.1.degs, hi.1.last⟩, hi.2⟩ g1
    refine ⟨⟨i1.even, ?_, ?_, ?_⟩, i2⟩
    · intro a b ha hab hb
      exact i1.sorted a b (le_trans (Nat.le_add_right _ _) ha) hab hb
    · intro a ha hb
      exact i1.degs a (le_trans (Nat.le_add_right _ _) ha) hb
    · intro hl
      exact i1.last (lt_of_le_of_lt (Nat.le_add_right _ _) hl)

/-- **C15** (partial: for configurations with `Deg ≥ 1`, `MaxDeg ≥ 2`, `DegExtra ≥ 1` and `N ≥ 1`).
In every round of every solve the filter call succeeds: no access outside the degree array, no wrap
around.  Without the restriction on `Deg` the claim is false, see `C15_filter_safety_refuted`. -/
theorem C15_solve_filter_safe_partial (P : Plat R) (ops : Chase R S) (cfg : Config R)
    (hmax : Even cfg.maxDeg) (h1 : 1 ≤ cfg.N) (h2 : 1 ≤ cfg.deg) (h3 : 2 ≤ cfg.maxDeg)
    (h4 : 1 ≤ cfg.degExtra) (ritzv0 resid0 : ℕ → R) (be : S) (st st1 : St R S)
    (hr : Reach P ops cfg ritzv0 resid0 be st) (hrun : running cfg st)
    (ho : optimise P ops cfg (updateBounds (cfg.nev + cfg.nex) st) = .ok st1) :
    ∃ r, filter ops cfg.N st1.unconverged st1.deg st1.degrees (cfg.nev + cfg.nex) st1.locked
      st1.lambda st1.lowerb st1.upperb st1.be = .ok r := by
  obtain ⟨hacc, hle, -⟩ := reach_acc hr
  have hd := reach_degInv hmax h2 h3 h4 hr
  have hd1 : DegInv (cfg.nev + cfg.nex) st1 := optimise_degInv hmax
    (show (updateBounds _ st).locked + (updateBounds _ st).unconverged = _ from hacc)
    ⟨hd.1.even, hd.1.sorted, hd.1.degs, hd.1.last⟩ ho
  have hd2 : 2 ≤ st1.deg := by
    rcases optimise_ok ho with ⟨rfl, -⟩ | ⟨deg, p, g1, rfl⟩
    · exact hd.2
    · obtain ⟨-, -, -, i, gi1, gi2, gi3⟩ := C16_degrees_even_bounded_ascending P ops cfg hmax g1
      obtain ⟨σ, -, -, -, -, -, g, -⟩ := C17_degrees_permute_pairs P ops
        (cols := fun _ _ => ()) cfg (fun _ _ _ _ _ => rfl) g1
      obtain ⟨j, -, -, k, -, hr⟩ := g (i - (updateBounds (cfg.nev + cfg.nex) st).locked) (by omega)
      rw [show (updateBounds (cfg.nev + cfg.nex) st).locked +
        (i - (updateBounds (cfg.nev + cfg.nex) st).locked) = i by omega, gi3] at hr
      show 2 ≤ deg
      obtain ⟨⟨r1, r2⟩, -⟩ := hr
      rw [Nat.even_iff] at *
      omega
  have e : st1.locked = st.locked ∧ st1.unconverged = st.unconverged := by
    rcases optimise_ok ho with ⟨rfl, -⟩ | ⟨deg, p, hc, rfl⟩ <;> exact ⟨rfl, rfl⟩
  have hrun' := hrun.1
  refine C15_filter_safe_partial ops _ _ _ _ (by omega) (by omega) (by omega) ?_ ?_ ?_
  · rw [show st1.locked + st1.unconverged = cfg.nev + cfg.nex by omega]; exact hd1.sorted
  · intro j hj
    exact (hd1.degs _ (by omega) (by omega)).2
  · rw [show st1.locked + (st1.unconverged - 1) = cfg.nev + cfg.nex - 1 by omega,
      hd1.last (by omega)]
    exact hd2

/-- Non-vacuity: the toy run starts, runs and reaches its filter call. -/
example : ∃ st : St ℚ Toy.TS,
    Reach Toy.plat (Toy.ops Toy.vals1 Toy.res1 true) Toy.cfg1 (fun _ => 0) (fun _ => 0) Toy.start st ∧
    running Toy.cfg1 st ∧ Even Toy.cfg1.maxDeg := by
  obtain ⟨st0, h0, g0⟩ := Toy.okAnd_elim (p := fun st0 : St ℚ Toy.TS => decide (running Toy.cfg1 st0))
    (x := initState Toy.plat (Toy.ops Toy.vals1 Toy.res1 true) Toy.cfg1 (fun _ => 0) (fun _ => 0)
      Toy.start) (by decide +kernel)
  exact ⟨st0, .init h0, of_decide_eq_true g0, by decide⟩

/-- If no degree in the rest of the array exceeds 1, the filter call runs out of the array or wraps
its column count around, for every backend. -/
theorem C15_small_degrees_fail (ops : Chase R S) {n u deg : ℕ} {degrees : ℕ → ℕ} {dsize p0 : ℕ}
    (lambda1 lower upper : R) (s : S) (hn : n ≠ 0)
    (hd : ∀ j, p0 ≤ j → j < dsize → degrees j ≤ 1) :
    filter ops n u deg degrees dsize p0 lambda1 lower upper s = .error .oob ∨
    filter ops n u deg degrees dsize p0 lambda1 lower upper s = .error .wrap := by
  unfold filter
  rw [if_neg hn]
  dsimp only
  rcases walkFirst_runs_out degrees (n := n) (m := 1) u p0 0 hd with h | h
  · rw [h]; exact Or.inl rfl
  · rw [h]; exact Or.inr rfl

/-- **C15 is false as stated**: the setters accept `SetDeg(0)`, and then the very first filter call
of a solve reads past the degree array, for every backend whose Lanczos step succeeds. -/
theorem C15_filter_safety_refuted (P : Plat R) (ops : Chase R S) (sc : Scalar) (N nev nex : ℕ)
    (hN : N ≠ 0) (ritzv0 resid0 : ℕ → R) (be : S) (st st1 : St R S)
    (h0 : initState P ops (Config.run sc N nev nex [.deg 0]) ritzv0 resid0 be = .ok st)
    (ho : optimise P ops (Config.run sc N nev nex [.deg 0])
      (updateBounds (nev + nex) st) = .ok st1) :
    ∃ e, filter ops N st1.unconverged st1.deg st1.degrees (nev + nex) st1.locked
      st1.lambda st1.lowerb st1.upperb st1.be = .error e ∧ (e = .oob ∨ e = .wrap) := by
  obtain ⟨be1, l, -, -, -, rfl⟩ := initState_ok h0
  unfold optimise at ho
  rw [if_neg (fun hc => hc.2 rfl)] at ho
  cases ho
  rcases C15_small_degrees_fail ops (n := N) (u := nev + nex) (deg := 0)
    (degrees := fun _ => min 0 (Config.run (R := R) sc N nev nex [.deg 0]).maxDeg)
    (dsize := nev + nex) (p0 := 0) _ _ _ l.be hN
    (fun _ _ _ => by rw [Nat.zero_min]; exact Nat.zero_le _) with h | h
  · exact ⟨_, h, Or.inl rfl⟩
  · exact ⟨_, h, Or.inr rfl⟩

/-- Non-vacuity: the toy backend starts with such a configuration, and the whole solve then ends in
the out-of-bounds outcome. -/
example : Toy.okAnd (fun _ => true) (initState Toy.plat (Toy.ops Toy.vals1 Toy.res1 true)
      (Config.run .d 10 2 1 [.deg 0]) (fun _ => 0) (fun _ => 0) Toy.start) = true ∧
    (match solve Toy.plat (Toy.ops Toy.vals1 Toy.res1 true) (Config.run .d 10 2 1 [.deg 0])
      (fun _ => 0) (fun _ => 0) Toy.start with
    | .error .oob => true
    | _ => false) = true := by
  rw [Toy.solve_eq_solveE]
  decide +kernel

end Verif
