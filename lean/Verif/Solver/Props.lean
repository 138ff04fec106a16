/-
C01 - C08: properties of the solver loop, for every backend that keeps the stated contract.
-/
import Verif.Solver.Count
import Verif.Solver.ToyProof

set_option linter.unusedSectionVars false

namespace Verif

variable {R S V : Type*} [Add R] [Sub R] [Mul R] [Div R] [Neg R] [Zero R] [One R] [NatCast R] [LT R] [DecidableLT R]

/-! ### Contracts used in the statements -/

/-- Rayleigh-Ritz returns pairs: value `i` of the result belongs (in the sense of `Pair`) to the
column at position `i` of the unlocked part. -/
def MakesPairs (ops : Chase R S) (cols : S → ℕ → V) (nl : S → ℕ) (ph : Phases S)
    (Pair : R → V → Prop) (nevex : ℕ) : Prop :=
  ∀ s, ph.ready s → ∀ i, i < nevex - nl s →
    Pair ((ops.rr (nevex - nl s) s).1 i) (cols (ops.rr (nevex - nl s) s).2 (nl s + i))

/-- Called right after Rayleigh-Ritz with the values it returned, the residual computation returns, at
position `i`, the residual of the pair formed by the value at position `i` and the column at position
`i` of the unlocked part. -/
def MakesResiduals (ops : Chase R S) (cols : S → ℕ → V) (nl : S → ℕ) (ph : Phases S)
    (Res : R → V → R → Prop) (nevex : ℕ) : Prop :=
  ∀ (f : ℕ → R) s, ph.ready s → nl s ≤ nevex →
    (∀ i, i < nevex - nl s → f i = (ops.rr (nevex - nl s) s).1 i) → ∀ i, i < nevex - nl s →
    Res (f i) (cols (ops.rr (nevex - nl s) s).2 (nl s + i))
      ((ops.resd f (nl s) (ops.rr (nevex - nl s) s).2).1 i)

/-! ### C01 -/

/-- **C01** `Solve` makes at most `MaxIter` rounds, and stops earlier only when `nev` pairs are
locked.  (That it stops at all is the acceptance of `solveLoop` by Lean; an `error` outcome is
undefined behaviour of the C++ program.) -/
theorem C01_stops_within_maxIter (P : Plat R) (ops : Chase R S) (cfg : Config R)
    (ritzv0 resid0 : ℕ → R) (be : S) (out : Outcome R S)
    (hsym : cfg.symCheck = true → (ops.checkSymmetryEasy be).1 = true)
    (h : solve P ops cfg ritzv0 resid0 be = .ok out) :
    out.iterations ≤ cfg.maxIter ∧ (out.iterations < cfg.maxIter → out.locked = cfg.nev) := by
  obtain ⟨be0, st0, st, -, h0, hst, hnr, -, rfl⟩ := solve_ok h hsym
  obtain ⟨h1, h2, h3⟩ := reach_acc (steps_reach (.init h0) hst)
  refine ⟨h3, fun hlt => ?_⟩
  dsimp only at *
  have : ¬ (st.unconverged > cfg.nex) := fun hc => hnr ⟨hc, hlt⟩
  omega

/-- **C01**, seen from outside: the number of rounds is the number of Rayleigh-Ritz calls that a
recorder of the interface sees, for every backend. -/
theorem C01_rounds_are_observable (P : Plat R) (ops : Chase R S) (cfg : Config R)
    (ritzv0 resid0 : ℕ → R) (be : S) (out : Outcome R (S × List (Call R)))
    (hsym : cfg.symCheck = true → (ops.checkSymmetryEasy be).1 = true)
    (h : solve P (traced ops) cfg ritzv0 resid0 (be, []) = .ok out) :
    rrCalls out.be.2 = out.iterations ∧ rrCalls out.be.2 ≤ cfg.maxIter := by
  have hc := (C01_stops_within_maxIter P (traced ops) cfg ritzv0 resid0 (be, []) out hsym h).1
  obtain ⟨be0, st0, st, hbe0, h0, hst, hnr, -, rfl⟩ := solve_ok h hsym
  have hq := traced_quiet_rr ops
  have key : rrCalls st.be.2 = st.iteration := by
    refine reach_inv (ops := traced ops) (fun st => rrCalls st.be.2 = st.iteration) ?_ ?_
      (steps_reach (.init h0) hst)
    · intro st hi
      have := initState_quiet hq hi
      rw [this]
      obtain ⟨be1, l, -, -, -, rfl⟩ := initState_ok hi
      rw [hbe0]
      split_ifs <;> simp [traced, rrCalls]
    · rintro st st' - hi ⟨hr, hit⟩
      obtain ⟨av, deg, e⟩ := iter_count (traced_weights_rr ops) hit
      have := iter_iteration _ _ _ _ _ hit
      rw [e, hi, this]; ring
  have e2 : rrCalls ((traced ops).finish (finalSort (traced ops) cfg.nev st.ritzv st.be).2).2 =
      st.iteration := by
    rw [hq.finish]
    show rrCalls (finalSort (traced ops) cfg.nev st.ritzv st.be).2.2 = _
    have := finalSort_quiet (f := fun s : S × List (Call R) => rrCalls s.2) hq.swap cfg.nev st.ritzv
      st.be
    rw [this, key]
  exact ⟨e2, by dsimp only at *; omega⟩

/-- Non-vacuity: a solve with a passed symmetry check that stops before `MaxIter` (after 2 of 5
rounds). -/
example : Toy.okAnd (fun out => out.iterations == 2 && out.locked == 2)
    (solve Toy.plat (Toy.ops Toy.vals1 Toy.res1 true) Toy.cfg1 (fun _ => 0) (fun _ => 0) Toy.start)
    = true := by rw [Toy.solve_eq_solveE]; decide +kernel

/-- Non-vacuity: one that is stopped by `MaxIter` with nothing locked. -/
example : Toy.okAnd (fun out => out.iterations == 1 && out.locked == 0)
    (solve Toy.plat (Toy.ops Toy.vals1 (fun _ => 1) true) { Toy.cfg1 with maxIter := 1 }
      (fun _ => 0) (fun _ => 0) Toy.start) = true := by rw [Toy.solve_eq_solveE]; decide +kernel

/-- Non-vacuity of the traced version. -/
example : Toy.okAnd (fun out => rrCalls out.be.2 == 2 && lockSum out.be.2 == 2)
    (solve Toy.plat (traced (Toy.ops Toy.vals1 Toy.res1 true)) Toy.cfg1 (fun _ => 0) (fun _ => 0)
      (Toy.start, [])) = true := by rw [Toy.solve_eq_solveE]; decide +kernel

/-! ### C02 -/

/-- **C02** At the head of every round, locked plus unconverged pairs make up the whole search space
and at most `nev` pairs are locked; for every backend. -/
theorem C02_accounting (P : Plat R) (ops : Chase R S) (cfg : Config R) (ritzv0 resid0 : ℕ → R)
    (be : S) (st : St R S) (h : Reach P ops cfg ritzv0 resid0 be st) :
    st.locked + st.unconverged = cfg.nev + cfg.nex ∧ st.locked ≤ cfg.nev :=
  ⟨(reach_acc h).1, (reach_acc h).2.1⟩

/-- **C02**, seen from outside: the numbers passed to `Lock` add up to the number of locked pairs. -/
theorem C02_lock_calls_add_up (P : Plat R) (ops : Chase R S) (cfg : Config R)
    (ritzv0 resid0 : ℕ → R) (be : S) (out : Outcome R (S × List (Call R)))
    (hsym : cfg.symCheck = true → (ops.checkSymmetryEasy be).1 = true)
    (h : solve P (traced ops) cfg ritzv0 resid0 (be, []) = .ok out) :
    lockSum out.be.2 = out.locked ∧ lockSum out.be.2 ≤ cfg.nev := by
  obtain ⟨be0, st0, st, hbe0, h0, hst, hnr, -, rfl⟩ := solve_ok h hsym
  have hq := traced_quiet_lock ops
  have hreach := steps_reach (.init h0) hst
  have key : lockSum st.be.2 = st.locked := by
    refine reach_inv (ops := traced ops) (fun st => lockSum st.be.2 = st.locked) ?_ ?_ hreach
    · intro st hi
      have := initState_quiet hq hi
      rw [this]
      obtain ⟨be1, l, -, -, -, rfl⟩ := initState_ok hi
      rw [hbe0]
      split_ifs <;> simp [traced, lockSum]
    · rintro st st' - hi ⟨hr, hit⟩
      obtain ⟨av, deg, e⟩ := iter_count (traced_weights_lock ops) hit
      have hmono : st.locked ≤ st'.locked := by
        obtain ⟨st1, av, be2, g1, g2, rfl⟩ := iter_ok hit
        have e : st1.locked = st.locked := by
          rcases optimise_ok g1 with ⟨rfl, -⟩ | ⟨deg, p, hc, rfl⟩ <;> rfl
        show st.locked ≤ st1.locked + _
        omega
      rw [e, hi]; omega
  have e2 : lockSum ((traced ops).finish (finalSort (traced ops) cfg.nev st.ritzv st.be).2).2 =
      st.locked := by
    rw [hq.finish]
    show lockSum (finalSort (traced ops) cfg.nev st.ritzv st.be).2.2 = _
    have := finalSort_quiet (f := fun s : S × List (Call R) => lockSum s.2) hq.swap cfg.nev st.ritzv
      st.be
    rw [this, key]
  have := (reach_acc hreach).2.1
  exact ⟨e2, by dsimp only at *; omega⟩

/-! ### C03 -/

/-- **C03** Once a pair is locked, no later round changes its value, its residual or its column. -/
theorem C03_locked_pairs_frozen (P : Plat R) (ops : Chase R S) (cols : S → ℕ → V) (nl : S → ℕ)
    (ph : Phases S) (cfg : Config R) (hP : PermutesIndices P)
    (hb : Bookkeeping ops cols nl ph cfg.N (cfg.nev + cfg.nex)) (hmax : Even cfg.maxDeg)
    (ritzv0 resid0 : ℕ → R) (be : S) (hpre : ph.pre be) (st st' : St R S)
    (hr : Reach P ops cfg ritzv0 resid0 be st) (hs : Steps P ops cfg st st') :
    st.locked ≤ st'.locked ∧
    ∀ i, i < st.locked → st'.ritzv i = st.ritzv i ∧ st'.resid i = st.resid i ∧
      cols st'.be i = cols st.be i := by
  have hinv : ∀ st, Reach P ops cfg ritzv0 resid0 be st → LoopInv cfg nl ph st := fun st h =>
    reach_inv (LoopInv cfg nl ph) (fun st h => loopInv_init hb.frame hmax hpre h)
      (fun st st' _ hi hs => (loopInv_step hP hb hmax hi hs).1) h
  induction hs with
  | refl => exact ⟨le_rfl, fun i _ => ⟨rfl, rfl, rfl⟩⟩
  | @tail st1 st2 h1 h2 ih =>
    obtain ⟨-, g1, g2⟩ := loopInv_step hP hb hmax (hinv st1 (steps_reach hr h1)) h2
    refine ⟨by omega, fun i hi => ?_⟩
    obtain ⟨a1, a2, a3⟩ := ih.2 i hi
    obtain ⟨b1, b2, b3⟩ := g2 i (by omega)
    exact ⟨b1.trans a1, b2.trans a2, b3.trans a3⟩

/-- Non-vacuity of C02 and C03: in the toy run the first round locks one pair (value 5), a second
round follows; the contracts hold. -/
example : ∃ st st' : St ℚ Toy.TS,
    Reach Toy.plat (Toy.ops Toy.vals1 Toy.res1 true) Toy.cfg1 (fun _ => 0) (fun _ => 0) Toy.start st ∧
    st.locked = 1 ∧ st.ritzv 0 = 5 ∧
    Steps Toy.plat (Toy.ops Toy.vals1 Toy.res1 true) Toy.cfg1 st st' ∧ st'.locked = 2 ∧
    SortsIndices Toy.plat ∧
    Bookkeeping (Toy.ops Toy.vals1 Toy.res1 true) Toy.TS.cols Toy.TS.nl Toy.phases 10 3 ∧
    Even Toy.cfg1.maxDeg := by
  obtain ⟨st0, h0, g0⟩ := Toy.okAnd_elim (p := fun st0 : St ℚ Toy.TS => Toy.okAnd (fun st1 : St ℚ Toy.TS =>
      decide (running Toy.cfg1 st0) && st1.locked == 1 && decide (st1.ritzv 0 = 5) &&
      Toy.okAnd (fun st2 : St ℚ Toy.TS => decide (running Toy.cfg1 st1) && st2.locked == 2)
        (iter Toy.plat (Toy.ops Toy.vals1 Toy.res1 true) Toy.cfg1 st1))
      (iter Toy.plat (Toy.ops Toy.vals1 Toy.res1 true) Toy.cfg1 st0))
    (x := initState Toy.plat (Toy.ops Toy.vals1 Toy.res1 true) Toy.cfg1 (fun _ => 0) (fun _ => 0)
      Toy.start) (by decide +kernel)
  obtain ⟨st1, h1, g1⟩ := Toy.okAnd_elim g0
  simp only [Bool.and_eq_true, decide_eq_true_eq, beq_iff_eq] at g1
  obtain ⟨st2, h2, g2⟩ := Toy.okAnd_elim g1.2
  simp only [Bool.and_eq_true, decide_eq_true_eq, beq_iff_eq] at g2
  exact ⟨st1, st2, .step (.init h0) ⟨g1.1.1.1, h1⟩, g1.1.1.2, g1.1.2, .tail (.refl _) ⟨g2.1, h2⟩,
    g2.2, Toy.plat_sorts, Toy.ops_bookkeeping .., by decide⟩

/-! ### C04, C05 -/

/-- **C04** The values returned by `Solve` are ascending and are a rearrangement of the values held
when the iteration ended; for every backend. -/
theorem C04_values_ascending {R : Type*} [Add R] [Sub R] [Mul R] [Div R] [Neg R] [Zero R] [One R] [NatCast R] [LinearOrder R]
    (P : Plat R) (ops : Chase R S) (cfg : Config R)
    (ritzv0 resid0 : ℕ → R) (be : S) (out : Outcome R S)
    (hsym : cfg.symCheck = true → (ops.checkSymmetryEasy be).1 = true)
    (h : solve P ops cfg ritzv0 resid0 be = .ok out) :
    SortedOn 0 cfg.nev out.ritzv ∧
    ∃ be0 st, be0 = (if cfg.symCheck then (ops.checkSymmetryEasy be).2 else be) ∧
      Reach P ops cfg ritzv0 resid0 be0 st ∧ ¬ running cfg st ∧
      ∃ σ : Equiv.Perm ℕ, PermOn 0 cfg.nev σ ∧ out.ritzv = st.ritzv ∘ σ := by
  obtain ⟨be0, st0, st, hbe0, h0, hst, hnr, -, rfl⟩ := solve_ok h hsym
  obtain ⟨g1, σ, hσ, g2, -⟩ := finalSort_spec (ops := ops) (cols := fun _ _ => ()) (nev := cfg.nev)
    (fun _ _ _ _ _ => rfl) st.ritzv st.be
  exact ⟨g1, be0, st, hbe0, steps_reach (.init h0) hst, hnr, σ, hσ, g2⟩

/-- **C05** Every returned value stays with its own vector: whatever relation `Pair` between values
and vectors Rayleigh-Ritz establishes (for instance "is the Rayleigh quotient of"), it holds, after
`Solve` with at least one round, between `GetRitzv()[i]` and column `i`, for all columns. -/
theorem C05_values_stay_with_vectors (P : Plat R) (ops : Chase R S) (cols : S → ℕ → V)
    (nl : S → ℕ) (ph : Phases S) (Pair : R → V → Prop) (cfg : Config R) (hP : PermutesIndices P)
    (hb : Bookkeeping ops cols nl ph cfg.N (cfg.nev + cfg.nex)) (hmax : Even cfg.maxDeg)
    (hpair : MakesPairs ops cols nl ph Pair (cfg.nev + cfg.nex))
    (ritzv0 resid0 : ℕ → R) (be : S) (hpre : ph.pre be) (out : Outcome R S)
    (hsym : cfg.symCheck = true → (ops.checkSymmetryEasy be).1 = true)
    (h : solve P ops cfg ritzv0 resid0 be = .ok out) (hit : 0 < out.iterations) :
    ∀ i, i < cfg.nev + cfg.nex → Pair (out.ritzv i) (cols out.be i) := by
  obtain ⟨be0, st0, st, hbe0, h0, hst, hnr, -, rfl⟩ := solve_ok h hsym
  have hpre : ph.pre be0 := by
    rw [hbe0]; split_ifs
    · exact hb.check _ hpre
    · exact hpre
  have key := reach_inv (ops := ops)
    (fun st => LoopInv cfg nl ph st ∧
      (0 < st.iteration → ∀ i, i < cfg.nev + cfg.nex → Pair (st.ritzv i) (cols st.be i)) ∧
      (st.iteration = 0 → st.locked = 0)) ?_ ?_ (steps_reach (.init h0) hst)
  · obtain ⟨σ, hσ, g1, g2⟩ := finalSort_perm (cols := cols) (nev := cfg.nev)
      (hb.swap.mono (by omega)) st.ritzv st.be
    intro i hi
    dsimp only
    rw [hb.finish, g1, g2]
    exact key.2.1 hit _ ((hσ.mono (Nat.le_refl 0) (by omega)).mem (Nat.zero_le _) hi).2
  · intro st hi
    have hi' := hi
    obtain ⟨be1, l, -, -, -, rfl⟩ := initState_ok hi
    exact ⟨loopInv_init hb.frame hmax hpre hi', by intro h; simp at h, fun _ => rfl⟩
  · rintro st st' hreach ⟨hinv, hp, hl0⟩ hs
    refine ⟨(loopInv_step hP hb hmax hinv hs).1, ?_, ?_⟩
    · intro _ i hi
      obtain ⟨q, st3, hr, rfl⟩ := round_exists hb.frame hmax hinv hs
      have hacc := hinv.acc
      have hnq := hr.nlq
      have h3 : ∀ j, j < cfg.nev + cfg.nex → Pair (st3.ritzv j) (cols st3.be j) := by
        intro j hj
        rcases Nat.lt_or_ge j st.locked with hlt | hge
        · obtain ⟨a1, -, a3⟩ := hr.frozen j hlt
          rw [a1, a3]
          refine hp ?_ j hj
          rcases Nat.eq_zero_or_pos st.iteration with h0 | h0
          · rw [hl0 h0] at hlt; omega
          · exact h0
        · have := hpair q hr.ready (j - st.locked) (by omega)
          rw [← hr.values _ (by omega), ← hr.columns] at this
          rwa [show nl q + (j - st.locked) = j by omega,
            show st.locked + (j - st.locked) = j by omega] at this
      obtain ⟨-, -, σ, hσ, g1, -, -, g2⟩ := lockStep_perm (P := P) hP hb (st := st3)
        (by rw [hr.locked, hr.unconverged]; exact hinv.acc) (by rw [hr.locked]; exact hinv.lk)
        hr.synced (hr.nl3.trans hr.locked.symm)
      rw [g1, g2]
      rw [hr.locked, hr.unconverged] at hσ
      exact h3 _ ((hσ.mono (Nat.zero_le _) (by omega)).mem (Nat.zero_le _) hi).2
    · intro h
      have := iter_iteration _ _ _ _ _ hs.2
      omega

/-- Non-vacuity of C04 and C05: the toy run ends with the values 5, 3, which the final sort
rearranges; the columns carry the same labels as the values, and Rayleigh-Ritz establishes that. -/
example : MakesPairs (Toy.ops Toy.vals1 Toy.res1 true) Toy.TS.cols Toy.TS.nl Toy.phases
      (fun v x => v = x) 3 ∧
    Toy.okAnd (fun out => decide (out.ritzv 0 = 3) && decide (out.ritzv 1 = 5) &&
      decide (out.be.cols 0 = 3) && decide (out.be.cols 1 = 5) && decide (0 < out.iterations))
    (solve Toy.plat (Toy.ops Toy.vals1 Toy.res1 true) Toy.cfg1 (fun _ => 0) (fun _ => 0) Toy.start)
    = true := by
  refine ⟨?_, by rw [Toy.solve_eq_solveE]; decide +kernel⟩
  intro s _ i hi
  show Toy.vals1 _ i = writeAt s.cols s.nl (3 - s.nl) _ (s.nl + i)
  rw [writeAt, if_pos (by omega), Nat.add_sub_cancel_left]

/-! ### C06 -/

/-- Residuals at the end of the iteration belong to the pairs at the same position. -/
theorem residuals_at_end {P : Plat R} {ops : Chase R S} {cols : S → ℕ → V}
    {nl : S → ℕ} {ph : Phases S} {Res : R → V → R → Prop} {cfg : Config R} (hP : PermutesIndices P)
    (hb : Bookkeeping ops cols nl ph cfg.N (cfg.nev + cfg.nex)) (hmax : Even cfg.maxDeg)
    (hres : MakesResiduals ops cols nl ph Res (cfg.nev + cfg.nex))
    {ritzv0 resid0 : ℕ → R} {be : S} (hpre : ph.pre be) {st : St R S} (h : Reach P ops cfg ritzv0 resid0 be st)
    (hit : 0 < st.iteration) :
    ∀ i, i < cfg.nev + cfg.nex → Res (st.ritzv i) (cols st.be i) (st.resid i) := by
  have key := reach_inv (ops := ops)
    (fun st => LoopInv cfg nl ph st ∧
      (0 < st.iteration → ∀ i, i < cfg.nev + cfg.nex →
        Res (st.ritzv i) (cols st.be i) (st.resid i)) ∧
      (st.iteration = 0 → st.locked = 0)) ?_ ?_ h
  · exact key.2.1 hit
  · intro st hi
    have hi' := hi
    obtain ⟨be1, l, -, -, -, rfl⟩ := initState_ok hi
    exact ⟨loopInv_init hb.frame hmax hpre hi', by intro h; simp at h, fun _ => rfl⟩
  · rintro st st' hreach ⟨hinv, hp, hl0⟩ hs
    refine ⟨(loopInv_step hP hb hmax hinv hs).1, ?_, ?_⟩
    · intro _ i hi
      obtain ⟨q, st3, hr, rfl⟩ := round_exists hb.frame hmax hinv hs
      have hs3 := hr.residuals
      have hacc := hinv.acc
      have h3 : ∀ j, j < cfg.nev + cfg.nex → Res (st3.ritzv j) (cols st3.be j) (st3.resid j) := by
        intro j hj
        rcases Nat.lt_or_ge j st.locked with hlt | hge
        · obtain ⟨a1, a2, a3⟩ := hr.frozen j hlt
          rw [a1, a2, a3]
          refine hp ?_ j hj
          rcases Nat.eq_zero_or_pos st.iteration with h0 | h0
          · rw [hl0 h0] at hlt; omega
          · exact h0
        · have hq := hr.nlq
          have hlk := hinv.lk
          have := hres (fun i => st3.ritzv (st.locked + i)) q hr.ready (by omega)
            (fun i hi => hr.values i (by omega)) (j - st.locked) (by omega)
          rw [← hs3 _ (by omega), ← hr.columns, hq] at this
          rwa [show st.locked + (j - st.locked) = j by omega] at this
      obtain ⟨-, -, σ, hσ, g1, g2, -, g3⟩ := lockStep_perm (P := P) hP hb (st := st3)
        (by rw [hr.locked, hr.unconverged]; exact hinv.acc) (by rw [hr.locked]; exact hinv.lk)
        hr.synced (hr.nl3.trans hr.locked.symm)
      rw [g1, g2, g3]
      rw [hr.locked, hr.unconverged] at hσ
      exact h3 _ ((hσ.mono (Nat.zero_le _) (by omega)).mem (Nat.zero_le _) hi).2
    · intro h
      have := iter_iteration _ _ _ _ _ hs.2
      omega

/-- **C06** (partial).  Every returned pair has a residual in the residual array, namely at position
`σ i`, where `σ` is the rearrangement made by the final sort; at its own position `i` if the values
were in ascending order when the iteration ended.  The full claim (always at position `i`) is false,
see `C06_residual_pairing_refuted`: the final sort does not move the residuals. -/
theorem C06_residuals_partial {R : Type*} [Add R] [Sub R] [Mul R] [Div R] [Neg R] [Zero R] [One R] [NatCast R] [LinearOrder R]
    (P : Plat R) (ops : Chase R S) (cols : S → ℕ → V)
    (nl : S → ℕ) (ph : Phases S) (Res : R → V → R → Prop) (cfg : Config R) (hP : PermutesIndices P)
    (hb : Bookkeeping ops cols nl ph cfg.N (cfg.nev + cfg.nex)) (hmax : Even cfg.maxDeg)
    (hres : MakesResiduals ops cols nl ph Res (cfg.nev + cfg.nex))
    (ritzv0 resid0 : ℕ → R) (be : S) (hpre : ph.pre be) (out : Outcome R S)
    (hsym : cfg.symCheck = true → (ops.checkSymmetryEasy be).1 = true)
    (h : solve P ops cfg ritzv0 resid0 be = .ok out) (hit : 0 < out.iterations) :
    ∃ be0 st, be0 = (if cfg.symCheck then (ops.checkSymmetryEasy be).2 else be) ∧
      Reach P ops cfg ritzv0 resid0 be0 st ∧ ¬ running cfg st ∧
      ∃ σ : Equiv.Perm ℕ, PermOn 0 cfg.nev σ ∧ out.ritzv = st.ritzv ∘ σ ∧
      (∀ i, i < cfg.nev + cfg.nex → Res (out.ritzv i) (cols out.be i) (out.resid (σ i))) ∧
      (SortedOn 0 cfg.nev st.ritzv →
        ∀ i, i < cfg.nev + cfg.nex → Res (out.ritzv i) (cols out.be i) (out.resid i)) := by
  obtain ⟨be0, st0, st, hbe0, h0, hst, hnr, -, rfl⟩ := solve_ok h hsym
  have hreach := steps_reach (.init h0) hst
  have hpre0 : ph.pre be0 := by
    rw [hbe0]; split_ifs
    · exact hb.check _ hpre
    · exact hpre
  have hend := residuals_at_end hP hb hmax hres hpre0 hreach hit
  obtain ⟨-, σ, hσ, g1, g2⟩ := finalSort_spec (cols := cols) (nev := cfg.nev)
    (hb.swap.mono (by omega)) st.ritzv st.be
  refine ⟨be0, st, hbe0, hreach, hnr, σ, hσ, g1, ?_, ?_⟩
  · intro i hi
    dsimp only
    rw [hb.finish, g1, g2]
    exact hend _ ((hσ.mono (Nat.le_refl 0) (by omega)).mem (Nat.zero_le _) hi).2
  · intro hsorted i hi
    dsimp only
    rw [hb.finish, finalSort_of_sorted ops st.be hsorted]
    exact hend i hi

/-- The toy backend returns the residual that belongs to each value. -/
theorem Toy.makesResiduals (vals : ℕ → ℕ → ℚ) (resOf : ℚ → ℚ) (n : ℕ) :
    MakesResiduals (Toy.ops vals resOf true) Toy.TS.cols Toy.TS.nl Toy.phases (fun v _ r => r = resOf v) n :=
  fun _ _ _ _ _ _ _ => rfl

/-- **C06 is false as stated**: there is a backend keeping all contracts, whose residual computation
is right, and a successful solve after which residual `0` is not the residual of pair `0`.  The
reason is that the final sort exchanges values and vectors but not residuals. -/
theorem C06_residual_pairing_refuted :
    ∃ (P : Plat ℚ) (ops : Chase ℚ Toy.TS) (Res : ℚ → ℚ → ℚ → Prop) (cfg : Config ℚ)
      (out : Outcome ℚ Toy.TS),
      SortsIndices P ∧ SortKeepsSorted P ∧
      Bookkeeping ops Toy.TS.cols Toy.TS.nl Toy.phases cfg.N (cfg.nev + cfg.nex) ∧
      Even cfg.maxDeg ∧ MakesResiduals ops Toy.TS.cols Toy.TS.nl Toy.phases Res (cfg.nev + cfg.nex) ∧
      (ops.checkSymmetryEasy Toy.start).1 = true ∧
      solve P ops cfg (fun _ => 0) (fun _ => 0) Toy.start = .ok out ∧
      0 < out.iterations ∧ 0 < cfg.nev ∧
      ¬ Res (out.ritzv 0) (out.be.cols 0) (out.resid 0) := by
  obtain ⟨out, h, g⟩ := Toy.okAnd_elim (p := fun out : Outcome ℚ Toy.TS =>
      decide (0 < out.iterations) && decide (¬ out.resid 0 = Toy.res1 (out.ritzv 0)))
    (x := solve Toy.plat (Toy.ops Toy.vals1 Toy.res1 true) Toy.cfg1 (fun _ => 0) (fun _ => 0)
      Toy.start) (by rw [Toy.solve_eq_solveE]; decide +kernel)
  simp only [Bool.and_eq_true, decide_eq_true_eq] at g
  exact ⟨Toy.plat, Toy.ops Toy.vals1 Toy.res1 true, fun v _ r => r = Toy.res1 v, Toy.cfg1, out,
    Toy.plat_sorts, Toy.plat_keeps, Toy.ops_bookkeeping .., by decide, Toy.makesResiduals _ _ _, rfl, h,
    g.1, by decide, g.2⟩

/-- Non-vacuity of the second part of `C06_residuals_partial`: with a script whose values come in
ascending order the residuals do stay with their pairs. -/
example : Toy.okAnd (fun out => decide (out.ritzv 0 = 3) && decide (out.ritzv 1 = 5) &&
      decide (out.resid 0 = 1 / 20) && decide (out.resid 1 = 1 / 100))
    (solve Toy.plat (Toy.ops (fun b i => if b = 3 then 3 + 3 * i else 5 + i) Toy.res1 true) Toy.cfg1
      (fun _ => 0) (fun _ => 0) Toy.start) = true := by rw [Toy.solve_eq_solveE]; decide +kernel

/-! ### C07 -/

/-- **C07** for arbitrary arithmetic (partial: when the index list is in order).  The pairs locked by
`locking` are exactly the longest prefix of pairs that do not satisfy both `tol < resid` and
`resid < residLast`; nothing is moved.  No law of the order is used, so this is also what happens
in floating point and with a residual that is not a number. -/
theorem C07_locking_arith_partial {R : Type*} [LT R] [DecidableLT R] (P : Plat R) (ops : Chase R S) (u : ℕ) (tol : R) (locked : ℕ)
    (ritzv resid residLast : ℕ → R) (be : S)
    (hidx : ∀ k, k < u → P.sortIdx u (fun i => ritzv (locked + i)) k = k) :
    let r := locking P ops u tol locked ritzv resid residLast be
    r.ritzv = ritzv ∧ r.resid = resid ∧ r.residLast = residLast ∧ r.be = be ∧
    r.converged ≤ u ∧
    (∀ i, i < r.converged →
      ¬ (tol < resid (locked + i) ∧ resid (locked + i) < residLast (locked + i))) ∧
    (r.converged < u → tol < resid (locked + r.converged) ∧
      resid (locked + r.converged) < residLast (locked + r.converged)) := by
  have h := lockLoop_id (ops := ops) (tol := tol) (locked := locked) hidx u 0
    { ritzv, resid, residLast, be, converged := 0 } (by omega) rfl
  have hle := lockLoop_converged_le ops tol (P.sortIdx u (fun i => ritzv (locked + i))) locked u 0
    { ritzv, resid, residLast, be, converged := 0 }
  obtain ⟨h1, h2, h3, h4, h5, h6⟩ := h
  exact ⟨h1, h2, h3, h4, by have := hle.2; rw [Nat.zero_add] at this; exact this, fun i hi => h5 i (Nat.zero_le _) hi, h6⟩

/-- **C07** (partial: when the index list is in order, i.e. for Rayleigh-Ritz values that are already
ascending and a sort that keeps them).  The pairs locked by `locking` are exactly the longest prefix
of pairs whose residual is at most `tol` or did not decrease; nothing is moved.  Without the
hypothesis the claim is false, see `C07_locking_refuted`. -/
theorem C07_locking_partial {R : Type*} [LinearOrder R] (P : Plat R) (ops : Chase R S) (u : ℕ)
    (tol : R) (locked : ℕ) (ritzv resid residLast : ℕ → R) (be : S)
    (hidx : ∀ k, k < u → P.sortIdx u (fun i => ritzv (locked + i)) k = k) :
    let r := locking P ops u tol locked ritzv resid residLast be
    r.ritzv = ritzv ∧ r.resid = resid ∧ r.residLast = residLast ∧ r.be = be ∧
    r.converged ≤ u ∧
    (∀ i, i < r.converged →
      resid (locked + i) ≤ tol ∨ residLast (locked + i) ≤ resid (locked + i)) ∧
    (r.converged < u → tol < resid (locked + r.converged) ∧
      resid (locked + r.converged) < residLast (locked + r.converged)) := by
  obtain ⟨h1, h2, h3, h4, h5, h6, h7⟩ := C07_locking_arith_partial P ops u tol locked ritzv resid
    residLast be hidx
  refine ⟨h1, h2, h3, h4, h5, fun i hi => ?_, h7⟩
  have := h6 i hi
  rwa [not_and_or, not_lt, not_lt] at this

/-- The hypothesis of `C07_locking_partial` holds for strictly ascending values and any correct
sorting routine. -/
theorem sortIdx_of_strict {R : Type*} [LinearOrder R] {P : Plat R} (hP : SortsIndices P) {u : ℕ} {key : ℕ → R}
    (h : ∀ a b, a < b → b < u → key a < key b) : ∀ k, k < u → P.sortIdx u key k = k := by
  obtain ⟨h1, h2, h3⟩ := hP u key
  -- the result is strictly increasing, hence the identity
  have mono : ∀ k l, k < l → l < u → P.sortIdx u key k < P.sortIdx u key l := by
    intro k l hkl hl
    by_contra hcon
    have hne : P.sortIdx u key k ≠ P.sortIdx u key l := fun he => by
      have := h2 k l (by omega) hl he; omega
    have := h _ _ (show P.sortIdx u key l < P.sortIdx u key k by omega) (h1 k (by omega))
    exact absurd (h3 k l (by omega) hl) (not_le.mpr this)
  have lower : ∀ k, k < u → k ≤ P.sortIdx u key k := by
    intro k
    induction k with
    | zero => intro _; exact Nat.zero_le _
    | succ k ih =>
      intro hk
      have := ih (by omega)
      have := mono k (k + 1) (by omega) hk
      omega
  have upper : ∀ d k, k + d + 1 = u → P.sortIdx u key k ≤ k := by
    intro d
    induction d with
    | zero => intro k hk; have := h1 k (by omega); omega
    | succ d ih =>
      intro k hk
      have := ih (k + 1) (by omega)
      have := mono k (k + 1) (by omega) (by omega)
      omega
  intro k hk
  exact le_antisymm (upper (u - 1 - k) k (by omega)) (lower k hk)

/-- **C07** for a whole solve (partial, same gap): in every round, if the Rayleigh-Ritz values come
ascending and the sort keeps ascending lists, each newly locked pair has residual at most `tol`, or
its residual is not below the best residual seen before at its place in the search space; and the
newly locked values are ascending. -/
theorem C07_rounds_partial {R : Type*} [Add R] [Sub R] [Mul R] [Div R] [Neg R] [Zero R] [One R] [NatCast R] [LinearOrder R]
    (P : Plat R) (ops : Chase R S) (cols : S → ℕ → V)
    (nl : S → ℕ) (ph : Phases S) (cfg : Config R) (hP : SortsIndices P)
    (hkeep : SortKeepsSorted P)
    (hb : Bookkeeping ops cols nl ph cfg.N (cfg.nev + cfg.nex)) (hmax : Even cfg.maxDeg)
    (hasc : ∀ s, ph.ready s → SortedOn 0 (cfg.nev + cfg.nex - nl s)
      (ops.rr (cfg.nev + cfg.nex - nl s) s).1)
    (ritzv0 resid0 : ℕ → R) (be : S) (hpre : ph.pre be) (st st' : St R S)
    (hr : Reach P ops cfg ritzv0 resid0 be st) (hs : Step P ops cfg st st') :
    SortedOn st.locked st'.locked st'.ritzv ∧
    ∃ τ : Equiv.Perm ℕ, PermOn st.locked (cfg.nev + cfg.nex) τ ∧
    ∀ i, st.locked ≤ i → i < st'.locked →
      st'.resid i ≤ cfg.tol ∨ min (st.residLast (τ i)) (st.resid (τ i)) ≤ st'.resid i := by
  have hinv : LoopInv cfg nl ph st := reach_inv (LoopInv cfg nl ph) (fun st h => loopInv_init hb.frame hmax hpre h)
      (fun st st' _ hi hs => (loopInv_step hP hb hmax hi hs).1) hr
  obtain ⟨q, st3, hrd, rfl⟩ := round_exists hb.frame hmax hinv hs
  obtain ⟨τ, hτ, eτ⟩ := hrd.last
  have e1 := hrd.locked
  have e2 := hrd.unconverged
  have hnq := hrd.nlq
  have hacc := hinv.acc
  have hval := hrd.values
  have hsorted : SortedOn 0 (st3.unconverged - cfg.nex) (fun i => st3.ritzv (st3.locked + i)) := by
    intro a b _ hab hb'
    dsimp only
    rw [e1, hval a (by omega), hval b (by omega)]
    exact hasc q hrd.ready a b (Nat.zero_le _) hab (by rw [hnq]; omega)
  have hidx := hkeep _ _ hsorted
  obtain ⟨c1, c2, c3, c4, c5, c6, c7⟩ := C07_locking_partial P ops (st3.unconverged - cfg.nex)
    cfg.tol st3.locked st3.ritzv st3.resid st3.residLast st3.be hidx
  generalize hcv : (locking P ops (st3.unconverged - cfg.nex) cfg.tol st3.locked st3.ritzv
    st3.resid st3.residLast st3.be).converged = cv at c5 c6 c7
  have hlocked : (lockStep P ops cfg st3).locked = st.locked + cv := by
    show st3.locked + _ = _
    rw [hcv, e1]
  have hritz : (lockStep P ops cfg st3).ritzv = st3.ritzv := c1
  have hresid : (lockStep P ops cfg st3).resid = st3.resid := c2
  refine ⟨?_, τ, hτ, ?_⟩
  · intro a b ha hab hb'
    rw [hlocked] at hb'
    rw [hritz]
    have := hsorted (a - st.locked) (b - st.locked) (Nat.zero_le _) (by omega) (by omega)
    dsimp only at this
    rwa [e1, show st.locked + (a - st.locked) = a by omega,
      show st.locked + (b - st.locked) = b by omega] at this
  · intro i h1 h2
    rw [hlocked] at h2
    rw [hresid]
    have := c6 (i - st.locked) (by omega)
    rw [e1, eτ _ (by omega), show st.locked + (i - st.locked) = i by omega, stdMin_eq] at this
    exact this

/-- Non-vacuity of `C07_locking_partial`: three ascending values, the first converged, the second
stagnating, the third neither: two pairs are locked. -/
example : (∀ k, k < 3 → Toy.plat.sortIdx 3 (fun i => (fun i => (i : ℚ)) (0 + i)) k = k) ∧
    (locking Toy.plat (Toy.ops Toy.vals1 Toy.res1 true) 3 (1 / 10) 0 (fun i => (i : ℚ))
      (fun i => if i = 0 then 1 / 100 else 1) (fun i => if i = 1 then 1 / 2 else 2)
      Toy.start).converged = 2 :=
  ⟨fun k hk => Toy.plat_keeps 3 _ (fun a b _ hab _ => by simpa using hab) k hk, by decide +kernel⟩

/-- A sorting routine that is correct but not stable: for three equal keys it answers `2, 0, 1`. -/
def Toy.unstable : Plat ℚ where
  __ := Toy.plat
  sortIdx := fun u key k =>
    if u = 3 ∧ key 0 = key 1 ∧ key 1 = key 2 then (if k = 0 then 2 else k - 1)
    else Toy.plat.sortIdx u key k

theorem Toy.unstable_sorts : SortsIndices Toy.unstable := by
  intro u key
  by_cases hc : u = 3 ∧ key 0 = key 1 ∧ key 1 = key 2
  · have e : ∀ k, Toy.unstable.sortIdx u key k = if k = 0 then 2 else k - 1 := fun k => if_pos hc
    obtain ⟨rfl, h1, h2⟩ := hc
    refine ⟨?_, ?_, ?_⟩
    · intro k hk; rw [e]; split_ifs <;> omega
    · intro k l hk hl; rw [e, e]; split_ifs <;> omega
    · intro k l hkl hl
      rw [e, e]
      have hk : k = 0 ∨ k = 1 ∨ k = 2 := by omega
      have hl : l = 0 ∨ l = 1 ∨ l = 2 := by omega
      rcases hk with rfl | rfl | rfl <;> rcases hl with rfl | rfl | rfl <;>
        simp [h1, h2]
  · have e : Toy.unstable.sortIdx u key = Toy.plat.sortIdx u key := funext fun k => if_neg hc
    rw [e]; exact Toy.plat_sorts u key

/-- **C07 is false as stated**: with a correct sorting routine, `locking` can lock a pair (here at
position 0) whose residual is above the tolerance and has decreased, although values arrive in
ascending order (a tie).  The loop follows the index list computed before its own exchanges. -/
theorem C07_locking_refuted :
    ∃ (P : Plat ℚ) (ritzv resid residLast : ℕ → ℚ), SortsIndices P ∧ SortedOn 0 3 ritzv ∧
      let r := locking P (Toy.ops Toy.vals1 Toy.res1 true) 3 (1 / 10) 0 ritzv resid residLast
        Toy.start
      0 < r.converged ∧ 1 / 10 < r.resid 0 ∧ r.resid 0 < r.residLast 0 := by
  refine ⟨Toy.unstable, fun _ => 1, fun i => if i = 2 then 1 / 100 else 1, fun _ => 2,
    Toy.unstable_sorts, fun _ _ _ _ _ => le_rfl, ?_⟩
  decide +kernel

/-- The same with a stable sort and values that arrive out of order. -/
theorem C07_locking_refuted_unsorted :
    ∃ (ritzv resid residLast : ℕ → ℚ),
      let r := locking Toy.plat (Toy.ops Toy.vals1 Toy.res1 true) 3 (1 / 10) 0 ritzv resid residLast
        Toy.start
      0 < r.converged ∧ 1 / 10 < r.resid 0 ∧ r.resid 0 < r.residLast 0 := by
  refine ⟨fun i => if i = 2 then 1 else i + 2, fun i => if i = 2 then 1 / 100 else 1, fun _ => 2, ?_⟩
  decide +kernel

/-- Non-vacuity of `C07_rounds_partial`: the toy script has ascending values. -/
example : SortKeepsSorted Toy.plat ∧ ∀ s : Toy.TS, SortedOn 0 (3 - s.nl)
    ((Toy.ops Toy.vals1 Toy.res1 true).rr (3 - s.nl) s).1 := by
  refine ⟨Toy.plat_keeps, ?_⟩
  intro s a b _ hab hb
  show Toy.vals1 _ a ≤ Toy.vals1 _ b
  have : (a : ℚ) ≤ b := by exact_mod_cast hab
  unfold Toy.vals1
  split_ifs <;> linarith

/-! ### C08 -/

/-- **C08** If the symmetry check is enabled and fails, `Solve` returns normally, values and
residuals are as before, no round is made, and the only call on the backend is the check itself. -/
theorem C08_failed_check_no_effect (P : Plat R) (ops : Chase R S) (cfg : Config R)
    (ritzv0 resid0 : ℕ → R) (be : S) (hcfg : cfg.symCheck = true)
    (hsym : (ops.checkSymmetryEasy be).1 = false) :
    ∃ out, solve P (traced ops) cfg ritzv0 resid0 (be, []) = .ok out ∧
      out.ritzv = ritzv0 ∧ out.resid = resid0 ∧ out.iterations = 0 ∧
      out.be.2 = [.checkSymmetryEasy] ∧ out.be.1 = (ops.checkSymmetryEasy be).2 := by
  refine ⟨{ ritzv := ritzv0, resid := resid0, iterations := 0, locked := 0,
            be := ((ops.checkSymmetryEasy be).2, [.checkSymmetryEasy]) }, ?_, rfl, rfl, rfl, rfl, rfl⟩
  unfold solve
  simp [hcfg, traced, hsym]

/-- Non-vacuity: the toy backend with a failing check. -/
example : ((Toy.ops Toy.vals1 Toy.res1 false).checkSymmetryEasy Toy.start).1 = false ∧
    Toy.cfg1.symCheck = true := ⟨rfl, rfl⟩

end Verif
