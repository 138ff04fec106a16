/-
The backend at the end of a solve, in terms of the phases.
-/
import Verif.Solver.Props

set_option linter.unusedSectionVars false

namespace Verif

variable {R S V : Type*} [Add R] [Sub R] [Mul R] [Div R] [Neg R] [Zero R] [One R] [NatCast R] [LT R] [DecidableLT R]

/-- At the head of a round, after at least one round, the columns are those after a Rayleigh-Ritz step
in another order. -/
theorem columns_at_head {P : Plat R} {ops : Chase R S} {cols : S → ℕ → V} {nl : S → ℕ}
    {ph : Phases S} {cfg : Config R} (hP : PermutesIndices P)
    (hb : Bookkeeping ops cols nl ph cfg.N (cfg.nev + cfg.nex)) (hmax : Even cfg.maxDeg)
    {ritzv0 resid0 : ℕ → R} {be : S} (hpre : ph.pre be) {st : St R S}
    (h : Reach P ops cfg ritzv0 resid0 be st) :
    LoopInv cfg nl ph st ∧ (0 < st.iteration → ∃ (s : S) (σ : Equiv.Perm ℕ), ph.synced s ∧
      PermOn 0 (cfg.nev + cfg.nex) σ ∧ cols st.be = cols s ∘ σ) := by
  refine reach_inv (ops := ops) (fun st => LoopInv cfg nl ph st ∧ (0 < st.iteration →
      ∃ (s : S) (σ : Equiv.Perm ℕ), ph.synced s ∧
      PermOn 0 (cfg.nev + cfg.nex) σ ∧ cols st.be = cols s ∘ σ)) ?_ ?_ h
  · intro st hi
    have hi' := hi
    obtain ⟨be1, l, -, -, -, rfl⟩ := initState_ok hi
    exact ⟨loopInv_init hb.frame hmax hpre hi', by intro h; simp at h⟩
  · rintro st st' - ⟨hinv, -⟩ hs
    refine ⟨(loopInv_step hP hb hmax hinv hs).1, fun _ => ?_⟩
    obtain ⟨q, st3, hr, rfl⟩ := round_exists hb.frame hmax hinv hs
    have hacc3 : st3.locked + st3.unconverged = cfg.nev + cfg.nex := by
      rw [hr.locked, hr.unconverged]; exact hinv.acc
    have hlk3 : st3.locked ≤ cfg.nev := by rw [hr.locked]; exact hinv.lk
    obtain ⟨b1, b2, σ, hσ, s1, s2, s3, s4⟩ := lockStep_perm (P := P) hP hb hacc3 hlk3 hr.synced
      (hr.nl3.trans hr.locked.symm)
    exact ⟨st3.be, σ, hr.synced, fun i hi => hσ i (by omega), s4⟩

/-- At the end of a solve with at least one round the columns are those after a Rayleigh-Ritz step, in
another order. -/
theorem columns_at_end {P : Plat R} {ops : Chase R S} {cols : S → ℕ → V} {nl : S → ℕ}
    {ph : Phases S} {cfg : Config R} (hP : PermutesIndices P)
    (hb : Bookkeeping ops cols nl ph cfg.N (cfg.nev + cfg.nex)) (hmax : Even cfg.maxDeg)
    {ritzv0 resid0 : ℕ → R} {be : S} (hpre : ph.pre be) {out : Outcome R S}
    (hsym : cfg.symCheck = true → (ops.checkSymmetryEasy be).1 = true)
    (h : solve P ops cfg ritzv0 resid0 be = .ok out) (hit : 0 < out.iterations) :
    ∃ (s : S) (σ : Equiv.Perm ℕ), ph.synced s ∧ PermOn 0 (cfg.nev + cfg.nex) σ ∧
      cols out.be = cols s ∘ σ := by
  obtain ⟨be0, st0, st, hbe0, h0, hst, hnr, -, rfl⟩ := solve_ok h hsym
  have hpre : ph.pre be0 := by
    rw [hbe0]; split_ifs
    · exact hb.check _ hpre
    · exact hpre
  obtain ⟨-, hc⟩ := columns_at_head hP hb hmax hpre (steps_reach (.init h0) hst)
  obtain ⟨s, σ, hs, hσ, e⟩ := hc hit
  obtain ⟨τ, hτ, g1, g2⟩ := finalSort_perm (cols := cols) (nev := cfg.nev)
    (hb.swap.mono (by omega)) st.ritzv st.be
  refine ⟨s, σ * τ, hs, ?_, ?_⟩
  · intro i hi
    have : τ i = i := hτ i (by omega)
    show σ (τ i) = i
    rw [this, hσ i hi]
  · show cols (ops.finish (finalSort ops cfg.nev st.ritzv st.be).2) = _
    rw [hb.finish, g2, e]
    rfl

/-- What holds at the head of every round and survives exchanging columns and the final call holds at
the end of a solve. -/
theorem holds_at_end {P : Plat R} {ops : Chase R S} {cols : S → ℕ → V} {nl : S → ℕ}
    {ph : Phases S} {cfg : Config R} (hP : PermutesIndices P)
    (hb : Bookkeeping ops cols nl ph cfg.N (cfg.nev + cfg.nex)) (hmax : Even cfg.maxDeg)
    {ritzv0 resid0 : ℕ → R} {be : S} (hpre : ph.pre be) {out : Outcome R S}
    (hsym : cfg.symCheck = true → (ops.checkSymmetryEasy be).1 = true)
    (h : solve P ops cfg ritzv0 resid0 be = .ok out) {Q : S → Prop} (hinv : ∀ s, ph.inv s → Q s)
    (hsw : ∀ i j s, Q s → Q (ops.swap i j s)) (hfin : ∀ s, Q s → Q (ops.finish s)) : Q out.be := by
  obtain ⟨be0, st0, st, hbe0, h0, hst, hnr, -, rfl⟩ := solve_ok h hsym
  have hpre : ph.pre be0 := by
    rw [hbe0]; split_ifs
    · exact hb.check _ hpre
    · exact hpre
  obtain ⟨hl, -⟩ := columns_at_head hP hb hmax hpre (steps_reach (.init h0) hst)
  refine hfin _ ?_
  unfold finalSort
  refine forRange_pres _ (fun st : (ℕ → R) × S => Q st.2) (hinv _ hl.inv) ?_
  intro i s _ _ h
  refine forRange_pres _ (fun st : (ℕ → R) × S => Q st.2) h ?_
  intro j s _ _ h
  split_ifs
  · exact hsw _ _ _ h
  · exact h

end Verif
