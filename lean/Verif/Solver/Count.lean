/-
Counting: if every backend call adds a known amount to a counter, how much does a round add?
-/
import Verif.Solver.LoopProof
import Verif.Solver.Trace

set_option linter.unusedSectionVars false

namespace Verif

variable {R S : Type*}

/-- The counter `f` grows by fixed or linear amounts with each call of the iteration phase. -/
structure Weights (ops : Chase R S) (f : S → ℕ) (ws a b wq ar br wd al bl : ℕ) : Prop where
  swap : ∀ i j s, f (ops.swap i j s) = f s
  shift : ∀ c u s, f (ops.shift c u s) = f s + ws
  hemm : ∀ n x y o s, f (ops.hemm n x y o s) = f s + (a * n + b)
  qr : ∀ k c s, f (ops.qr k c s) = f s + wq
  rr : ∀ n s, f (ops.rr n s).2 = f s + (ar * n + br)
  resd : ∀ g k s, f (ops.resd g k s).2 = f s + wd
  lock : ∀ k s, f (ops.lock k s) = f s + (al * k + bl)

variable [Add R] [Sub R] [Mul R] [Div R] [Neg R] [Zero R] [One R] [NatCast R] [LT R] [DecidableLT R] {ops : Chase R S} {f : S → ℕ}
  {ws a b wq ar br wd al bl : ℕ}

theorem filter_count (hw : Weights ops f ws a b wq ar br wd al bl) {n u deg : ℕ}
    {degrees : ℕ → ℕ} {dsize p0 : ℕ} {l lo up : R} {s s' : S} {av : ℕ}
    (h : filter ops n u deg degrees dsize p0 l lo up s = .ok (av, s')) :
    f s' = f s + 2 * ws + a * av + b * max 1 deg := by
  unfold filter at h
  split_ifs at h
  dsimp only at h
  split at h
  · cases h
  · rename_i p u1 off hw1
    split at h
    · cases h
    · rename_i st hst
      cases h
      have key : f st.be = f s + ws + a * st.av + b * max 1 deg := by
        rcases Nat.lt_or_ge deg 1 with hd | hd
        · rw [forRangeM_of_le (by omega)] at hst
          cases hst
          show f (ops.hemm _ _ _ _ _) = _
          rw [hw.hemm, hw.shift, max_eq_left (by omega)]
          ring
        · have := forRangeM_inv_partial (show 2 ≤ deg + 1 by omega) _
            (fun i (st : FilterSt R S) => f st.be = f s + ws + a * st.av + b * (i - 1))
            (by
              show f (ops.hemm _ _ _ _ _) = f s + ws + a * u + b * (2 - 1)
              rw [hw.hemm, hw.shift]; ring) ?_ hst
          · rw [this, max_eq_right hd]
            rfl
          · intro i st1 st2 hi1 hi2 h1 h2
            unfold filterStep at h2
            split_ifs at h2
            dsimp only at h2
            split at h2
            · cases h2
            · cases h2
              show f (ops.hemm _ _ _ _ _) = f s + ws + a * (st1.av + st1.unprocessed) + b * (i + 1 - 1)
              rw [hw.hemm, h1]
              obtain ⟨j, rfl⟩ : ∃ j, i = j + 1 := ⟨i - 1, by omega⟩
              simp only [Nat.add_sub_cancel]
              ring
      rw [hw.shift, key]
      ring

/-- A property kept by `Shift` and `HEMM` is kept by a filter call. -/
theorem filter_pres (Q : S → Prop) (hs : ∀ c u s, Q s → Q (ops.shift c u s))
    (hh : ∀ n x y o s, Q s → Q (ops.hemm n x y o s)) {n u deg : ℕ}
    {degrees : ℕ → ℕ} {dsize p0 : ℕ} {l lo up : R} {s s' : S} {av : ℕ}
    (h : filter ops n u deg degrees dsize p0 l lo up s = .ok (av, s')) (h0 : Q s) : Q s' := by
  unfold filter at h
  split_ifs at h
  dsimp only at h
  split at h
  · cases h
  · split at h
    · cases h
    · rename_i st hst
      cases h
      refine hs _ _ _ (forRangeM_pres_partial _ (fun st : FilterSt R S => Q st.be)
        (hh _ _ _ _ _ (hs _ _ _ h0)) ?_ hst)
      intro i st1 st2 _ _ h1 h2
      unfold filterStep at h2
      split_ifs at h2
      dsimp only at h2
      split at h2
      · cases h2
      · cases h2
        exact hh _ _ _ _ _ h1

theorem iter_count (hw : Weights ops f ws a b wq ar br wd al bl) {P : Plat R} {cfg : Config R}
    {st st' : St R S} (h : iter P ops cfg st = .ok st') :
    ∃ av deg, f st'.be = f st.be + 2 * ws + a * av + b * max 1 deg + wq + (ar * st.unconverged + br)
      + wd + (al * (st'.locked - st.locked) + bl) := by
  obtain ⟨st1, av, be2, h1, h2, rfl⟩ := iter_ok h
  have e1 : f st1.be = f st.be ∧ st1.locked = st.locked ∧ st1.unconverged = st.unconverged := by
    rcases optimise_ok h1 with ⟨rfl, -⟩ | ⟨deg, p, hc, rfl⟩
    · exact ⟨rfl, rfl, rfl⟩
    · refine ⟨?_, rfl, rfl⟩
      unfold calcDegrees at hc
      split_ifs at hc
      dsimp only at hc
      split at hc
      · cases hc
      · cases hc
        show f (sortDegrees _ _ _ _).be = _
        unfold sortDegrees
        refine forRange_pres _ (fun q : Pairs R S => f q.be = f st.be) rfl ?_
        intro j q _ _ hq
        refine forRange_pres _ (fun q : Pairs R S => f q.be = f st.be) hq ?_
        intro k q _ _ hq
        split_ifs
        · simp only [Pairs.exchange, hw.swap, hq]
        · exact hq
  have e2 := filter_count hw h2
  refine ⟨av, st1.deg, ?_⟩
  set st2 : St R S := { st1 with be := be2 }
  show f (ops.lock _ _) = _
  rw [hw.lock]
  show f (lockLoop _ _ _ _ _ _ _).be + _ = _
  rw [lockLoop_nl hw.swap]
  show f (project P ops cfg st2).be + _ = _
  have e3 : f (project P ops cfg st2).be = f be2 + wq + (ar * st1.unconverged + br) + wd := by
    unfold project
    dsimp only
    rw [hw.resd, hw.rr, hw.qr]
  have hl : (locking P ops ((project P ops cfg st2).unconverged - cfg.nex) cfg.tol
      (project P ops cfg st2).locked (project P ops cfg st2).ritzv (project P ops cfg st2).resid
      (project P ops cfg st2).residLast (project P ops cfg st2).be).converged =
      (lockStep P ops cfg (project P ops cfg st2)).locked - st.locked := by
    show _ = st1.locked + _ - st.locked
    rw [e1.2.1, Nat.add_sub_cancel_left]
  rw [e3, e2, e1.1, e1.2.2, hl]

theorem traced_weights_rr (ops : Chase R S) :
    Weights (traced ops) (fun s => rrCalls s.2) 0 0 0 0 0 1 0 0 0 := by
  constructor <;> intros <;> simp [traced, rrCalls_append, rrCalls]

theorem traced_weights_lock (ops : Chase R S) :
    Weights (traced ops) (fun s => lockSum s.2) 0 0 0 0 0 0 0 1 0 := by
  constructor <;> intros <;> simp [traced, lockSum_append, lockSum]

theorem traced_weights_hemm (ops : Chase R S) :
    Weights (traced ops) (fun s => hemmSum s.2) 0 1 0 0 0 0 0 0 0 := by
  constructor <;> intros <;> simp [traced, hemmSum_append, hemmSum]

/-- Counters that the calls before and after the iteration leave alone. -/
structure QuietOutside (ops : Chase R S) (f : S → ℕ) : Prop where
  swap : ∀ i j s, f (ops.swap i j s) = f s
  check : ∀ s, f (ops.checkSymmetryEasy s).2 = f s
  start : ∀ s, f (ops.start s) = f s
  finish : ∀ s, f (ops.finish s) = f s
  initVecs : ∀ b s, f (ops.initVecs b s) = f s
  qr : ∀ k c s, f (ops.qr k c s) = f s
  lanczos1 : ∀ m s, f (ops.lanczos1 m s).2 = f s
  lanczosN : ∀ m k s, f (ops.lanczosN m k s).2 = f s
  lanczosDos : ∀ i m z s, f (ops.lanczosDos i m z s) = f s

theorem traced_quiet_rr (ops : Chase R S) : QuietOutside (traced ops) (fun s => rrCalls s.2) := by
  constructor <;> intros <;> simp [traced, rrCalls_append, rrCalls]

theorem traced_quiet_lock (ops : Chase R S) : QuietOutside (traced ops) (fun s => lockSum s.2) := by
  constructor <;> intros <;> simp [traced, lockSum_append, lockSum]

theorem traced_quiet_hemm (ops : Chase R S) : QuietOutside (traced ops) (fun s => hemmSum s.2) := by
  constructor <;> intros <;> simp [traced, hemmSum_append, hemmSum]

theorem initState_quiet (hq : QuietOutside ops f) {P : Plat R} {cfg : Config R}
    {ritzv0 resid0 : ℕ → R} {be : S} {st : St R S}
    (h : initState P ops cfg ritzv0 resid0 be = .ok st) : f st.be = f be := by
  obtain ⟨be1, l, hbe1, hl, hn, rfl⟩ := initState_ok h
  show f l.be = _
  rw [lanczos_nl hq.swap hq.lanczos1 hq.lanczosN hq.lanczosDos hl, hbe1]
  split_ifs
  · rw [hq.qr, hq.initVecs, hq.start]
  · rw [hq.initVecs, hq.start]

theorem finalSort_quiet {α : Type*} {f : S → α} (hq : ∀ i j s, f (ops.swap i j s) = f s) (nev : ℕ) (ritzv : ℕ → R)
    (be : S) : f (finalSort ops nev ritzv be).2 = f be := by
  unfold finalSort
  refine forRange_pres _ (fun st : (ℕ → R) × S => f st.2 = f be) rfl ?_
  intro i s _ _ h
  refine forRange_pres _ (fun st : (ℕ → R) × S => f st.2 = f be) h ?_
  intro j s _ _ h
  split_ifs
  · show f (ops.swap _ _ _) = _
    rw [hq, h]
  · exact h

/-- The loop of `solve` ends in a state from which no further round starts, reached by rounds. -/
theorem solveLoop_ok {P : Plat R} {cfg : Config R} {st st' : St R S}
    (h : solveLoop P ops cfg st = .ok st') : Steps P ops cfg st st' ∧ ¬ running cfg st' := by
  induction hn : cfg.maxIter - st.iteration using Nat.strong_induction_on generalizing st with
  | _ n ih =>
    subst hn
    unfold solveLoop at h
    split_ifs at h with hr
    · split at h
      · cases h
      · rename_i st1 h1
        obtain ⟨g1, g2⟩ := ih (cfg.maxIter - st1.iteration)
          (by have := iter_iteration P ops cfg st st1 h1; have := hr.2; omega) h rfl
        refine ⟨?_, g2⟩
        have : Steps P ops cfg st st1 := .tail (.refl st) ⟨hr, h1⟩
        clear h ih g2
        induction g1 with
        | refl => exact this
        | tail _ hs ih => exact .tail ih hs
    · cases h
      exact ⟨.refl _, hr⟩

/-- Anatomy of a successful solve whose symmetry check (if requested) succeeded. -/
theorem solve_ok {P : Plat R} {cfg : Config R} {ritzv0 resid0 : ℕ → R} {be : S} {out : Outcome R S}
    (h : solve P ops cfg ritzv0 resid0 be = .ok out)
    (hsym : cfg.symCheck = true → (ops.checkSymmetryEasy be).1 = true) :
    ∃ be0 st0 st, be0 = (if cfg.symCheck then (ops.checkSymmetryEasy be).2 else be) ∧
      initState P ops cfg ritzv0 resid0 be0 = .ok st0 ∧ Steps P ops cfg st0 st ∧
      ¬ running cfg st ∧ cfg.nev ≠ 0 ∧
      out = { ritzv := (finalSort ops cfg.nev st.ritzv st.be).1, resid := st.resid,
              iterations := st.iteration, locked := st.locked,
              be := ops.finish (finalSort ops cfg.nev st.ritzv st.be).2 } := by
  unfold solve at h
  by_cases hc : cfg.symCheck = true
  · simp only [hc, if_true] at h ⊢
    rw [hsym hc] at h
    simp only [Bool.true_eq_false, if_false] at h
    split at h
    · cases h
    · rename_i st0 h0
      split at h
      · cases h
      · rename_i st h1
        split_ifs at h with hn
        cases h
        obtain ⟨g1, g2⟩ := solveLoop_ok h1
        exact ⟨_, st0, st, rfl, h0, g1, g2, hn, rfl⟩
  · simp only [hc] at h ⊢
    simp only [Bool.false_eq_true, if_false, Bool.true_eq_false] at h ⊢
    split at h
    · cases h
    · rename_i st0 h0
      split at h
      · cases h
      · rename_i st h1
        split_ifs at h with hn
        cases h
        obtain ⟨g1, g2⟩ := solveLoop_ok h1
        exact ⟨_, st0, st, rfl, h0, g1, g2, hn, rfl⟩

theorem steps_reach {P : Plat R} {cfg : Config R} {ritzv0 resid0 : ℕ → R} {be : S}
    {st st' : St R S} (h0 : Reach P ops cfg ritzv0 resid0 be st) (h : Steps P ops cfg st st') :
    Reach P ops cfg ritzv0 resid0 be st' := by
  induction h with
  | refl => exact h0
  | tail _ hs ih => exact .step ih hs

/-- Invariant rule for reachable states. -/
theorem reach_inv {P : Plat R} {cfg : Config R} {ritzv0 resid0 : ℕ → R} {be : S}
    (I : St R S → Prop) (h0 : ∀ st, initState P ops cfg ritzv0 resid0 be = .ok st → I st)
    (hs : ∀ st st', Reach P ops cfg ritzv0 resid0 be st → I st → Step P ops cfg st st' → I st')
    {st : St R S} (h : Reach P ops cfg ritzv0 resid0 be st) : I st := by
  induction h with
  | init h => exact h0 _ h
  | step hr hst ih => exact hs _ _ hr ih hst

/-- Accounting that needs nothing of the backend. -/
theorem reach_acc {P : Plat R} {cfg : Config R} {ritzv0 resid0 : ℕ → R} {be : S}
    {st : St R S} (h : Reach P ops cfg ritzv0 resid0 be st) :
    st.locked + st.unconverged = cfg.nev + cfg.nex ∧ st.locked ≤ cfg.nev ∧
      st.iteration ≤ cfg.maxIter := by
  refine reach_inv (fun st => st.locked + st.unconverged = cfg.nev + cfg.nex ∧
    st.locked ≤ cfg.nev ∧ st.iteration ≤ cfg.maxIter) ?_ ?_ h
  · intro st h0
    obtain ⟨be1, l, -, -, -, rfl⟩ := initState_ok h0
    simp
  · rintro st st' _ ⟨h1, h2, h3⟩ ⟨hr, hi⟩
    have hit := iter_iteration P ops cfg st st' hi
    obtain ⟨st1, av, be2, g1, g2, rfl⟩ := iter_ok hi
    have e : st1.locked = st.locked ∧ st1.unconverged = st.unconverged := by
      rcases optimise_ok g1 with ⟨rfl, -⟩ | ⟨deg, p, hc, rfl⟩ <;> exact ⟨rfl, rfl⟩
    have := lockStep_acc (P := P) (ops := ops) (cfg := cfg)
      (st := project P ops cfg { st1 with be := be2 })
      (by show st1.locked + st1.unconverged = _; omega) (by show st1.locked ≤ _; omega)
    have := hr.2
    exact ⟨by tauto, by tauto, by omega⟩

end Verif
