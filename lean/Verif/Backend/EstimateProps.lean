/-
C88: the condition estimate that the solver hands to QR.
-/
import Verif.Backend.Estimate
import Verif.Backend.SubspaceExamples

set_option linter.unusedSectionVars false

open Polynomial Finset

namespace Verif

section Mark
variable {R S : Type*} [Add R] [Sub R] [Mul R] [Div R] [Neg R] [Zero R] [One R] [NatCast R] [LT R] [DecidableLT R]
  {bad : ℕ → R → S → Prop} {ops : Chase R S}

/-- The QR call of a round, as the watch sees it. -/
theorem iter_mark {P : Plat R} {cfg : Config R} {st st' : St R (S × Prop)}
    (h : iter P (watch bad ops) cfg st = .ok st') (hn : ¬ st.be.2) :
    ∃ st1 av s, optimise P ops cfg (updateBounds (cfg.nev + cfg.nex) st.bare) = .ok st1 ∧
      filter ops cfg.N st1.unconverged st1.deg st1.degrees (cfg.nev + cfg.nex) st1.locked st1.lambda
        st1.lowerb st1.upperb st1.be = .ok (av, s) ∧
      (st'.be.2 ↔ bad st1.locked (P.condEst st1.upperb st1.lowerb (st1.ritzv 0) (st1.ritzv st1.locked)
        (st1.degrees st1.locked) (maxElem st1.degrees st1.locked (cfg.nev + cfg.nex - st1.locked))) s) := by
  rw [watch_eq] at h
  unfold iter at h
  rw [optimise_withQr] at h
  have h1 := optimise_sim (watch_clean ops) P cfg (updateBounds_sim (cfg.nev + cfg.nex)
    (p := st) (p' := st) (r := fun p p' => p = p' ∧ ¬ p.2) (St.Rel.refl_of ⟨rfl, hn⟩))
  have g1 := optimise_sim (watch_sim (fun _ _ _ => False) ops) P cfg (updateBounds_sim (cfg.nev + cfg.nex)
    (r := fun (p : S × Prop) (s : S) => p.1 = s) (St.rel_bare st))
  cases ho : optimise P (watch (fun _ _ _ => False) ops) cfg (updateBounds (cfg.nev + cfg.nex) st) with
  | error e => rw [ho] at h; cases h
  | ok s1 =>
    rw [ho] at h g1
    have n1 := (RelE.self_ok h1 ho).be.2
    dsimp only at h
    rw [filter_withQr] at h
    have h2 := filter_sim (watch_clean ops) cfg.N s1.unconverged s1.deg s1.degrees (cfg.nev + cfg.nex)
      s1.locked s1.lambda s1.lowerb s1.upperb (be := s1.be) (be' := s1.be) ⟨rfl, n1⟩
    have g2 := filter_sim (watch_sim (fun _ _ _ => False) ops) cfg.N s1.unconverged s1.deg s1.degrees
      (cfg.nev + cfg.nex) s1.locked s1.lambda s1.lowerb s1.upperb (be := s1.be) (be' := s1.bare.be) rfl
    cases hf : filter (watch (fun _ _ _ => False) ops) cfg.N s1.unconverged s1.deg s1.degrees
      (cfg.nev + cfg.nex) s1.locked s1.lambda s1.lowerb s1.upperb s1.be with
    | error e => rw [hf] at h; cases h
    | ok w =>
      obtain ⟨av, be⟩ := w
      have n2 : ¬ be.2 := (RelE.self_ok h2 hf).2.2
      rw [hf] at h g2
      dsimp only at h
      rw [lockStep_withQr] at h
      injection h with h
      refine ⟨s1.bare, av, be.1, ?_, ?_, ?_⟩
      · generalize hy : optimise P ops cfg (updateBounds (cfg.nev + cfg.nex) st.bare) = y at g1
        cases g1 with
        | ok g => rw [← g.eq_bare]
      · generalize hy : filter ops cfg.N s1.unconverged s1.deg s1.degrees (cfg.nev + cfg.nex) s1.locked s1.lambda
          s1.lowerb s1.upperb s1.bare.be = y at g2
        cases g2 with
        | ok g =>
          rename_i y
          obtain ⟨a, b⟩ := y
          obtain ⟨e1, e2⟩ := g
          dsimp only at e1 e2
          subst e1 e2
          exact hy
      · rw [← h]
        constructor
        · intro hm
          by_contra hb
          exact (lockStep_sim (watch_clean ops) P cfg (St.Rel.refl_of ⟨rfl, not_or.mpr ⟨n2, hb⟩⟩)).be.2 hm
        · intro hb
          exact (lockStep_sim (watch_mark (fun _ _ _ => False) ops) P cfg
            (St.Rel.refl_of ⟨rfl, Or.inr hb⟩)).be.2

end Mark

variable {K : Type*} [RCLike K] {N : ℕ} {S : Type*}

/-! ### Specification -/

/-- The number `c` handed to QR, with `k` locked columns, is smaller than the condition number of the active
columns `[k, n)` the backend holds at that moment. -/
def Underestimates (cols : S → ℕ → Fin N → K) (n : ℕ) (k : ℕ) (c : ℝ) (s : S) : Prop :=
  ¬ CondAtMost c k n (cols s)

/-- `st1` are the variables of the solver at the call of the filter in the round that starts in `st`. -/
def FilterStarts (P : Plat ℝ) (ops : Chase ℝ S) (cfg : Config ℝ) (st st1 : St ℝ S) : Prop :=
  running cfg st ∧ optimise P ops cfg (updateBounds (cfg.nev + cfg.nex) st) = .ok st1

/-- A round whose active columns `X` are in reach of the filter.  `U` are orthonormal eigenvectors of `H` with
values `μ` not above the lower end of the damped interval and not below the first active Ritz value.  The
scaling point of the filter is not above that Ritz value, and the first Ritz value of all is not above the
scaling point.  `X` are these vectors, or any orthonormal vectors of their space if all active columns have
the same degree. -/
structure SettledRound (H : Matrix (Fin N) (Fin N) K) (n : ℕ) (st1 : St ℝ S) (X U : ℕ → Fin N → K)
    (μ : ℕ → ℝ) : Prop where
  interval : st1.lowerb < st1.upperb
  first : st1.ritzv 0 ≤ st1.lambda
  scaling : st1.lambda ≤ st1.ritzv st1.locked
  values : ∀ j, st1.locked ≤ j → j < n → st1.ritzv st1.locked ≤ μ j ∧ μ j ≤ st1.lowerb
  ortho : ∀ i j, st1.locked ≤ i → i < n → st1.locked ≤ j → j < n →
    dotc (U i) (U j) = if i = j then 1 else 0
  eigen : ∀ j, st1.locked ≤ j → j < n → H.mulVec (U j) = (μ j : K) • U j
  cols : (∀ j, st1.locked ≤ j → j < n → X j = U j) ∨
    (∀ j, st1.locked ≤ j → j < n → st1.degrees j = st1.degrees st1.locked) ∧
    (∀ i j, st1.locked ≤ i → i < n → st1.locked ≤ j → j < n → dotc (X i) (X j) = if i = j then 1 else 0) ∧
    ∀ j, st1.locked ≤ j → j < n → X j ∈ Submodule.span K (U '' {i | st1.locked ≤ i ∧ i < n})

/-! ### C88 -/

section Generic
variable {ops : Chase ℝ S} {cols user : S → ℕ → Fin N → K} {nl : S → ℕ} {ph : Phases S}
  {cfg : Config ℝ} {H : Matrix (Fin N) (Fin N) K}

/-- The columns that QR gets in a round, and when the number it gets with them is too small. -/
theorem round_mark {maxVal : ℝ} {gauss : ℝ → ℝ} (hB : Backs ops cols user nl ph cfg H)
    (hmax : Even cfg.maxDeg) {ritzv0 resid0 : ℕ → ℝ} {be : S} (hpre : ph.pre be) {st st' : St ℝ (S × Prop)}
    (h : Reach (realPlat maxVal gauss) (watch (Underestimates cols (cfg.nev + cfg.nex)) ops) cfg ritzv0 resid0
      (be, False) st) (hn : ¬ st.be.2)
    (hs : Step (realPlat maxVal gauss) (watch (Underestimates cols (cfg.nev + cfg.nex)) ops) cfg st st')
    {st1 : St ℝ S} (h1 : FilterStarts (realPlat maxVal gauss) ops cfg st.bare st1) :
    ∃ Y : ℕ → Fin N → K, (st'.be.2 ↔ ¬ CondAtMost (realCondEst st1.upperb st1.lowerb (st1.ritzv 0)
        (st1.ritzv st1.locked) (st1.degrees st1.locked)
        (maxElem st1.degrees st1.locked (cfg.nev + cfg.nex - st1.locked))) st1.locked (cfg.nev + cfg.nex) Y) ∧
      SortedOn st1.locked (cfg.nev + cfg.nex) st1.degrees ∧
      (st1.lambda ≤ st1.lowerb → st1.lowerb < st1.upperb → ∀ j, st1.locked ≤ j → j < cfg.nev + cfg.nex →
        Y j = (aeval H (filterPoly st1.lambda st1.lowerb st1.upperb (st1.degrees j))).mulVec (cols st1.be j)) := by
  obtain ⟨st1', av, s, e1, e2, e3⟩ := iter_mark hs.2 hn
  have : st1' = st1 := by
    have := e1.symm.trans h1.2
    cases this; rfl
  subst this
  have hP := realPlat_sorts maxVal gauss
  obtain ⟨st0, hr0, hrel⟩ := reach_sim (watch_sim (Underestimates cols (cfg.nev + cfg.nex)) ops)
    (realPlat maxVal gauss) cfg (s := (be, False)) (s' := be) rfl h
  rw [hrel.eq_bare] at hr0
  have hi := reach_loopInv hP hB.frame hmax hB.space.swap_cols hpre hr0
  obtain ⟨b, hb', -⟩ := step_sim (watch_sim (Underestimates cols (cfg.nev + cfg.nex)) ops)
    (realPlat maxVal gauss) cfg (St.rel_bare st) hs
  obtain ⟨st1, be2, q, st3, hf, -, -⟩ := round_exists_filter hB.frame hmax hi hb'
  have : st1 = st1' := by
    have := hf.opt.symm.trans e1
    cases this; rfl
  subst this
  have hacc := hi.acc
  have hu : st1.unconverged = cfg.nev + cfg.nex - st1.locked := by
    obtain ⟨o1, o2, -⟩ := optimise_frame (cols := fun _ _ => ()) (fun _ _ _ _ _ => rfl) hB.frame.swap_nl
      (by exact hacc) hf.opt
    have o1' : st1.locked = st.bare.locked := o1
    have o2' : st1.unconverged = st.bare.unconverged := o2
    omega
  have hnl : nl st1.be = st1.locked := hf.nl1.trans hf.locked.symm
  rw [hu, ← hnl] at e2
  have hsort : SortedOn (nl st1.be) (cfg.nev + cfg.nex) st1.degrees := by
    rw [hnl]; exact hf.deg.sorted
  have hdegs : ∀ i, nl st1.be ≤ i → i < cfg.nev + cfg.nex →
      Even (st1.degrees i) ∧ st1.degrees i ≤ st1.deg := by
    rw [hnl]; exact hf.deg.degs
  refine ⟨cols s, e3, hf.deg.sorted, fun hl hlt => ?_⟩
  have hc := hB.space.filter_cols _ _ _ _ _ _ _ _ _ hf.inv1 hf.deg.even hsort hdegs e2
    (fun i _ => C10_outside _ _ _ hlt (Or.inl hl) i)
  rwa [hnl] at hc

/-- **C88**, for every backend with the contracts: in a settled round the number handed to QR is at least the
condition number of the active columns. -/
theorem C88_round_partial {maxVal : ℝ} {gauss : ℝ → ℝ} (hB : Backs ops cols user nl ph cfg H)
    (hmax : Even cfg.maxDeg) {ritzv0 resid0 : ℕ → ℝ} {be : S} (hpre : ph.pre be) {st st' : St ℝ (S × Prop)}
    (h : Reach (realPlat maxVal gauss) (watch (Underestimates cols (cfg.nev + cfg.nex)) ops) cfg ritzv0 resid0
      (be, False) st) (hn : ¬ st.be.2)
    (hs : Step (realPlat maxVal gauss) (watch (Underestimates cols (cfg.nev + cfg.nex)) ops) cfg st st')
    {st1 : St ℝ S} (h1 : FilterStarts (realPlat maxVal gauss) ops cfg st.bare st1) {U : ℕ → Fin N → K}
    {μ : ℕ → ℝ} (hR : SettledRound H (cfg.nev + cfg.nex) st1 (cols st1.be) U μ) : ¬ st'.be.2 := by
  obtain ⟨Y, e3, hsorted, hY⟩ := round_mark hB hmax hpre h hn hs h1
  rw [e3, not_not]
  rcases Nat.lt_or_ge st1.locked (cfg.nev + cfg.nex) with hlt | hge
  · obtain ⟨v1, v2⟩ := hR.values st1.locked le_rfl hlt
    have hc := hY (hR.scaling.trans (v1.trans v2)) hR.interval
    have hmx := (maxElem_spec st1.degrees st1.locked (cfg.nev + cfg.nex - st1.locked) (by omega)).2
    have hle : ∀ j, st1.locked ≤ j → j < cfg.nev + cfg.nex → st1.degrees j ≤
        maxElem st1.degrees st1.locked (cfg.nev + cfg.nex - st1.locked) := by
      intro j h1 h2
      have := hmx (j - st1.locked) (by omega)
      dsimp only at this
      rwa [show st1.locked + (j - st1.locked) = j by omega] at this
    have h0 : 0 ≤ realCondEst st1.upperb st1.lowerb (st1.ritzv 0) (st1.ritzv st1.locked)
        (st1.degrees st1.locked) (maxElem st1.degrees st1.locked (cfg.nev + cfg.nex - st1.locked)) := by
      unfold realCondEst condRho
      positivity
    have hr : ∀ i j, st1.locked ≤ i → i < cfg.nev + cfg.nex → st1.locked ≤ j → j < cfg.nev + cfg.nex →
        |(filterPoly st1.lambda st1.lowerb st1.upperb (st1.degrees i)).eval (μ i)| ≤
          realCondEst st1.upperb st1.lowerb (st1.ritzv 0) (st1.ritzv st1.locked) (st1.degrees st1.locked)
            (maxElem st1.degrees st1.locked (cfg.nev + cfg.nex - st1.locked)) *
          |(filterPoly st1.lambda st1.lowerb st1.upperb (st1.degrees j)).eval (μ j)| := fun i j h1 h2 h3 h4 =>
      estimate_ratio hR.interval hR.first hR.scaling (hR.values i h1 h2).1 (hR.values i h1 h2).2
        (hR.values j h3 h4).2 (hsorted st1.locked i le_rfl h1 h2) (hle i h1 h2) (hle j h3 h4)
    rcases hR.cols with hX | ⟨hd, hoX, hsX⟩
    · refine condAtMost_of_scaled (U := U) h0 hR.ortho (fun j h1 h2 => ?_) hr
      rw [hc j h1 h2, hX j h1 h2, aeval_mulVec_eigenvector H _ (hR.eigen j h1 h2)]
    · refine condAtMost_of_mixed (aeval H (filterPoly st1.lambda st1.lowerb st1.upperb
        (st1.degrees st1.locked))).mulVecLin h0 hR.ortho
        hoX hsX (fun j h1 h2 => ?_) (fun j h1 h2 => ?_) hr
      · rw [hc j h1 h2, hd j h1 h2]; rfl
      · rw [Matrix.mulVecLin_apply, hd j h1 h2]
        exact aeval_mulVec_eigenvector H _ (hR.eigen j h1 h2)
  · intro b b' _
    rw [Finset.Ico_eq_empty (by omega)]
    simp [nrm2]

end Generic

/-! ### The backends -/

section Backends
variable {maxVal : ℝ} {gauss : ℝ → ℝ} {cfg : Config ℝ} {ritzv0 resid0 : ℕ → ℝ}

/-- **C88** (single process). -/
theorem C88_seq_partial (E : Env K) (hL : E.lapack.Ok) (hnev : E.nev = cfg.nev) (hnex : E.nex = cfg.nex)
    (hN : cfg.N = N) (hle : cfg.nev + cfg.nex ≤ N) (hmax : Even cfg.maxDeg) (s : Seq.St K N)
    (hH : s.H.IsHermitian) (st st' : St ℝ (Seq.St K N × Prop))
    (h : Reach (realPlat maxVal gauss) (watch (Underestimates Seq.St.C (cfg.nev + cfg.nex)) (Seq.ops E)) cfg
      ritzv0 resid0 (s, False) st) (hn : ¬ st.be.2)
    (hs : Step (realPlat maxVal gauss) (watch (Underestimates Seq.St.C (cfg.nev + cfg.nex)) (Seq.ops E)) cfg
      st st') (st1 : St ℝ (Seq.St K N)) (h1 : FilterStarts (realPlat maxVal gauss) (Seq.ops E) cfg st.bare st1)
    (U : ℕ → Fin N → K) (μ : ℕ → ℝ) (hR : SettledRound s.H (cfg.nev + cfg.nex) st1 st1.be.C U μ) :
    ¬ st'.be.2 :=
  C88_round_partial (Seq.backs hL hnev hnex hN hle hH) hmax rfl h hn hs h1 hR

/-- Two watched runs of backends that simulate each other. -/
theorem watch_rel {R S S' : Type*} {ops : Chase R S} {ops' : Chase R S'} {r : S → S' → Prop} (hs : Sim ops ops' r)
    {bad : ℕ → R → S → Prop} {bad' : ℕ → R → S' → Prop} (h : ∀ k c s s', r s s' → (bad k c s ↔ bad' k c s')) :
    Sim (watch bad ops) (watch bad' ops') (fun p p' => r p.1 p'.1 ∧ (p.2 ↔ p'.2)) where
  checkSymmetryEasy := fun _ _ e => ⟨(hs.checkSymmetryEasy _ _ e.1).1, (hs.checkSymmetryEasy _ _ e.1).2, e.2⟩
  start := fun _ _ e => ⟨hs.start _ _ e.1, e.2⟩
  finish := fun _ _ e => ⟨hs.finish _ _ e.1, e.2⟩
  initVecs := fun b _ _ e => ⟨hs.initVecs b _ _ e.1, e.2⟩
  qr := fun k c _ _ e => ⟨hs.qr k c _ _ e.1, or_congr e.2 (h k c _ _ e.1)⟩
  lanczos1 := fun m _ _ e => ⟨(hs.lanczos1 m _ _ e.1).1, (hs.lanczos1 m _ _ e.1).2, e.2⟩
  lanczosN := fun m k _ _ e => ⟨(hs.lanczosN m k _ _ e.1).1, (hs.lanczosN m k _ _ e.1).2, e.2⟩
  lanczosDos := fun i m z _ _ e => ⟨hs.lanczosDos i m z _ _ e.1, e.2⟩
  shift := fun c b _ _ e => ⟨hs.shift c b _ _ e.1, e.2⟩
  hemm := fun n a b o _ _ e => ⟨hs.hemm n a b o _ _ e.1, e.2⟩
  rr := fun b _ _ e => ⟨(hs.rr b _ _ e.1).1, (hs.rr b _ _ e.1).2, e.2⟩
  resd := fun f k _ _ e => ⟨(hs.resd f k _ _ e.1).1, (hs.resd f k _ _ e.1).2, e.2⟩
  lock := fun k _ _ e => ⟨hs.lock k _ _ e.1, e.2⟩
  swap := fun i j _ _ e => ⟨hs.swap i j _ _ e.1, e.2⟩

theorem FilterStarts.sim {S S' : Type*} {ops : Chase ℝ S} {ops' : Chase ℝ S'} {r : S → S' → Prop}
    (hs : Sim ops ops' r) {P : Plat ℝ} {a a1 : St ℝ S} {a' : St ℝ S'} (hab : St.Rel r a a')
    (h : FilterStarts P ops cfg a a1) : ∃ a1', FilterStarts P ops' cfg a' a1' ∧ St.Rel r a1 a1' := by
  have := optimise_sim hs P cfg (updateBounds_sim (cfg.nev + cfg.nex) hab)
  rw [h.2] at this
  generalize hy : optimise P ops' cfg (updateBounds (cfg.nev + cfg.nex) a') = y at this
  cases this with
  | ok hh =>
    rename_i b'
    refine ⟨b', ⟨?_, hy⟩, hh⟩
    have h1 := h.1
    unfold running at h1 ⊢
    rwa [← hab.unconverged, ← hab.iteration]

theorem SettledRound.rel {S S' : Type*} {H : Matrix (Fin N) (Fin N) K} {n : ℕ} {a : St ℝ S} {a' : St ℝ S'}
    {r : S → S' → Prop} {X U : ℕ → Fin N → K} {μ : ℕ → ℝ} (h : SettledRound H n a X U μ) (e : St.Rel r a a') :
    SettledRound H n a' X U μ := by
  obtain ⟨a1, a2, a3, a4, a5, a6, a7⟩ := h
  rw [e.lowerb, e.upperb] at a1
  rw [e.ritzv, e.lambda] at a2
  rw [e.ritzv, e.lambda, e.locked] at a3
  rw [e.ritzv, e.locked, e.lowerb] at a4
  rw [e.locked] at a5 a6
  rw [e.locked, e.degrees] at a7
  exact ⟨a1, a2, a3, a4, a5, a6, a7⟩

namespace Mpi

/-- `Underestimates` for the columns that the processes hold together: `X` in the distribution `r`. -/
def Underestimates (r c : Layout N) (n : ℕ) (k : ℕ) (x : ℝ) (s : Fam K r c) : Prop :=
  ∃ X : ℕ → Fin N → K, (∀ i j k a, (s i j).C k a = X k (r.glob i a)) ∧ ¬ CondAtMost x k n X

theorem columns_eq {r c : Layout N} {s : Fam K r c} {g : GSt K N} (h : Rep s g) (j0 : Fin c.procs)
    {X : ℕ → Fin N → K} (hX : ∀ i j k a, (s i j).C k a = X k (r.glob i a)) : X = g.C := by
  funext k x
  obtain ⟨⟨i, a⟩, ha⟩ := r.bij.2 x
  dsimp only at ha
  rw [← ha, ← hX i j0 k a, h.C]

/-- **C88** (distributed CPU backend), for every process grid and distribution. -/
theorem C88_mpi_partial {r c : Layout N} {E : MEnv K} (hc : RunsOk r c E.cRuns) (hb : RunsOk c r E.bRuns)
    (hL : E.base.lapack.Ok) (hnev : E.base.nev = cfg.nev) (hnex : E.base.nex = cfg.nex) (hN : cfg.N = N)
    (hle : cfg.nev + cfg.nex ≤ N) (hmax : Even cfg.maxDeg) {s : Fam K r c} {g : GSt K N} (hrep : Rep s g)
    (hH : g.H.IsHermitian) (i0 : Fin r.procs) (j0 : Fin c.procs) (st st' : St ℝ (Fam K r c × Prop))
    (h : Reach (realPlat maxVal gauss) (watch (Underestimates r c (cfg.nev + cfg.nex)) (opsAt E i0 j0)) cfg
      ritzv0 resid0 (s, False) st) (hn : ¬ st.be.2)
    (hs : Step (realPlat maxVal gauss) (watch (Underestimates r c (cfg.nev + cfg.nex)) (opsAt E i0 j0)) cfg
      st st') (st1 : St ℝ (Fam K r c))
    (h1 : FilterStarts (realPlat maxVal gauss) (opsAt E i0 j0) cfg st.bare st1)
    (X U : ℕ → Fin N → K) (μ : ℕ → ℝ) (hX : ∀ i j k a, (st1.be i j).C k a = X k (r.glob i a))
    (hR : SettledRound g.H (cfg.nev + cfg.nex) st1 X U μ) : ¬ st'.be.2 := by
  have hS := Mpi.sim hc hb i0 j0
  have hW : Sim (watch (Underestimates r c (cfg.nev + cfg.nex)) (opsAt E i0 j0))
      (watch (Verif.Underestimates (fun g : GSt K N => g.C) (cfg.nev + cfg.nex)) (gOps (E.glob r)))
      (fun p p' => Rep p.1 p'.1 ∧ (p.2 ↔ p'.2)) := by
    refine watch_rel hS fun k x s g hr => ⟨?_, fun h => ⟨g.C, hr.C, h⟩⟩
    rintro ⟨X, hX, hb⟩
    rwa [columns_eq hr j0 hX] at hb
  obtain ⟨z, hz, hrel⟩ := reach_sim hW (realPlat maxVal gauss) cfg (s := (s, False)) (s' := (g, False))
    ⟨hrep, Iff.rfl⟩ h
  obtain ⟨z', hz', hrel'⟩ := step_sim hW (realPlat maxVal gauss) cfg hrel hs
  have hrb : St.Rel Rep st.bare z.bare :=
    ⟨hrel.ritzv, hrel.resid, hrel.residLast, hrel.degrees, hrel.deg, hrel.lowerb, hrel.upperb, hrel.lambda,
      hrel.locked, hrel.unconverged, hrel.iteration, hrel.be.1⟩
  obtain ⟨z1, hz1, hrel1⟩ := h1.sim hS hrb
  rw [columns_eq hrel1.be j0 hX] at hR
  rw [hrel'.be.2]
  exact C88_round_partial (Mpi.backs (G := E.glob r) hL hnev hnex hN hle hH) hmax rfl hz
    (by rw [← hrel.be.2]; exact hn) hz' hz1 (hR.rel hrel1)

end Mpi
end Backends
end Verif
