/-
C88 for the in-place CPU backend, the single-process GPU backend and the multi-GPU backend.
-/
import Verif.Backend.EstimateExamples

open Matrix Finset Polynomial

namespace Verif

variable {K : Type*} [RCLike K] {N : ℕ} {maxVal : ℝ} {gauss : ℝ → ℝ} {cfg : Config ℝ} {ritzv0 resid0 : ℕ → ℝ}

/-! ### In-place CPU backend and single-process GPU backend -/

namespace InPlace

/-- The estimates and the bad QR calls of a run, watched at the same time: the inner mark tells whether QR has been
handed a number that is too small, the outer one whether it has been called with dependent columns and a number that
selects the shifted variant. -/
noncomputable def watched (E : Env K) (k : Kind) (n : ℕ) : Chase ℝ ((St K N × Prop) × Prop) :=
  watch (fun m c s => badQr E m c s.1) (watch (Underestimates St.V1 n) (ops E k))

/-- **C88** (in-place CPU and single-process GPU backend), for runs without a shifted Cholesky QR of dependent
columns. -/
theorem C88_inplace_partial (E : Env K) (k : Kind) (hL : E.lapack.Ok) (hε : 0 ≤ E.lapack.eps)
    (hnev : E.nev = cfg.nev) (hnex : E.nex = cfg.nex) (hN : cfg.N = N) (hle : cfg.nev + cfg.nex ≤ N)
    (hmax : Even cfg.maxDeg) (s : St K N) (hH : (s.userH k).IsHermitian)
    (st st' : Verif.St ℝ ((St K N × Prop) × Prop))
    (h : Reach (realPlat maxVal gauss) (watched E k (cfg.nev + cfg.nex)) cfg ritzv0 resid0 ((s, False), False) st)
    (hn : ¬ st.be.1.2) (hs : Step (realPlat maxVal gauss) (watched E k (cfg.nev + cfg.nex)) cfg st st')
    (hbad : ¬ st'.be.2) (st1 : Verif.St ℝ (St K N))
    (h1 : FilterStarts (realPlat maxVal gauss) (ops E k) cfg st.bare.bare st1) (U : ℕ → Fin N → K) (μ : ℕ → ℝ)
    (hR : SettledRound (s.userH k) (cfg.nev + cfg.nex) st1 st1.be.V1 U μ) : ¬ st'.be.1.2 := by
  have hq : ∀ m c (p : St K N × Prop), ¬ badQr E m c p.1 →
      (safeQr E k m c p.1, p.2 ∨ Underestimates St.V1 (cfg.nev + cfg.nex) m c p.1) =
        (watch (Underestimates St.V1 (cfg.nev + cfg.nex)) (ops E k)).qr m c p := by
    intro m c p hp
    show _ = ((ops E k).qr m c p.1, _)
    rw [safeQr_agree m c p.1 hp]
  obtain ⟨h2, h3⟩ := step_withQr hq hs hbad
  have h4 := reach_withQr hq h h3
  exact C88_round_partial (st := st.bare) (st' := st'.bare) (InPlace.backs (k := k) hL hε hnev hnex hN hle hH) hmax rfl
    h4 hn h2 h1 hR

end InPlace

/-! ### Multi-GPU backend -/

/-- The relations of two watched runs. -/
def PhaseRel.watched {R S S' : Type*} (ph : PhaseRel R S S') : PhaseRel R (S × Prop) (S' × Prop) where
  pre := fun p p' => ph.pre p.1 p'.1 ∧ (p.2 ↔ p'.2)
  begun := fun p p' => ph.begun p.1 p'.1 ∧ (p.2 ↔ p'.2)
  inv := fun l p p' => ph.inv l p.1 p'.1 ∧ (p.2 ↔ p'.2)
  filt := fun l x p p' => ph.filt l x p.1 p'.1 ∧ (p.2 ↔ p'.2)
  nest := fun l x a m p p' => ph.nest l x a m p.1 p'.1 ∧ (p.2 ↔ p'.2)
  ready := fun l p p' => ph.ready l p.1 p'.1 ∧ (p.2 ↔ p'.2)
  synced := fun l v p p' => ph.synced l v p.1 p'.1 ∧ (p.2 ↔ p'.2)

/-- `watch_rel` for the relations by phase. -/
theorem watch_relP {R S S' : Type*} [Add R] [Sub R] [Mul R] [Div R] [Neg R] [Zero R] [One R] [NatCast R]
    {ops : Chase R S} {ops' : Chase R S'} {ph : PhaseRel R S S'} {nevex : ℕ} {par : ℕ → Prop}
    (hs : SimP ops ops' nevex par ph) {bad : ℕ → R → S → Prop} {bad' : ℕ → R → S' → Prop}
    (h : ∀ l k c s s', ph.inv l s s' → (bad k c s ↔ bad' k c s')) :
    SimP (watch bad ops) (watch bad' ops') nevex par ph.watched where
  checkSymmetryEasy := fun _ _ e => ⟨(hs.checkSymmetryEasy _ _ e.1).1, (hs.checkSymmetryEasy _ _ e.1).2, e.2⟩
  start := fun _ _ e => ⟨hs.start _ _ e.1, e.2⟩
  initVecs := fun b _ _ e => ⟨hs.initVecs b _ _ e.1, e.2⟩
  qr := fun l k c _ _ e => ⟨hs.qr l k c _ _ e.1, or_congr e.2 (h l k c _ _ e.1)⟩
  ready_inv := fun l _ _ e => ⟨hs.ready_inv l _ _ e.1, e.2⟩
  lanczos1 := fun m _ _ e => ⟨(hs.lanczos1 m _ _ e.1).1, (hs.lanczos1 m _ _ e.1).2, e.2⟩
  lanczosN := fun m k _ _ e => ⟨(hs.lanczosN m k _ _ e.1).1, (hs.lanczosN m k _ _ e.1).2, e.2⟩
  lanczosDos := fun i m z _ _ e => ⟨hs.lanczosDos i m z _ _ e.1, e.2⟩
  shiftIn := fun l x _ _ hl e => ⟨hs.shiftIn l x _ _ hl e.1, e.2⟩
  first := fun l x y _ _ hl e => ⟨hs.first l x y _ _ hl e.1, e.2⟩
  prod := fun l x a m y z _ _ hl ha e => ⟨hs.prod l x a m y z _ _ hl ha e.1, e.2⟩
  nest_mono := fun l x a b m _ _ hl ha hb e => ⟨hs.nest_mono l x a b m _ _ hl ha hb e.1, e.2⟩
  shiftOut := fun l x a m _ _ hl ha hp e => ⟨hs.shiftOut l x a m _ _ hl ha hp e.1, e.2⟩
  rr := fun l _ _ hl e => ⟨(hs.rr l _ _ hl e.1).1, (hs.rr l _ _ hl e.1).2, e.2⟩
  resd := fun f v l _ _ hl hf e => ⟨(hs.resd f v l _ _ hl hf e.1).1, (hs.resd f v l _ _ hl hf e.1).2, e.2⟩
  lock := fun l v k _ _ e => ⟨hs.lock l v k _ _ e.1, e.2⟩
  swap_inv := fun l i j _ _ e => ⟨hs.swap_inv l i j _ _ e.1, e.2⟩
  swap_synced := fun l v i j _ _ e => ⟨hs.swap_synced l v i j _ _ e.1, e.2⟩
  finish := fun l _ _ e => ⟨hs.finish l _ _ e.1, e.2⟩

theorem FilterStarts.simP {S S' : Type*} {ops : Chase ℝ S} {ops' : Chase ℝ S'} {ph : PhaseRel ℝ S S'} {nevex : ℕ}
    {par : ℕ → Prop} (hs : SimP ops ops' nevex par ph) {P : Plat ℝ} {l : ℕ} {a a1 : St ℝ S} {a' : St ℝ S'}
    (hab : St.Rel (ph.inv l) a a') (h : FilterStarts P ops cfg a a1) :
    ∃ a1', FilterStarts P ops' cfg a' a1' ∧ St.Rel (ph.inv l) a1 a1' := by
  have : RelE (St.Rel (ph.inv l)) (optimise P ops cfg (updateBounds (cfg.nev + cfg.nex) a))
      (optimise P ops' cfg (updateBounds (cfg.nev + cfg.nex) a')) :=
    optimise_sim (swaps_sim (hs.swap_inv l)) P cfg (updateBounds_sim (cfg.nev + cfg.nex) hab)
  rw [h.2] at this
  generalize hy : optimise P ops' cfg (updateBounds (cfg.nev + cfg.nex) a') = y at this
  cases this with
  | ok hh =>
    rename_i b'
    refine ⟨b', ⟨?_, hy⟩, hh⟩
    have h1 := h.1
    unfold running at h1 ⊢
    rwa [← hab.unconverged, ← hab.iteration]

namespace Mgpu
open Mpi (Layout Rep RunsOk)

/-- `Underestimates` for the columns in the buffers the processes work on. -/
def Underestimates {r c : Layout N} (aware : Bool) (n : ℕ) (k : ℕ) (x : ℝ) (s : GFam K r c) : Prop :=
  ∃ X : ℕ → Fin N → K, (∀ i j k a, ((s i j).work aware).C k a = X k (r.glob i a)) ∧ ¬ CondAtMost x k n X

theorem columns_eq {E : GpuEnv K} {r c : Layout N} {l : ℕ} {s : GFam K r c} {g : Mpi.GSt K N} (h : Inv E l s g)
    (j0 : Fin c.procs) {X : ℕ → Fin N → K}
    (hX : ∀ i j k a, ((s i j).work E.aware).C k a = X k (r.glob i a)) : X = g.C :=
  Mpi.columns_eq h.rep j0 hX

/-- **C88** (multi-GPU backend, the setups of C60), for every process grid and distribution. -/
theorem C88_mgpu_partial {r c : Layout N} {E : GpuEnv K} (hS : E.Sound) (hc : RunsOk r c E.mpi.cRuns)
    (hb : RunsOk c r E.mpi.bRuns) (hL : E.mpi.base.lapack.Ok) (hnev : E.mpi.base.nev = cfg.nev)
    (hnex : E.mpi.base.nex = cfg.nex) (hN : cfg.N = N) (hle : cfg.nev + cfg.nex ≤ N) (hmax : Even cfg.maxDeg)
    {s : GFam K r c} {g : Mpi.GSt K N} (hrep : Rep (pview E s) g) (hH : g.H.IsHermitian) (i0 : Fin r.procs)
    (j0 : Fin c.procs) (st st' : St ℝ (GFam K r c × Prop))
    (h : Reach (realPlat maxVal gauss) (watch (Underestimates E.aware (cfg.nev + cfg.nex)) (opsAt E i0 j0)) cfg
      ritzv0 resid0 (s, False) st) (hn : ¬ st.be.2)
    (hs : Step (realPlat maxVal gauss) (watch (Underestimates E.aware (cfg.nev + cfg.nex)) (opsAt E i0 j0)) cfg
      st st') (st1 : St ℝ (GFam K r c))
    (h1 : FilterStarts (realPlat maxVal gauss) (opsAt E i0 j0) cfg st.bare st1)
    (X U : ℕ → Fin N → K) (μ : ℕ → ℝ) (hX : ∀ i j k a, ((st1.be i j).work E.aware).C k a = X k (r.glob i a))
    (hR : SettledRound g.H (cfg.nev + cfg.nex) st1 X U μ) : ¬ st'.be.2 := by
  have hE : E.mpi.base.nevex = cfg.nev + cfg.nex := by unfold Env.nevex; rw [hnev, hnex]
  have hsim := Mgpu.sim hS hc hb i0 j0
  have hW : SimP (watch (Underestimates E.aware (cfg.nev + cfg.nex)) (opsAt E i0 j0))
      (watch (Verif.Underestimates (fun g : Mpi.GSt K N => g.C) (cfg.nev + cfg.nex)) (refOps (E.mpi.glob r) E.aware))
      E.mpi.base.nevex (fun _ => True) (phases E).watched := by
    refine watch_relP hsim fun l k x s g hr => ⟨?_, fun h => ⟨g.C, hr.rep.C, h⟩⟩
    rintro ⟨X, hX, hb⟩
    rwa [columns_eq hr j0 hX] at hb
  obtain ⟨z, hz, hrel⟩ := reach_simP hW (realPlat maxVal gauss) cfg hE (Or.inl fun _ => trivial) (s := (s, False))
    (s' := (g, False)) ⟨hrep, Iff.rfl⟩ h
  obtain ⟨z', hz', hrel'⟩ := step_simP hW (realPlat maxVal gauss) cfg hE (Or.inl fun _ => trivial) hrel hs
  have e := hrel.1
  have hrb : St.Rel ((phases E).inv st.locked) st.bare z.bare :=
    ⟨e.ritzv, e.resid, e.residLast, e.degrees, e.deg, e.lowerb, e.upperb, e.lambda, e.locked, e.unconverged,
      e.iteration, e.be.1⟩
  obtain ⟨z1, hz1, hrel1⟩ := h1.simP hsim hrb
  rw [columns_eq hrel1.be j0 hX] at hR
  rw [hrel'.1.be.2]
  exact C88_round_partial (Mpi.backsWith (G := E.mpi.glob r)
    (refQr_like hL (by show E.mpi.base.nevex ≤ N; rw [hE]; exact hle) E.aware)
    (refResd_like _ _) hL hnev hnex hN hle hH) hmax rfl hz (by rw [← e.be.2]; exact hn) hz' hz1 (hR.rel hrel1)

end Mgpu

/-! ### A round that meets the hypotheses -/

/-- Non-vacuity of `InPlace.C88_inplace_partial`: a first round on the in-place CPU backend. -/
example : ∃ (s : InPlace.St K 7) (st0 st' : St ℝ ((InPlace.St K 7 × Prop) × Prop)) (st1 : St ℝ (InPlace.St K 7)),
    s.userH .cpu = exDiag K ∧
    initState (realPlat 1 id) (InPlace.watched (exEnv K) .cpu 5) (exCfg 4) exVals (fun _ => 0) ((s, False), False)
      = .ok st0 ∧ ¬ st0.be.1.2 ∧
    Step (realPlat 1 id) (InPlace.watched (exEnv K) .cpu 5) (exCfg 4) st0 st' ∧ ¬ st'.be.2 ∧
    FilterStarts (realPlat 1 id) (InPlace.ops (exEnv K) .cpu) (exCfg 4) st0.bare.bare st1 ∧
    SettledRound (s.userH .cpu) 5 st1 st1.be.V1 (exEig K) exVals ∧ ¬ st'.be.1.2 := by
  obtain ⟨s, hs, hC⟩ : ∃ s : InPlace.St K 7, s.H = exDiag K ∧ s.V1 = exMix K :=
    ⟨⟨exDiag K, exDiag K, exMix K, fun _ _ => 0, fun _ _ => 0, false, fun _ => 0, 0, true⟩, rfl, rfl⟩
  have hH : s.H.IsHermitian := by rw [hs]; exact exDiag_hermitian
  have hV := watch_sim (Underestimates InPlace.St.V1 5) (InPlace.ops (N := 7) (exEnv K) .cpu)
  have hW := watch_sim (fun m c (s : InPlace.St K 7 × Prop) => InPlace.badQr (exEnv K) m c s.1)
    (watch (Underestimates InPlace.St.V1 5) (InPlace.ops (exEnv K) .cpu))
  obtain ⟨be0, st0, st', st1, e0, h0, h1, h2, b0, b1, c1, c2, c3, c4, c5, c6⟩ := exFirstAt (realPlat 1 id)
    (InPlace.watched (exEnv K) .cpu 5) ((s, False), False) exVals exVals_le (k0 := 4) (by omega)
    (by unfold exVals; norm_num) (C09_hermitian_accepted (exEnv K).lapack _ hH)
    ((lanczosBound_nonneg _ _ _ _ _).trans_eq ((boundOf_sim hW _ rfl).trans ((boundOf_sim hV _ rfl).trans
      (InPlace.boundOf_approx (N := 7) (cfg := exCfg 4) (exEnv K) rfl _))).symm)
  obtain ⟨s0, he, hb⟩ : ∃ s0 : InPlace.St K 7, be0 = ((s0, False), False) ∧ s0.H = exDiag K ∧ s0.V1 = exMix K := by
    rw [e0, ← hs, ← hC]
    split_ifs
    · exact ⟨_, rfl, rfl, rfl⟩
    · exact ⟨_, rfl, rfl, rfl⟩
  subst he
  obtain ⟨y1, hy1, q1⟩ := h2.sim hW (St.rel_bare st0)
  obtain ⟨z1, hz1, r1⟩ := hy1.sim hV (St.rel_bare st0.bare)
  have hcol : z1.be.V1 = exMix K := by
    have e : z1.be = st1.be.1.1 := by rw [← r1.be, ← q1.be]
    rw [e, b1, b0, ← hb.2]
    rfl
  have hR : SettledRound (s0.userH .cpu) 5 z1 z1.be.V1 (exEig K) exVals := by
    rw [hcol, show s0.userH .cpu = exDiag K from hb.1]
    exact exSettled (by rw [← r1.locked, ← q1.locked]; exact c1) (by rw [← r1.ritzv, ← q1.ritzv]; exact c2)
      (by rw [← r1.lambda, ← q1.lambda]; exact c3) (by rw [← r1.lowerb, ← q1.lowerb]; exact c4)
      (by rw [← r1.lowerb, ← q1.lowerb, ← r1.upperb, ← q1.upperb]; exact c5)
      (by rw [← r1.degrees, ← q1.degrees]; exact c6)
  have hn : ¬ st0.be.1.2 := by rw [b0]; exact id
  have hbad : ¬ st'.be.2 := by
    refine iter_clean (P := realPlat 1 id) ?_ h1.2 (by rw [b0]; exact id)
    intro _ _ _ _ _ _ _ _ hb
    exact hb.1 rfl
  refine ⟨s0, st0, st', z1, hb.1, h0, hn, h1, hbad, hz1, hR, ?_⟩
  exact InPlace.C88_inplace_partial (cfg := exCfg 4) (N := 7) (exEnv K) .cpu (Lapack.ideal_ok _ _ _) (le_refl _) rfl rfl rfl
    (by decide) (by decide) s0 (by rw [show s0.userH .cpu = exDiag K from hb.1]; exact exDiag_hermitian) st0 st' (.init h0)
    hn h1 hbad z1 hz1 (exEig K) exVals hR

/-- The first round of the multi-GPU example. -/
theorem exFirstMix {r c : Mpi.Layout 7} {E : Mgpu.GpuEnv K} (hE : E.Sound) (hc : Mpi.RunsOk r c E.mpi.cRuns)
    (hb : Mpi.RunsOk c r E.mpi.bRuns) (hL : E.mpi.base.lapack.Ok) (hnev : E.mpi.base.nev = (exCfg 4).nev)
    (hnex : E.mpi.base.nex = (exCfg 4).nex) (i0 : Fin r.procs) (j0 : Fin c.procs)
    {s : Mgpu.GFam K r c} {g : Mpi.GSt K 7} (hrep : Mpi.Rep (Mgpu.pview E s) g) (hgH : g.H = exDiag K)
    (hgC : g.C = exMix K) (hsym : ((Mgpu.opsAt E i0 j0).checkSymmetryEasy s).1 = true) :
    ∃ (s : Mgpu.GFam K r c) (g : Mpi.GSt K 7) (st0 st' : St ℝ (Mgpu.GFam K r c × Prop))
      (st1 : St ℝ (Mgpu.GFam K r c)), Mpi.Rep (Mgpu.pview E s) g ∧ g.H = exDiag K ∧
      initState (realPlat 1 id) (watch (Mgpu.Underestimates E.aware 5) (Mgpu.opsAt E i0 j0)) (exCfg 4) exVals
        (fun _ => 0) (s, False) = .ok st0 ∧ ¬ st0.be.2 ∧
      Step (realPlat 1 id) (watch (Mgpu.Underestimates E.aware 5) (Mgpu.opsAt E i0 j0)) (exCfg 4) st0 st' ∧
      FilterStarts (realPlat 1 id) (Mgpu.opsAt E i0 j0) (exCfg 4) st0.bare st1 ∧
      (∀ i j k a, ((st1.be i j).work E.aware).C k a = exMix K k (r.glob i a)) ∧
      SettledRound g.H 5 st1 (exMix K) (exEig K) exVals ∧ ¬ st'.be.2 := by
  have hS := Mgpu.sim hE hc hb i0 j0
  have hW := watch_sim (Mgpu.Underestimates E.aware 5) (Mgpu.opsAt E i0 j0)
  obtain ⟨be0, st0, st', st1, e0, h0, h1, h2, b0, b1, c1, c2, c3, c4, c5, c6⟩ := exFirstAt (realPlat 1 id)
    (watch (Mgpu.Underestimates E.aware 5) (Mgpu.opsAt E i0 j0)) (s, False) exVals exVals_le (k0 := 4) (by omega)
    (by unfold exVals; norm_num) hsym (by
      rw [boundOf_sim hW (exCfg 4) (s' := (if (exCfg 4).symCheck then
        ((Mgpu.opsAt E i0 j0).checkSymmetryEasy s).2 else s)) (by split_ifs <;> rfl)]
      have hr : Mpi.Rep (Mgpu.pview E (if (exCfg 4).symCheck then
          ((Mgpu.opsAt E i0 j0).checkSymmetryEasy s).2 else s))
          (if (exCfg 4).symCheck then ((Mgpu.refOps (E.mpi.glob r) E.aware).checkSymmetryEasy g).2 else g) := by
        split_ifs
        · exact (hS.checkSymmetryEasy _ _ hrep).2
        · exact hrep
      rw [boundOf_simP hS (exCfg 4) hr]
      exact (lanczosBound_nonneg _ _ _ _ _).trans_eq
        (Mpi.boundOf_approx (N := 7) (cfg := exCfg 4) (E.mpi.glob r) (Mgpu.refQr _ _) (Mgpu.refResd _ _) rfl _).symm)
  obtain ⟨s0, g0, he, hg0, hgH, hgC⟩ : ∃ s0 g0, be0 = (s0, False) ∧ Mpi.Rep (Mgpu.pview E s0) g0 ∧
      g0.H = exDiag K ∧ g0.C = exMix K := by
    rw [e0]
    split_ifs
    · exact ⟨_, _, rfl, (hS.checkSymmetryEasy _ _ hrep).2, hgH, hgC⟩
    · exact ⟨_, g, rfl, hrep, hgH, hgC⟩
  subst he
  have hst : ∀ i j k a, ((st0.be.1 i j).work E.aware).C k a = exMix K k (r.glob i a) := by
    have hr := (hS.lanczos1 3 _ _ (hS.initVecs false _ _ (hS.start _ _ hg0))).2
    intro i j k a
    rw [b0, ← hgC]
    exact hr.rep.C i j k a
  obtain ⟨z1, hz1, hr1⟩ := h2.sim hW (St.rel_bare st0)
  have hX : ∀ i j k a, ((z1.be i j).work E.aware).C k a = exMix K k (r.glob i a) := by
    intro i j k a
    rw [← hst i j k a, ← hr1.be, b1]
  have hn : ¬ st0.be.2 := by rw [b0]; exact id
  have hR : SettledRound g0.H 5 z1 (exMix K) (exEig K) exVals := by
    rw [hgH]
    refine (exSettled ?_ ?_ ?_ ?_ ?_ ?_ : SettledRound (exDiag K) 5 st1 (exMix K) (exEig K) exVals).rel hr1 <;>
      assumption
  exact ⟨s0, g0, st0, st', z1, hg0, hgH, h0, hn, h1, hz1, hX, hR,
    Mgpu.C88_mgpu_partial (cfg := exCfg 4) hE hc hb hL hnev hnex rfl (by decide) (by decide) hg0
      (by rw [hgH]; exact exDiag_hermitian) i0 j0 st0 st' (.init h0) hn h1 z1 hz1 (exMix K) (exEig K) exVals hX hR⟩

/-- Non-vacuity of `Mgpu.C88_mgpu_partial`: a first round on a 3 x 2 grid, in both variants. -/
example (aware : Bool) :
    let r := Mpi.cyclicLayout Mpi.exRow
    let c := Mpi.cyclicLayout Mpi.exCol
    let E := Mgpu.exGpu K aware
    ∃ (s : Mgpu.GFam K r c) (g : Mpi.GSt K 7) (st0 st' : St ℝ (Mgpu.GFam K r c × Prop))
      (st1 : St ℝ (Mgpu.GFam K r c)), Mpi.Rep (Mgpu.pview E s) g ∧ g.H = exDiag K ∧
      initState (realPlat 1 id) (watch (Mgpu.Underestimates E.aware 5) (Mgpu.opsAt E (2 : Fin 3) (1 : Fin 2)))
        (exCfg 4) exVals (fun _ => 0) (s, False) = .ok st0 ∧ ¬ st0.be.2 ∧
      Step (realPlat 1 id) (watch (Mgpu.Underestimates E.aware 5) (Mgpu.opsAt E (2 : Fin 3) (1 : Fin 2))) (exCfg 4)
        st0 st' ∧
      FilterStarts (realPlat 1 id) (Mgpu.opsAt E (2 : Fin 3) (1 : Fin 2)) (exCfg 4) st0.bare st1 ∧
      (∀ i j k a, ((st1.be i j).work E.aware).C k a = exMix K k (r.glob i a)) ∧
      SettledRound g.H 5 st1 (exMix K) (exEig K) exVals ∧ ¬ st'.be.2 := by
  let g : Mpi.GSt K 7 := ⟨⟨exDiag K, exMix K, exMix K, exMix K, exMix K, .bAc, 0, true⟩, true⟩
  refine exFirstMix (Mgpu.exGpu_sound K aware) (Mpi.exRuns K).1 (Mpi.exRuns K).2 (Lapack.ideal_ok _ _ _) rfl rfl _ _
    (s := Mgpu.onHost K (Mpi.cyclicLayout Mpi.exRow) (Mpi.cyclicLayout Mpi.exCol) g (exMix K) true)
    (g := g) ?_ rfl rfl ?_
  · cases aware
    · exact Mpi.scatter_rep _ _ g
    · exact ⟨fun _ _ _ _ => rfl, fun _ _ _ _ => rfl, fun _ _ _ _ => rfl, fun _ _ _ _ => rfl, fun _ _ _ _ => rfl,
          fun _ _ => rfl, fun _ _ => rfl, fun _ _ => rfl, fun _ _ => rfl⟩
  · exact Mpi.C09_mpi_hermitian_accepted (E := (Mgpu.exGpu K aware).mpi) (Mpi.exRuns K).1 (Mpi.exRuns K).2
      (fun _ _ _ _ => rfl) exDiag_hermitian (le_refl _)

end Verif
