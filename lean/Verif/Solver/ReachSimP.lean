/-
States reached by a run correspond to states reached on another backend, for the relations by phase of a solve
(`SimP`).
-/
import Verif.Solver.SimPhase
import Verif.Solver.ReachSim

namespace Verif

variable {R S S' : Type*} [Add R] [Sub R] [Mul R] [Div R] [Neg R] [Zero R] [One R] [NatCast R] [LT R] [DecidableLT R] {ops : Chase R S} {ops' : Chase R S'}
  {ph : PhaseRel R S S'} {nevex : ℕ} {par : ℕ → Prop}

theorem step_simP (hs : SimP ops ops' nevex par ph) (P : Plat R) (cfg : Config R)
    (hn : nevex = cfg.nev + cfg.nex) (hpar : (∀ m, par m) ∨ (Even cfg.maxDeg ∧ ∀ m, Even m → par m))
    {a b : St R S} {a' : St R S'} (hab : RoundRel ph nevex (Even cfg.maxDeg) a a')
    (hst : Step P ops cfg a b) :
    ∃ b', Step P ops' cfg a' b' ∧ RoundRel ph nevex (Even cfg.maxDeg) b b' := by
  have := iter_simP hs P cfg hn hpar hab
  rw [hst.2] at this
  generalize hy : iter P ops' cfg a' = y at this
  cases this with
  | ok hh =>
    rename_i b'
    refine ⟨b', ⟨?_, hy⟩, hh⟩
    obtain ⟨h1, h2⟩ := hst.1
    exact ⟨hab.1.unconverged ▸ h1, hab.1.iteration ▸ h2⟩

theorem init_simP (hs : SimP ops ops' nevex par ph) (P : Plat R) (cfg : Config R)
    (hn : nevex = cfg.nev + cfg.nex) {r0 d0 : ℕ → R} {s : S} {s' : S'}
    (h : ph.pre s s') {st : St R S} (hi : initState P ops cfg r0 d0 s = .ok st) :
    ∃ st', initState P ops' cfg r0 d0 s' = .ok st' ∧ RoundRel ph nevex (Even cfg.maxDeg) st st' := by
  have := initState_simP hs P cfg hn r0 d0 h
  rw [hi] at this
  generalize hy : initState P ops' cfg r0 d0 s' = y at this
  cases this with
  | ok hh => exact ⟨_, rfl, hh⟩

theorem reach_simP (hs : SimP ops ops' nevex par ph) (P : Plat R) (cfg : Config R)
    (hn : nevex = cfg.nev + cfg.nex) (hpar : (∀ m, par m) ∨ (Even cfg.maxDeg ∧ ∀ m, Even m → par m))
    {r0 d0 : ℕ → R} {s : S} {s' : S'} (h : ph.pre s s') {st : St R S} (hr : Reach P ops cfg r0 d0 s st) :
    ∃ st', Reach P ops' cfg r0 d0 s' st' ∧ RoundRel ph nevex (Even cfg.maxDeg) st st' := by
  induction hr with
  | init hi =>
    obtain ⟨st', h1, h2⟩ := init_simP hs P cfg hn h hi
    exact ⟨st', .init h1, h2⟩
  | step h1 h2 ih =>
    obtain ⟨st1, k1, k2⟩ := ih
    obtain ⟨b', k3, k4⟩ := step_simP hs P cfg hn hpar k2 h2
    exact ⟨b', .step k1 k3, k4⟩

theorem steps_simP (hs : SimP ops ops' nevex par ph) (P : Plat R) (cfg : Config R)
    (hn : nevex = cfg.nev + cfg.nex) (hpar : (∀ m, par m) ∨ (Even cfg.maxDeg ∧ ∀ m, Even m → par m))
    {a b : St R S} {a' : St R S'} (hab : RoundRel ph nevex (Even cfg.maxDeg) a a')
    (hst : Steps P ops cfg a b) :
    ∃ b', Steps P ops' cfg a' b' ∧ RoundRel ph nevex (Even cfg.maxDeg) b b' := by
  induction hst with
  | refl => exact ⟨a', .refl _, hab⟩
  | tail h1 h2 ih =>
    obtain ⟨b1, k1, k2⟩ := ih
    obtain ⟨b', k3, k4⟩ := step_simP hs P cfg hn hpar k2 h2
    exact ⟨b', k1.tail k3, k4⟩

theorem filterRuns_simP (hs : SimP ops ops' nevex par ph) (P : Plat R) (cfg : Config R) {a : St R S}
    {a' : St R S'} (hab : RoundRel ph nevex (Even cfg.maxDeg) a a') {I : Interval R}
    (hI : FilterRuns P ops cfg a I) : FilterRuns P ops' cfg a' I := by
  obtain ⟨⟨h1, h2⟩, st1, h3, h4⟩ := hI
  have : RelE (St.Rel (ph.inv a.locked)) (optimise P ops cfg (updateBounds (cfg.nev + cfg.nex) a))
      (optimise P ops' cfg (updateBounds (cfg.nev + cfg.nex) a')) :=
    optimise_sim (swaps_sim (hs.swap_inv a.locked)) P cfg (updateBounds_sim (cfg.nev + cfg.nex) hab.1)
  rw [h3] at this
  generalize hy : optimise P ops' cfg (updateBounds (cfg.nev + cfg.nex) a') = y at this
  cases this with
  | ok hh =>
    refine ⟨⟨hab.1.unconverged ▸ h1, hab.1.iteration ▸ h2⟩, _, hy, ?_⟩
    rw [h4, hh.lambda, hh.lowerb, hh.upperb]

theorem boundOf_simP (hs : SimP ops ops' nevex par ph) (cfg : Config R) {s : S} {s' : S'} (h : ph.pre s s') :
    boundOf ops cfg s = boundOf ops' cfg s' := by
  unfold boundOf
  have h1 := hs.initVecs (!cfg.approx) _ _ (hs.start _ _ h)
  dsimp only
  split_ifs
  · exact (hs.lanczos1 _ _ _ h1).1
  · rw [(hs.lanczosN _ _ _ _ (hs.ready_inv _ _ _ (hs.qr 0 0 1 _ _ h1))).1]

end Verif
