/-
States reached by a run on one backend correspond to states reached on a backend it simulates.
-/
import Verif.Solver.Sim
import Verif.Solver.Count
import Verif.Solver.IntervalProps

namespace Verif

variable {R S S' : Type*} [Add R] [Sub R] [Mul R] [Div R] [Neg R] [Zero R] [One R] [NatCast R] [LT R] [DecidableLT R] {ops : Chase R S} {ops' : Chase R S'}
  {r : S → S' → Prop}

theorem step_sim (hs : Sim ops ops' r) (P : Plat R) (cfg : Config R) {a b : St R S} {a' : St R S'}
    (hab : St.Rel r a a') (hst : Step P ops cfg a b) : ∃ b', Step P ops' cfg a' b' ∧ St.Rel r b b' := by
  have := iter_sim hs P cfg hab
  rw [hst.2] at this
  generalize hy : iter P ops' cfg a' = y at this
  cases this with
  | ok hh =>
    rename_i b'
    refine ⟨b', ⟨?_, hy⟩, hh⟩
    obtain ⟨h1, h2⟩ := hst.1
    exact ⟨hab.unconverged ▸ h1, hab.iteration ▸ h2⟩

theorem init_sim (hs : Sim ops ops' r) (P : Plat R) (cfg : Config R) {r0 d0 : ℕ → R} {s : S} {s' : S'}
    (h : r s s') {st : St R S} (hi : initState P ops cfg r0 d0 s = .ok st) :
    ∃ st', initState P ops' cfg r0 d0 s' = .ok st' ∧ St.Rel r st st' := by
  have := initState_sim hs P cfg r0 d0 h
  rw [hi] at this
  generalize hy : initState P ops' cfg r0 d0 s' = y at this
  cases this with
  | ok hh => exact ⟨_, rfl, hh⟩

theorem reach_sim (hs : Sim ops ops' r) (P : Plat R) (cfg : Config R) {r0 d0 : ℕ → R} {s : S} {s' : S'}
    (h : r s s') {st : St R S} (hr : Reach P ops cfg r0 d0 s st) :
    ∃ st', Reach P ops' cfg r0 d0 s' st' ∧ St.Rel r st st' := by
  induction hr with
  | init hi =>
    obtain ⟨st', h1, h2⟩ := init_sim hs P cfg h hi
    exact ⟨st', .init h1, h2⟩
  | step h1 h2 ih =>
    obtain ⟨st1, k1, k2⟩ := ih
    obtain ⟨b', k3, k4⟩ := step_sim hs P cfg k2 h2
    exact ⟨b', .step k1 k3, k4⟩

theorem filterRuns_sim (hs : Sim ops ops' r) (P : Plat R) (cfg : Config R) {a : St R S} {a' : St R S'}
    (hab : St.Rel r a a') {I : Interval R} (hI : FilterRuns P ops cfg a I) : FilterRuns P ops' cfg a' I := by
  obtain ⟨⟨h1, h2⟩, st1, h3, h4⟩ := hI
  have := optimise_sim hs P cfg (updateBounds_sim (cfg.nev + cfg.nex) hab)
  rw [h3] at this
  generalize hy : optimise P ops' cfg (updateBounds (cfg.nev + cfg.nex) a') = y at this
  cases this with
  | ok hh =>
    refine ⟨⟨hab.unconverged ▸ h1, hab.iteration ▸ h2⟩, _, hy, ?_⟩
    rw [h4, hh.lambda, hh.lowerb, hh.upperb]

theorem boundOf_sim (hs : Sim ops ops' r) (cfg : Config R) {s : S} {s' : S'} (h : r s s') :
    boundOf ops cfg s = boundOf ops' cfg s' := by
  unfold boundOf
  have h1 := hs.initVecs (!cfg.approx) _ _ (hs.start _ _ h)
  dsimp only
  split_ifs
  · exact (hs.lanczos1 _ _ _ h1).1
  · rw [(hs.lanczosN _ _ _ _ (hs.qr 0 1 _ _ h1)).1]

end Verif
