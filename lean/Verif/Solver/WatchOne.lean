/-
Runs of one round: the situation of the only QR call is known after the filter.
-/
import Verif.Solver.WatchReach
import Verif.Solver.Stamp

set_option linter.unusedSectionVars false

namespace Verif

variable {R S : Type*} [Add R] [Sub R] [Mul R] [Div R] [Neg R] [Zero R] [One R] [NatCast R] [LT R] [DecidableLT R]
  {bad : ℕ → R → S → Prop} {ops : Chase R S}

theorem iter_clean_at {P : Plat R} {cfg : Config R} {st st' : St R (S × Prop)}
    (hc : ∀ s1 av t, optimise P ops cfg (updateBounds (cfg.nev + cfg.nex) st.bare) = .ok s1 →
      filter ops cfg.N s1.unconverged s1.deg s1.degrees (cfg.nev + cfg.nex) s1.locked s1.lambda s1.lowerb s1.upperb
        s1.be = .ok (av, t) → ∀ k a b c d m n, ¬ bad k (P.condEst a b c d m n) t)
    (h : iter P (watch bad ops) cfg st = .ok st') (hn : ¬ st.be.2) : ¬ st'.be.2 := by
  rw [watch_eq] at h
  unfold iter at h
  rw [optimise_withQr] at h
  have h1 := optimise_sim (watch_clean ops) P cfg (updateBounds_sim (cfg.nev + cfg.nex)
    (p := st) (p' := st) (r := fun p p' => p = p' ∧ ¬ p.2) (St.Rel.refl_of ⟨rfl, hn⟩))
  have g1 := optimise_sim (watch_sim (fun _ _ _ => False) ops) P cfg (updateBounds_sim (cfg.nev + cfg.nex) st.rel_bare)
  cases ho : optimise P (watch (fun _ _ _ => False) ops) cfg (updateBounds (cfg.nev + cfg.nex) st) with
  | error e => rw [ho] at h; cases h
  | ok s1 =>
    rw [ho] at h g1
    have n1 := (RelE.self_ok h1 ho).be.2
    have g1' : optimise P ops cfg (updateBounds (cfg.nev + cfg.nex) st.bare) = .ok s1.bare := by
      generalize optimise P ops cfg (updateBounds (cfg.nev + cfg.nex) st.bare) = y at g1
      cases g1 with
      | ok g1 => rw [g1.eq_bare]
    dsimp only at h
    rw [filter_withQr] at h
    have h2 := filter_sim (watch_clean ops) cfg.N s1.unconverged s1.deg s1.degrees (cfg.nev + cfg.nex)
      s1.locked s1.lambda s1.lowerb s1.upperb (be := s1.be) (be' := s1.be) ⟨rfl, n1⟩
    cases hf : filter (watch (fun _ _ _ => False) ops) cfg.N s1.unconverged s1.deg s1.degrees
      (cfg.nev + cfg.nex) s1.locked s1.lambda s1.lowerb s1.upperb s1.be with
    | error e => rw [hf] at h; cases h
    | ok w =>
      obtain ⟨av, be⟩ := w
      have n2 : ¬ be.2 := (RelE.self_ok h2 hf).2.2
      obtain ⟨t, ht, hbt⟩ := filter_of_sim (watch_sim (fun _ _ _ => False) ops) (be := s1.be.1) rfl hf
      rw [hf] at h
      dsimp only at h
      rw [lockStep_withQr] at h
      injection h with h
      rw [← h]
      refine (lockStep_sim (watch_clean ops) P cfg (St.Rel.refl_of ⟨rfl, ?_⟩)).be.2
      refine not_or.mpr ⟨n2, ?_⟩
      have := hc s1.bare av t g1' ht
      rw [← hbt] at this
      exact this _ _ _ _ _ _ _

/-- In a run of one round from given vectors the only QR call follows the first filter. -/
theorem QrAvoids.of_one {P : Plat R} {cfg : Config R} {r0 s0 : ℕ → R} {be : S} (happ : cfg.approx = true)
    (hit : cfg.maxIter = 1)
    (hc : ∀ be', be' = be ∨ be' = (ops.checkSymmetryEasy be).2 →
      ∀ st s1 av t, initState P ops cfg r0 s0 be' = .ok st →
      optimise P ops cfg (updateBounds (cfg.nev + cfg.nex) st) = .ok s1 →
      filter ops cfg.N s1.unconverged s1.deg s1.degrees (cfg.nev + cfg.nex) s1.locked s1.lambda s1.lowerb s1.upperb
        s1.be = .ok (av, t) → ∀ k a b c d m n, ¬ bad k (P.condEst a b c d m n) t) : QrAvoids P ops cfg r0 s0 be bad := by
  intro o h
  unfold solve at h
  have hx : ¬ (if cfg.symCheck = true then (watch bad ops).checkSymmetryEasy (be, False)
      else (true, (be, False))).2.2 := by
    split_ifs <;> exact not_false
  have hy : (if cfg.symCheck = true then (watch bad ops).checkSymmetryEasy (be, False)
      else (true, (be, False))).2.1 = be ∨ (if cfg.symCheck = true then (watch bad ops).checkSymmetryEasy (be, False)
      else (true, (be, False))).2.1 = (ops.checkSymmetryEasy be).2 := by
    split_ifs
    · exact Or.inr rfl
    · exact Or.inl rfl
  generalize (if cfg.symCheck = true then (watch bad ops).checkSymmetryEasy (be, False)
      else (true, (be, False))) = x at h hx hy
  obtain ⟨b, s⟩ := x
  dsimp only at h hx hy
  by_cases hb : b = false
  · rw [if_pos hb] at h
    cases h
    exact hx
  rw [if_neg hb] at h
  cases hi : initState P (watch bad ops) cfg r0 s0 s with
  | error e => rw [hi] at h; cases h
  | ok s1 =>
    rw [hi] at h
    dsimp only at h
    obtain ⟨s1', hi', hr'⟩ := init_sim (watch_sim bad ops) P cfg (s := s) (s' := s.1) rfl hi
    rw [hr'.eq_bare] at hi'
    have hit0 : s1.iteration = 0 := by
      unfold initState at hi
      dsimp only at hi
      split at hi
      · cases hi
      · split_ifs at hi
        cases hi
        rfl
    cases hl : solveLoop P (watch bad ops) cfg s1 with
    | error e => rw [hl] at h; cases h
    | ok s2 =>
      rw [hl] at h
      dsimp only at h
      split_ifs at h
      injection h with h
      rw [← h]
      have n1 : ¬ s1.be.2 := by
        unfold initState at hi
        dsimp only at hi
        rw [happ, watch_eq, lanczos_withQr] at hi
        have hlz := lanczos_sim (watch_clean ops) P cfg.N cfg.numLanczos
          (min (cfg.nev + cfg.nex) (min (cfg.N / 2) cfg.lanczosIter)) (cfg.nev + cfg.nex) false
          r0 (be := (ops.initVecs false (ops.start s.1), s.2)) (be' := (ops.initVecs false (ops.start s.1), s.2)) ⟨rfl, hx⟩
        split at hi
        · cases hi
        · rename_i l hl2
          split_ifs at hi
          cases hi
          exact (RelE.self_ok hlz hl2).be.2
      have n2 : ¬ s2.be.2 := by
        unfold solveLoop at hl
        by_cases hr : running cfg s1
        · rw [dif_pos hr] at hl
          split at hl
          · cases hl
          · rename_i s3 hx3
            have n3 := iter_clean_at (fun q av t g1 g2 => hc s.1 hy s1.bare q av t hi' g1 g2) hx3 n1
            have := iter_iteration P _ cfg s1 s3 hx3
            unfold solveLoop at hl
            rw [dif_neg (fun hr3 => by have := hr3.2; omega)] at hl
            cases hl
            exact n3
        · rw [dif_neg hr] at hl
          cases hl
          exact n1
      exact (finalSort_sim (watch_clean ops) cfg.nev s2.ritzv (be := s2.be) (be' := s2.be) ⟨rfl, n2⟩).2.2

end Verif
