/-
C62: the result of a solve does not depend on the history of the solver object.

Only the matrix and, in approximation mode, the start vectors matter.  The buffers `B`, `B2`, `C2`, the
direction of the next product, the locked count and the flags may hold anything that earlier solves left.

The buffers of the model have infinitely many columns, those of the code `nev + nex`; the theorems ask for
the same columns beyond these, which do not exist in the code.
-/
import Verif.Backend.HistoryInPlace

namespace Verif

open Matrix

variable {K : Type*} [RCLike K] {N : ℕ}

/-- **C62** (sequential backend) Two solves with the same configuration and the same matrix, and in
approximation mode the same start vectors, return the same values and residuals after the same number of
rounds with the same vectors, whatever else the object holds. -/
theorem C62_seq (P : Plat ℝ) (E : Env K) (cfg : Config ℝ) (hnev : E.nev = cfg.nev) (hnex : E.nex = cfg.nex)
    (hmax : Even cfg.maxDeg) (ritzv0 resid0 : ℕ → ℝ) (s s' : Seq.St K N) (hH : s.H = s'.H)
    (hV : cfg.approx = true → ∀ k, k < cfg.nev + cfg.nex → s.C k = s'.C k)
    (hout : ∀ k, cfg.nev + cfg.nex ≤ k → s.C k = s'.C k ∧ s.C2 k = s'.C2 k) :
    RelE (fun a b => a.ritzv = b.ritzv ∧ a.resid = b.resid ∧ a.iterations = b.iterations ∧
        a.locked = b.locked ∧ a.be.H = b.be.H ∧ (0 < a.iterations → a.be.C = b.be.C))
      (solve P (Seq.ops E) cfg ritzv0 resid0 s) (solve P (Seq.ops E) cfg ritzv0 resid0 s') := by
  have hE : E.nevex = cfg.nev + cfg.nex := by unfold Env.nevex; rw [hnev, hnex]
  have h := solve_simP_end (Seq.hist_sim (N := N) E (!cfg.approx)) P cfg hE (Or.inr ⟨hmax, fun _ h => h⟩)
    ritzv0 resid0 (be := s) (be' := s') ⟨hH, ⟨fun h => funext fun k => ?_, fun k hk => (hout k (hE ▸ hk)).1⟩,
      fun k hk => (hout k (hE ▸ hk)).2⟩
  · rw [solve_fixInit, solve_fixInit] at h
    generalize solve P (Seq.ops E) cfg ritzv0 resid0 s = x at h ⊢
    generalize solve P (Seq.ops E) cfg ritzv0 resid0 s' = y at h ⊢
    cases h with
    | error e => exact RelE.error e
    | ok h =>
      refine RelE.ok ⟨h.1.ritzv, h.1.resid, h.1.iterations, h.1.locked, ?_, fun hp => ?_⟩
      · rcases h.1.be with h1 | ⟨l, t, t', h1, h2, h3⟩
        · exact h1.1
        · rw [h2, h3]; exact h1.1.H
      · obtain ⟨l, t, t', h1, h2, h3⟩ := h.2 hp
        rw [h2, h3]; exact h1.1.C
  · by_cases hk : k < cfg.nev + cfg.nex
    · exact hV (by simpa using h) k hk
    · exact (hout k (by omega)).1

namespace Mpi

variable {r c : Layout N} {E : MEnv K}

/-- On global data. -/
theorem gHistory {G : GEnv K N} {q q' : ℕ → ℝ → GSt K N → GSt K N}
    {d d' : (ℕ → ℝ) → ℕ → GSt K N → (ℕ → ℝ) × GSt K N} (hq : QrSame q q') (hd : ResdLike G d)
    (hd' : ResdLike G d') (P : Plat ℝ) (cfg : Config ℝ) (hnev : G.base.nev = cfg.nev) (hnex : G.base.nex = cfg.nex)
    (hmax : Even cfg.maxDeg) (ritzv0 resid0 : ℕ → ℝ) (g g' : GSt K N) (hH : g.H = g'.H)
    (hV : cfg.approx = true → ∀ k, k < cfg.nev + cfg.nex → g.C k = g'.C k)
    (hout : ∀ k, cfg.nev + cfg.nex ≤ k → g.C k = g'.C k ∧ g.C2 k = g'.C2 k) :
    RelE (fun a b => a.ritzv = b.ritzv ∧ a.resid = b.resid ∧ a.iterations = b.iterations ∧
        a.locked = b.locked ∧ a.be.H = b.be.H ∧ (0 < a.iterations → a.be.C = b.be.C))
      (solve P (gOpsWith G q d) cfg ritzv0 resid0 g) (solve P (gOpsWith G q' d') cfg ritzv0 resid0 g') := by
  have hE : G.base.nevex = cfg.nev + cfg.nex := by unfold Env.nevex; rw [hnev, hnex]
  have h := solve_simP_end (hist_sim hq hd hd' (!cfg.approx)) P cfg hE (Or.inr ⟨hmax, fun _ h => h⟩)
    ritzv0 resid0 (be := g) (be' := g') ⟨hH, ⟨fun h => funext fun k => ?_, fun k hk => (hout k (hE ▸ hk)).1⟩,
      fun k hk => (hout k (hE ▸ hk)).2⟩
  · rw [solve_fixInit, solve_fixInit] at h
    generalize solve P (gOpsWith G q d) cfg ritzv0 resid0 g = x at h ⊢
    generalize solve P (gOpsWith G q' d') cfg ritzv0 resid0 g' = y at h ⊢
    cases h with
    | error e => exact RelE.error e
    | ok h =>
      refine RelE.ok ⟨h.1.ritzv, h.1.resid, h.1.iterations, h.1.locked, ?_, fun hp => ?_⟩
      · rcases h.1.be with h1 | ⟨l, t, t', h1, h2, h3⟩
        · exact h1.1
        · rw [h2, h3]; exact h1.1.H
      · obtain ⟨l, t, t', h1, h2, h3⟩ := h.2 hp
        rw [h2, h3]; exact h1.1.C
  · by_cases hk : k < cfg.nev + cfg.nex
    · exact hV (by simpa using h) k hk
    · exact (hout k (by omega)).1

/-- **C62** (distributed CPU backend) Two solves on the same process grid with the same configuration and
the same matrix, and in approximation mode the same start vectors, return the same values and residuals
after the same number of rounds, with the same vectors on every process, whatever else the objects hold. -/
theorem C62_mpi (hc : RunsOk r c E.cRuns) (hb : RunsOk c r E.bRuns) (P : Plat ℝ) (cfg : Config ℝ)
    (hnev : E.base.nev = cfg.nev) (hnex : E.base.nex = cfg.nex) (hmax : Even cfg.maxDeg)
    (ritzv0 resid0 : ℕ → ℝ) {s s' : Fam K r c} {g g' : GSt K N} (h : Rep s g) (h' : Rep s' g')
    (hH : ∀ i j, (s i j).H = (s' i j).H)
    (hV : cfg.approx = true → ∀ i j k, k < cfg.nev + cfg.nex → (s i j).C k = (s' i j).C k)
    (hout : ∀ i j k, cfg.nev + cfg.nex ≤ k → (s i j).C k = (s' i j).C k ∧ (s i j).C2 k = (s' i j).C2 k)
    (i0 : Fin r.procs) (j0 : Fin c.procs) :
    RelE (fun a b => a.ritzv = b.ritzv ∧ a.resid = b.resid ∧ a.iterations = b.iterations ∧
        a.locked = b.locked ∧ (∀ i j, (a.be i j).H = (b.be i j).H) ∧
        (0 < a.iterations → ∀ i j, (a.be i j).C = (b.be i j).C))
      (solve P (opsAt E i0 j0) cfg ritzv0 resid0 s) (solve P (opsAt E i0 j0) cfg ritzv0 resid0 s') := by
  have h0 := solve_sim (sim hc hb i0 j0) P cfg ritzv0 resid0 h
  have h1 := solve_sim (sim hc hb i0 j0) P cfg ritzv0 resid0 h'
  have hcol : ∀ k, (∀ i j, (s i j).C k = (s' i j).C k) → g.C k = g'.C k := by
    intro k hk
    funext x
    obtain ⟨i, a, rfl⟩ := r.exists_glob x
    rw [← h.C i j0 k a, ← h'.C i j0 k a, hk]
  have hcol2 : ∀ k, (∀ i j, (s i j).C2 k = (s' i j).C2 k) → g.C2 k = g'.C2 k := by
    intro k hk
    funext x
    obtain ⟨i, a, rfl⟩ := r.exists_glob x
    rw [← h.C2 i j0 k a, ← h'.C2 i j0 k a, hk]
  have hgH : g.H = g'.H := by
    funext x y
    obtain ⟨i, a, rfl⟩ := r.exists_glob x
    obtain ⟨j, b, rfl⟩ := c.exists_glob y
    rw [← h.H, ← h'.H, hH]
  have h2 := gHistory (G := E.glob r) (gQr_same (G := E.glob r)) gResd_like gResd_like P cfg hnev hnex hmax ritzv0 resid0 g g' hgH
    (fun ha k hk => hcol k fun i j => hV ha i j k hk)
    (fun k hk => ⟨hcol k fun i j => (hout i j k hk).1, hcol2 k fun i j => (hout i j k hk).2⟩)
  have e : gOpsWith (E.glob r) (gOps (E.glob r)).qr (gOps (E.glob r)).resd = gOps (E.glob r) := rfl
  rw [e] at h2
  generalize solve P (opsAt E i0 j0) cfg ritzv0 resid0 s = x at h0 ⊢
  generalize solve P (opsAt E i0 j0) cfg ritzv0 resid0 s' = y at h1 ⊢
  generalize solve P (gOps (E.glob r)) cfg ritzv0 resid0 g = z at h0 h2
  generalize solve P (gOps (E.glob r)) cfg ritzv0 resid0 g' = w at h1 h2
  cases h0 with
  | error e => cases h2; cases h1; exact RelE.error _
  | ok h0 =>
    cases h2 with
    | ok h2 =>
      cases h1 with
      | ok h1 =>
        obtain ⟨k1, k2, k3, k4, k5, k6⟩ := h2
        refine RelE.ok ⟨h0.ritzv.trans (k1.trans h1.ritzv.symm), h0.resid.trans (k2.trans h1.resid.symm),
          h0.iterations.trans (k3.trans h1.iterations.symm), h0.locked.trans (k4.trans h1.locked.symm),
          fun i j => ?_, fun hp i j => ?_⟩
        · funext a b
          rw [h0.be.H, h1.be.H, k5]
        · funext k a
          rw [h0.be.C, h1.be.C, k6 (h0.iterations ▸ hp)]

end Mpi

namespace InPlace

/-- Both backends that exchange their buffers. -/
theorem history (P : Plat ℝ) (E : Env K) (k : Kind) (cfg : Config ℝ) (hnev : E.nev = cfg.nev)
    (hnex : E.nex = cfg.nex) (ritzv0 resid0 : ℕ → ℝ) (s s' : St K N) (hH : s.userH k = s'.userH k)
    (hV : cfg.approx = true → ∀ j, j < cfg.nev + cfg.nex → s.V1 j = s'.V1 j)
    (hout : ∀ j, cfg.nev + cfg.nex ≤ j → s.V1 j = s'.V1 j ∧ s.V2 j = s'.V2 j) :
    RelE (fun a b => a.ritzv = b.ritzv ∧ a.resid = b.resid ∧ a.iterations = b.iterations ∧
        a.locked = b.locked ∧ a.be.userH k = b.be.userH k ∧
        (a.be.flipped ^^ b.be.flipped) = (s.flipped ^^ s'.flipped) ∧
        (0 < a.iterations → a.be.V1 = b.be.V1 ∧ a.be.V2 = b.be.V2 ∧
          (k = .cuda → ∀ j, j < cfg.nev + cfg.nex → a.be.user j = b.be.user j)))
      (solve P (ops E k) cfg ritzv0 resid0 s) (solve P (ops E k) cfg ritzv0 resid0 s') := by
  have hE : E.nevex = cfg.nev + cfg.nex := by unfold Env.nevex; rw [hnev, hnex]
  have h := solve_simP_end (hist_sim (N := N) E k (!cfg.approx) (s.flipped ^^ s'.flipped)) P cfg hE
    (Or.inl fun _ => trivial) ritzv0 resid0 (be := s) (be' := s')
    ⟨hH, ⟨fun h => funext fun j => ?_, fun j hj => (hout j (hE ▸ hj)).1⟩,
      fun j hj => (hout j (hE ▸ hj)).2, rfl⟩
  · rw [solve_fixInit, solve_fixInit] at h
    generalize solve P (ops E k) cfg ritzv0 resid0 s = x at h ⊢
    generalize solve P (ops E k) cfg ritzv0 resid0 s' = y at h ⊢
    cases h with
    | error e => exact RelE.error e
    | ok h =>
      refine RelE.ok ⟨h.1.ritzv, h.1.resid, h.1.iterations, h.1.locked, ?_, ?_, fun hp => ?_⟩
      · rcases h.1.be with h1 | ⟨l, t, t', h1, h2, h3⟩
        · exact h1.userH
        · rw [h2, h3]
          cases k <;> exact h1.1.userH
      · rcases h.1.be with h1 | ⟨l, t, t', h1, h2, h3⟩
        · exact h1.flip
        · rw [h2, h3]
          cases k <;> exact h1.1.flip
      · obtain ⟨l, t, t', h1, h2, h3⟩ := h.2 hp
        rw [h2, h3]
        refine ⟨?_, ?_, ?_⟩
        · cases k <;> exact h1.1.V1
        · cases k <;> exact h1.1.V2
        · rintro rfl j hj
          show copyCols 0 E.nevex t.V1 t.user j = copyCols 0 E.nevex t'.V1 t'.user j
          rw [copyCols_apply, copyCols_apply, if_pos ⟨Nat.zero_le _, by omega⟩,
            if_pos ⟨Nat.zero_le _, by omega⟩, h1.1.V1]
  · by_cases hj : j < cfg.nev + cfg.nex
    · exact hV (by simpa using h) j hj
    · exact (hout j (by omega)).1

/-- **C62** (CUDA backend, start from random vectors) Two solves with the same configuration and the same
matrix return the same values and residuals after the same number of rounds, with the same vectors in the
array of the user, whatever the object holds on the device. -/
theorem C62_cuda (P : Plat ℝ) (E : Env K) (cfg : Config ℝ) (hnev : E.nev = cfg.nev)
    (hnex : E.nex = cfg.nex) (happ : cfg.approx = false) (ritzv0 resid0 : ℕ → ℝ) (s s' : St K N)
    (hH : s.hostH = s'.hostH)
    (hout : ∀ j, cfg.nev + cfg.nex ≤ j → s.V1 j = s'.V1 j ∧ s.V2 j = s'.V2 j) :
    RelE (fun a b => a.ritzv = b.ritzv ∧ a.resid = b.resid ∧ a.iterations = b.iterations ∧
        a.locked = b.locked ∧ a.be.hostH = b.be.hostH ∧
        (0 < a.iterations → ∀ j, j < cfg.nev + cfg.nex → a.be.userV .cuda j = b.be.userV .cuda j))
      (solve P (ops E .cuda) cfg ritzv0 resid0 s) (solve P (ops E .cuda) cfg ritzv0 resid0 s') := by
  have h := history P E .cuda cfg hnev hnex ritzv0 resid0 s s' hH (fun h => by simp [happ] at h) hout
  generalize solve P (ops E .cuda) cfg ritzv0 resid0 s = x at h ⊢
  generalize solve P (ops E .cuda) cfg ritzv0 resid0 s' = y at h ⊢
  cases h with
  | error e => exact RelE.error e
  | ok h =>
    obtain ⟨h1, h2, h3, h4, h5, -, h7⟩ := h
    exact RelE.ok ⟨h1, h2, h3, h4, h5, fun hp j hj => (h7 hp).2.2 rfl j hj⟩

/-- **C62** (partial, in-place CPU backend) Two solves with the same configuration and the same matrix, and
in approximation mode the same start vectors in the array of the user, on objects whose pointers refer to
corresponding buffers (`flipped`), return the same values and residuals after the same number of rounds,
with the same contents of the user's array, whatever else the objects hold.  Missing: objects whose
pointers refer to different buffers.  From random start vectors (`C62_inplace_random`) values and residuals do
not depend on that either; in approximation mode they do, see `C54_inplace_used_refuted`. -/
theorem C62_inplace_partial (P : Plat ℝ) (E : Env K) (cfg : Config ℝ) (hnev : E.nev = cfg.nev)
    (hnex : E.nex = cfg.nex) (ritzv0 resid0 : ℕ → ℝ) (s s' : St K N) (hH : s.H = s'.H)
    (hf : s.flipped = false) (hf' : s'.flipped = false)
    (hV : cfg.approx = true → ∀ j, j < cfg.nev + cfg.nex → s.userV .cpu j = s'.userV .cpu j)
    (hout : ∀ j, cfg.nev + cfg.nex ≤ j → s.V1 j = s'.V1 j ∧ s.V2 j = s'.V2 j) :
    RelE (fun a b => a.ritzv = b.ritzv ∧ a.resid = b.resid ∧ a.iterations = b.iterations ∧
        a.locked = b.locked ∧ a.be.H = b.be.H ∧ (0 < a.iterations → a.be.userV .cpu = b.be.userV .cpu))
      (solve P (ops E .cpu) cfg ritzv0 resid0 s) (solve P (ops E .cpu) cfg ritzv0 resid0 s') := by
  have h := history P E .cpu cfg hnev hnex ritzv0 resid0 s s' hH (fun h j hj => by
    have := hV h j hj
    unfold St.userV at this
    rw [hf, hf'] at this
    exact this) hout
  generalize solve P (ops E .cpu) cfg ritzv0 resid0 s = x at h ⊢
  generalize solve P (ops E .cpu) cfg ritzv0 resid0 s' = y at h ⊢
  cases h with
  | error e => exact RelE.error e
  | @ok a b h =>
    obtain ⟨h1, h2, h3, h4, h5, h6, h7⟩ := h
    refine RelE.ok ⟨h1, h2, h3, h4, h5, fun hp => ?_⟩
    have e : a.be.flipped = b.be.flipped := by
      rw [hf, hf'] at h6
      cases h8 : a.be.flipped <;> cases h9 : b.be.flipped <;> simp [h8, h9] at h6 <;> rfl
    unfold St.userV
    dsimp only
    rw [e, (h7 hp).1, (h7 hp).2.1]

/-- **C62** (in-place CPU backend, start from random vectors) Values, residuals and the number of rounds do
not depend on anything that the object holds, which of its buffers is the user's array included; the same
holds for the vectors in the buffer that the solver works on. -/
theorem C62_inplace_random (P : Plat ℝ) (E : Env K) (cfg : Config ℝ) (hnev : E.nev = cfg.nev)
    (hnex : E.nex = cfg.nex) (happ : cfg.approx = false) (ritzv0 resid0 : ℕ → ℝ) (s s' : St K N)
    (hH : s.H = s'.H) (hout : ∀ j, cfg.nev + cfg.nex ≤ j → s.V1 j = s'.V1 j ∧ s.V2 j = s'.V2 j) :
    RelE (fun a b => a.ritzv = b.ritzv ∧ a.resid = b.resid ∧ a.iterations = b.iterations ∧
        a.locked = b.locked ∧ a.be.H = b.be.H ∧ (0 < a.iterations → a.be.V1 = b.be.V1))
      (solve P (ops E .cpu) cfg ritzv0 resid0 s) (solve P (ops E .cpu) cfg ritzv0 resid0 s') := by
  have h := history P E .cpu cfg hnev hnex ritzv0 resid0 s s' hH (fun h => by simp [happ] at h) hout
  generalize solve P (ops E .cpu) cfg ritzv0 resid0 s = x at h ⊢
  generalize solve P (ops E .cpu) cfg ritzv0 resid0 s' = y at h ⊢
  cases h with
  | error e => exact RelE.error e
  | ok h =>
    obtain ⟨h1, h2, h3, h4, h5, -, h7⟩ := h
    exact RelE.ok ⟨h1, h2, h3, h4, h5, fun hp => (h7 hp).1⟩

/-- **C54 and C62 are false for the in-place CPU backend after an odd number of rounds** (then `flipped` is
set, see `C41_inplace_odd`): in approximation mode the next solve starts from the internal buffer, and what
the user has put into the array has no influence. -/
theorem C54_inplace_used_refuted (P : Plat ℝ) (E : Env K) (cfg : Config ℝ) (hnev : E.nev = cfg.nev)
    (hnex : E.nex = cfg.nex) (ritzv0 resid0 : ℕ → ℝ) (s : St K N) (hf : s.flipped = true) (V : ℕ → Fin N → K)
    (hout : ∀ j, cfg.nev + cfg.nex ≤ j → V j = s.userV .cpu j) :
    ∃ s' : St K N, s' = { s with V2 := V } ∧ s'.userV .cpu = V ∧
      RelE (fun a b => a.ritzv = b.ritzv ∧ a.resid = b.resid ∧ a.iterations = b.iterations ∧
          a.locked = b.locked ∧ (0 < a.iterations → a.be.userV .cpu = b.be.userV .cpu))
        (solve P (ops E .cpu) cfg ritzv0 resid0 s) (solve P (ops E .cpu) cfg ritzv0 resid0 s') := by
  refine ⟨_, rfl, ?_, ?_⟩
  · unfold St.userV
    dsimp only
    rw [if_pos hf]
  have h := history P E .cpu cfg hnev hnex ritzv0 resid0 s { s with V2 := V } rfl (fun _ _ _ => rfl)
    (fun j hj => ⟨rfl, by
      have := hout j hj
      unfold St.userV at this
      dsimp only at this
      rw [if_pos hf] at this
      exact this.symm⟩)
  generalize solve P (ops E .cpu) cfg ritzv0 resid0 s = x at h ⊢
  generalize solve P (ops E .cpu) cfg ritzv0 resid0 _ = y at h ⊢
  cases h with
  | error e => exact RelE.error e
  | @ok a b h =>
    obtain ⟨h1, h2, h3, h4, h5, h6, h7⟩ := h
    refine RelE.ok ⟨h1, h2, h3, h4, fun hp => ?_⟩
    have e : a.be.flipped = b.be.flipped := by
      dsimp only at h6
      rw [hf] at h6
      cases h8 : a.be.flipped <;> cases h9 : b.be.flipped <;> simp [h8, h9] at h6 <;> rfl
    unfold St.userV
    dsimp only
    rw [e, (h7 hp).1, (h7 hp).2.1]

end InPlace

/-- `C62_seq`, `C62_mpi`: a solve on a new object against one on an object with other contents of its
buffers, with the direction of the product and the locked count left by something else. -/
example : ∃ s s' : Seq.St K 7, s.H = exMat K ∧ s.H = s'.H ∧ s.B ≠ s'.B ∧ s.C2 ≠ s'.C2 ∧ s.next ≠ s'.next ∧
    s.locked ≠ s'.locked ∧ (∀ k, 3 + 2 ≤ k → s.C k = s'.C k ∧ s.C2 k = s'.C2 k) ∧
    (∀ k, k < 3 + 2 → s.C k = s'.C k) ∧ (exCfg 4).nev = 3 ∧ (exCfg 4).nex = 2 ∧ Even (exCfg 4).maxDeg ∧
    (exEnv K).nev = 3 ∧ (exEnv K).nex = 2 ∧ ∃ out, solve (realPlat 1 id) (Seq.ops (exEnv K)) (exCfg 4)
      (fun _ => 0) (fun _ => 0) s = .ok out ∧ 0 < out.iterations := by
  refine ⟨⟨exMat K, fun _ _ => 0, fun _ _ => 0, fun _ _ => 0, fun _ _ => 0, .bAc, 0, true⟩,
    ⟨exMat K, fun _ _ => 0, fun _ _ => 1, fun k _ => if k = 0 then 1 else 0, fun _ _ => 1, .cAb, 3, false⟩,
    rfl, rfl, fun h => ?_, fun h => ?_, nofun, nofun, ?_, fun _ _ => rfl, rfl, rfl, by decide,
    rfl, rfl, ?_⟩
  · exact zero_ne_one (congrFun (congrFun h 0) 0)
  · have := congrFun (congrFun h 0) 0
    simp at this
  · intro k hk
    refine ⟨rfl, ?_⟩
    funext a
    show (0 : K) = if k = 0 then 1 else 0
    rw [if_neg (by omega)]
  · obtain ⟨out, ho, hpos⟩ := C51_approx_solve_defined (realPlat 1 id) (Seq.ops (exEnv K)) (exCfg 4) rfl
      (by decide) (by decide) (by decide) (by decide) (by decide) (by decide) (by decide)
      (fun h => absurd h (by decide)) (fun _ => 0) (fun _ => 0)
      (⟨exMat K, fun _ _ => 0, fun _ _ => 0, fun _ _ => 0, fun _ _ => 0, .bAc, 0, true⟩ : Seq.St K 7)
    exact ⟨out, ho, hpos (fun _ => C09_hermitian_accepted (exEnv K).lapack _ exMat_hermitian) (by decide)⟩

/-- `C62_cuda`, `C62_inplace_partial`, `C62_inplace_random`: two states that differ in everything but the
matrix and, in approximation mode, the vectors. -/
example : ∃ s s' : InPlace.St K 7, s.H = exMat K ∧ s.H = s'.H ∧ s.hostH = s'.hostH ∧ s.V2 ≠ s'.V2 ∧
    s.dRitz ≠ s'.dRitz ∧ s.locked ≠ s'.locked ∧ s.isSym ≠ s'.isSym ∧ s.flipped = false ∧ s'.flipped = false ∧
    (∀ k, 3 + 2 ≤ k → s.V1 k = s'.V1 k ∧ s.V2 k = s'.V2 k) ∧ (∀ k, k < 3 + 2 → s.userV .cpu k = s'.userV .cpu k) ∧
    ∃ out, solve (realPlat 1 id) (InPlace.ops (exEnv K) .cpu) (exCfg 4) (fun _ => 0) (fun _ => 0) s = .ok out ∧
      0 < out.iterations := by
  refine ⟨⟨exMat K, exMat K, fun _ _ => 0, fun _ _ => 0, fun _ _ => 0, false, fun _ => 0, 0, true⟩,
    ⟨exMat K, exMat K, fun _ _ => 0, fun k _ => if k = 0 then 1 else 0, fun _ _ => 1, false, fun _ => 1, 3, false⟩,
    rfl, rfl, rfl, fun h => ?_, fun h => ?_, nofun, nofun, rfl, rfl, ?_, fun _ _ => rfl, ?_⟩
  · have := congrFun (congrFun h 0) 0
    simp at this
  · exact zero_ne_one (congrFun h 0)
  · intro k hk
    refine ⟨rfl, ?_⟩
    funext a
    show (0 : K) = if k = 0 then 1 else 0
    rw [if_neg (by omega)]
  · obtain ⟨out, ho, hpos⟩ := C51_approx_solve_defined (realPlat 1 id) (InPlace.ops (exEnv K) .cpu) (exCfg 4) rfl
      (by decide) (by decide) (by decide) (by decide) (by decide) (by decide) (by decide)
      (fun h => absurd h (by decide)) (fun _ => 0) (fun _ => 0)
      (⟨exMat K, exMat K, fun _ _ => 0, fun _ _ => 0, fun _ _ => 0, false, fun _ => 0, 0, true⟩ : InPlace.St K 7)
    exact ⟨out, ho, hpos (fun _ => C09_hermitian_accepted (exEnv K).lapack _ exMat_hermitian) (by decide)⟩

/-- `C54_inplace_used_refuted`: a solve of one round on a new object leaves it with `flipped` set. -/
example : ∃ (s : InPlace.St K 7) (out : Outcome ℝ (InPlace.St K 7)), s.H = exMat K ∧ s.flipped = false ∧
    solve (realPlat 1 id) (InPlace.ops (exEnv K) .cpu) (exCfg 1) (fun _ => 0) (fun _ => 0) s = .ok out ∧
    out.be.flipped = true := by
  let s : InPlace.St K 7 := ⟨exMat K, exMat K, fun _ _ => 0, fun _ _ => 0, fun _ _ => 0, false, fun _ => 0, 0, true⟩
  have hsym : (exCfg 1).symCheck = true → ((InPlace.ops (exEnv K) .cpu).checkSymmetryEasy s).1 = true :=
    fun _ => C09_hermitian_accepted (exEnv K).lapack _ exMat_hermitian
  obtain ⟨out, ho, hpos⟩ := C51_approx_solve_defined (realPlat 1 id) (InPlace.ops (exEnv K) .cpu) (exCfg 1) rfl
    (by decide) (by decide) (by decide) (by decide) (by decide) (by decide) (by decide)
    (fun h => absurd h (by decide)) (fun _ => 0) (fun _ => 0) s
  have hp := hpos hsym (by decide)
  have hle : out.iterations ≤ (exCfg 1).maxIter := (C01_stops_within_maxIter _ _ _ _ _ _ _ hsym ho).1
  have h1 : (exCfg 1).maxIter = 1 := rfl
  refine ⟨s, out, rfl, rfl, ho, ?_⟩
  rw [parity_at_end (InPlace.toggles (exEnv K) .cpu) (realPlat_sorts _ _).permutes (by decide) hsym ho,
    show out.iterations = 1 by omega]
  rfl

end Verif
