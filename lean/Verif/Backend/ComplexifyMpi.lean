/-
C99 for the distributed CPU backend.
-/
import Verif.Backend.ComplexifyExists
import Verif.Backend.BasisMpi

namespace Verif
namespace Mpi

open Matrix

variable {K : Type*} [RCLike K] {N : ℕ} {r c : Layout N} {E : MEnv ℝ}

/-- The state over `K`. -/
def GSt.over (K : Type*) [RCLike K] (g : GSt ℝ N) : GSt K N := ⟨g.toSt.c K, g.fresh⟩

/-- The global backend over `K` with the random start vectors of the real version. -/
noncomputable def GEnv.real (G' : GEnv K N) (G : GEnv ℝ N) : GEnv K N := { G' with rnd := cV K G.rnd }

/-- On real data the complex version runs like the real version, if it is given the same random numbers. -/
theorem gSim_c {G' : GEnv K N} {G : GEnv ℝ N} (h : G'.base.Extends G.base) (hsca : G'.scalapack = G.scalapack) :
    Sim (gPass G) (gPass (G'.real G)) (fun (g : GSt ℝ N) (t : GSt K N) => t = g.over K) := by
  have hL := h.lapack
  have hn : G'.base.nevex = G.base.nevex := by
    show G'.base.nev + G'.base.nex = G.base.nev + G.base.nex
    rw [h.nev, h.nex]
  exact {
    checkSymmetryEasy := by rintro g _ rfl; exact ⟨rfl, rfl⟩
    start := by rintro g _ rfl; rfl
    finish := by rintro g _ rfl; rfl
    initVecs := by
      rintro b g _ rfl
      have e : ∀ t : Seq.St ℝ N, Seq.initVecs G'.base (t.c K) = (Seq.initVecs G.base t).c K := by
        intro t
        unfold Seq.initVecs
        rw [hn]
        show ({ t.c K with next := .bAc, C2 := copyCols 0 G.base.nevex (cV K t.C) (cV K t.C2) } : Seq.St K N) = _
        rw [copyCols_c]
        rfl
      cases b
      · exact congrArg (fun t => (⟨t, g.fresh⟩ : GSt K N)) (e g.toSt)
      · have e' : ({ g.toSt.c K with C := writeAt (cV K g.C) 0 G'.base.nevex (cV K G.rnd) } : Seq.St K N) =
            ({ g.toSt with C := writeAt g.C 0 G.base.nevex G.rnd } : Seq.St ℝ N).c K := by
          rw [hn, writeAt_c]
          rfl
        show (⟨Seq.initVecs G'.base
          { g.toSt.c K with C := writeAt (cV K g.C) 0 G'.base.nevex (cV K G.rnd) }, g.fresh⟩ : GSt K N) = _
        rw [e', e]
        rfl
    qr := by
      rintro k x g _ rfl
      show qrSelect (gQrRoutines (G'.real G) g.locked) G'.base.doCholQR G'.base.envDisable
        (open Classical in decide (x > G'.base.condUpper)) (open Classical in decide (x < G'.base.condLower)) (g.over K) = _
      rw [h.doCholQR, h.envDisable, h.condUpper, h.condLower]
      refine qrSelect_rot (GSt.over K) _ _ (fun t => ?_) (fun t => ?_) (fun t => ?_) (fun t => ?_) (fun b t => ?_) _ _ _ _ g
      · show ({ t.over K with C := hhQRc G'.base.lapack G'.base.nevex (cV K t.C), next := if G'.scalapack then t.next else .bAc } : GSt K N) = _
        rw [hn, hsca, hhQRc_c hL]
        rfl
      · show ((cholQR1c G'.base.lapack G'.base.nevex (cV K t.C)).1,
          ({ t.over K with C := (cholQR1c G'.base.lapack G'.base.nevex (cV K t.C)).2 } : GSt K N)) = _
        rw [hn, cholQR1c_c hL]
        rfl
      · show ((cholQR2c G'.base.lapack G'.base.nevex ⟨true, true⟩ (cV K t.C)).1,
          ({ t.over K with C := (cholQR2c G'.base.lapack G'.base.nevex ⟨true, true⟩ (cV K t.C)).2 } : GSt K N)) = _
        rw [hn, cholQR2c_c hL]
        rfl
      · show ((shiftedcholQR2c G'.base.lapack G'.base.nevex ⟨true, false⟩ (cV K t.C)).1,
          ({ t.over K with C := (shiftedcholQR2c G'.base.lapack G'.base.nevex ⟨true, false⟩ (cV K t.C)).2 } : GSt K N)) = _
        rw [hn, shiftedcholQR2c_c hL]
        rfl
      · exact congrArg (fun u => (⟨u, t.fresh⟩ : GSt K N)) (Seq.lockVectorCopy_c hn _ t.toSt)
    lanczos1 := by
      rintro m g _ rfl
      exact ⟨(lanczosBound_c hL axpyOwn g.H m g.C).symm, rfl⟩
    lanczosN := by
      rintro m k g _ rfl
      have e := lanczosMulti_c hL axpyOwn g.H m k g.C
      refine ⟨(congrArg Prod.fst e).symm, ?_⟩
      show ({ g.over K with C := (lanczosMulti axpyOwn G'.base.lapack (cM K g.H) m k (cV K g.C)).2 } : GSt K N) = _
      rw [e]
      rfl
    lanczosDos := by
      rintro i m z g _ rfl
      exact congrArg (fun u => (⟨u, g.fresh⟩ : GSt K N)) (Seq.lanczosDos_c i m z g.toSt)
    shift := by
      rintro x b g _ rfl
      show ({ g.over K with H := shiftH (x : K) (cM K g.H), next := if g.fresh then .bAc else g.next, fresh := false } : GSt K N) = _
      rw [shiftH_c]
      rfl
    hemm := by
      rintro n a b o g _ rfl
      exact congrArg (fun u => (⟨u, g.fresh⟩ : GSt K N)) (Seq.apply_c _ _ _ _ _ g.toSt)
    rr := by
      rintro b g _ rfl
      have e := Seq.rr_c hL b g.locked g.toSt
      exact ⟨(congrArg Prod.fst e).symm, congrArg (fun u => (⟨u, g.fresh⟩ : GSt K N)) (congrArg Prod.snd e)⟩
    resd := by
      rintro f k g _ rfl
      have e := Seq.resd_c (K := K) f g.locked (G.base.nevex - k) g.toSt
      show _ = (Seq.resd f g.locked (G'.base.nevex - k) (g.toSt.c K)).1 ∧
        (⟨(Seq.resd f g.locked (G'.base.nevex - k) (g.toSt.c K)).2, g.fresh⟩ : GSt K N) = _
      rw [hn]
      exact ⟨(congrArg Prod.fst e).symm, congrArg (fun u => (⟨u, g.fresh⟩ : GSt K N)) (congrArg Prod.snd e)⟩
    lock := by rintro k g _ rfl; rfl
    swap := by rintro i j g _ rfl; rfl }

/-- **C99** (distributed CPU backend, approximation mode) A real symmetric problem is solved by the complex version,
on any grid and distribution and with any random numbers, as by the real version on any other: both fail alike or
return the same values and residuals after the same rounds, and the vectors of the complex version are real and
those of the real version.
Assumed: the library routines for complex matrices do with real matrices what those for real matrices do
(`Lapack.Extends`). -/
theorem C99_mpi_partial {r' c' : Layout N} {E' : MEnv K}
    (hc : RunsOk r c E.cRuns) (hb : RunsOk c r E.bRuns) (hc' : RunsOk r' c' E'.cRuns) (hb' : RunsOk c' r' E'.bRuns)
    (hE : E'.base.Extends E.base) (hsca : E'.scalapack = E.scalapack) (P : Plat ℝ) (cfg : Config ℝ)
    (hnev : E.base.nev = cfg.nev) (hnex : E.base.nex = cfg.nex) (hmax : Even cfg.maxDeg) (happ : cfg.approx = true)
    (ritzv0 resid0 : ℕ → ℝ) {s : Fam ℝ r c} {s' : Fam K r' c'} {g : GSt ℝ N} {g' : GSt K N} (hs : Rep s g) (hs' : Rep s' g')
    (hsym : cfg.symCheck = true → g.H.IsSymm ∧ 0 ≤ E.symTol ∧ 0 ≤ E'.symTol)
    (hH : ∀ i j, g'.H i j = (g.H i j : K)) (hC : ∀ k i, g'.C k i = (g.C k i : K))
    (hC2 : ∀ k, cfg.nev + cfg.nex ≤ k → ∀ i, g'.C2 k i = (g.C2 k i : K))
    (i0 : Fin r.procs) (j0 : Fin c.procs) (i1 : Fin r'.procs) (j1 : Fin c'.procs) :
    RelE (fun a b => a.ritzv = b.ritzv ∧ a.resid = b.resid ∧ a.iterations = b.iterations ∧ a.locked = b.locked ∧
        (0 < a.iterations → ∃ X : ℕ → Fin N → ℝ, (∀ i j k l, (a.be i j).C k l = X k (r.glob i l)) ∧
          ∀ i j k l, (b.be i j).C k l = (X k (r'.glob i l) : K)))
      (solve P (opsAt E i0 j0) cfg ritzv0 resid0 s) (solve P (opsAt E' i1 j1) cfg ritzv0 resid0 s') := by
  have hherm : cfg.symCheck = true → g.H.IsHermitian := fun hk =>
    (conjTranspose_eq_transpose_of_trivial g.H).trans (hsym hk).1
  have hherm' : cfg.symCheck = true → (g.over K).H.IsHermitian := fun hk => by
    show (cM K g.H)ᴴ = cM K g.H
    rw [← cM_conj, (hherm hk).eq]
  have hp2 : solve P (gPass (E'.glob r')) cfg ritzv0 resid0 (g.over K) =
      solve P (gOps (E'.glob r')) cfg ritzv0 resid0 (g.over K) := by
    refine solve_congr_start P cfg (gOps (E'.glob r')) (gOps (E'.glob r')).initVecs
      (fun g => (true, ({ g with isSym := true } : GSt K N))) ritzv0 resid0 (g.over K) rfl fun hk => ?_
    show _ = (gSymCheck (E'.glob r') (g.over K), ({ g.over K with isSym := gSymCheck (E'.glob r') (g.over K) } : GSt K N))
    rw [gSymCheck_hermitian (G := E'.glob r') (hsym hk).2.2 _ (hherm' hk)]
  have hp1 : solve P (gPass (E.glob r)) cfg ritzv0 resid0 g = solve P (gOps (E.glob r)) cfg ritzv0 resid0 g := by
    refine solve_congr_start P cfg (gOps (E.glob r)) (gOps (E.glob r)).initVecs
      (fun g => (true, ({ g with isSym := true } : GSt ℝ N))) ritzv0 resid0 g rfl fun hk => ?_
    show _ = (gSymCheck (E.glob r) g, ({ g with isSym := gSymCheck (E.glob r) g } : GSt ℝ N))
    rw [gSymCheck_hermitian (G := E.glob r) (hsym hk).2.1 g (hherm hk)]
  have h0 := solve_sim (sim hc hb i0 j0) P cfg ritzv0 resid0 hs
  have h1 := solve_sim (gSim_c (G' := E'.glob r') (G := E.glob r) hE hsca) P cfg ritzv0 resid0 (be := g) (be' := g.over K) rfl
  have h3 : solve P (gPass ((E'.glob r').real (E.glob r))) cfg ritzv0 resid0 (g.over K) =
      solve P (gOps (E'.glob r')) cfg ritzv0 resid0 (g.over K) := by
    rw [← hp2]
    exact solve_congr_start P cfg (gPass (E'.glob r')) (gPass ((E'.glob r').real (E.glob r))).initVecs
      (gPass (E'.glob r')).checkSymmetryEasy ritzv0 resid0 (g.over K) (by rw [happ]; rfl) fun _ => rfl
  rw [hp1, h3] at h1
  have h2 := solve_sim (sim hc' hb' i1 j1) P cfg ritzv0 resid0 (scatter_rep r' c' (g.over K))
  have h4 := C62_mpi hc' hb' P cfg (hE.nev.trans hnev) (hE.nex.trans hnex) hmax ritzv0 resid0
    (scatter_rep r' c' (g.over K)) hs'
    (fun i j => by
      ext a b
      rw [(scatter_rep r' c' (g.over K)).H, hs'.H, hH]
      rfl)
    (fun _ i j k _ => by
      funext l
      rw [(scatter_rep r' c' (g.over K)).C, hs'.C, hC]
      rfl)
    (fun i j k hk => ⟨by
      funext l
      rw [(scatter_rep r' c' (g.over K)).C, hs'.C, hC]
      rfl, by
      funext l
      rw [(scatter_rep r' c' (g.over K)).C2, hs'.C2, hC2 k hk]
      rfl⟩) i1 j1
  revert h0 h1 h2 h4
  generalize solve P (opsAt E i0 j0) cfg ritzv0 resid0 s = w
  generalize solve P (gOps (E.glob r)) cfg ritzv0 resid0 g = x
  generalize solve P (gOps (E'.glob r')) cfg ritzv0 resid0 (g.over K) = y
  generalize solve P (opsAt E' i1 j1) cfg ritzv0 resid0 (scatter r' c' (g.over K)) = u
  generalize solve P (opsAt E' i1 j1) cfg ritzv0 resid0 s' = z
  intro h0 h1 h2 h4
  cases h0 with
  | error e => cases h1; cases h2; cases h4; exact RelE.error e
  | @ok a0 a1 h0 =>
    cases h1 with
    | @ok _ b1 h1 =>
      cases h2 with
      | @ok b2 _ h2 =>
        cases h4 with
        | @ok _ b3 h4 =>
          obtain ⟨e1, e2, e3, e4, -, e6⟩ := h4
          refine RelE.ok ⟨h0.ritzv.trans (h1.ritzv.trans (h2.ritzv.symm.trans e1)),
            h0.resid.trans (h1.resid.trans (h2.resid.symm.trans e2)),
            h0.iterations.trans (h1.iterations.trans (h2.iterations.symm.trans e3)),
            h0.locked.trans (h1.locked.trans (h2.locked.symm.trans e4)), fun hp => ⟨a1.be.C, h0.be.C, ?_⟩⟩
          intro i j k l
          have hpy : 0 < b2.iterations := by
            rw [h2.iterations, ← h1.iterations, ← h0.iterations]; exact hp
          rw [← e6 hpy i j, h2.be.C, h1.be]
          rfl

/-- `C99_mpi_partial`: hypotheses met by a solve with the real version on a 3 x 2 grid and one with the complex version
on a 2 x 3 grid. -/
example : ∃ (E : MEnv ℝ) (E' : MEnv ℂ) (g : GSt ℝ 7) (g' : GSt ℂ 7)
    (s : Fam ℝ (cyclicLayout exRow) (cyclicLayout exCol)) (s' : Fam ℂ (cyclicLayout exCol) (cyclicLayout exRow))
    (a : Outcome ℝ (Fam ℝ (cyclicLayout exRow) (cyclicLayout exCol)))
    (b : Outcome ℝ (Fam ℂ (cyclicLayout exCol) (cyclicLayout exRow))),
    E'.base.Extends E.base ∧ E'.base.lapack.Ok ∧ E.base.lapack.Ok ∧ Rep s g ∧ Rep s' g' ∧ g.H = exMat ℝ ∧
    solve (realPlat 1 id) (opsAt E (2 : Fin 3) (1 : Fin 2)) (exCfg 4) (fun _ => 0) (fun _ => 0) s = .ok a ∧
    0 < a.iterations ∧
    solve (realPlat 1 id) (opsAt E' (1 : Fin 2) (2 : Fin 3)) (exCfg 4) (fun _ => 0) (fun _ => 0) s' = .ok b ∧
    a.ritzv = b.ritzv ∧ a.resid = b.resid := by
  let E : MEnv ℝ := exMEnv ℝ
  let L' := (Lapack.ideal ℂ (fun _ _ => Complex.I) (fun _ => Complex.I) 0).over (exMEnv ℝ).base.lapack
  let E' : MEnv ℂ := { exMEnv ℂ with base := { (exMEnv ℂ).base with lapack := L' }, cRuns := (exMEnv ℂ).bRuns, bRuns := (exMEnv ℂ).cRuns }
  let g : GSt ℝ 7 := ⟨⟨exMat ℝ, fun j _ => (j : ℕ), fun _ _ => 0, fun _ _ => 0, fun _ _ => 0, .bAc, 0, false⟩, false⟩
  have hH : g.H.IsHermitian := exMat_hermitian
  have hE : E'.base.Extends E.base := ⟨Lapack.over_extends _ _, rfl, rfl, rfl, rfl, rfl, rfl⟩
  have hs := scatter_rep (cyclicLayout exRow) (cyclicLayout exCol) g
  have hs' := scatter_rep (cyclicLayout exCol) (cyclicLayout exRow) (g.over ℂ)
  obtain ⟨a, ha, hpos⟩ := C51_approx_solve_defined (realPlat 1 id)
    (opsAt (r := cyclicLayout exRow) (c := cyclicLayout exCol) E (2 : Fin 3) (1 : Fin 2)) (exCfg 4) rfl
    (by decide) (by decide) (by decide) (by decide) (by decide) (by decide) (by decide)
    (fun h => absurd h (by decide)) (fun _ => 0) (fun _ => 0) (scatter _ _ g)
  have hp := hpos (fun _ => C09_mpi_hermitian_accepted (E := E) (exRuns ℝ).1 (exRuns ℝ).2 (fun _ _ _ _ => rfl)
    hH (le_refl _)) (by decide)
  have h := C99_mpi_partial (E := E) (E' := E') (exRuns ℝ).1 (exRuns ℝ).2 (exRuns ℂ).2 (exRuns ℂ).1
    hE rfl (realPlat 1 id) (exCfg 4) rfl rfl (by decide) rfl (fun _ => 0) (fun _ => 0) hs hs'
    (fun _ => ⟨(conjTranspose_eq_transpose_of_trivial g.H).symm.trans hH, le_rfl, le_rfl⟩)
    (fun _ _ => rfl) (fun _ _ => rfl) (fun _ _ _ => rfl) (2 : Fin 3) (1 : Fin 2) (1 : Fin 2) (2 : Fin 3)
  rw [ha] at h
  revert h
  generalize hy : solve (realPlat 1 id) (opsAt E' (1 : Fin 2) (2 : Fin 3)) (exCfg 4) (fun _ => 0) (fun _ => 0)
    (scatter (cyclicLayout exCol) (cyclicLayout exRow) (g.over ℂ)) = y
  intro h
  cases h with
  | ok h => exact ⟨E, E', g, g.over ℂ, _, _, a, _, hE, (Lapack.ideal_ok _ _ _).over (Lapack.ideal_ok _ _ _),
      Lapack.ideal_ok _ _ _, hs, hs', rfl, ha, hp, hy, h.1, h.2.1⟩

end Mpi
end Verif
