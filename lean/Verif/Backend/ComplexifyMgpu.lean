/-
C99 for the multi-GPU backend.
-/
import Verif.Backend.ComplexifyMpi
import Verif.Backend.BasisMgpu

namespace Verif
namespace Mgpu

open Matrix
open Mpi (Layout Proc MEnv Fam GSt GEnv)

variable {K : Type*} [RCLike K] {N : ℕ} {r c : Layout N} {E : GpuEnv ℝ}

theorem keep_c (aware : Bool) (p : ℤ × (ℕ → Fin N → ℝ)) (g : GSt ℝ N) :
    keep aware (p.1, cV K p.2) (g.over K) = ((keep aware p g).1, (keep aware p g).2.over K) := by
  unfold keep
  dsimp only
  split_ifs <;> rfl

/-- On real data the complex version runs like the real version, if it is given the same random numbers. -/
theorem refSim_c {G' : GEnv K N} {G : GEnv ℝ N} (h : G'.base.Extends G.base) (hsca : G'.scalapack = G.scalapack)
    (aware : Bool) :
    Sim (refPass G aware) (refPass (G'.real G) aware) (fun (g : GSt ℝ N) (t : GSt K N) => t = g.over K) := by
  have hL := h.lapack
  have hn : G'.base.nevex = G.base.nevex := by
    show G'.base.nev + G'.base.nex = G.base.nev + G.base.nex
    rw [h.nev, h.nex]
  exact { Mpi.gSim_c h hsca with
    qr := by
      rintro k x g _ rfl
      show qrSelect (refQrRoutines (G'.real G) aware g.locked) G'.base.doCholQR G'.base.envDisable
        (open Classical in decide (x > G'.base.condUpper)) (open Classical in decide (x < G'.base.condLower)) (g.over K) = _
      rw [h.doCholQR, h.envDisable, h.condUpper, h.condLower]
      refine qrSelect_rot (GSt.over K) _ _ (fun t => ?_) (fun t => ?_) (fun t => ?_) (fun t => ?_) (fun b t => ?_) _ _ _ _ g
      · show ({ t.over K with C := hhQRc G'.base.lapack G'.base.nevex (cV K t.C), next := if G'.scalapack then t.next else .bAc } : GSt K N) = _
        rw [hn, hsca, hhQRc_c hL]
        rfl
      · show keep aware (cholQR1c G'.base.lapack G'.base.nevex (cV K t.C)) (t.over K) = _
        rw [hn, cholQR1c_c hL, keep_c]
        rfl
      · show keep aware (cholQR2c G'.base.lapack G'.base.nevex ⟨true, false⟩ (cV K t.C)) (t.over K) = _
        rw [hn, cholQR2c_c hL, keep_c]
        rfl
      · show keep aware (shiftedcholQR2c G'.base.lapack G'.base.nevex ⟨true, false⟩ (cV K t.C)) (t.over K) = _
        rw [hn, shiftedcholQR2c_c hL, keep_c]
        rfl
      · exact congrArg (fun u => (⟨u, t.fresh⟩ : GSt K N)) (Seq.lockVectorCopy_c hn _ t.toSt)
    resd := by
      rintro f k g _ rfl
      have e := Seq.resd_c (K := K) f g.locked (G.base.nevex - k) g.toSt
      have en : G'.base.nevex - k = G.base.nevex - k := by rw [hn]
      cases aware
      · show _ = (Seq.resd f g.locked (G'.base.nevex - k) (g.toSt.c K)).1 ∧
          (⟨(Seq.resd f g.locked (G'.base.nevex - k) (g.toSt.c K)).2, g.fresh⟩ : GSt K N) = _
        rw [en]
        exact ⟨(congrArg Prod.fst e).symm, congrArg (fun u => (⟨u, g.fresh⟩ : GSt K N)) (congrArg Prod.snd e)⟩
      · show _ = (refResd (G'.real G) true f k (g.over K)).1 ∧ (refResd (G'.real G) true f k (g.over K)).2 = _
        unfold refResd
        show _ = (Seq.resd f g.locked (G'.base.nevex - k) (g.toSt.c K)).1 ∧ _
        rw [show (G'.real G).base.nevex - k = G.base.nevex - k from en, en]
        exact ⟨(congrArg Prod.fst e).symm,
          congrArg (fun u => (⟨u, g.fresh⟩ : GSt K N)) (Seq.gather_c g.locked (G.base.nevex - k) g.toSt)⟩ }

/-- **C99** (multi-GPU backend, approximation mode) A real symmetric problem is solved by the complex version, on any
grid and distribution of devices and with any random numbers, as by the real version on any other: both fail alike or
return the same values and residuals after the same rounds, and leave in host memory the same real wanted vectors.
Assumed: the library routines for complex matrices do with real matrices what those for real matrices do
(`Lapack.Extends`); the start vectors are those in the memory the backend works on, with CUDA-aware communication not
those of the user, see `C54_mgpu_aware_refuted`. -/
theorem C99_mgpu_partial {r' c' : Layout N} {E' : GpuEnv K}
    (hS : E.Sound) (hS' : E'.Sound) (hc : Mpi.RunsOk r c E.mpi.cRuns) (hb : Mpi.RunsOk c r E.mpi.bRuns)
    (hc' : Mpi.RunsOk r' c' E'.mpi.cRuns) (hb' : Mpi.RunsOk c' r' E'.mpi.bRuns) (haware : E'.aware = E.aware)
    (hE : E'.mpi.base.Extends E.mpi.base) (hsca : E'.mpi.scalapack = E.mpi.scalapack) (P : Plat ℝ) (cfg : Config ℝ)
    (hnev : E.mpi.base.nev = cfg.nev) (hnex : E.mpi.base.nex = cfg.nex) (hmax : Even cfg.maxDeg)
    (happ : cfg.approx = true) (ritzv0 resid0 : ℕ → ℝ) {s : GFam ℝ r c} {s' : GFam K r' c'} {g : GSt ℝ N} {g' : GSt K N}
    (hs : Mpi.Rep (pview E s) g) (hs' : Mpi.Rep (pview E' s') g')
    (hsym : cfg.symCheck = true → g.H.IsSymm ∧ 0 ≤ E.mpi.symTol ∧ 0 ≤ E'.mpi.symTol)
    (hH : ∀ i j, g'.H i j = (g.H i j : K)) (hC : ∀ k i, g'.C k i = (g.C k i : K))
    (hC2 : ∀ k, cfg.nev + cfg.nex ≤ k → ∀ i, g'.C2 k i = (g.C2 k i : K))
    (i0 : Fin r.procs) (j0 : Fin c.procs) (i1 : Fin r'.procs) (j1 : Fin c'.procs) :
    RelE (fun a b => a.ritzv = b.ritzv ∧ a.resid = b.resid ∧ a.iterations = b.iterations ∧ a.locked = b.locked ∧
        (0 < a.iterations → ∃ X : ℕ → Fin N → ℝ,
          (∀ i j k, k < cfg.nev → ∀ l, (a.be i j).host.C k l = X k (r.glob i l)) ∧
          ∀ i j k, k < cfg.nev → ∀ l, (b.be i j).host.C k l = (X k (r'.glob i l) : K)))
      (solve P (opsAt E i0 j0) cfg ritzv0 resid0 s) (solve P (opsAt E' i1 j1) cfg ritzv0 resid0 s') := by
  have hx : E.mpi.base.nevex = cfg.nev + cfg.nex := by unfold Env.nevex; rw [hnev, hnex]
  have hnev' : E'.mpi.base.nev = cfg.nev := hE.nev.trans hnev
  have hnex' : E'.mpi.base.nex = cfg.nex := hE.nex.trans hnex
  have hx' : E'.mpi.base.nevex = cfg.nev + cfg.nex := by unfold Env.nevex; rw [hnev', hnex']
  have hherm : cfg.symCheck = true → g.H.IsHermitian := fun hk =>
    (conjTranspose_eq_transpose_of_trivial g.H).trans (hsym hk).1
  have hherm' : cfg.symCheck = true → (g.over K).H.IsHermitian := fun hk => by
    show (cM K g.H)ᴴ = cM K g.H
    rw [← cM_conj, (hherm hk).eq]
  have hp2 : solve P (refPass (E'.mpi.glob r') E'.aware) cfg ritzv0 resid0 (g.over K) =
      solve P (refOps (E'.mpi.glob r') E'.aware) cfg ritzv0 resid0 (g.over K) := by
    refine Mpi.solve_congr_start P cfg (refOps (E'.mpi.glob r') E'.aware) (refOps (E'.mpi.glob r') E'.aware).initVecs
      (fun g => (true, ({ g with isSym := true } : GSt K N))) ritzv0 resid0 (g.over K) rfl fun hk => ?_
    show _ = (Mpi.gSymCheck (E'.mpi.glob r') (g.over K),
      ({ g.over K with isSym := Mpi.gSymCheck (E'.mpi.glob r') (g.over K) } : GSt K N))
    rw [Mpi.gSymCheck_hermitian (G := E'.mpi.glob r') (hsym hk).2.2 _ (hherm' hk)]
  have hp1 : solve P (refPass (E.mpi.glob r) E.aware) cfg ritzv0 resid0 g =
      solve P (refOps (E.mpi.glob r) E.aware) cfg ritzv0 resid0 g := by
    refine Mpi.solve_congr_start P cfg (refOps (E.mpi.glob r) E.aware) (refOps (E.mpi.glob r) E.aware).initVecs
      (fun g => (true, ({ g with isSym := true } : GSt ℝ N))) ritzv0 resid0 g rfl fun hk => ?_
    show _ = (Mpi.gSymCheck (E.mpi.glob r) g, ({ g with isSym := Mpi.gSymCheck (E.mpi.glob r) g } : GSt ℝ N))
    rw [Mpi.gSymCheck_hermitian (G := E.mpi.glob r) (hsym hk).2.1 g (hherm hk)]
  have h0 := solve_simP (sim hS hc hb i0 j0) P cfg hx (Or.inl fun _ => trivial) ritzv0 resid0 hs
  have h0' := solve_simP_end (sim hS hc hb i0 j0) P cfg hx (Or.inl fun _ => trivial) ritzv0 resid0 hs
  have h1 := solve_sim (refSim_c (G' := E'.mpi.glob r') (G := E.mpi.glob r) hE hsca E.aware) P cfg ritzv0 resid0
    (be := g) (be' := g.over K) rfl
  have h3 : solve P (refPass ((E'.mpi.glob r').real (E.mpi.glob r)) E.aware) cfg ritzv0 resid0 (g.over K) =
      solve P (refOps (E'.mpi.glob r') E'.aware) cfg ritzv0 resid0 (g.over K) := by
    rw [← hp2, haware]
    exact Mpi.solve_congr_start P cfg (refPass (E'.mpi.glob r') E.aware)
      (refPass ((E'.mpi.glob r').real (E.mpi.glob r)) E.aware).initVecs
      (refPass (E'.mpi.glob r') E.aware).checkSymmetryEasy ritzv0 resid0 (g.over K) (by rw [happ]; rfl) fun _ => rfl
  rw [hp1, h3] at h1
  have h2 := Mpi.gHistory (G := E'.mpi.glob r') (refQr_same (E'.mpi.glob r') E'.aware)
    (refResd_like (E'.mpi.glob r') E'.aware) (refResd_like (E'.mpi.glob r') E'.aware) P cfg hnev' hnex' hmax ritzv0 resid0
    (g.over K) g' (by funext i j; exact (hH i j).symm) (fun _ k _ => by funext i; exact (hC k i).symm)
    (fun k hk => ⟨by funext i; exact (hC k i).symm, by funext i; exact (hC2 k hk i).symm⟩)
  have e1 : Mpi.gOpsWith (E'.mpi.glob r') (refQr (E'.mpi.glob r') E'.aware) (refResd (E'.mpi.glob r') E'.aware) =
      refOps (E'.mpi.glob r') E'.aware := rfl
  rw [e1] at h2
  have h4 := solve_simP (sim hS' hc' hb' i1 j1) P cfg hx' (Or.inl fun _ => trivial) ritzv0 resid0 hs'
  have h4' := solve_simP_end (sim hS' hc' hb' i1 j1) P cfg hx' (Or.inl fun _ => trivial) ritzv0 resid0 hs'
  revert h0 h0' h1 h2 h4 h4'
  generalize solve P (opsAt E i0 j0) cfg ritzv0 resid0 s = w
  generalize solve P (refOps (E.mpi.glob r) E.aware) cfg ritzv0 resid0 g = x
  generalize solve P (refOps (E'.mpi.glob r') E'.aware) cfg ritzv0 resid0 (g.over K) = y
  generalize solve P (refOps (E'.mpi.glob r') E'.aware) cfg ritzv0 resid0 g' = u
  generalize solve P (opsAt E' i1 j1) cfg ritzv0 resid0 s' = z
  intro h0 h0' h1 h2 h4 h4'
  cases h0 with
  | error e => cases h1; cases h2; cases h4; exact RelE.error e
  | @ok a0 a1 h0 =>
    cases h0' with
    | ok h0' =>
    cases h1 with
    | @ok _ b1 h1 =>
    cases h2 with
    | @ok _ b2 h2 =>
    cases h4 with
    | @ok b3 _ h4 =>
    cases h4' with
    | ok h4' =>
      obtain ⟨e1, e2, e3, e4, -, e6⟩ := h2
      have hit := h0.iterations.trans (h1.iterations.trans (e3.trans h4.iterations.symm))
      refine RelE.ok ⟨h0.ritzv.trans (h1.ritzv.trans (e1.trans h4.ritzv.symm)),
        h0.resid.trans (h1.resid.trans (e2.trans h4.resid.symm)), hit,
        h0.locked.trans (h1.locked.trans (e4.trans h4.locked.symm)),
        fun hp => ⟨a1.be.C, fun i j k hk l => ?_, fun i j k hk l => ?_⟩⟩
      · exact end_host (h0'.2 hp) i j k (hnev ▸ hk) l
      · rw [end_host (h4'.2 (hit ▸ hp)) i j k (hnev' ▸ hk) l, ← e6 (by
          rw [← h1.iterations, ← h0.iterations]; exact hp), h1.be]
        rfl

/-- `C99_mgpu_partial`: hypotheses met, in both variants, by a solve with the real version on a 3 x 2 grid and one with
the complex version on a 2 x 3 grid. -/
example (aware : Bool) : ∃ (E : GpuEnv ℝ) (E' : GpuEnv ℂ) (g : GSt ℝ 7) (g' : GSt ℂ 7)
    (s : GFam ℝ (Mpi.cyclicLayout Mpi.exRow) (Mpi.cyclicLayout Mpi.exCol))
    (s' : GFam ℂ (Mpi.cyclicLayout Mpi.exCol) (Mpi.cyclicLayout Mpi.exRow))
    (a : Outcome ℝ (GFam ℝ (Mpi.cyclicLayout Mpi.exRow) (Mpi.cyclicLayout Mpi.exCol)))
    (b : Outcome ℝ (GFam ℂ (Mpi.cyclicLayout Mpi.exCol) (Mpi.cyclicLayout Mpi.exRow))),
    E.aware = aware ∧ E'.mpi.base.Extends E.mpi.base ∧ E'.mpi.base.lapack.Ok ∧ E.mpi.base.lapack.Ok ∧
    Mpi.Rep (pview E s) g ∧ Mpi.Rep (pview E' s') g' ∧ g.H = exMat ℝ ∧
    solve (realPlat 1 id) (opsAt E (2 : Fin 3) (1 : Fin 2)) (exCfg 4) (fun _ => 0) (fun _ => 0) s = .ok a ∧
    0 < a.iterations ∧
    solve (realPlat 1 id) (opsAt E' (1 : Fin 2) (2 : Fin 3)) (exCfg 4) (fun _ => 0) (fun _ => 0) s' = .ok b ∧
    a.ritzv = b.ritzv ∧ a.resid = b.resid := by
  let E : GpuEnv ℝ := ⟨{ Mpi.exMEnv ℝ with scalapack := aware }, aware, aware⟩
  let L' := (Lapack.ideal ℂ (fun _ _ => Complex.I) (fun _ => Complex.I) 0).over (Mpi.exMEnv ℝ).base.lapack
  let E' : GpuEnv ℂ := ⟨{ Mpi.exMEnv ℂ with
    base := { (Mpi.exMEnv ℂ).base with lapack := L' }, cRuns := (Mpi.exMEnv ℂ).bRuns, bRuns := (Mpi.exMEnv ℂ).cRuns
    scalapack := aware }, aware, aware⟩
  have hS : E.Sound := by
    cases aware
    · exact Or.inl ⟨rfl, rfl⟩
    · exact Or.inr ⟨rfl, rfl, rfl⟩
  have hS' : E'.Sound := by
    cases aware
    · exact Or.inl ⟨rfl, rfl⟩
    · exact Or.inr ⟨rfl, rfl, rfl⟩
  let X : ℕ → Fin 7 → ℝ := fun j _ => (j : ℕ)
  let g : GSt ℝ 7 := ⟨⟨exMat ℝ, X, X, X, X, .bAc, 0, false⟩, false⟩
  have hH : g.H.IsHermitian := exMat_hermitian
  have hE : E'.mpi.base.Extends E.mpi.base := ⟨Lapack.over_extends _ _, rfl, rfl, rfl, rfl, rfl, rfl⟩
  have hrep : ∀ {F : Type} [RCLike F] (r c : Layout 7) (E : GpuEnv F) (H : Matrix (Fin 7) (Fin 7) F) (X : ℕ → Fin 7 → F),
      Mpi.Rep (pview E (onHost F r c ⟨⟨H, X, X, X, X, .bAc, 0, false⟩, false⟩ X false))
        ⟨⟨H, X, X, X, X, .bAc, 0, false⟩, false⟩ := by
    intro F _ r c E H X
    obtain ⟨m, aw, cd⟩ := E
    cases aw
    · exact Mpi.scatter_rep r c ⟨⟨H, X, X, X, X, .bAc, 0, false⟩, false⟩
    · exact ⟨fun _ _ _ _ => rfl, fun _ _ _ _ => rfl, fun _ _ _ _ => rfl, fun _ _ _ _ => rfl, fun _ _ _ _ => rfl,
          fun _ _ => rfl, fun _ _ => rfl, fun _ _ => rfl, fun _ _ => rfl⟩
  have hs := hrep (Mpi.cyclicLayout Mpi.exRow) (Mpi.cyclicLayout Mpi.exCol) E (exMat ℝ) X
  have hs' := hrep (Mpi.cyclicLayout Mpi.exCol) (Mpi.cyclicLayout Mpi.exRow) E' (cM ℂ (exMat ℝ)) (cV ℂ X)
  obtain ⟨a, ha, hpos⟩ := C51_approx_solve_defined (realPlat 1 id)
    (opsAt (r := Mpi.cyclicLayout Mpi.exRow) (c := Mpi.cyclicLayout Mpi.exCol) E (2 : Fin 3) (1 : Fin 2)) (exCfg 4) rfl
    (by decide) (by decide) (by decide) (by decide) (by decide) (by decide) (by decide)
    (fun h => absurd h (by decide)) (fun _ => 0) (fun _ => 0) (onHost ℝ _ _ g X false)
  have hp := hpos (fun _ => Mpi.C09_mpi_hermitian_accepted (E := E.mpi) (Mpi.exRuns ℝ).1 (Mpi.exRuns ℝ).2
    (fun _ _ _ _ => rfl) hH (le_refl _)) (by decide)
  have h := C99_mgpu_partial (E := E) (E' := E') hS hS' (Mpi.exRuns ℝ).1 (Mpi.exRuns ℝ).2 (Mpi.exRuns ℂ).2
    (Mpi.exRuns ℂ).1 rfl hE rfl (realPlat 1 id) (exCfg 4) rfl rfl (by decide) rfl (fun _ => 0) (fun _ => 0) hs hs'
    (fun _ => ⟨(conjTranspose_eq_transpose_of_trivial g.H).symm.trans hH, le_rfl, le_rfl⟩)
    (fun _ _ => rfl) (fun _ _ => rfl) (fun _ _ _ => rfl) (2 : Fin 3) (1 : Fin 2) (1 : Fin 2) (2 : Fin 3)
  rw [ha] at h
  revert h
  generalize hy : solve (realPlat 1 id) (opsAt E' (1 : Fin 2) (2 : Fin 3)) (exCfg 4) (fun _ => 0) (fun _ => 0)
    (onHost ℂ (Mpi.cyclicLayout Mpi.exCol) (Mpi.cyclicLayout Mpi.exRow)
      ⟨⟨cM ℂ (exMat ℝ), cV ℂ X, cV ℂ X, cV ℂ X, cV ℂ X, .bAc, 0, false⟩, false⟩ (cV ℂ X) false) = y
  intro h
  cases h with
  | ok h => exact ⟨E, E', g, _, _, _, a, _, rfl, hE, (Lapack.ideal_ok _ _ _).over (Lapack.ideal_ok _ _ _),
      Lapack.ideal_ok _ _ _, hs, hs', rfl, ha, hp, hy, h.1, h.2.1⟩

end Mgpu
end Verif
