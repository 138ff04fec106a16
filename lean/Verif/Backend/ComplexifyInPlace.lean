/-
C99 for the in-place CPU backend and the single-GPU backend.
-/
import Verif.Backend.ComplexifyExists
import Verif.Backend.BasisInPlace

namespace Verif
namespace InPlace

open Matrix

variable {K : Type*} [RCLike K] {N : ℕ}

/-- The state over `K`. -/
def St.c (K : Type*) [RCLike K] (s : St ℝ N) : St K N :=
  { H := cM K s.H, hostH := cM K s.hostH, V1 := cV K s.V1, V2 := cV K s.V2, user := cV K s.user, flipped := s.flipped,
    dRitz := s.dRitz, locked := s.locked, isSym := s.isSym }

theorem apply_c (α β : ℝ) (offset block locked : ℕ) (s : St ℝ N) :
    apply (α : K) (β : K) offset block locked (s.c K) = (apply α β offset block locked s).c K := by
  unfold apply
  rw [show (s.c K).H = cM K s.H from rfl, show (s.c K).V1 = cV K s.V1 from rfl,
    show (s.c K).V2 = cV K s.V2 from rfl, getBlk_c, getBlk_c, ← cM_mul, ← cM_smul, ← cM_smul, ← cM_add, setBlk_c]
  rfl

theorem rr_c {E' : Env K} {E : Env ℝ} (hL : E'.lapack.Extends E.lapack) (block locked : ℕ) (s : St ℝ N) :
    rr E' block locked (s.c K) = ((rr E block locked s).1, (rr E block locked s).2.c K) := by
  unfold rr
  simp only [show (s.c K).H = cM K s.H from rfl, show (s.c K).V1 = cV K s.V1 from rfl,
    show (s.c K).V2 = cV K s.V2 from rfl, getBlk_c, ← cM_conj, ← cM_mul, setBlk_c, hL.heevd]
  rfl

theorem resd_c (k : Kind) (ritzv : ℕ → ℝ) (locked unconverged : ℕ) (s : St ℝ N) :
    resd k ritzv locked unconverged (s.c K) =
      ((resd k ritzv locked unconverged s).1, (resd k ritzv locked unconverged s).2.c K) := by
  unfold resd
  have e0 : ({ s.c K with V2 := setBlk locked ((s.c K).Hᴴ * getBlk locked unconverged (s.c K).V1) (s.c K).V2 } :
      St K N) = St.c K { s with V2 := setBlk locked (s.Hᴴ * getBlk locked unconverged s.V1) s.V2 } := by
    rw [show (s.c K).H = cM K s.H from rfl, show (s.c K).V1 = cV K s.V1 from rfl,
      show (s.c K).V2 = cV K s.V2 from rfl, getBlk_c, ← cM_conj, ← cM_mul, setBlk_c]
    rfl
  dsimp only
  rw [e0, show (s.c K).dRitz = s.dRitz from rfl]
  generalize ({ s with V2 := setBlk locked (s.Hᴴ * getBlk locked unconverged s.V1) s.V2 } : St ℝ N) = t
  have e : ∀ (v : ℝ) (i : ℕ) (p : St ℝ N), Function.update (p.c K).V2 (locked + i)
      ((-(v : K)) • (p.c K).V1 (locked + i) + (p.c K).V2 (locked + i)) =
      cV K (Function.update p.V2 (locked + i)
        ((-(RCLike.ofReal v : ℝ)) • p.V1 (locked + i) + p.V2 (locked + i))) := by
    intro v i p
    rw [← update_c]
    congr 1
    funext j
    simp [St.c, cV]
  cases k
  all_goals
    refine forRange_eq (fun p : (ℕ → ℝ) × St ℝ N => (p.1, p.2.c K)) _ _ (fun i p _ _ => ?_) (fun _ => 0, t)
    dsimp only
    rw [e]
    congr 1
    congr 1
    exact nrm2_c _

theorem saveLocked_c (locked : ℕ) (s : St ℝ N) : saveLocked locked (s.c K) = (saveLocked locked s).c K := by
  unfold saveLocked
  rw [show (s.c K).V1 = cV K s.V1 from rfl, show (s.c K).V2 = cV K s.V2 from rfl, copyCols_c]
  rfl

theorem lockVectorCopy_c (locked : ℕ) (s : St ℝ N) :
    lockVectorCopy locked (s.c K) = (lockVectorCopy locked s).c K := by
  unfold lockVectorCopy
  rw [show (s.c K).V1 = cV K s.V1 from rfl, show (s.c K).V2 = cV K s.V2 from rfl, copyCols_c]
  rfl

theorem swap_c (i j : ℕ) (s : St ℝ N) : swap i j (s.c K) = (swap i j s).c K := by
  unfold swap
  rw [show (s.c K).V1 = cV K s.V1 from rfl, swapAt_c]
  rfl

theorem lanczosDos_c (idx m : ℕ) (z : ℕ → ℝ) (s : St ℝ N) :
    lanczosDos idx m z (s.c K) = (lanczosDos idx m z s).c K := by
  have h : ∀ Z : Matrix (Fin m) (Fin idx) ℝ,
      ({ s.c K with
        V2 := setBlk 0 (getBlk 0 m (s.c K).V1 * cM K Z) (s.c K).V2
        V1 := copyCols 0 m (setBlk 0 (getBlk 0 m (s.c K).V1 * cM K Z) (s.c K).V2) (s.c K).V1 } : St K N) =
      St.c K { s with
        V2 := setBlk 0 (getBlk 0 m s.V1 * Z) s.V2
        V1 := copyCols 0 m (setBlk 0 (getBlk 0 m s.V1 * Z) s.V2) s.V1 } := by
    intro Z
    rw [show (s.c K).V1 = cV K s.V1 from rfl, show (s.c K).V2 = cV K s.V2 from rfl, getBlk_c,
      ← cM_mul, setBlk_c, copyCols_c]
    rfl
  exact h fun a b => z (a + b * m)

theorem initVecs_c {E' : Env K} {E : Env ℝ} (hn : E'.nevex = E.nevex) (k : Kind) (s : St ℝ N) :
    initVecs E' k (s.c K) = (initVecs E k s).c K := by
  have e : ({ s.c K with V2 := copyCols 0 E.nevex (cV K s.V1) (cV K s.V2) } : St K N) =
      St.c K { s with V2 := copyCols 0 E.nevex s.V1 s.V2 } := by
    rw [copyCols_c]
    rfl
  unfold initVecs
  rw [hn]
  cases k
  · exact e
  · exact congrArg (fun t : St K N => { t with H := t.hostH }) e

theorem finish_c {E' : Env K} {E : Env ℝ} (hn : E'.nevex = E.nevex) (k : Kind) (s : St ℝ N) :
    finish E' k (s.c K) = (finish E k s).c K := by
  unfold finish
  rw [hn]
  cases k
  · rfl
  · show ({ s.c K with user := copyCols 0 E.nevex (cV K s.V1) (cV K s.user) } : St K N) = _
    rw [copyCols_c]
    rfl

theorem userH_c (k : Kind) (s : St ℝ N) : (s.c K).userH k = cM K (s.userH k) := by cases k <;> rfl

theorem userV_c (k : Kind) (s : St ℝ N) : (s.c K).userV k = cV K (s.userV k) := by
  cases k
  · unfold St.userV St.c
    cases s.flipped <;> rfl
  · rfl

/-- On real data the complex version runs like the real version, if it is given the same random numbers. -/
theorem sim_c {E' : Env K} {E : Env ℝ} (h : E'.Extends E) (k : Kind) :
    Sim (ops E k) (ops (E'.real E) k) (fun (s : St ℝ N) (t : St K N) => t = s.c K) := by
  have hL : (E'.real E).lapack.Extends E.lapack :=
    ⟨h.lapack.potrf, h.lapack.hhqr, h.lapack.heevd, h.lapack.stemr, h.lapack.eps⟩
  have hn : (E'.real E).nevex = E.nevex := by
    show E'.nev + E'.nex = E.nev + E.nex
    rw [h.nev, h.nex]
  exact {
    checkSymmetryEasy := by
      rintro s _ rfl
      have e : symCheck (E'.real E).lapack ((s.c K).userH k) = symCheck E.lapack (s.userH k) := by
        rw [Bool.eq_iff_iff, symCheck_iff, symCheck_iff, userH_c]
        show cM K (s.userH k) *ᵥ (fun i : Fin N => (E.lapack.probe i : K)) =
          (cM K (s.userH k))ᴴ *ᵥ (fun i : Fin N => (E.lapack.probe i : K)) ↔ _
        rw [← cM_conj, cM_mulVec (s.userH k) fun i : Fin N => E.lapack.probe i,
          cM_mulVec (s.userH k)ᴴ fun i : Fin N => E.lapack.probe i]
        exact ⟨fun g => funext fun i => RCLike.ofReal_injective (congrFun g i), fun g => by rw [g]⟩
      show symCheck E.lapack (s.userH k) = symCheck (E'.real E).lapack ((s.c K).userH k) ∧
        ({ s.c K with isSym := symCheck (E'.real E).lapack ((s.c K).userH k) } : St K N) =
          St.c K { s with isSym := symCheck E.lapack (s.userH k) }
      rw [e]
      exact ⟨rfl, rfl⟩
    start := by rintro s _ rfl; rfl
    finish := by rintro s _ rfl; exact finish_c hn k s
    initVecs := by
      rintro b s _ rfl
      have e' : initRndVecs (E'.real E) (s.c K) = (initRndVecs E s).c K := by
        unfold initRndVecs
        rw [hn]
        have ew := writeAt_c (K := K) 0 E.nevex s.V1 (fun (j : ℕ) (i : Fin N) => E.lapack.randn j i)
        exact congrArg (fun C => ({ s.c K with V1 := C } : St K N)) ew
      cases b
      · exact initVecs_c hn k s
      · show initVecs (E'.real E) k (initRndVecs (E'.real E) (s.c K)) = _
        rw [e', initVecs_c hn]
        rfl
    qr := by
      rintro n c s _ rfl
      have es : ∀ t : St ℝ N, saveLocked s.locked (t.c K) = (saveLocked s.locked t).c K := saveLocked_c s.locked
      show qrSelect (qrRoutines (E'.real E) k s.locked) E'.doCholQR E'.envDisable
        (open Classical in decide (c > E'.condUpper)) (open Classical in decide (c < E'.condLower)) (s.c K) = _
      rw [h.doCholQR, h.envDisable, h.condUpper, h.condLower]
      refine qrSelect_rot (St.c K) _ _ (fun t => ?_) (fun t => ?_) (fun t => ?_) (fun t => ?_) (fun b t => ?_) _ _ _ _ s
      · show ({ saveLocked s.locked (t.c K) with
          V1 := hhQRc (E'.real E).lapack (E'.real E).nevex (saveLocked s.locked (t.c K)).V1 } : St K N) = _
        rw [es, show ((saveLocked s.locked t).c K).V1 = cV K (saveLocked s.locked t).V1 from rfl, hn, hhQRc_c hL]
        rfl
      · show ((cholQR1c (E'.real E).lapack (E'.real E).nevex (saveLocked s.locked (t.c K)).V1).1,
          ({ saveLocked s.locked (t.c K) with
            V1 := (cholQR1c (E'.real E).lapack (E'.real E).nevex (saveLocked s.locked (t.c K)).V1).2 } : St K N)) = _
        rw [es, show ((saveLocked s.locked t).c K).V1 = cV K (saveLocked s.locked t).V1 from rfl, hn, cholQR1c_c hL]
        rfl
      · show ((cholQR2c (E'.real E).lapack (E'.real E).nevex k.chol (saveLocked s.locked (t.c K)).V1).1,
          ({ saveLocked s.locked (t.c K) with
            V1 := (cholQR2c (E'.real E).lapack (E'.real E).nevex k.chol (saveLocked s.locked (t.c K)).V1).2 } : St K N)) = _
        rw [es, show ((saveLocked s.locked t).c K).V1 = cV K (saveLocked s.locked t).V1 from rfl, hn, cholQR2c_c hL]
        rfl
      · show ((shiftedcholQR2c (E'.real E).lapack (E'.real E).nevex k.chol (saveLocked s.locked (t.c K)).V1).1,
          ({ saveLocked s.locked (t.c K) with
            V1 := (shiftedcholQR2c (E'.real E).lapack (E'.real E).nevex k.chol
              (saveLocked s.locked (t.c K)).V1).2 } : St K N)) = _
        rw [es, show ((saveLocked s.locked t).c K).V1 = cV K (saveLocked s.locked t).V1 from rfl, hn,
          shiftedcholQR2c_c hL]
        rfl
      · exact lockVectorCopy_c _ t
    lanczos1 := by
      rintro m s _ rfl
      exact ⟨(lanczosBound_c hL k.axpy s.H m s.V1).symm, rfl⟩
    lanczosN := by
      rintro m n s _ rfl
      have e := lanczosMulti_c hL k.axpy s.H m n s.V1
      refine ⟨(congrArg Prod.fst e).symm, ?_⟩
      show ({ s.c K with V1 := (lanczosMulti k.axpy (E'.real E).lapack (cM K s.H) m n (cV K s.V1)).2 } : St K N) = _
      rw [e]
      rfl
    lanczosDos := by rintro i m z s _ rfl; exact lanczosDos_c i m z s
    shift := by
      rintro c b s _ rfl
      show ({ s.c K with H := shiftH (c : K) (cM K s.H) } : St K N) = _
      rw [shiftH_c]
      rfl
    hemm := by rintro n a b o s _ rfl; exact apply_c _ _ _ _ _ s
    rr := by
      rintro b s _ rfl
      have e := rr_c hL b s.locked s
      exact ⟨(congrArg Prod.fst e).symm, congrArg Prod.snd e⟩
    resd := by
      rintro f n s _ rfl
      have e := resd_c (K := K) k f s.locked (E.nevex - n) s
      show _ = (resd k f s.locked ((E'.real E).nevex - n) (s.c K)).1 ∧
        (resd k f s.locked ((E'.real E).nevex - n) (s.c K)).2 = _
      rw [hn]
      exact ⟨(congrArg Prod.fst e).symm, congrArg Prod.snd e⟩
    lock := by rintro n s _ rfl; rfl
    swap := by rintro i j s _ rfl; exact swap_c i j s }

/-- **C99** (approximation mode) A real symmetric problem is solved by the complex version as by the real version:
from the same matrix and the same start vectors, with any random numbers, both fail alike or return the same values
and residuals after the same rounds, and leave the same real vectors in the user's array.
Assumed: the library routines for complex matrices do with real matrices what those for real matrices do
(`Lapack.Extends`). -/
theorem C99_inplace_partial (P : Plat ℝ) {E' : Env K} {E : Env ℝ} (hE : E'.Extends E) (k : Kind) (cfg : Config ℝ)
    (hnev : E.nev = cfg.nev) (hnex : E.nex = cfg.nex) (happ : cfg.approx = true)
    (ritzv0 resid0 : ℕ → ℝ) (s : St ℝ N) (s' : St K N) (hherm : cfg.symCheck = true → (s.userH k).IsSymm)
    (hH : ∀ i j, s'.userH k i j = ((s.userH k i j : ℝ) : K)) (hV : ∀ j i, s'.V1 j i = (s.V1 j i : K))
    (hV2 : ∀ j, cfg.nev + cfg.nex ≤ j → ∀ i, s'.V2 j i = (s.V2 j i : K)) (hf : s'.flipped = s.flipped) :
    RelE (fun a b => a.ritzv = b.ritzv ∧ a.resid = b.resid ∧ a.iterations = b.iterations ∧ a.locked = b.locked ∧
        (∀ i j, b.be.userH k i j = ((a.be.userH k i j : ℝ) : K)) ∧
        (0 < a.iterations → ∀ j, j < cfg.nev + cfg.nex → ∀ i, b.be.userV k j i = ((a.be.userV k j i : ℝ) : K)))
      (solve P (ops E k) cfg ritzv0 resid0 s) (solve P (ops E' k) cfg ritzv0 resid0 s') := by
  have h1 := solve_sim (sim_c hE k) P cfg ritzv0 resid0 (be := s) (be' := s.c K) rfl
  have h3 : solve P (ops (E'.real E) k) cfg ritzv0 resid0 (s.c K) = solve P (ops E' k) cfg ritzv0 resid0 (s.c K) := by
    refine Mpi.solve_congr_start P cfg (ops E' k) (ops (E'.real E) k).initVecs (ops (E'.real E) k).checkSymmetryEasy
      ritzv0 resid0 (s.c K) (by rw [happ]; rfl) fun hsym => ?_
    have hr : ((s.c K).userH k).IsHermitian := by
      rw [userH_c]
      show (cM K (s.userH k))ᴴ = cM K (s.userH k)
      rw [← cM_conj, conjTranspose_eq_transpose_of_trivial, (hherm hsym).eq]
    show (symCheck _ _, ({ s.c K with isSym := symCheck _ _ } : St K N)) =
      (symCheck _ _, ({ s.c K with isSym := symCheck _ _ } : St K N))
    rw [C09_hermitian_accepted _ _ hr, C09_hermitian_accepted _ _ hr]
  have h4 := history P E' k cfg (hE.nev.trans hnev) (hE.nex.trans hnex) ritzv0 resid0 (s.c K) s'
    (by rw [userH_c]; funext i j; exact (hH i j).symm) (fun _ j _ => by funext i; exact (hV j i).symm)
    fun j hj => ⟨by funext i; exact (hV j i).symm, by funext i; exact (hV2 j hj i).symm⟩
  rw [h3] at h1
  revert h1 h4
  generalize solve P (ops E k) cfg ritzv0 resid0 s = x
  generalize solve P (ops E' k) cfg ritzv0 resid0 (s.c K) = y
  generalize solve P (ops E' k) cfg ritzv0 resid0 s' = z
  intro h1 h4
  cases h1 with
  | error e => cases h4; exact RelE.error e
  | @ok a b0 h1 =>
    cases h4 with
    | @ok _ b h4 =>
      obtain ⟨b1, b2, b3, b4, b5, b6, b7⟩ := h4
      refine RelE.ok ⟨h1.ritzv.trans b1, h1.resid.trans b2, h1.iterations.trans b3, h1.locked.trans b4,
        fun i j => ?_, fun hp j hj i => ?_⟩
      · rw [← b5, h1.be, userH_c]; rfl
      · obtain ⟨c1, c2, c3⟩ := b7 (h1.iterations ▸ hp)
        have hfl : b0.be.flipped = b.be.flipped := by
          rw [show (s.c K).flipped = s.flipped from rfl, hf, Bool.xor_self] at b6
          revert b6
          cases b0.be.flipped <;> cases b.be.flipped <;> simp
        have e0 : b0.be.userV k j i = ((a.be.userV k j i : ℝ) : K) := by rw [h1.be, userV_c]; rfl
        rw [← e0]
        refine congrFun ?_ i
        cases k
        · show (if b.be.flipped then b.be.V2 else b.be.V1) j = (if b0.be.flipped then b0.be.V2 else b0.be.V1) j
          rw [hfl, c1, c2]
        · exact (c3 rfl j hj).symm

/-- `C99_inplace_partial`: a real and a complex version with LAPACK as in the assumption, with random numbers that
are not real in the complex version, and a solve of a matrix that is not diagonal that does something. -/
example (k : Kind) : ∃ (E' : Env ℂ) (E : Env ℝ) (s : St ℝ 7) (s' : St ℂ 7) (a : Outcome ℝ (St ℝ 7)) (b : Outcome ℝ (St ℂ 7)),
    E'.Extends E ∧ E'.lapack.Ok ∧ E.lapack.Ok ∧ E'.lapack.probe 0 = Complex.I ∧ s.userH k = exMat ℝ ∧
    solve exPlat (ops E k) (exCfg 4) (fun _ => 0) (fun _ => 0) s = .ok a ∧
    solve exPlat (ops E' k) (exCfg 4) (fun _ => 0) (fun _ => 0) s' = .ok b ∧ 0 < a.iterations ∧
    a.ritzv = b.ritzv ∧ ∀ j, j < 5 → ∀ i, b.be.userV k j i = ((a.be.userV k j i : ℝ) : ℂ) := by
  let L' := (Lapack.ideal ℂ (fun _ _ => Complex.I) (fun _ => Complex.I) 0).over (exEnv ℝ).lapack
  let E' : Env ℂ := { exEnv ℂ with lapack := L' }
  let s : St ℝ 7 := ⟨exMat ℝ, exMat ℝ, fun j _ => (j : ℕ), fun _ _ => 0, fun _ _ => 0, false, fun _ => 0, 0, true⟩
  have hE : E'.Extends (exEnv ℝ) := ⟨Lapack.over_extends _ _, rfl, rfl, rfl, rfl, rfl, rfl⟩
  have hs : s.userH k = exMat ℝ := by cases k <;> rfl
  have hH : (s.userH k).IsHermitian := by rw [hs]; exact exMat_hermitian
  obtain ⟨a, ha, hpos⟩ := C51_approx_solve_defined exPlat (ops (exEnv ℝ) k) (exCfg 4) rfl
    (by decide) (by decide) (by decide) (by decide) (by decide) (by decide) (by decide)
    (fun h => absurd h (by decide)) (fun _ => 0) (fun _ => 0) s
  have hp := hpos (fun _ => C09_hermitian_accepted (exEnv ℝ).lapack _ hH) (by decide)
  have h := C99_inplace_partial exPlat hE k (exCfg 4) rfl rfl rfl (fun _ => 0) (fun _ => 0) s (s.c ℂ)
    (fun _ => (conjTranspose_eq_transpose_of_trivial (s.userH k)).symm.trans hH) (fun i j => by rw [userH_c]; rfl)
    (fun _ _ => rfl) (fun _ _ _ => rfl) rfl
  rw [ha] at h
  revert h
  generalize hy : solve exPlat (ops E' k) (exCfg 4) (fun _ => 0) (fun _ => 0) (s.c ℂ) = y
  intro h
  cases h with
  | ok h => exact ⟨E', exEnv ℝ, s, s.c ℂ, a, _, hE, (Lapack.ideal_ok _ _ _).over (Lapack.ideal_ok _ _ _),
      Lapack.ideal_ok _ _ _, rfl, hs, ha, hy, hp, h.1, h.2.2.2.2.2 hp⟩

end InPlace
end Verif
