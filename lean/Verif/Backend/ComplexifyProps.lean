/-
C99: a real problem may be solved with the real or with the complex version.
-/
import Verif.Backend.Complexify

namespace Verif

open Matrix
open scoped ComplexOrder

variable {K : Type*} [RCLike K] {N : ℕ}

/-- The parameters of the complex version belong to those of the real version. -/
structure Env.Extends (E' : Env K) (E : Env ℝ) : Prop where
  lapack : E'.lapack.Extends E.lapack
  nev : E'.nev = E.nev
  nex : E'.nex = E.nex
  doCholQR : E'.doCholQR = E.doCholQR
  envDisable : E'.envDisable = E.envDisable
  condUpper : E'.condUpper = E.condUpper
  condLower : E'.condLower = E.condLower

/-- The parameters with the random numbers of the real version. -/
noncomputable def Env.real (E' : Env K) (E : Env ℝ) : Env K :=
  { E' with lapack := { E'.lapack with randn := fun j i => (E.lapack.randn j i : K), probe := fun i => (E.lapack.probe i : K) } }

namespace Seq

/-- On real data the complex version runs like the real version, if it is given the same random numbers. -/
theorem sim_c {E' : Env K} {E : Env ℝ} (h : E'.Extends E) :
    Sim (ops E) (ops (E'.real E)) (fun (s : St ℝ N) (t : St K N) => t = s.c K) := by
  have hL : (E'.real E).lapack.Extends E.lapack :=
    ⟨h.lapack.potrf, h.lapack.hhqr, h.lapack.heevd, h.lapack.stemr, h.lapack.eps⟩
  have hn : (E'.real E).nevex = E.nevex := by
    show E'.nev + E'.nex = E.nev + E.nex
    rw [h.nev, h.nex]
  exact {
    checkSymmetryEasy := by
      rintro s _ rfl
      have e : symCheck (E'.real E).lapack (s.c K).H = symCheck E.lapack s.H := by
        rw [Bool.eq_iff_iff, symCheck_iff, symCheck_iff]
        show cM K s.H *ᵥ (fun i : Fin N => (E.lapack.probe i : K)) = (cM K s.H)ᴴ *ᵥ (fun i : Fin N => (E.lapack.probe i : K)) ↔ _
        rw [← cM_conj, cM_mulVec s.H fun i : Fin N => E.lapack.probe i, cM_mulVec s.Hᴴ fun i : Fin N => E.lapack.probe i]
        exact ⟨fun g => funext fun i => RCLike.ofReal_injective (congrFun g i), fun g => by rw [g]⟩
      show symCheck E.lapack s.H = symCheck (E'.real E).lapack (s.c K).H ∧
        ({ s.c K with isSym := symCheck (E'.real E).lapack (s.c K).H } : St K N) =
          St.c K { s with isSym := symCheck E.lapack s.H }
      rw [e]
      exact ⟨rfl, rfl⟩
    start := by rintro s _ rfl; rfl
    finish := by rintro s _ rfl; rfl
    initVecs := by
      rintro b s _ rfl
      have e : ∀ t : St ℝ N, initVecs (E'.real E) (t.c K) = (initVecs E t).c K := by
        intro t
        unfold initVecs
        rw [hn]
        show ({ t.c K with next := .bAc, C2 := copyCols 0 E.nevex (cV K t.C) (cV K t.C2) } : St K N) = _
        rw [copyCols_c]
        rfl
      have e' : initRndVecs (E'.real E) (s.c K) = (initRndVecs E s).c K := by
        unfold initRndVecs
        rw [hn]
        have ew := writeAt_c (K := K) 0 E.nevex s.C (fun (j : ℕ) (i : Fin N) => E.lapack.randn j i)
        exact congrArg (fun C => ({ s.c K with C := C } : St K N)) ew
      cases b
      · exact e s
      · show initVecs (E'.real E) (initRndVecs (E'.real E) (s.c K)) = _
        rw [e', e]
        rfl
    qr := by
      rintro k c s _ rfl
      show qrSelect (qrRoutines (E'.real E) s.locked) E'.doCholQR E'.envDisable
        (open Classical in decide (c > E'.condUpper)) (open Classical in decide (c < E'.condLower)) (s.c K) = _
      rw [h.doCholQR, h.envDisable, h.condUpper, h.condLower]
      refine qrSelect_rot (St.c K) _ _ (fun t => ?_) (fun t => ?_) (fun t => ?_) (fun t => ?_) (fun b t => ?_) _ _ _ _ s
      · show ({ t.c K with C := hhQRc (E'.real E).lapack (E'.real E).nevex (cV K t.C) } : St K N) = _
        rw [hn, hhQRc_c hL]
        rfl
      · show ((cholQR1c (E'.real E).lapack (E'.real E).nevex (cV K t.C)).1,
          ({ t.c K with C := (cholQR1c (E'.real E).lapack (E'.real E).nevex (cV K t.C)).2 } : St K N)) = _
        rw [hn, cholQR1c_c hL]
        rfl
      · show ((cholQR2c (E'.real E).lapack (E'.real E).nevex .seq (cV K t.C)).1,
          ({ t.c K with C := (cholQR2c (E'.real E).lapack (E'.real E).nevex .seq (cV K t.C)).2 } : St K N)) = _
        rw [hn, cholQR2c_c hL]
        rfl
      · show ((shiftedcholQR2c (E'.real E).lapack (E'.real E).nevex .seq (cV K t.C)).1,
          ({ t.c K with C := (shiftedcholQR2c (E'.real E).lapack (E'.real E).nevex .seq (cV K t.C)).2 } : St K N)) = _
        rw [hn, shiftedcholQR2c_c hL]
        rfl
      · exact lockVectorCopy_c hn _ t
    lanczos1 := by
      rintro m s _ rfl
      exact ⟨(lanczosBound_c hL axpyOwn s.H m s.C).symm, rfl⟩
    lanczosN := by
      rintro m k s _ rfl
      have e := lanczosMulti_c hL axpyOwn s.H m k s.C
      refine ⟨(congrArg Prod.fst e).symm, ?_⟩
      show ({ s.c K with C := (lanczosMulti axpyOwn (E'.real E).lapack (cM K s.H) m k (cV K s.C)).2 } : St K N) = _
      rw [e]
      rfl
    lanczosDos := by rintro i m z s _ rfl; exact lanczosDos_c i m z s
    shift := by
      rintro c b s _ rfl
      show ({ s.c K with H := shiftH (c : K) (cM K s.H) } : St K N) = _
      rw [shiftH_c]
      rfl
    hemm := by rintro n a b o s _ rfl; exact apply_c _ _ _ _ _ s
    rr := by
      rintro b s _ rfl
      have e := rr_c hL b s.locked s
      exact ⟨(congrArg Prod.fst e).symm, congrArg Prod.snd e⟩
    resd := by
      rintro f k s _ rfl
      have e := resd_c (K := K) f s.locked (E.nevex - k) s
      show _ = (resd f s.locked ((E'.real E).nevex - k) (s.c K)).1 ∧ (resd f s.locked ((E'.real E).nevex - k) (s.c K)).2 = _
      rw [hn]
      exact ⟨(congrArg Prod.fst e).symm, congrArg Prod.snd e⟩
    lock := by rintro k s _ rfl; rfl
    swap := by rintro i j s _ rfl; exact swap_c i j s }

/-- **C99** (approximation mode) A real symmetric problem is solved by the complex version as by the real version:
from the same matrix and the same start vectors, with any random numbers, both fail alike or return the same values
and residuals after the same rounds, and the vectors of the complex version are real and those of the real version.
What earlier work left in the other arrays of the two solvers does not matter.
Assumed: the LAPACK routines for complex matrices do with real matrices what those for real matrices do
(`Lapack.Extends`). -/
theorem C99_seq_partial (P : Plat ℝ) {E' : Env K} {E : Env ℝ} (hE : E'.Extends E) (cfg : Config ℝ)
    (hnev : E.nev = cfg.nev) (hnex : E.nex = cfg.nex) (hmax : Even cfg.maxDeg) (happ : cfg.approx = true)
    (ritzv0 resid0 : ℕ → ℝ) (s : St ℝ N) (s' : St K N) (hherm : cfg.symCheck = true → s.H.IsSymm)
    (hH : ∀ i j, s'.H i j = (s.H i j : K)) (hC : ∀ k i, s'.C k i = (s.C k i : K))
    (hC2 : ∀ k, cfg.nev + cfg.nex ≤ k → ∀ i, s'.C2 k i = (s.C2 k i : K)) :
    RelE (fun a b => a.ritzv = b.ritzv ∧ a.resid = b.resid ∧ a.iterations = b.iterations ∧ a.locked = b.locked ∧
        (∀ i j, b.be.H i j = (a.be.H i j : K)) ∧ (0 < a.iterations → ∀ k i, b.be.C k i = (a.be.C k i : K)))
      (solve P (ops E) cfg ritzv0 resid0 s) (solve P (ops E') cfg ritzv0 resid0 s') := by
  have h1 := solve_sim (sim_c hE) P cfg ritzv0 resid0 (be := s) (be' := s.c K) rfl
  have h3 : solve P (ops (E'.real E)) cfg ritzv0 resid0 (s.c K) = solve P (ops E') cfg ritzv0 resid0 (s.c K) := by
    refine Mpi.solve_congr_start P cfg (ops E') (ops (E'.real E)).initVecs (ops (E'.real E)).checkSymmetryEasy
      ritzv0 resid0 (s.c K) (by rw [happ]; rfl) fun hsym => ?_
    have hr : (s.c K).H.IsHermitian := by
      show (cM K s.H)ᴴ = cM K s.H
      rw [← cM_conj, conjTranspose_eq_transpose_of_trivial, (hherm hsym).eq]
    show (symCheck _ _, ({ s.c K with isSym := symCheck _ _ } : St K N)) =
      (symCheck _ _, ({ s.c K with isSym := symCheck _ _ } : St K N))
    rw [C09_hermitian_accepted _ _ hr, C09_hermitian_accepted _ _ hr]
  have h4 := C62_seq P E' cfg (hE.nev.trans hnev) (hE.nex.trans hnex) hmax ritzv0 resid0 (s.c K) s'
    (by funext i j; exact (hH i j).symm) (fun _ k _ => by funext i; exact (hC k i).symm)
    fun k hk => ⟨by funext i; exact (hC k i).symm, by funext i; exact (hC2 k hk i).symm⟩
  rw [h3] at h1
  revert h1 h4
  generalize solve P (ops E) cfg ritzv0 resid0 s = x
  generalize solve P (ops E') cfg ritzv0 resid0 (s.c K) = y
  generalize solve P (ops E') cfg ritzv0 resid0 s' = z
  intro h1 h4
  cases h1 with
  | error e => cases h4; exact RelE.error e
  | ok h1 =>
    cases h4 with
    | ok h4 =>
      obtain ⟨b1, b2, b3, b4, b5, b6⟩ := h4
      refine RelE.ok ⟨h1.ritzv.trans b1, h1.resid.trans b2, h1.iterations.trans b3, h1.locked.trans b4,
        fun i j => ?_, fun hp k i => ?_⟩
      · rw [← b5, h1.be]; rfl
      · rw [← b6 (h1.iterations ▸ hp), h1.be]; rfl

end Seq
end Verif
