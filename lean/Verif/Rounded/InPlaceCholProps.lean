/-
C87 for the in-place CPU backend and the single-process GPU backend: C84 with Cholesky QR, the default of the library.
-/
import Verif.Rounded.CholProps
import Verif.Rounded.CholTwo
import Verif.Rounded.InPlaceProps

set_option linter.unusedSectionVars false

namespace Verif
namespace Rounded
namespace InPlace

open Matrix Finset
open Verif.InPlace (Kind)

/-! ### Specification -/

/-- `cholQR2` of the two backends: inplace 312-339; cuda_seq 587-649 returns the `info` of the first factorisation, that
of the second is not read. -/
def qr2Of {K : Type*} {N n : ℕ} (κ : CholKern K N n) (k : Kind) (X : ℕ → Fin N → K) : ℤ × (ℕ → Fin N → K) :=
  let x := κ.potrf (κ.gram X)
  if x.1 ≠ 0 then (x.1, X)
  else
    let X := κ.trsm x.2 X
    let y := κ.potrf (κ.gram X)
    (match k with
      | .cpu => y.1
      | .cuda => x.1, κ.trsm y.2 X)

/-- The arithmetic's Cholesky variants are the three routines of the backend, made of the kernels `κ`: inplace 287-382,
cuda_seq 537-741. -/
structure UsesChol {K R : Type*} {N n : ℕ} (A : Arith K R N) (κ : CholKern K N n) (k : Kind) : Prop where
  qr1 : ∀ X, A.cholQR1 X = κ.qr1 X
  qr2 : ∀ X, A.cholQR2 X = qr2Of κ k X
  shifted : ∀ X, A.shiftedcholQR2 X = κ.shifted k.chol X

/-! ### Calls -/

section
variable {K 𝕜 R : Type*} [RCLike 𝕜] {N : ℕ} {F : Fl K 𝕜} {valR : R → ℝ} {A : Arith K R N} {E : Params} {k : Kind} {d : ℕ}
  {eps e ε δ : ℝ} {κ : CholKern K N E.nevex}

/-- Exact arithmetic is an instance of `UsesChol`. -/
theorem exact_usesChol {K : Type*} [RCLike K] {N : ℕ} (E : Env K) (k : Kind) :
    UsesChol (exactArith (N := N) E k) (n := E.nevex)
      ⟨gram E.nevex, E.lapack.potrf, trsm, fun G => shiftDiag G (cholShift (N := N) E.lapack G : K)⟩ k where
  qr1 := fun _ => rfl
  qr2 := fun _ => by cases k <;> rfl
  shifted := fun _ => by cases k <;> rfl

/-- `cholQR2` on a block that suits it. -/
theorem qr2_ok (hk : CholAcc F κ eps e) (hn : 0 < E.nevex) (he : 0 ≤ e) {X : ℕ → Fin N → K} {σ : ℝ}
    (hc : Conditioned F σ E.nevex X) (h1 : 704 * (E.nevex * Real.sqrt E.nevex * e) ≤ σ ^ 2)
    (h2 : 528 * (E.nevex * Real.sqrt E.nevex * e) ≤ ε) :
    ((qr2Of κ k X).1 = 0 ∧ QrOf ε E.nevex (fun j => valV F (X j)) fun j => valV F ((qr2Of κ k X).2 j)) ∨
      ((qr2Of κ k X).1 ≠ 0 ∧ (qr2Of κ k X).2 = X) := by
  cases k with
  | cpu => exact hk.qr2 hn he hc h1 h2
  | cuda =>
    by_cases hp : (κ.potrf (κ.gram X)).1 = 0
    · left
      have key := hk.qr2 hn he hc h1 h2
      have hp1 := (hk.twoSteps hn he hc.cond h1 hp).1
      have e1 : κ.qr2 X = qr2Of κ .cuda X := by
        unfold CholKern.qr2 qr2Of
        dsimp only
        rw [if_neg (by simp [hp]), if_neg (by simp [hp]), hp1, hp]
      have e2 : (κ.qr2 X).1 = 0 := by
        unfold CholKern.qr2
        dsimp only
        rw [if_neg (by simp [hp]), hp1]
      rcases key with key | key
      · rwa [e1] at key
      · exact absurd e2 key.1
    · right
      have e1 : qr2Of κ .cuda X = ((κ.potrf (κ.gram X)).1, X) := by
        unfold qr2Of
        dsimp only
        rw [if_pos hp]
      rw [e1]
      exact ⟨hp, rfl⟩

/-- **On a block that suits the chosen routine, Cholesky QR is accurate or fails at once**: a failure leaves the columns
as they are. -/
theorem chosen_ok (hk : CholAcc F κ eps e) (hA : UsesChol A κ k) (hn : 0 < E.nevex) (he : 0 ≤ e) (heps : 0 ≤ eps)
    (hε : 528 * (E.nevex * Real.sqrt E.nevex * e) ≤ ε) {cond : R} {X : ℕ → Fin N → K}
    (h : Suited F A E.nevex eps e ε cond X) :
    ((chosen A cond X).1 = 0 ∧ QrOf ε E.nevex (fun j => valV F (X j)) fun j => valV F ((chosen A cond X).2 j)) ∨
      ((chosen A cond X).1 ≠ 0 ∧ (chosen A cond X).2 = X) := by
  obtain ⟨σ, hc, hs⟩ := h
  unfold chosen
  by_cases ha : A.above cond = true
  · rw [if_pos ha] at hs ⊢
    obtain ⟨ω, h1, h2, h3, h4⟩ := hs
    rw [hA.shifted]
    exact hk.shifted hn he heps k.chol hc h1 h2 h3 h4 hε
  · rw [if_neg ha] at hs ⊢
    by_cases hb : A.below cond = true
    · rw [if_pos hb] at hs ⊢
      rw [hA.qr1]
      by_cases h0 : (κ.qr1 X).1 = 0
      · exact Or.inl ⟨h0, hk.qr1 hn he hc hs.1 hs.2 h0⟩
      · refine Or.inr ⟨h0, ?_⟩
        unfold CholKern.qr1 at h0 ⊢
        dsimp only at h0 ⊢
        split_ifs at h0 ⊢ with hp
        · rfl
        · exact absurd (not_not.mp hp) h0
    · rw [if_neg hb] at hs ⊢
      rw [hA.qr2]
      exact qr2_ok hk hn he hc hs hε

/-- **A call of `QR` on a block that suits the chosen routine is none of the bad ones**: it is accurate, and a Cholesky QR
that fails has not changed the columns. -/
theorem good_of_suited (hk : CholAcc F κ eps e) (hA : UsesChol A κ k) (hn : 0 < E.nevex) (he : 0 ≤ e) (heps : 0 ≤ eps)
    (hε : 528 * (E.nevex * Real.sqrt E.nevex * e) ≤ ε)
    (hq : ∀ X, QrOf ε E.nevex (fun j => valV F (X j)) fun j => valV F (A.hhQR X j)) (l : ℕ) (cond : R)
    (s : St K R N) (h : ¬ IllConditioned F A E eps e ε l cond s.V1) : ¬ BadQr F A E ε l cond s := by
  by_cases hd : cholDisable E.doCholQR E.envDisable = 1
  · rintro (hi | hg)
    · apply hi
      have e : qrCols A E cond s.V1 = A.hhQR s.V1 := if_pos hd
      rw [e]
      exact hq s.V1
    · exact hg.1 hd
  have hs : Suited F A E.nevex eps e ε cond s.V1 := by
    by_contra hc
    exact h ⟨hd, hc⟩
  have key := chosen_ok hk hA hn he heps hε hs
  rintro (hi | ⟨-, h0, j, -, hj⟩)
  · apply hi
    have e : qrCols A E cond s.V1 =
        if (chosen A cond s.V1).1 ≠ 0 then A.hhQR (chosen A cond s.V1).2 else (chosen A cond s.V1).2 := if_neg hd
    rw [e]
    rcases key with ⟨h1, h2⟩ | ⟨h1, h2⟩
    · rw [if_neg (by simp [h1])]; exact h2
    · rw [if_pos h1, h2]; exact hq s.V1
  · rcases key with ⟨h1, -⟩ | ⟨-, h2⟩
    · exact h0 h1
    · exact hj (by rw [h2])

variable [Add R] [Sub R] [Mul R] [Div R] [Neg R] [Zero R] [One R] [NatCast R] [LT R] [DecidableLT R]

/-- **C87**, in-place CPU backend and single-process GPU backend: as `C87_cholesky`, for the vectors the user reads from
their array.  The hypothesis `hr` excludes the runs of the in-place backend after which the vectors are not there. -/
theorem C87_cholesky_inplace (hA : OrthoKernels F A E.nevex d δ) (hδ : 0 ≤ δ) (hk : CholAcc F κ eps e)
    (hu : UsesChol A κ k) (he : 0 ≤ e) (heps : 0 ≤ eps) (hε : 528 * (E.nevex * Real.sqrt E.nevex * e) ≤ ε)
    (hq : ∀ X, QrOf ε E.nevex (fun j => valV F (X j)) fun j => valV F (A.hhQR X j)) (P : Plat R)
    (hP : PermutesIndices P) (cfg : Config R) (hN : cfg.N = N) (hsz : cfg.nev + cfg.nex = E.nevex)
    (hmax : Even cfg.maxDeg) (ritzv0 resid0 : ℕ → R) (s : St K R N) (hfl : s.flipped = false)
    (out : Outcome R (St K R N)) (h : solve P (ops A E k) cfg ritzv0 resid0 s = .ok out)
    (hsym : cfg.symCheck = true → A.symCheck (s.userH k) = true) (hit : 0 < out.iterations)
    (hr : k = .cuda ∨ out.iterations % 2 = 0)
    (hc : QrAvoids P (ops A E k) cfg ritzv0 resid0 s fun l c t => IllConditioned F A E eps e ε l c t.V1) :
    NearOrtho (tau (cfg.nev + cfg.nex) ε δ (gam F.u d)) (cfg.nev + cfg.nex) fun j => valV F (out.be.userV k j) := by
  rcases Nat.eq_zero_or_pos E.nevex with h0 | hn
  · rw [hsz, h0]
    exact ⟨fun i hi => absurd hi (by omega), fun i j hi => absurd hi (by omega)⟩
  have hε0 : 0 ≤ ε := le_trans (by positivity) hε
  exact C84_orthonormal_inplace_partial hA hε0 hδ P hP cfg hN hsz hmax ritzv0 resid0 s hfl out h hsym hit hr
    (hc.mono fun l c t ht => not_imp_not.mp (good_of_suited hk hu hn he heps hε hq l c t) ht)

end

/-! ### Runs that meet the hypotheses -/

namespace Two
open Rounded.Two (chol2 chol2_acc arithC paramsC platC plat_permutes ritzv0 epsQ conditioned_diag unit_small)

/-- The arithmetic of `arithC` with the routines of the two backends. -/
noncomputable def arithI (k : Kind) : Arith (Fp 53) (Fp 53) 2 :=
  { arithC with
    cholQR2 := qr2Of chol2 k
    shiftedcholQR2 := chol2.shifted k.chol }

theorem orthoI (k : Kind) : OrthoKernels (Fp.fl 53) (arithI k) 2 3 0 where
  back := Rounded.Two.orthoC.back
  heevd := Rounded.Two.orthoC.heevd

/-- The block is not diagonal, or a column vanishes. -/
def badI (_ : ℕ) (c : Fp 53) (s : St (Fp 53) (Fp 53) 2) : Bool :=
  decide (s.V1 0 0 = 0) || decide (s.V1 0 1 ≠ 0) || decide (s.V1 1 0 ≠ 0) || decide (s.V1 1 1 = 0) || decide (c ≠ ⟨100⟩)

/-- A tolerance that is never met, so that two rounds are made. -/
def cfgI : Config (Fp 53) := { Rounded.Two.cfg 53 with tol := ⟨-1⟩, maxIter := 2 }

theorem runI (k : Kind) : ∃ out, solve platC (watchB badI (ops (arithI k) paramsC k)) cfgI (ritzv0 53)
      (fun _ => 0) (start, false) = .ok out ∧ out.be.2 = false ∧ out.iterations = 2 := by
  obtain ⟨out, h, g⟩ := Toy.okAnd_elim (p := fun out : Outcome (Fp 53) (St (Fp 53) (Fp 53) 2 × Bool) =>
      decide (out.be.2 = false ∧ out.iterations = 2))
    (x := solve platC (watchB badI (ops (arithI k) paramsC k)) cfgI (ritzv0 53) (fun _ => 0) (start, false))
    (by rw [Toy.solve_eq_solveE]; cases k <;> decide +kernel)
  exact ⟨out, h, of_decide_eq_true g⟩

theorem avoidsI (k : Kind) : QrAvoids platC (ops (arithI k) paramsC k) cfgI (ritzv0 53) (fun _ => 0) start
    fun l c t => IllConditioned (Fp.fl 53) (arithI k) paramsC (epsQ : ℝ) ((1 / 2) ^ 51) ((1 / 2) ^ 40) l c t.V1 := by
  obtain ⟨out, h1, h2, -⟩ := runI k
  refine QrAvoids.of_run (fun m c s hb => ?_) h1 h2
  by_contra hc
  apply hb.2
  simp only [badI, Bool.or_eq_true, decide_eq_true_eq, not_or, not_not] at hc
  obtain ⟨⟨⟨⟨c1, c2⟩, c3⟩, c4⟩, rfl⟩ := hc
  refine ⟨1, conditioned_diag c1 c2 c3 c4, ?_⟩
  have a1 : (arithI k).above ⟨100⟩ = false := by
    show decide ((10 : ℚ) ^ 8 < 100) = false
    norm_num
  have a2 : (arithI k).below ⟨100⟩ = false := by
    show decide ((100 : ℚ) < 20) = false
    norm_num
  rw [if_neg (by rw [a1]; simp), if_neg (by rw [a2]; simp)]
  have := unit_small
  show 704 * (((2 : ℕ) : ℝ) * Real.sqrt ((2 : ℕ) : ℝ) * (1 / 2) ^ 51) ≤ 1 ^ 2
  have h3 : (0 : ℝ) ≤ ((2 : ℕ) : ℝ) * Real.sqrt ((2 : ℕ) : ℝ) * (1 / 2) ^ 51 := by positivity
  have h4 : (2 : ℝ) * (1 / 2) ^ 40 ≤ 1 := by norm_num
  linarith

/-- Non-vacuity of `C87_cholesky_inplace`, both backends: double precision, Cholesky QR switched on with the thresholds of
the code, kernels of relative error `2^-51`, and a run of two rounds in which `QR` uses `cholQR2`. -/
example (k : Kind) : OrthoKernels (Fp.fl 53) (arithI k) paramsC.nevex 3 0 ∧
    CholAcc (Fp.fl 53) chol2 (epsQ : ℝ) ((1 / 2) ^ 51) ∧ UsesChol (arithI k) chol2 k ∧
    528 * ((paramsC.nevex : ℝ) * Real.sqrt paramsC.nevex * (1 / 2) ^ 51) ≤ (1 / 2) ^ 40 ∧
    cholDisable paramsC.doCholQR paramsC.envDisable ≠ 1 ∧
    (∀ X, QrOf ((1 / 2) ^ 40) paramsC.nevex (fun j => valV (Fp.fl 53) (X j))
      fun j => valV (Fp.fl 53) ((arithI k).hhQR X j)) ∧
    PermutesIndices platC ∧ cfgI.N = 2 ∧ cfgI.nev + cfgI.nex = paramsC.nevex ∧ Even cfgI.maxDeg ∧
    start.flipped = false ∧ (arithI k).symCheck (start.userH k) = true ∧
    (∃ out, solve platC (ops (arithI k) paramsC k) cfgI (ritzv0 53) (fun _ => 0) start = .ok out ∧
      out.iterations = 2) ∧
    QrAvoids platC (ops (arithI k) paramsC k) cfgI (ritzv0 53) (fun _ => 0) start
      (fun l c t => IllConditioned (Fp.fl 53) (arithI k) paramsC (epsQ : ℝ) ((1 / 2) ^ 51) ((1 / 2) ^ 40) l c t.V1) := by
  refine ⟨orthoI k, chol2_acc, ⟨fun _ => rfl, fun _ => rfl, fun _ => rfl⟩, ?_, by decide, fun X => hhqr_ok le_rfl X,
    plat_permutes 53, rfl, rfl, by decide, rfl, rfl, ?_, avoidsI k⟩
  · have := unit_small
    show 528 * (((2 : ℕ) : ℝ) * Real.sqrt ((2 : ℕ) : ℝ) * (1 / 2) ^ 51) ≤ (1 / 2) ^ 40
    linarith
  · obtain ⟨out, h, g⟩ := Toy.okAnd_elim (p := fun out : Outcome (Fp 53) (St (Fp 53) (Fp 53) 2) =>
        decide (out.iterations = 2))
      (x := solve platC (ops (arithI k) paramsC k) cfgI (ritzv0 53) (fun _ => 0) start)
      (by rw [Toy.solve_eq_solveE]; cases k <;> decide +kernel)
    exact ⟨out, h, of_decide_eq_true g⟩

end Two
end InPlace
end Rounded
end Verif
