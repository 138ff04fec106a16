/-
C90 in floating-point arithmetic, without the residuals: the in-place CPU backend and the single-process GPU backend.
-/
import Verif.Rounded.InPlaceRitz
import Verif.Rounded.RitzProps

set_option linter.unusedSectionVars false

namespace Verif
namespace Rounded
namespace InPlace

open Matrix Finset
open Verif.InPlace (Kind)

section
variable {K 𝕜 R : Type*} [RCLike 𝕜] {N : ℕ} {F : Fl K 𝕜} {valR : R → ℝ} {A : Arith K R N} {E : Params} {k : Kind}
  {d1 d2 d3 : ℕ} {ε δ η ν : ℝ}
variable [Add R] [Sub R] [Mul R] [Div R] [Neg R] [Zero R] [One R] [NatCast R] [LT R] [DecidableLT R]

/-- **The values are Rayleigh quotients**, up to rounding errors, in every run in which the calls of `QR` are accurate; for
the vectors in the current buffer. -/
theorem quotients (hO : OrthoKernels F A E.nevex d3 δ) (hR : RitzKernels F valR A E.nevex d2 η)
    (hε : 0 ≤ ε) (hδ : 0 ≤ δ) (hη : 0 ≤ η) (hacc : Accurate F valR A d1 ν) (P : Plat R) (hP : PermutesIndices P)
    (cfg : Config R) (hN : cfg.N = N) (hsz : cfg.nev + cfg.nex = E.nevex)
    (hmax : Even cfg.maxDeg) (ritzv0 resid0 : ℕ → R) (s : St K R N) (hH : (valM F (s.userH k)).IsHermitian)
    (out : Outcome R (St K R N × List (Call R)))
    (h : solve P (traced (ops A E k)) cfg ritzv0 resid0 (s, []) = .ok out)
    (hsym : cfg.symCheck = true → A.symCheck (s.userH k) = true) (hit : 0 < out.iterations)
    (hq : QrAvoids P (ops A E k) cfg ritzv0 resid0 s (BadQr F A E ε))
    {C V : ℝ} (hC : ∀ c ∈ shiftsOf out.be.2, |valR c| ≤ C)
    (hV : ∀ i, i < cfg.nev + cfg.nex → |valR (out.ritzv i)| ≤ V) :
    NearOrtho (tau (cfg.nev + cfg.nex) ε δ (gam F.u d3)) (cfg.nev + cfg.nex) (fun j => valV F (out.be.1.V1 j)) ∧
    ∀ i, i < cfg.nev + cfg.nex →
      ‖dotc (valV F (out.be.1.V1 i)) ((valM F (s.userH k)).mulVec (valV F (out.be.1.V1 i))) -
        (valR (out.ritzv i) : 𝕜)‖ ≤
        quotB F.u d1 d2 d3 (cfg.nev + cfg.nex) out.iterations ε δ η (frob (valM F (s.userH k))) C V := by
  have hn := ortho_traced hO hε hδ P hP cfg hN hsz hmax ritzv0 resid0 s out h hsym hit hq
  have hC0 := bound_nonneg hP h hsym hit hC
  have hp := ritz_at_end hO hε hδ P hP cfg hN hsz hmax ritzv0 resid0 s out h hsym hit hq
  have hu := F.u_nonneg
  generalize s.userH k = H0 at hH hp ⊢
  set f := frob (valM F H0) with hf
  have hf0 : 0 ≤ f := frob_nonneg _
  have hD0 : 0 ≤ gam F.u (2 * out.iterations) * (f + C) := mul_nonneg (gam_nonneg hu _) (by linarith)
  refine ⟨hn, fun i hi => ?_⟩
  obtain ⟨xs, h1, h2, hp⟩ := hp i hi
  obtain ⟨a, b⟩ := drift hacc H0 xs fun c hc => hC c (h2 c hc)
  refine ritz_error hacc (hsz ▸ hR : RitzKernels F valR A (cfg.nev + cfg.nex) d2 η)
    (hsz ▸ hO : OrthoKernels F A (cfg.nev + cfg.nex) d3 δ) hε hδ hη hH hD0
    (fun i j hij => congrArg F.val (a i j hij)) (fun k => (b k).trans ?_) hp (hV i hi)
  have e1 : gam F.u (2 * xs.length) ≤ gam F.u (2 * out.iterations) := gam_mono hu (by omega)
  have e2 : ‖F.val (H0 k k)‖ ≤ f := norm_le_frob (valM F H0) k k
  exact mul_le_mul e1 (by linarith) (by positivity) (gam_nonneg hu _)

/-- **C90 in floating-point arithmetic, without the residuals**, in-place CPU backend and single-process GPU backend
(partial: every call of `QR` in the run is assumed to be accurate and not to be a Cholesky QR that fails after it has
changed a locked column): as `C90_ritz_partial`.  The number of rounds does not matter. -/
theorem C90_ritz_inplace_partial (hO : OrthoKernels F A E.nevex d3 δ) (hR : RitzKernels F valR A E.nevex d2 η)
    (hε : 0 ≤ ε) (hδ : 0 ≤ δ) (hη : 0 ≤ η) (hacc : Accurate F valR A d1 ν) (P : Plat R) (hP : PermutesIndices P)
    (cfg : Config R) (hN : cfg.N = N) (hsz : cfg.nev + cfg.nex = E.nevex) (hle : cfg.nev + cfg.nex ≤ N)
    (hmax : Even cfg.maxDeg) (ritzv0 resid0 : ℕ → R) (s : St K R N) (hH : (valM F (s.userH k)).IsHermitian)
    (out : Outcome R (St K R N × List (Call R)))
    (h : solve P (traced (ops A E k)) cfg ritzv0 resid0 (s, []) = .ok out)
    (hsym : cfg.symCheck = true → A.symCheck (s.userH k) = true) (hit : 0 < out.iterations)
    (hq : QrAvoids P (ops A E k) cfg ritzv0 resid0 s (BadQr F A E ε))
    {C V : ℝ} (hC : ∀ c ∈ shiftsOf out.be.2, |valR c| ≤ C)
    (hV : ∀ i, i < cfg.nev + cfg.nex → |valR (out.ritzv i)| ≤ V) :
    let n := cfg.nev + cfg.nex
    let τ := tau n ε δ (gam F.u d3)
    τ ≤ 1 →
    VariationalUpTo (valM F (s.userH k)) n (fun i => valR (out.ritzv i))
      (sumB F.u d1 d2 d3 n out.iterations ε δ η (frob (valM F (s.userH k))) C V τ) := by
  intro n τ hτ1
  obtain ⟨hn, hp⟩ := quotients hO hR hε hδ hη hacc P hP cfg hN hsz hmax ritzv0 resid0 s hH out h hsym hit hq hC hV
  exact fun w hw hm T hT => variational_near hH hle hn (tau_nonneg hε hδ F.u_nonneg) hτ1 hp hw hm hT

/-- **C90 in floating-point arithmetic** with Householder QR, in-place CPU backend and single-process GPU backend. -/
theorem C90_householder_inplace (hO : OrthoKernels F A E.nevex d3 δ) (hR : RitzKernels F valR A E.nevex d2 η)
    (hε : 0 ≤ ε) (hδ : 0 ≤ δ) (hη : 0 ≤ η) (hacc : Accurate F valR A d1 ν)
    (hd : cholDisable E.doCholQR E.envDisable = 1)
    (hq : ∀ X, QrOf ε E.nevex (fun j => valV F (X j)) fun j => valV F (A.hhQR X j)) (P : Plat R)
    (hP : PermutesIndices P) (cfg : Config R) (hN : cfg.N = N) (hsz : cfg.nev + cfg.nex = E.nevex)
    (hle : cfg.nev + cfg.nex ≤ N) (hmax : Even cfg.maxDeg) (ritzv0 resid0 : ℕ → R) (s : St K R N)
    (hH : (valM F (s.userH k)).IsHermitian) (out : Outcome R (St K R N × List (Call R)))
    (h : solve P (traced (ops A E k)) cfg ritzv0 resid0 (s, []) = .ok out)
    (hsym : cfg.symCheck = true → A.symCheck (s.userH k) = true) (hit : 0 < out.iterations)
    {C V : ℝ} (hC : ∀ c ∈ shiftsOf out.be.2, |valR c| ≤ C)
    (hV : ∀ i, i < cfg.nev + cfg.nex → |valR (out.ritzv i)| ≤ V) :
    let n := cfg.nev + cfg.nex
    let τ := tau n ε δ (gam F.u d3)
    τ ≤ 1 →
    VariationalUpTo (valM F (s.userH k)) n (fun i => valR (out.ritzv i))
      (sumB F.u d1 d2 d3 n out.iterations ε δ η (frob (valM F (s.userH k))) C V τ) :=
  C90_ritz_inplace_partial hO hR hε hδ hη hacc P hP cfg hN hsz hle hmax ritzv0 resid0 s hH out h hsym hit
    (householder_ok hd hq P cfg ritzv0 resid0 s) hC hV

end

/-- Non-vacuity of `C90_ritz_inplace_partial` and `C90_householder_inplace`: double precision, a Householder QR and a
dense eigensolver with errors of at most `2^-40`, a matrix that is not diagonal. -/
example (k : Kind) : ∃ (out : Outcome (Fp 53) (St (Fp 53) (Fp 53) 2 × List (Call (Fp 53)))) (C V : ℝ),
    solve (Rounded.Two.plat 53) (traced (ops Rounded.Two.arithR Rounded.Two.params k)) (Rounded.Two.cfg 53)
      (Rounded.Two.ritzv0 53) (fun _ => 0) (Two.start2, []) = .ok out ∧ 0 < out.iterations ∧
    (∀ c ∈ shiftsOf out.be.2, |c.toReal| ≤ C) ∧ (∀ i, i < 2 → |(out.ritzv i).toReal| ≤ V) ∧
    VariationalUpTo (valM (Fp.fl 53) (Two.start2.userH k)) 2 (fun i => (out.ritzv i).toReal)
      (sumB (Fp.fl 53).u 2 2 3 2 out.iterations ((1 / 2) ^ 40) ((1 / 2) ^ 40) ((1 / 2) ^ 40)
        (frob (valM (Fp.fl 53) (Two.start2.userH k))) C V
        (tau 2 ((1 / 2) ^ 40) ((1 / 2) ^ 40) (gam (Fp.fl 53).u 3))) := by
  have hq : ∀ X, QrOf ((1 / 2) ^ 40) Rounded.Two.params.nevex (fun j => valV (Fp.fl 53) (X j))
      fun j => valV (Fp.fl 53) (Rounded.Two.arithR.hhQR X j) := fun X => hhqr_ok le_rfl X
  obtain ⟨out, h1, hit⟩ := Two.defined (traced (ops Rounded.Two.arithR Rounded.Two.params k)) (Two.start2, []) rfl
  obtain ⟨C, V, D, hC, hV, hD⟩ := exists_bounds ((shiftsOf out.be.2).map Fp.toReal) (fun i => (out.ritzv i).toReal) 2
  have hC' : ∀ c ∈ shiftsOf out.be.2, |c.toReal| ≤ C := fun c hc => hC _ (List.mem_map_of_mem hc)
  exact ⟨out, C, V, h1, hit, hC', hV, C90_householder_inplace Rounded.Two.orthoKernelsR Rounded.Two.ritzKernelsR
    (by positivity) (by positivity) (by positivity) Rounded.Two.accurateR rfl hq (Rounded.Two.plat 53)
    (Rounded.Two.plat_permutes 53) (Rounded.Two.cfg 53) rfl rfl (by decide) (by decide) _ _ _ (Two.hermitian2 k) out h1
    (fun _ => rfl) hit hC' hV tau_ritz.le⟩

end InPlace
end Rounded
end Verif
