/-
C91 in floating-point arithmetic: returned vectors are close to eigenvectors and returned values quadratically close to
eigenvalues of the matrix handed in, up to rounding errors.
-/
import Verif.Rounded.Temple
import Verif.Rounded.InPlaceRitzProps
import Verif.Rounded.RitzParProps

set_option linter.unusedSectionVars false

namespace Verif
namespace Rounded

open Matrix Finset

/-- The outcome promised by C91 for a value `x`, its vector `v` and the residual `c` computed for them: with `ν` the
relative error of the norm, `a` the absolute error of the residual, `τ` the distance of `‖v‖` from one and `B` the
distance of `x` from the Rayleigh quotient of `v`. -/
def NearEigenpair {𝕜 : Type*} [RCLike 𝕜] {N : ℕ} (H : Matrix (Fin N) (Fin N) 𝕜) (x : ℝ) (v : Fin N → 𝕜)
    (c ν a τ B : ℝ) : Prop :=
  let r := (c + (1 + ν) * (a * Verif.nrm2 v)) / (1 - ν)
  NearEigenvector H x v r ∧ NearEigenvalueUpTo H x r ((1 - τ) ^ 2) (B + |x| * (τ * (2 + τ)))

/-- Without errors this is the claim in exact arithmetic. -/
theorem nearEigenpair_exact {𝕜 : Type*} [RCLike 𝕜] {N : ℕ} (H : Matrix (Fin N) (Fin N) 𝕜) (x : ℝ) (v : Fin N → 𝕜)
    (c : ℝ) : NearEigenpair H x v c 0 0 0 0 ↔ NearEigenvector H x v c ∧ NearEigenvalue H x c := by
  simp [NearEigenpair, ← nearEigenvalueUpTo_exact]

theorem nearEigenpair_of {𝕜 : Type*} [RCLike 𝕜] {N : ℕ} {H : Matrix (Fin N) (Fin N) 𝕜} (hH : H.IsHermitian) {x : ℝ}
    {v : Fin N → 𝕜} {c ν a τ B : ℝ} (hν1 : ν < 1) (hτ1 : τ < 1) (hn : |Verif.nrm2 v - 1| ≤ τ)
    (hB : ‖dotc v (H.mulVec v) - (x : 𝕜)‖ ≤ B)
    (h : |c - Verif.nrm2 (H.mulVec v - (x : 𝕜) • v)| ≤
      ν * Verif.nrm2 (H.mulVec v - (x : 𝕜) • v) + (1 + ν) * (a * Verif.nrm2 v)) :
    NearEigenpair H x v c ν a τ B := by
  refine ⟨nearEigenvector_of_computed hH hν1 h, nearEigenvalueUpTo_of hH hτ1 hn hB le_rfl ?_⟩
  rw [le_div_iff₀ (by linarith)]
  linarith [(abs_le.mp h).1]

section
variable {K 𝕜 R : Type*} [RCLike 𝕜] {N : ℕ} {F : Fl K 𝕜} {valR : R → ℝ} {A : Arith K R N} {E : Params} {d1 d2 d3 : ℕ}
  {ε δ η ν : ℝ}
variable [Add R] [Sub R] [Mul R] [Div R] [Neg R] [Zero R] [One R] [NatCast R] [LT R] [DecidableLT R]

/-- **C91 in floating-point arithmetic**, single-process CPU backend (partial: every call of `QR` in the run is assumed to
be accurate).  Assumptions as in `C73_residual_partial` and `C90_ritz_partial`. -/
theorem C91_quadratic_partial (hO : OrthoKernels F A E.nevex d3 δ) (hR : RitzKernels F valR A E.nevex d2 η) (hε : 0 ≤ ε)
    (hδ : 0 ≤ δ) (hη : 0 ≤ η) (hacc : Accurate F valR A d1 ν) (hν : 0 ≤ ν) (hν1 : ν < 1) (P : Plat R)
    (hP : PermutesIndices P) (cfg : Config R) (hN : cfg.N = N) (hsz : cfg.nev + cfg.nex = E.nevex)
    (hmax : Even cfg.maxDeg) (ritzv0 resid0 : ℕ → R) (s : Seq.St K N) (hH : (valM F s.H).IsHermitian)
    (out : Outcome R (Seq.St K N × List (Call R)))
    (h : solve P (traced (ops A E)) cfg ritzv0 resid0 (s, []) = .ok out)
    (hsym : cfg.symCheck = true → A.symCheck s.H = true) (hit : 0 < out.iterations)
    (hq : QrAvoids P (ops A E) cfg ritzv0 resid0 s fun k c t => Inaccurate F A E ε k c t.C)
    {C V : ℝ} (hC : ∀ c ∈ shiftsOf out.be.2, |valR c| ≤ C)
    (hV : ∀ i, i < cfg.nev + cfg.nex → |valR (out.ritzv i)| ≤ V) :
    let n := cfg.nev + cfg.nex
    let τ := tau n ε δ (gam F.u d3)
    let f := frob (valM F s.H)
    τ < 1 →
    ∃ σ : Equiv.Perm ℕ, PermOn 0 cfg.nev σ ∧ ∀ i, i < n →
      NearEigenpair (valM F s.H) (valR (out.ritzv i)) (valV F (out.be.1.C i)) (valR (out.resid (σ i))) ν
        (slack F.u d1 out.iterations f C (valR (out.ritzv i))) τ
        (quotB F.u d1 d2 d3 n out.iterations ε δ η f C V) := by
  intro n τ f hτ1
  obtain ⟨hn, hp⟩ := quotients hO hR hε hδ hη hacc P hP cfg hN hsz hmax ritzv0 resid0 s hH out h hsym hit hq hC hV
  obtain ⟨σ, hσ, hm⟩ := C73_residual_partial hacc hν P hP cfg hN hsz hmax ritzv0 resid0 s hH out h hsym hit hC
  exact ⟨σ, hσ, fun i hi => nearEigenpair_of hH hν1 hτ1 (hn.1 i hi) (hp i hi) (hm i hi)⟩

/-- **C91 in floating-point arithmetic** with Householder QR, single-process CPU backend. -/
theorem C91_householder (hO : OrthoKernels F A E.nevex d3 δ) (hR : RitzKernels F valR A E.nevex d2 η) (hε : 0 ≤ ε)
    (hδ : 0 ≤ δ) (hη : 0 ≤ η) (hacc : Accurate F valR A d1 ν) (hν : 0 ≤ ν) (hν1 : ν < 1)
    (hd : cholDisable E.doCholQR E.envDisable = 1)
    (hq : ∀ X, QrOf ε E.nevex (fun j => valV F (X j)) fun j => valV F (A.hhQR X j)) (P : Plat R)
    (hP : PermutesIndices P) (cfg : Config R) (hN : cfg.N = N) (hsz : cfg.nev + cfg.nex = E.nevex)
    (hmax : Even cfg.maxDeg) (ritzv0 resid0 : ℕ → R) (s : Seq.St K N) (hH : (valM F s.H).IsHermitian)
    (out : Outcome R (Seq.St K N × List (Call R)))
    (h : solve P (traced (ops A E)) cfg ritzv0 resid0 (s, []) = .ok out)
    (hsym : cfg.symCheck = true → A.symCheck s.H = true) (hit : 0 < out.iterations)
    {C V : ℝ} (hC : ∀ c ∈ shiftsOf out.be.2, |valR c| ≤ C)
    (hV : ∀ i, i < cfg.nev + cfg.nex → |valR (out.ritzv i)| ≤ V) :
    let n := cfg.nev + cfg.nex
    let τ := tau n ε δ (gam F.u d3)
    let f := frob (valM F s.H)
    τ < 1 →
    ∃ σ : Equiv.Perm ℕ, PermOn 0 cfg.nev σ ∧ ∀ i, i < n →
      NearEigenpair (valM F s.H) (valR (out.ritzv i)) (valV F (out.be.1.C i)) (valR (out.resid (σ i))) ν
        (slack F.u d1 out.iterations f C (valR (out.ritzv i))) τ
        (quotB F.u d1 d2 d3 n out.iterations ε δ η f C V) :=
  C91_quadratic_partial hO hR hε hδ hη hacc hν hν1 P hP cfg hN hsz hmax ritzv0 resid0 s hH out h hsym hit
    (householder_avoids hd hq (fun s : Seq.St K N => s.C) _ _ _ _ _ _) hC hV

end

/-- The bound on the distance from the Rayleigh quotient consists of rounding errors: with exact kernels it is zero. -/
theorem quotB_zero (d1 d2 d3 n m : ℕ) (f C V : ℝ) : quotB 0 d1 d2 d3 n m 0 0 0 f C V = 0 := by
  simp [quotB, ritzB, projB, gam, highB]

namespace InPlace
open Verif.InPlace (Kind)

section
variable {K 𝕜 R : Type*} [RCLike 𝕜] {N : ℕ} {F : Fl K 𝕜} {valR : R → ℝ} {A : Arith K R N} {E : Params} {k : Kind}
  {d1 d2 d3 : ℕ} {ε δ η ν : ℝ}
variable [Add R] [Sub R] [Mul R] [Div R] [Neg R] [Zero R] [One R] [NatCast R] [LT R] [DecidableLT R]

/-- The same for the vectors in the current buffer, after any number of rounds. -/
theorem nearEigenpairs (hO : OrthoKernels F A E.nevex d3 δ) (hR : RitzKernels F valR A E.nevex d2 η)
    (hε : 0 ≤ ε) (hδ : 0 ≤ δ) (hη : 0 ≤ η) (hacc : Accurate F valR A d1 ν) (hν : 0 ≤ ν) (hν1 : ν < 1) (P : Plat R)
    (hP : PermutesIndices P) (cfg : Config R) (hN : cfg.N = N) (hsz : cfg.nev + cfg.nex = E.nevex)
    (hmax : Even cfg.maxDeg) (ritzv0 resid0 : ℕ → R) (s : St K R N) (hH : (valM F (s.userH k)).IsHermitian)
    (out : Outcome R (St K R N × List (Call R)))
    (h : solve P (traced (ops A E k)) cfg ritzv0 resid0 (s, []) = .ok out)
    (hsym : cfg.symCheck = true → A.symCheck (s.userH k) = true) (hit : 0 < out.iterations)
    (hq : QrAvoids P (ops A E k) cfg ritzv0 resid0 s (BadQr F A E ε))
    {C V : ℝ} (hC : ∀ c ∈ shiftsOf out.be.2, |valR c| ≤ C)
    (hV : ∀ i, i < cfg.nev + cfg.nex → |valR (out.ritzv i)| ≤ V)
    (hτ1 : tau (cfg.nev + cfg.nex) ε δ (gam F.u d3) < 1) :
    ∃ σ : Equiv.Perm ℕ, PermOn 0 cfg.nev σ ∧ ∀ i, i < cfg.nev + cfg.nex →
      NearEigenpair (valM F (s.userH k)) (valR (out.ritzv i)) (valV F (out.be.1.V1 i)) (valR (out.resid (σ i))) ν
        (slack F.u d1 out.iterations (frob (valM F (s.userH k))) C (valR (out.ritzv i)))
        (tau (cfg.nev + cfg.nex) ε δ (gam F.u d3))
        (quotB F.u d1 d2 d3 (cfg.nev + cfg.nex) out.iterations ε δ η (frob (valM F (s.userH k))) C V) := by
  obtain ⟨hn, hp⟩ := quotients hO hR hε hδ hη hacc P hP cfg hN hsz hmax ritzv0 resid0 s hH out h hsym hit hq hC hV
  obtain ⟨σ, hσ, hm⟩ := residual_buffer hacc hν P hP cfg hN hsz hmax ritzv0 resid0 s hH out h
    (hq.mono fun _ _ _ => Or.inr) hsym hit hC
  exact ⟨σ, hσ, fun i hi => nearEigenpair_of hH hν1 hτ1 (hn.1 i hi) (hp i hi) (hm i hi)⟩

/-- **C91 in floating-point arithmetic**, in-place CPU backend and single-process GPU backend (partial: as
`C91_quadratic_partial`, no call of `QR` is a Cholesky QR that fails after it has changed a locked column, and an even
number of rounds on the CPU), for the vectors the user reads from their array. -/
theorem C91_quadratic_inplace_partial (hO : OrthoKernels F A E.nevex d3 δ) (hR : RitzKernels F valR A E.nevex d2 η)
    (hε : 0 ≤ ε) (hδ : 0 ≤ δ) (hη : 0 ≤ η) (hacc : Accurate F valR A d1 ν) (hν : 0 ≤ ν) (hν1 : ν < 1) (P : Plat R)
    (hP : PermutesIndices P) (cfg : Config R) (hN : cfg.N = N) (hsz : cfg.nev + cfg.nex = E.nevex)
    (hmax : Even cfg.maxDeg) (ritzv0 resid0 : ℕ → R) (s : St K R N) (hfl : s.flipped = false)
    (hH : (valM F (s.userH k)).IsHermitian) (out : Outcome R (St K R N × List (Call R)))
    (h : solve P (traced (ops A E k)) cfg ritzv0 resid0 (s, []) = .ok out)
    (hsym : cfg.symCheck = true → A.symCheck (s.userH k) = true) (hit : 0 < out.iterations)
    (hk : k = .cuda ∨ out.iterations % 2 = 0)
    (hq : QrAvoids P (ops A E k) cfg ritzv0 resid0 s (BadQr F A E ε))
    {C V : ℝ} (hC : ∀ c ∈ shiftsOf out.be.2, |valR c| ≤ C)
    (hV : ∀ i, i < cfg.nev + cfg.nex → |valR (out.ritzv i)| ≤ V) :
    let n := cfg.nev + cfg.nex
    let τ := tau n ε δ (gam F.u d3)
    let f := frob (valM F (s.userH k))
    τ < 1 →
    ∃ σ : Equiv.Perm ℕ, PermOn 0 cfg.nev σ ∧ ∀ i, i < n →
      NearEigenpair (valM F (s.userH k)) (valR (out.ritzv i)) (valV F (out.be.1.userV k i)) (valR (out.resid (σ i))) ν
        (slack F.u d1 out.iterations f C (valR (out.ritzv i))) τ
        (quotB F.u d1 d2 d3 n out.iterations ε δ η f C V) := by
  intro n τ f hτ1
  obtain ⟨σ, hσ, hm⟩ := nearEigenpairs hO hR hε hδ hη hacc hν hν1 P hP cfg hN hsz hmax ritzv0 resid0 s hH out h hsym hit
    hq hC hV hτ1
  refine ⟨σ, hσ, fun i hi => ?_⟩
  rw [user_traced P hP cfg hsz hmax ritzv0 resid0 s hfl out h hsym hk i hi]
  exact hm i hi

/-- **C91 in floating-point arithmetic**, the values alone, in-place CPU backend and single-process GPU backend (partial:
every call of `QR` as in `C91_quadratic_inplace_partial`).  The number of rounds does not matter. -/
theorem C91_values_inplace_partial (hO : OrthoKernels F A E.nevex d3 δ) (hR : RitzKernels F valR A E.nevex d2 η)
    (hε : 0 ≤ ε) (hδ : 0 ≤ δ) (hη : 0 ≤ η) (hacc : Accurate F valR A d1 ν) (hν : 0 ≤ ν) (hν1 : ν < 1) (P : Plat R)
    (hP : PermutesIndices P) (cfg : Config R) (hN : cfg.N = N) (hsz : cfg.nev + cfg.nex = E.nevex)
    (hmax : Even cfg.maxDeg) (ritzv0 resid0 : ℕ → R) (s : St K R N)
    (hH : (valM F (s.userH k)).IsHermitian) (out : Outcome R (St K R N × List (Call R)))
    (h : solve P (traced (ops A E k)) cfg ritzv0 resid0 (s, []) = .ok out)
    (hsym : cfg.symCheck = true → A.symCheck (s.userH k) = true) (hit : 0 < out.iterations)
    (hq : QrAvoids P (ops A E k) cfg ritzv0 resid0 s (BadQr F A E ε))
    {C V : ℝ} (hC : ∀ c ∈ shiftsOf out.be.2, |valR c| ≤ C)
    (hV : ∀ i, i < cfg.nev + cfg.nex → |valR (out.ritzv i)| ≤ V) :
    let n := cfg.nev + cfg.nex
    let τ := tau n ε δ (gam F.u d3)
    let f := frob (valM F (s.userH k))
    τ < 1 →
    ∃ σ : Equiv.Perm ℕ, PermOn 0 cfg.nev σ ∧ ∀ i, i < n →
      let x := valR (out.ritzv i)
      NearEigenvalueUpTo (valM F (s.userH k)) x
        ((valR (out.resid (σ i)) + (1 + ν) * (slack F.u d1 out.iterations f C x * (1 + τ))) / (1 - ν)) ((1 - τ) ^ 2)
        (quotB F.u d1 d2 d3 n out.iterations ε δ η f C V + |x| * (τ * (2 + τ))) := by
  intro n τ f hτ1
  obtain ⟨hn, hp⟩ := quotients hO hR hε hδ hη hacc P hP cfg hN hsz hmax ritzv0 resid0 s hH out h hsym hit hq hC hV
  obtain ⟨σ, hσ, hm⟩ := residual_buffer hacc hν P hP cfg hN hsz hmax ritzv0 resid0 s hH out h
    (hq.mono fun _ _ _ => Or.inr) hsym hit hC
  refine ⟨σ, hσ, fun i hi => ?_⟩
  have hi' := hm i hi
  dsimp only at hi' ⊢
  refine nearEigenvalueUpTo_of hH hτ1 (hn.1 i hi) (hp i hi) le_rfl ?_
  have hs : 0 ≤ slack F.u d1 out.iterations f C (valR (out.ritzv i)) :=
    slack_nonneg F.u_nonneg (bound_nonneg hP h hsym hit hC) (frob_nonneg _)
  have h1 : Verif.nrm2 (valV F (out.be.1.V1 i)) ≤ 1 + τ := by linarith [(abs_le.mp (hn.1 i hi)).2]
  have h2 := mul_le_mul_of_nonneg_left h1 hs
  have h3 := mul_le_mul_of_nonneg_left h2 (show 0 ≤ 1 + ν by linarith)
  rw [le_div_iff₀ (by linarith)]
  linarith [(abs_le.mp hi').1]

end
end InPlace

namespace Par
open Verif.Spmd
open Mpi (Layout GSt RunsOk scatter)

section
variable {K R 𝕜 : Type} [RCLike 𝕜] [LinearOrder R] [Add R] [Sub R] [Mul R] [Div R] [Neg R] [Zero R] [One R] [NatCast R]
  {N : ℕ} {r c : Layout N} {T : Red1 K R r c} {E : DEnv K R} {F : Fl K 𝕜} {FR : Fl R ℝ} {d1 d2 d3 e1 e2 : ℕ} {ε δ η μ : ℝ}

/-- **C91 in floating-point arithmetic**, distributed CPU backend (partial: as `C91_quadratic_partial`, reductions that
give the same bits on every communicator, a sort that keeps ascending lists; value `i` belongs to column `σ i`). -/
theorem C91_quadratic_mpi_partial (hO : OrthoPar F r E E.nevex d3 δ) (hR : RitzPar F FR T E E.nevex d2 e2 η) (hε : 0 ≤ ε)
    (hδ : 0 ≤ δ) (hη : 0 ≤ η) (hacc : AccuratePar F FR T E d1 e1 μ) (hμ : 0 ≤ μ) (hν1 : nu FR.u μ e1 < 1)
    (hE : Ascends E) (P : Plat R) (hP : SortsIndices P) (hkeep : SortKeepsSorted P) (cfg : Config R) (hN : cfg.N = N)
    (hsz : cfg.nev + cfg.nex = E.nevex) (hmax : Even cfg.maxDeg) (ritzv0 resid0 : ℕ → R) (g : GSt K N)
    (hH : (valM F g.H).IsHermitian) (out : Outcome R (GSt K N × List (Call R)))
    (h : solve P (traced (gOps T E)) cfg ritzv0 resid0 (g, []) = .ok out)
    (hsym : cfg.symCheck = true → symCheckG T E g.H = true) (hit : 0 < out.iterations)
    (hq : QrAvoids P (gOps T E) cfg ritzv0 resid0 g fun k x t => Inaccurate F (distArith T E) E.toParams ε k x t.C)
    {C V : ℝ} (hC : ∀ x ∈ shiftsOf out.be.2, |FR.val x| ≤ C)
    (hV : ∀ i, i < cfg.nev + cfg.nex → |FR.val (out.ritzv i)| ≤ V) :
    let n := cfg.nev + cfg.nex
    let τ := tau n ε δ (gam F.u d3)
    let f := frob (valM F g.H)
    τ < 1 →
    ∃ σ : Equiv.Perm ℕ, PermOn 0 cfg.nev σ ∧ (out.iterations = 1 → σ = 1) ∧ ∀ i, i < n →
      NearEigenpair (valM F g.H) (FR.val (out.ritzv i)) (valV F (out.be.1.C (σ i))) (FR.val (out.resid (σ i)))
        (nu FR.u μ e1) (slack F.u (d1 + e1) out.iterations f C (FR.val (out.ritzv i))) τ
        (quotB F.u (d1 + e1) (d2 + e2) d3 n out.iterations ε δ η f C V) := by
  intro n τ f hτ1
  obtain ⟨σ, hσ, hσ1, hn, hp⟩ := quotients hO hR hε hδ hη hacc hμ hE P hP cfg hN hsz hmax ritzv0 resid0 g hH out h hsym hit
    hq hC hV
  obtain ⟨ys, hy1, hy2, -⟩ := matrix_at_end T E P hP.permutes cfg ritzv0 resid0 g out h hsym
  have hC0 : 0 ≤ C := by
    cases ys with
    | nil => simp at hy1; omega
    | cons y ys => exact (abs_nonneg _).trans (hC (-y) (by rw [hy2]; simp [pairsOf]))
  refine ⟨σ, hσ, hσ1, fun i hi => ?_⟩
  obtain ⟨hB, hm⟩ := hp i hi
  obtain ⟨xs, hlen, hxs, hmes⟩ := hm hkeep
  exact nearEigenpair_of hH hν1 hτ1 (hn.1 i hi) hB
    (residual_of_measured hacc hμ hH hlen hC0 (fun x hx => hC x (hxs x hx)) hmes)

end
end Par

/-! ### Runs that meet the hypotheses -/

/-- Non-vacuity of `C91_quadratic_partial` and `C91_householder`: double precision, a Householder QR and a dense
eigensolver with errors of at most `2^-40`. -/
example : ∃ (out : Outcome (Fp 53) (Seq.St (Fp 53) 2 × List (Call (Fp 53)))) (C V : ℝ) (σ : Equiv.Perm ℕ),
    solve (Two.plat 53) (traced (ops Two.arithR Two.params)) (Two.cfg 53) (Two.ritzv0 53) (fun _ => 0)
      (Two.start 53, []) = .ok out ∧ 0 < out.iterations ∧
    (∀ c ∈ shiftsOf out.be.2, |c.toReal| ≤ C) ∧ (∀ i, i < 2 → |(out.ritzv i).toReal| ≤ V) ∧
    ∀ i, i < 2 → NearEigenpair (valM (Fp.fl 53) (Two.start 53).H) (out.ritzv i).toReal (valV (Fp.fl 53) (out.be.1.C i))
      (out.resid (σ i)).toReal (1 / 2)
      (slack (Fp.fl 53).u 2 out.iterations (frob (valM (Fp.fl 53) (Two.start 53).H)) C (out.ritzv i).toReal)
      (tau 2 ((1 / 2) ^ 40) ((1 / 2) ^ 40) (gam (Fp.fl 53).u 3))
      (quotB (Fp.fl 53).u 2 2 3 2 out.iterations ((1 / 2) ^ 40) ((1 / 2) ^ 40) ((1 / 2) ^ 40)
        (frob (valM (Fp.fl 53) (Two.start 53).H)) C V) := by
  have hq : ∀ X, QrOf ((1 / 2) ^ 40) Two.params.nevex (fun j => valV (Fp.fl 53) (X j))
      fun j => valV (Fp.fl 53) (Two.arithR.hhQR X j) := fun X => hhqr_ok le_rfl X
  obtain ⟨out, h1, h2⟩ := C51_approx_solve_defined (Two.plat 53) (traced (ops Two.arithR Two.params)) (Two.cfg 53) rfl
    (by decide) (by decide) (by decide) (by decide) (by decide) (by decide) (by decide) (by intro h; cases h)
    (Two.ritzv0 53) (fun _ => 0) (Two.start 53, [])
  have hit := h2 (fun _ => rfl) (by decide)
  obtain ⟨C, V, D, hC, hV, hD⟩ := exists_bounds ((shiftsOf out.be.2).map Fp.toReal) (fun i => (out.ritzv i).toReal) 2
  have hC' : ∀ c ∈ shiftsOf out.be.2, |c.toReal| ≤ C := fun c hc => hC _ (List.mem_map_of_mem hc)
  obtain ⟨σ, -, hσ⟩ := C91_householder Two.orthoKernelsR Two.ritzKernelsR (by positivity) (by positivity)
    (by positivity) Two.accurateR (by norm_num) (by norm_num) rfl hq (Two.plat 53) (Two.plat_permutes 53) (Two.cfg 53) rfl
    rfl (by decide) _ _ _ (Two.start_hermitian 53) out h1 (fun _ => rfl) hit hC' hV tau_ritz
  exact ⟨out, C, V, σ, h1, hit, hC', hV, hσ⟩

/-- Non-vacuity of `C91_values_inplace_partial`, and of `C91_quadratic_inplace_partial` on the GPU: as above with a matrix
that is not diagonal. -/
example (k : InPlace.Kind) : ∃ (out : Outcome (Fp 53) (InPlace.St (Fp 53) (Fp 53) 2 × List (Call (Fp 53)))) (C V : ℝ),
    solve (Two.plat 53) (traced (InPlace.ops Two.arithR Two.params k)) (Two.cfg 53)
      (Two.ritzv0 53) (fun _ => 0) (InPlace.Two.start2, []) = .ok out ∧ 0 < out.iterations ∧
    (∀ c ∈ shiftsOf out.be.2, |c.toReal| ≤ C) ∧ (∀ i, i < 2 → |(out.ritzv i).toReal| ≤ V) ∧
    (let τ := tau 2 ((1 / 2) ^ 40) ((1 / 2) ^ 40) (gam (Fp.fl 53).u 3)
     let f := frob (valM (Fp.fl 53) (InPlace.Two.start2.userH k))
     let B := quotB (Fp.fl 53).u 2 2 3 2 out.iterations ((1 / 2) ^ 40) ((1 / 2) ^ 40) ((1 / 2) ^ 40) f C V
     (∃ σ : Equiv.Perm ℕ, ∀ i, i < 2 → NearEigenvalueUpTo (valM (Fp.fl 53) (InPlace.Two.start2.userH k))
       (out.ritzv i).toReal (((out.resid (σ i)).toReal + (1 + 1 / 2) *
         (slack (Fp.fl 53).u 2 out.iterations f C (out.ritzv i).toReal * (1 + τ))) / (1 - 1 / 2)) ((1 - τ) ^ 2)
       (B + |(out.ritzv i).toReal| * (τ * (2 + τ)))) ∧
     (k = .cuda → ∃ σ : Equiv.Perm ℕ, ∀ i, i < 2 → NearEigenpair (valM (Fp.fl 53) (InPlace.Two.start2.userH k))
       (out.ritzv i).toReal (valV (Fp.fl 53) (out.be.1.userV k i)) (out.resid (σ i)).toReal (1 / 2)
       (slack (Fp.fl 53).u 2 out.iterations f C (out.ritzv i).toReal) τ B)) := by
  have hq : ∀ X, QrOf ((1 / 2) ^ 40) Two.params.nevex (fun j => valV (Fp.fl 53) (X j))
      fun j => valV (Fp.fl 53) (Two.arithR.hhQR X j) := fun X => hhqr_ok le_rfl X
  obtain ⟨out, h1, hit⟩ := InPlace.Two.defined (traced (InPlace.ops Two.arithR Two.params k)) (InPlace.Two.start2, []) rfl
  obtain ⟨C, V, D, hC, hV, hD⟩ := exists_bounds ((shiftsOf out.be.2).map Fp.toReal) (fun i => (out.ritzv i).toReal) 2
  have hC' : ∀ c ∈ shiftsOf out.be.2, |c.toReal| ≤ C := fun c hc => hC _ (List.mem_map_of_mem hc)
  have ok := InPlace.householder_ok (k := k) rfl hq (Two.plat 53) (Two.cfg 53) (Two.ritzv0 53) (fun _ => 0)
    InPlace.Two.start2
  refine ⟨out, C, V, h1, hit, hC', hV, ?_, fun hk => ?_⟩
  · obtain ⟨σ, -, hσ⟩ := InPlace.C91_values_inplace_partial Two.orthoKernelsR Two.ritzKernelsR
      (by positivity) (by positivity) (by positivity) Two.accurateR (by norm_num) (by norm_num) (Two.plat 53)
      (Two.plat_permutes 53) (Two.cfg 53) rfl rfl (by decide) _ _ _ (InPlace.Two.hermitian2 k) out h1
      (fun _ => rfl) hit ok hC' hV tau_ritz
    exact ⟨σ, hσ⟩
  · obtain ⟨σ, -, hσ⟩ := InPlace.C91_quadratic_inplace_partial Two.orthoKernelsR Two.ritzKernelsR
      (by positivity) (by positivity) (by positivity) Two.accurateR (by norm_num) (by norm_num) (Two.plat 53)
      (Two.plat_permutes 53) (Two.cfg 53) rfl rfl (by decide) _ _ _ rfl (InPlace.Two.hermitian2 k) out h1
      (fun _ => rfl) hit (.inl hk) ok hC' hV tau_ritz
    exact ⟨σ, hσ⟩

namespace Par
namespace Four
open Verif.Spmd
open Mpi (Layout GSt RunsOk scatter)

/-- Non-vacuity of `C91_quadratic_mpi_partial`: double precision on a grid of two times three processes. -/
example : ∃ (out : Outcome (Fp 53) (GSt (Fp 53) 4 × List (Call (Fp 53)))) (C V : ℝ) (σ : Equiv.Perm ℕ),
    solve Stuck.plat (traced (gOps red envR)) cfg2 Stuck.val0 (fun _ => 0) (Stuck.glob, []) = .ok out ∧
    0 < out.iterations ∧ (∀ x ∈ shiftsOf out.be.2, |(Fp.fl 53).val x| ≤ C) ∧
    (∀ i, i < 2 → |(Fp.fl 53).val (out.ritzv i)| ≤ V) ∧
    ∀ i, i < 2 → NearEigenpair (valM (Fp.fl 53) Stuck.glob.H) ((Fp.fl 53).val (out.ritzv i))
      (valV (Fp.fl 53) (out.be.1.C (σ i))) ((Fp.fl 53).val (out.resid (σ i))) (nu (Fp.fl 53).u ((1 / 2) ^ 53) 3)
      (slack (Fp.fl 53).u (3 + 3) out.iterations (frob (valM (Fp.fl 53) Stuck.glob.H)) C ((Fp.fl 53).val (out.ritzv i)))
      (tau 2 ((1 / 2) ^ 40) ((1 / 2) ^ 40) (gam (Fp.fl 53).u 3))
      (quotB (Fp.fl 53).u (3 + 3) (3 + 3) 3 2 out.iterations ((1 / 2) ^ 40) ((1 / 2) ^ 40) ((1 / 2) ^ 40)
        (frob (valM (Fp.fl 53) Stuck.glob.H)) C V) := by
  obtain ⟨out, h1, h2⟩ := C51_approx_solve_defined Stuck.plat (traced (gOps red envR)) cfg2 rfl (by decide) (by decide)
    (by decide) (by decide) (by decide) (by decide) (by decide) (by intro h; cases h) Stuck.val0 (fun _ => 0) (Stuck.glob, [])
  have hit := h2 (by intro h; cases h) (by decide)
  obtain ⟨C, V, D, hC, hV, hD⟩ := exists_bounds ((shiftsOf out.be.2).map (Fp.fl 53).val) (fun i => (Fp.fl 53).val (out.ritzv i)) 2
  have hC' : ∀ c ∈ shiftsOf out.be.2, |(Fp.fl 53).val c| ≤ C := fun c hc => hC _ (List.mem_map_of_mem hc)
  have hν1 : nu (Fp.fl 53).u ((1 / 2) ^ 53) 3 < 1 := by
    show (1 + (1 / 2 : ℝ) ^ 53) * (1 + (1 / 2) ^ 53) ^ 4 - 1 < 1
    norm_num
  obtain ⟨σ, -, -, hσ⟩ := C91_quadratic_mpi_partial orthoParR ritzParR (by positivity) (by positivity) (by positivity)
    accurateParR (by positivity) hν1 ascendsR Stuck.plat plat_sorts plat_keeps cfg2 rfl rfl (by decide) _ _ _ hermitian
    out h1 (by intro h; cases h) hit
    (householder_avoids (E := envR.toParams) rfl qrR_ok (fun g : GSt (Fp 53) 4 => g.C) _ _ _ _ _ _) hC' hV tau_ritz
  exact ⟨out, C, V, σ, h1, hit, hC', hV, hσ⟩

end Four
end Par
end Rounded
end Verif
