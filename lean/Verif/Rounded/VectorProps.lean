/-
C91 in floating-point arithmetic: returned vectors are close to eigenvectors of the matrix handed in.
-/
import Verif.Rounded.DistinctProps
import Verif.Backend.VariationalProps

set_option linter.unusedSectionVars false

namespace Verif
namespace Rounded

open Matrix

/-- A computed residual `c` that differs from the exact one by `ν` relative to it and by `(1 + ν) a` bounds the distance
from the eigenvectors. -/
theorem nearEigenvector_of_computed {𝕜 : Type*} [RCLike 𝕜] {N : ℕ} {H : Matrix (Fin N) (Fin N) 𝕜} (hH : H.IsHermitian)
    {x : ℝ} {v : Fin N → 𝕜} {c ν a : ℝ} (hν1 : ν < 1)
    (h : |c - Verif.nrm2 (H.mulVec v - (x : 𝕜) • v)| ≤ ν * Verif.nrm2 (H.mulVec v - (x : 𝕜) • v) + (1 + ν) * a) :
    NearEigenvector H x v ((c + (1 + ν) * a) / (1 - ν)) := by
  refine nearEigenvector_of hH x v ?_
  show Verif.nrm2 (H.mulVec v - (x : 𝕜) • v) ≤ _
  rw [le_div_iff₀ (by linarith)]
  linarith [(abs_le.mp h).1]

section
variable {K 𝕜 R : Type*} [RCLike 𝕜] {N : ℕ}
variable [Add R] [Sub R] [Mul R] [Div R] [Neg R] [Zero R] [One R] [NatCast R] [LT R] [DecidableLT R]
  {F : Fl K 𝕜} {valR : R → ℝ} {A : Arith K R N} {E : Params} {d : ℕ} {ν : ℝ}

/-- **C91 in floating-point arithmetic**, single-process CPU backend (partial: the vectors only; the quadratic bound
for the values is in `C91_quadratic_partial`).  Assumptions and bounds as in `C73_residual_partial`. -/
theorem C91_rounded_partial (hA : Accurate F valR A d ν) (hν : 0 ≤ ν) (hν1 : ν < 1) (P : Plat R)
    (hP : PermutesIndices P) (cfg : Config R) (hN : cfg.N = N) (hsz : cfg.nev + cfg.nex = E.nevex)
    (hmax : Even cfg.maxDeg) (ritzv0 resid0 : ℕ → R) (s : Seq.St K N) (hH : (valM F s.H).IsHermitian)
    (out : Outcome R (Seq.St K N × List (Call R)))
    (h : solve P (traced (ops A E)) cfg ritzv0 resid0 (s, []) = .ok out)
    (hsym : cfg.symCheck = true → A.symCheck s.H = true) (hit : 0 < out.iterations)
    {C : ℝ} (hC : ∀ c ∈ shiftsOf out.be.2, |valR c| ≤ C) :
    ∃ σ : Equiv.Perm ℕ, PermOn 0 cfg.nev σ ∧ ∀ i, i < cfg.nev + cfg.nex →
      let x := valR (out.ritzv i)
      let v := valV F (out.be.1.C i)
      NearEigenvector (valM F s.H) x v ((valR (out.resid (σ i)) +
        (1 + ν) * (slack F.u d out.iterations (frob (valM F s.H)) C x * Verif.nrm2 v)) / (1 - ν)) := by
  obtain ⟨σ, hσ, hm⟩ := C73_residual_partial hA hν P hP cfg hN hsz hmax ritzv0 resid0 s hH out h hsym hit hC
  exact ⟨σ, hσ, fun i hi => nearEigenvector_of_computed hH hν1 (hm i hi)⟩

end

namespace Par
open Verif.Spmd
open Mpi (Layout GSt RunsOk scatter)

section
variable {K R 𝕜 : Type} [RCLike 𝕜] {N : ℕ} {r c : Layout N} {F : Fl K 𝕜} {FR : Fl R ℝ} {T : Red1 K R r c}
  {E : DEnv K R} {d e : ℕ} {μ : ℝ}
variable [Add R] [Sub R] [Mul R] [Div R] [Neg R] [Zero R] [One R] [NatCast R] [LinearOrder R]

/-- **C91 in floating-point arithmetic**, distributed CPU backend (partial: as `C91_rounded_partial`, reductions that
give the same bits on every communicator; value `i` belongs to column `σ i`). -/
theorem C91_rounded_mpi_partial (hA : AccuratePar F FR T E d e μ) (hμ : 0 ≤ μ) (hν1 : nu FR.u μ e < 1)
    (hE : Ascends E) (P : Plat R) (hP : SortsIndices P) (hkeep : SortKeepsSorted P)
    (cfg : Config R) (hN : cfg.N = N) (hsz : cfg.nev + cfg.nex = E.nevex) (hmax : Even cfg.maxDeg)
    (ritzv0 resid0 : ℕ → R) (g : GSt K N) (hH : (valM F g.H).IsHermitian)
    (out : Outcome R (GSt K N × List (Call R)))
    (h : solve P (traced (gOps T E)) cfg ritzv0 resid0 (g, []) = .ok out)
    (hsym : cfg.symCheck = true → symCheckG T E g.H = true) (hit : 0 < out.iterations)
    {C : ℝ} (hC : ∀ x ∈ shiftsOf out.be.2, |FR.val x| ≤ C) :
    ∃ σ : Equiv.Perm ℕ, PermOn 0 cfg.nev σ ∧ (out.iterations = 1 → σ = 1) ∧ ∀ i, i < cfg.nev + cfg.nex →
      let x := FR.val (out.ritzv i)
      let v := valV F (out.be.1.C (σ i))
      let ν := nu FR.u μ e
      NearEigenvector (valM F g.H) x v ((FR.val (out.resid (σ i)) +
        (1 + ν) * (slack F.u (d + e) out.iterations (frob (valM F g.H)) C x * Verif.nrm2 v)) / (1 - ν)) := by
  obtain ⟨σ, hσ, hσ1, hm⟩ := C73_residual_mpi_partial hA hμ hE P hP hkeep cfg hN hsz hmax ritzv0 resid0 g hH out h hsym
    hit hC
  exact ⟨σ, hσ, hσ1, fun i hi => nearEigenvector_of_computed hH hν1 (hm i hi)⟩

end
end Par

/-! ### Runs that meet the hypotheses -/

/-- Non-vacuity of `C91_rounded_partial`: double precision, matrix `diag(2^-60, 4)`. -/
example : ∃ (out : Outcome (Fp 53) (Seq.St (Fp 53) 2 × List (Call (Fp 53)))) (C : ℝ) (σ : Equiv.Perm ℕ),
    solve (Two.plat 53) (traced (ops Two.arithQ Two.params)) (Two.cfg 53) (Two.ritzv0 53) (fun _ => 0)
      (Two.start 53, []) = .ok out ∧ 0 < out.iterations ∧ (∀ c ∈ shiftsOf out.be.2, |c.toReal| ≤ C) ∧
    ∀ i, i < 2 → NearEigenvector (valM (Fp.fl 53) (Two.start 53).H) (out.ritzv i).toReal
      (valV (Fp.fl 53) (out.be.1.C i)) (((out.resid (σ i)).toReal + (1 + 1 / 2) *
        (slack (Fp.fl 53).u 2 out.iterations (frob (valM (Fp.fl 53) (Two.start 53).H)) C (out.ritzv i).toReal *
          Verif.nrm2 (valV (Fp.fl 53) (out.be.1.C i)))) / (1 - 1 / 2)) := by
  obtain ⟨out, h1, h2⟩ := C51_approx_solve_defined (Two.plat 53) (traced (ops Two.arithQ Two.params)) (Two.cfg 53) rfl
    (by decide) (by decide) (by decide) (by decide) (by decide) (by decide) (by decide) (by intro h; cases h)
    (Two.ritzv0 53) (fun _ => 0) (Two.start 53, [])
  have hit := h2 (fun _ => rfl) (by decide)
  obtain ⟨C, -, -, hC, -⟩ := exists_bounds ((shiftsOf out.be.2).map Fp.toReal) (fun i => (out.ritzv i).toReal) 2
  have hC' : ∀ c ∈ shiftsOf out.be.2, |c.toReal| ≤ C := fun c hc => hC _ (List.mem_map_of_mem hc)
  obtain ⟨σ, -, hσ⟩ := C91_rounded_partial Two.accurateQ (by norm_num) (by norm_num) (Two.plat 53)
    (Two.plat_permutes 53) (Two.cfg 53) rfl rfl (by decide) _ _ _ (Two.start_hermitian 53) out h1 (fun _ => rfl) hit hC'
  exact ⟨out, C, σ, h1, hit, hC', hσ⟩

namespace Par
namespace Four
open Verif.Spmd
open Mpi (Layout GSt RunsOk scatter)

/-- Non-vacuity of `C91_rounded_mpi_partial`: double precision on a grid of two times three processes. -/
example : ∃ (out : Outcome (Fp 53) (GSt (Fp 53) 4 × List (Call (Fp 53)))) (C : ℝ) (σ : Equiv.Perm ℕ),
    solve Stuck.plat (traced (gOps red envQ)) cfg2 Stuck.val0 (fun _ => 0) (Stuck.glob, []) = .ok out ∧
    0 < out.iterations ∧ (∀ x ∈ shiftsOf out.be.2, |(Fp.fl 53).val x| ≤ C) ∧
    ∀ i, i < 2 →
      let ν := nu (Fp.fl 53).u ((1 / 2) ^ 53) 3
      NearEigenvector (valM (Fp.fl 53) Stuck.glob.H) ((Fp.fl 53).val (out.ritzv i))
        (valV (Fp.fl 53) (out.be.1.C (σ i))) (((Fp.fl 53).val (out.resid (σ i)) + (1 + ν) *
          (slack (Fp.fl 53).u (3 + 3) out.iterations (frob (valM (Fp.fl 53) Stuck.glob.H)) C
            ((Fp.fl 53).val (out.ritzv i)) * Verif.nrm2 (valV (Fp.fl 53) (out.be.1.C (σ i))))) / (1 - ν)) := by
  obtain ⟨out, h1, h2⟩ := C51_approx_solve_defined Stuck.plat (traced (gOps red envQ)) cfg2 rfl (by decide) (by decide)
    (by decide) (by decide) (by decide) (by decide) (by decide) (by intro h; cases h) Stuck.val0 (fun _ => 0) (Stuck.glob, [])
  have hit := h2 (by intro h; cases h) (by decide)
  obtain ⟨C, -, -, hC, -⟩ := exists_bounds ((shiftsOf out.be.2).map (Fp.fl 53).val) (fun i => (Fp.fl 53).val (out.ritzv i)) 2
  have hC' : ∀ c ∈ shiftsOf out.be.2, |(Fp.fl 53).val c| ≤ C := fun c hc => hC _ (List.mem_map_of_mem hc)
  have hν1 : nu (Fp.fl 53).u ((1 / 2) ^ 53) 3 < 1 := by
    show (1 + (1 / 2 : ℝ) ^ 53) * (1 + (1 / 2) ^ 53) ^ 4 - 1 < 1
    norm_num
  obtain ⟨σ, -, -, hσ⟩ := C91_rounded_mpi_partial accurateParQ (by positivity) hν1
    (fun b M i j h => ascends b M i j h) Stuck.plat plat_sorts plat_keeps cfg2 rfl rfl (by decide) _ _ _ hermitian out h1
    (by intro h; cases h) hit hC'
  exact ⟨out, C, σ, h1, hit, hC', hσ⟩

end Four
end Par
end Rounded
end Verif
