/-
C90 in floating-point arithmetic, without the residuals: the distributed CPU backend.
-/
import Verif.Rounded.RitzPar
import Verif.Rounded.RitzProps

set_option linter.unusedSectionVars false

namespace Verif
namespace Rounded
namespace Par

open Matrix Finset
open Verif.Spmd
open Mpi (Layout GSt RunsOk scatter)
open Mpi.Spmd (Pos Own EndsWith)

section
variable {K R 𝕜 : Type} [RCLike 𝕜] [LinearOrder R] [Add R] [Sub R] [Mul R] [Div R] [Neg R] [Zero R] [One R] [NatCast R]
  {N : ℕ} {r c : Layout N} {T : Red1 K R r c} {E : DEnv K R} {F : Fl K 𝕜} {FR : Fl R ℝ} {d1 d2 d3 e1 e2 : ℕ} {ε δ η μ : ℝ}

/-- **The values are Rayleigh quotients**, up to rounding errors, in every run in which the calls of `QR` are accurate:
value `i` belongs to column `σ i`, and with a sort that keeps ascending lists to residual `σ i`. -/
theorem quotients (hO : OrthoPar F r E E.nevex d3 δ) (hR : RitzPar F FR T E E.nevex d2 e2 η) (hε : 0 ≤ ε)
    (hδ : 0 ≤ δ) (hη : 0 ≤ η) (hacc : AccuratePar F FR T E d1 e1 μ) (hμ : 0 ≤ μ) (hE : Ascends E) (P : Plat R)
    (hP : SortsIndices P) (cfg : Config R) (hN : cfg.N = N) (hsz : cfg.nev + cfg.nex = E.nevex)
    (hmax : Even cfg.maxDeg) (ritzv0 resid0 : ℕ → R) (g : GSt K N)
    (hH : (valM F g.H).IsHermitian) (out : Outcome R (GSt K N × List (Call R)))
    (h : solve P (traced (gOps T E)) cfg ritzv0 resid0 (g, []) = .ok out)
    (hsym : cfg.symCheck = true → symCheckG T E g.H = true) (hit : 0 < out.iterations)
    (hq : QrAvoids P (gOps T E) cfg ritzv0 resid0 g fun k x t => Inaccurate F (distArith T E) E.toParams ε k x t.C)
    {C V : ℝ} (hC : ∀ x ∈ shiftsOf out.be.2, |FR.val x| ≤ C)
    (hV : ∀ i, i < cfg.nev + cfg.nex → |FR.val (out.ritzv i)| ≤ V) :
    ∃ σ : Equiv.Perm ℕ, PermOn 0 cfg.nev σ ∧ (out.iterations = 1 → σ = 1) ∧
      NearOrtho (tau (cfg.nev + cfg.nex) ε δ (gam F.u d3)) (cfg.nev + cfg.nex) (fun j => valV F (out.be.1.C (σ j))) ∧
      ∀ i, i < cfg.nev + cfg.nex →
        ‖dotc (valV F (out.be.1.C (σ i))) ((valM F g.H).mulVec (valV F (out.be.1.C (σ i)))) -
          (FR.val (out.ritzv i) : 𝕜)‖ ≤
          quotB F.u (d1 + e1) (d2 + e2) d3 (cfg.nev + cfg.nex) out.iterations ε δ η (frob (valM F g.H)) C V ∧
        (SortKeepsSorted P → ∃ xs : List R, xs.length ≤ out.iterations ∧ (∀ x ∈ pairsOf xs, x ∈ shiftsOf out.be.2) ∧
          Measured T E (afterShifts (distArith T E) g.H (pairsOf xs)) (out.ritzv i) (out.be.1.C (σ i))
            (out.resid (σ i))) := by
  set n := cfg.nev + cfg.nex with hn0
  have hn : NearOrtho (tau n ε δ (gam F.u d3)) n fun j => valV F (out.be.1.C j) := by
    have h1 := solve_sim (traced_sim (gOps T E)) P cfg ritzv0 resid0 (be := (g, [])) (be' := g) rfl
    rw [h] at h1
    cases hw : solve P (gOps T E) cfg ritzv0 resid0 g with
    | error e => rw [hw] at h1; cases h1
    | ok o =>
      rw [hw] at h1
      cases h1 with
      | ok h1 =>
        have e : out.be.1 = o.be := h1.be
        rw [e]
        exact C84_orthonormal_mpi_partial hO hε hδ hE P hP cfg hN hsz hmax ritzv0 resid0 g o hw hsym
          (by rw [← h1.iterations]; exact hit) hq
  have hacc' := accurate hacc hμ
  have hC0 : 0 ≤ C := by
    obtain ⟨ys, hy1, hy2, -⟩ := matrix_at_end T E P hP.permutes cfg ritzv0 resid0 g out h hsym
    cases ys with
    | nil => simp at hy1; omega
    | cons y ys => exact (abs_nonneg _).trans (hC (-y) (by rw [hy2]; simp [pairsOf]))
  have hu := F.u_nonneg
  set f := frob (valM F g.H) with hf
  have hf0 : 0 ≤ f := frob_nonneg _
  have hD0 : 0 ≤ gam F.u (2 * out.iterations) * (f + C) := mul_nonneg (gam_nonneg hu _) (by linarith)
  obtain ⟨σ, hσ, hσ1, hp⟩ := pairs_at_end hO hε hδ hE P hP cfg hN hsz hmax ritzv0 resid0 g out h hsym hit hq
  have hlt : ∀ i, i < n → σ i < n := by
    intro i hi
    by_cases hlt : i < cfg.nev
    · have := (hσ.mem (Nat.zero_le _) hlt).2
      exact lt_of_lt_of_le this (Nat.le_add_right _ _)
    · rw [hσ i (by omega)]; exact hi
  refine ⟨σ, hσ, hσ1, hn.comp σ.injective hlt, fun i hi => ⟨?_, fun hkeep => (hp i hi).2 hkeep⟩⟩
  obtain ⟨xs, h1, h2, hp⟩ := (hp i hi).1
  obtain ⟨a, b⟩ := drift hacc' g.H xs fun c hc => hC c (h2 c hc)
  refine ritz_error hacc' (hsz ▸ hR.kernels : RitzKernels F FR.val (distArith T E) n (d2 + e2) η)
    (hsz ▸ hO.kernels : OrthoKernels F (distArith T E) n d3 δ) hε hδ hη hH hD0
    (fun i j hij => congrArg F.val (a i j hij)) (fun k => (b k).trans ?_) hp (hV i hi)
  have e1 : gam F.u (2 * xs.length) ≤ gam F.u (2 * out.iterations) := gam_mono hu (by omega)
  have e2 : ‖F.val (g.H k k)‖ ≤ f := norm_le_frob (valM F g.H) k k
  exact mul_le_mul e1 (by linarith) (by positivity) (gam_nonneg hu _)

/-- **C90 in floating-point arithmetic, without the residuals**, distributed CPU backend (partial: every call of `QR` in
the run is assumed to be accurate), reductions that give the same bits on every communicator: as `C90_ritz_partial`. -/
theorem C90_ritz_mpi_partial (hO : OrthoPar F r E E.nevex d3 δ) (hR : RitzPar F FR T E E.nevex d2 e2 η) (hε : 0 ≤ ε)
    (hδ : 0 ≤ δ) (hη : 0 ≤ η) (hacc : AccuratePar F FR T E d1 e1 μ) (hμ : 0 ≤ μ) (hE : Ascends E) (P : Plat R)
    (hP : SortsIndices P) (cfg : Config R) (hN : cfg.N = N) (hsz : cfg.nev + cfg.nex = E.nevex)
    (hle : cfg.nev + cfg.nex ≤ N) (hmax : Even cfg.maxDeg) (ritzv0 resid0 : ℕ → R) (g : GSt K N)
    (hH : (valM F g.H).IsHermitian) (out : Outcome R (GSt K N × List (Call R)))
    (h : solve P (traced (gOps T E)) cfg ritzv0 resid0 (g, []) = .ok out)
    (hsym : cfg.symCheck = true → symCheckG T E g.H = true) (hit : 0 < out.iterations)
    (hq : QrAvoids P (gOps T E) cfg ritzv0 resid0 g fun k x t => Inaccurate F (distArith T E) E.toParams ε k x t.C)
    {C V : ℝ} (hC : ∀ x ∈ shiftsOf out.be.2, |FR.val x| ≤ C)
    (hV : ∀ i, i < cfg.nev + cfg.nex → |FR.val (out.ritzv i)| ≤ V) :
    let n := cfg.nev + cfg.nex
    let τ := tau n ε δ (gam F.u d3)
    τ ≤ 1 →
    VariationalUpTo (valM F g.H) n (fun i => FR.val (out.ritzv i))
      (sumB F.u (d1 + e1) (d2 + e2) d3 n out.iterations ε δ η (frob (valM F g.H)) C V τ) := by
  intro n τ hτ1
  obtain ⟨σ, -, -, hn, hp⟩ := quotients hO hR hε hδ hη hacc hμ hE P hP cfg hN hsz hmax ritzv0 resid0 g hH out h hsym hit hq
    hC hV
  exact fun w hw hm S hS => variational_near hH hle hn (tau_nonneg hε hδ F.u_nonneg) hτ1 (fun i hi => (hp i hi).1) hw hm hS

/-- **C90 in floating-point arithmetic** with Householder QR, distributed CPU backend. -/
theorem C90_householder_mpi (hO : OrthoPar F r E E.nevex d3 δ) (hR : RitzPar F FR T E E.nevex d2 e2 η) (hε : 0 ≤ ε)
    (hδ : 0 ≤ δ) (hη : 0 ≤ η) (hacc : AccuratePar F FR T E d1 e1 μ) (hμ : 0 ≤ μ) (hE : Ascends E)
    (hd : cholDisable E.doCholQR E.envDisable = 1)
    (hq : ∀ X, QrOf ε E.nevex (fun j => valV F (X j)) fun j => valV F ((distArith T E).hhQR X j)) (P : Plat R)
    (hP : SortsIndices P) (cfg : Config R) (hN : cfg.N = N) (hsz : cfg.nev + cfg.nex = E.nevex)
    (hle : cfg.nev + cfg.nex ≤ N) (hmax : Even cfg.maxDeg) (ritzv0 resid0 : ℕ → R) (g : GSt K N)
    (hH : (valM F g.H).IsHermitian) (out : Outcome R (GSt K N × List (Call R)))
    (h : solve P (traced (gOps T E)) cfg ritzv0 resid0 (g, []) = .ok out)
    (hsym : cfg.symCheck = true → symCheckG T E g.H = true) (hit : 0 < out.iterations)
    {C V : ℝ} (hC : ∀ x ∈ shiftsOf out.be.2, |FR.val x| ≤ C)
    (hV : ∀ i, i < cfg.nev + cfg.nex → |FR.val (out.ritzv i)| ≤ V) :
    let n := cfg.nev + cfg.nex
    let τ := tau n ε δ (gam F.u d3)
    τ ≤ 1 →
    VariationalUpTo (valM F g.H) n (fun i => FR.val (out.ritzv i))
      (sumB F.u (d1 + e1) (d2 + e2) d3 n out.iterations ε δ η (frob (valM F g.H)) C V τ) :=
  C90_ritz_mpi_partial hO hR hε hδ hη hacc hμ hE P hP cfg hN hsz hle hmax ritzv0 resid0 g hH out h hsym hit
    (householder_avoids (E := E.toParams) hd hq (fun g : GSt K N => g.C) _ _ _ _ _ _) hC hV

end

/-! ### A run that meets the hypotheses -/

namespace Four
open Stuck (rowL colL sum)

noncomputable def envR : DEnv (Fp 53) (Fp 53) :=
  { envQ with kern := { envQ.kern with
                        proj := fun X Y i j => sum fun k => X k i * Y k j
                        heevd := heevd } }

theorem orthoParR : OrthoPar (Fp.fl 53) rowL envR envR.nevex 3 ((1 / 2) ^ 40) where
  back := orthoPar.back
  heevd := fun _ M => (heevd_ok M).2.1

theorem ritzParR : RitzPar (Fp.fl 53) (Fp.fl 53) red envR envR.nevex 3 3 ((1 / 2) ^ 40) where
  proj := by
    intro q b _ X Y i j
    obtain ⟨d', h1, h2⟩ := sum_dot (fun k => X k i) fun k => Y k j
    have := size_col q
    exact ⟨d', by omega, h2⟩
  rowK := by
    intro ι x t
    exact ⟨3, le_rfl, sum_sum fun q => x q t⟩
  heevd := fun _ M => (heevd_ok M).1

theorem accurateParR : AccuratePar (Fp.fl 53) (Fp.fl 53) red envR 3 3 ((1 / 2) ^ 53) where
  ofBase := accuratePar.ofBase
  neg := accuratePar.neg
  add := accuratePar.add
  gemmAdj := accuratePar.gemmAdj
  axpy := accuratePar.axpy
  colK := accuratePar.colK
  rowR := accuratePar.rowR
  normp2 := accuratePar.normp2
  sqrt := accuratePar.sqrt
  small := accuratePar.small

theorem ascendsR : Ascends envR := fun _ M i j hij => (heevd_ok M).2.2 i j hij

theorem qrR_ok (X : ℕ → Fin 4 → Fp 53) : QrOf ((1 / 2) ^ 40) envR.nevex (fun j => valV (Fp.fl 53) (X j))
    fun j => valV (Fp.fl 53) ((distArith red envR).hhQR X j) := hhqr_ok (show 2 ≤ 4 by omega) X

/-- Non-vacuity of `C90_ritz_mpi_partial` and `C90_householder_mpi`: double precision on a grid of two times three
processes, a Householder QR and a dense eigensolver with errors of at most `2^-40`. -/
example : ∃ (out : Outcome (Fp 53) (GSt (Fp 53) 4 × List (Call (Fp 53)))) (C V : ℝ),
    solve Stuck.plat (traced (gOps red envR)) cfg2 Stuck.val0 (fun _ => 0) (Stuck.glob, []) = .ok out ∧
    0 < out.iterations ∧ (∀ x ∈ shiftsOf out.be.2, |(Fp.fl 53).val x| ≤ C) ∧
    (∀ i, i < 2 → |(Fp.fl 53).val (out.ritzv i)| ≤ V) ∧
    VariationalUpTo (valM (Fp.fl 53) Stuck.glob.H) 2 (fun i => (Fp.fl 53).val (out.ritzv i))
      (sumB (Fp.fl 53).u (3 + 3) (3 + 3) 3 2 out.iterations ((1 / 2) ^ 40) ((1 / 2) ^ 40) ((1 / 2) ^ 40)
        (frob (valM (Fp.fl 53) Stuck.glob.H)) C V (tau 2 ((1 / 2) ^ 40) ((1 / 2) ^ 40) (gam (Fp.fl 53).u 3))) := by
  obtain ⟨out, h1, h2⟩ := C51_approx_solve_defined Stuck.plat (traced (gOps red envR)) cfg2 rfl (by decide) (by decide)
    (by decide) (by decide) (by decide) (by decide) (by decide) (by intro h; cases h) Stuck.val0 (fun _ => 0) (Stuck.glob, [])
  have hit := h2 (by intro h; cases h) (by decide)
  obtain ⟨C, V, D, hC, hV, hD⟩ := exists_bounds ((shiftsOf out.be.2).map (Fp.fl 53).val) (fun i => (Fp.fl 53).val (out.ritzv i)) 2
  have hC' : ∀ c ∈ shiftsOf out.be.2, |(Fp.fl 53).val c| ≤ C := fun c hc => hC _ (List.mem_map_of_mem hc)
  exact ⟨out, C, V, h1, hit, hC', hV, C90_householder_mpi orthoParR ritzParR (by positivity) (by positivity) (by positivity)
    accurateParR (by positivity) ascendsR rfl qrR_ok Stuck.plat plat_sorts cfg2 rfl rfl (by decide) (by decide) _ _ _ hermitian
    out h1 (by intro h; cases h) hit hC' hV tau_ritz.le⟩

end Four
end Par
end Rounded
end Verif
