/-
C90 and C91 in floating-point arithmetic, the bounds for the values without the residuals and with their squares:
the multi-GPU backend.
-/
import Verif.Rounded.ParGpuRitz
import Verif.Rounded.ParGpuOrthoProps
import Verif.Rounded.RitzParProps
import Verif.Rounded.QuadraticProps

set_option linter.unusedSectionVars false

namespace Verif
namespace Rounded
namespace ParGpu

open Matrix Finset
open Mpi (Layout GSt)
open Mpi.Spmd (Pos)
open Par (Red1 AccuratePar Ascends symCheckG nu distArith OrthoPar RitzPar)

section
variable {K R 𝕜 : Type} [RCLike 𝕜] [LinearOrder R] [Add R] [Sub R] [Mul R] [Div R] [Neg R] [Zero R] [One R] [NatCast R]
  {N : ℕ} {r c : Layout N} {T : Red1 K R r c} {E : GEnv K R} {F : Fl K 𝕜} {FR : Fl R ℝ} {d1 d2 d3 e1 e2 : ℕ} {ε δ η μ : ℝ}

/-- **The values are Rayleigh quotients**, up to rounding errors, in every run in which the calls of `QR` are accurate:
value `i` belongs to column `σ i`, and with a sort that keeps ascending lists to residual `σ i`. -/
theorem quotients (hcop : Copies E) (hf : Fresh E) (hY : IgnoresTarget E)
    (hO : OrthoPar F r E.toDEnv E.nevex d3 δ) (hR : RitzPar F FR T E.toDEnv E.nevex d2 e2 η) (hε : 0 ≤ ε)
    (hδ : 0 ≤ δ) (hη : 0 ≤ η) (hacc : AccuratePar F FR T E.toDEnv d1 e1 μ) (hμ : 0 ≤ μ) (hE : Ascends E.toDEnv) (P : Plat R)
    (hP : SortsIndices P) (cfg : Config R) (hN : cfg.N = N) (hsz : cfg.nev + cfg.nex = E.nevex)
    (hmax : Even cfg.maxDeg) (ritzv0 resid0 : ℕ → R) (s : GG K R r c)
    (hH : (valM F s.g.H).IsHermitian) (out : Outcome R (GG K R r c × List (Call R)))
    (h : solve P (traced (ggOps T E)) cfg ritzv0 resid0 (s, []) = .ok out)
    (hsym : cfg.symCheck = true → symCheckG T E.toDEnv s.g.H = true) (hit : 0 < out.iterations)
    (hq : QrAvoids P (ggOps T E) cfg ritzv0 resid0 s fun k x t => InaccurateDev T E F ε k x t.g.C)
    {C V : ℝ} (hC : ∀ x ∈ shiftsOf out.be.2, |FR.val x| ≤ C)
    (hV : ∀ i, i < cfg.nev + cfg.nex → |FR.val (out.ritzv i)| ≤ V) :
    ∃ σ : Equiv.Perm ℕ, PermOn 0 cfg.nev σ ∧ (out.iterations = 1 → σ = 1) ∧
      NearOrtho (tau (cfg.nev + cfg.nex) ε δ (gam F.u d3)) (cfg.nev + cfg.nex) (fun j => valV F (out.be.1.g.C (σ j))) ∧
      ∀ i, i < cfg.nev + cfg.nex →
        ‖dotc (valV F (out.be.1.g.C (σ i))) ((valM F s.g.H).mulVec (valV F (out.be.1.g.C (σ i)))) -
          (FR.val (out.ritzv i) : 𝕜)‖ ≤
          quotB F.u (d1 + e1) (d2 + e2) d3 (cfg.nev + cfg.nex) out.iterations ε δ η (frob (valM F s.g.H)) C V ∧
        (SameResidual E → SortKeepsSorted P → ∃ xs : List R, xs.length ≤ out.iterations ∧ (∀ x ∈ pairsOf xs, x ∈ shiftsOf out.be.2) ∧
          Par.Measured T E.toDEnv (afterShifts (distArith T E.toDEnv) s.g.H (pairsOf xs)) (out.ritzv i) (out.be.1.g.C (σ i))
            (out.resid (σ i))) := by
  set n := cfg.nev + cfg.nex with hn0
  have hn : NearOrtho (tau n ε δ (gam F.u d3)) n fun j => valV F (out.be.1.g.C j) := by
    have h1 := solve_sim (traced_sim (ggOps T E)) P cfg ritzv0 resid0 (be := (s, [])) (be' := s) rfl
    rw [h] at h1
    cases hw : solve P (ggOps T E) cfg ritzv0 resid0 s with
    | error e => rw [hw] at h1; cases h1
    | ok o =>
      rw [hw] at h1
      cases h1 with
      | ok h1 =>
        have e : out.be.1 = o.be := h1.be
        rw [e]
        exact C84_orthonormal_mgpu_partial hcop hO hε hδ hE P hP cfg hN hsz hmax ritzv0 resid0 s o hw hsym
          (by rw [← h1.iterations]; exact hit) hq
  have hacc' := Par.accurate hacc hμ
  have hC0 : 0 ≤ C := by
    obtain ⟨ys, hy1, hy2⟩ := shiftsAt_path (C57_call_protocol hP.permutes ritzv0 resid0 s out h hsym)
    cases ys with
    | nil => simp at hy1; omega
    | cons y ys => exact (abs_nonneg _).trans (hC (-y) (by rw [hy2]; simp [pairsOf]))
  have hu := F.u_nonneg
  set f := frob (valM F s.g.H) with hfr
  have hf0 : 0 ≤ f := frob_nonneg _
  have hD0 : 0 ≤ gam F.u (2 * out.iterations) * (f + C) := mul_nonneg (gam_nonneg hu _) (by linarith)
  obtain ⟨σ, hσ, hσ1, hp⟩ := pairs_at_end hcop hf hY hO hε hδ hE P hP cfg hN hsz hmax ritzv0 resid0 s out h hsym hit hq
  have hlt : ∀ i, i < n → σ i < n := by
    intro i hi
    by_cases hlt : i < cfg.nev
    · have := (hσ.mem (Nat.zero_le _) hlt).2
      exact lt_of_lt_of_le this (Nat.le_add_right _ _)
    · rw [hσ i (by omega)]; exact hi
  refine ⟨σ, hσ, hσ1, hn.comp σ.injective hlt, fun i hi => ⟨?_, fun hres hkeep => (hp i hi).2 hres hkeep⟩⟩
  obtain ⟨xs, h1, h2, hp⟩ := (hp i hi).1
  obtain ⟨a, b⟩ := drift hacc' s.g.H xs fun c hc => hC c (h2 c hc)
  refine ritz_error hacc' (hsz ▸ hR.kernels : RitzKernels F FR.val (distArith T E.toDEnv) n (d2 + e2) η)
    (hsz ▸ hO.kernels : OrthoKernels F (distArith T E.toDEnv) n d3 δ) hε hδ hη hH hD0
    (fun i j hij => congrArg F.val (a i j hij)) (fun k => (b k).trans ?_) hp (hV i hi)
  have e1 : gam F.u (2 * xs.length) ≤ gam F.u (2 * out.iterations) := gam_mono hu (by omega)
  have e2 : ‖F.val (s.g.H k k)‖ ≤ f := norm_le_frob (valM F s.g.H) k k
  exact mul_le_mul e1 (by linarith) (by positivity) (gam_nonneg hu _)

/-- **C90 in floating-point arithmetic, without the residuals**, multi-GPU backend (partial: every call of `QR` in
the run is assumed to be accurate), reductions that give the same bits on every communicator: as `C90_ritz_partial`.
`Copies`, `Fresh`: a setup in which the second buffer and the device hold the result of every orthogonalisation. -/
theorem C90_ritz_mgpu_partial (hcop : Copies E) (hf : Fresh E) (hY : IgnoresTarget E)
    (hO : OrthoPar F r E.toDEnv E.nevex d3 δ) (hR : RitzPar F FR T E.toDEnv E.nevex d2 e2 η) (hε : 0 ≤ ε)
    (hδ : 0 ≤ δ) (hη : 0 ≤ η) (hacc : AccuratePar F FR T E.toDEnv d1 e1 μ) (hμ : 0 ≤ μ) (hE : Ascends E.toDEnv) (P : Plat R)
    (hP : SortsIndices P) (cfg : Config R) (hN : cfg.N = N) (hsz : cfg.nev + cfg.nex = E.nevex)
    (hle : cfg.nev + cfg.nex ≤ N) (hmax : Even cfg.maxDeg) (ritzv0 resid0 : ℕ → R) (s : GG K R r c)
    (hH : (valM F s.g.H).IsHermitian) (out : Outcome R (GG K R r c × List (Call R)))
    (h : solve P (traced (ggOps T E)) cfg ritzv0 resid0 (s, []) = .ok out)
    (hsym : cfg.symCheck = true → symCheckG T E.toDEnv s.g.H = true) (hit : 0 < out.iterations)
    (hq : QrAvoids P (ggOps T E) cfg ritzv0 resid0 s fun k x t => InaccurateDev T E F ε k x t.g.C)
    {C V : ℝ} (hC : ∀ x ∈ shiftsOf out.be.2, |FR.val x| ≤ C)
    (hV : ∀ i, i < cfg.nev + cfg.nex → |FR.val (out.ritzv i)| ≤ V) :
    let n := cfg.nev + cfg.nex
    let τ := tau n ε δ (gam F.u d3)
    τ ≤ 1 →
    VariationalUpTo (valM F s.g.H) n (fun i => FR.val (out.ritzv i))
      (sumB F.u (d1 + e1) (d2 + e2) d3 n out.iterations ε δ η (frob (valM F s.g.H)) C V τ) := by
  intro n τ hτ1
  obtain ⟨σ, -, -, hn, hp⟩ := quotients hcop hf hY hO hR hε hδ hη hacc hμ hE P hP cfg hN hsz hmax ritzv0 resid0 s hH out h hsym hit hq
    hC hV
  exact fun w hw hm S hS => variational_near hH hle hn (tau_nonneg hε hδ F.u_nonneg) hτ1 (fun i hi => (hp i hi).1) hw hm hS

theorem fresh_of (hs : E.aware = true ↔ E.scalapack = true) : Fresh E := by
  intro ha
  cases h : E.scalapack with
  | false => rfl
  | true => rw [hs.mpr h] at ha; cases ha

/-- **C90 in floating-point arithmetic** with Householder QR, multi-GPU backend: staged without
ScaLAPACK, or CUDA-aware with it. -/
theorem C90_householder_mgpu (hs : E.aware = true ↔ E.scalapack = true) (hY : IgnoresTarget E)
    (hO : OrthoPar F r E.toDEnv E.nevex d3 δ) (hR : RitzPar F FR T E.toDEnv E.nevex d2 e2 η) (hε : 0 ≤ ε)
    (hδ : 0 ≤ δ) (hη : 0 ≤ η) (hacc : AccuratePar F FR T E.toDEnv d1 e1 μ) (hμ : 0 ≤ μ) (hE : Ascends E.toDEnv)
    (hd : cholDisable E.doCholQR E.envDisable = 1)
    (hq : ∀ X, QrOf ε E.nevex (fun j => valV F (X j)) fun j => valV F ((distArith T E.toDEnv).hhQR X j)) (P : Plat R)
    (hP : SortsIndices P) (cfg : Config R) (hN : cfg.N = N) (hsz : cfg.nev + cfg.nex = E.nevex)
    (hle : cfg.nev + cfg.nex ≤ N) (hmax : Even cfg.maxDeg) (ritzv0 resid0 : ℕ → R) (s : GG K R r c)
    (hH : (valM F s.g.H).IsHermitian) (out : Outcome R (GG K R r c × List (Call R)))
    (h : solve P (traced (ggOps T E)) cfg ritzv0 resid0 (s, []) = .ok out)
    (hsym : cfg.symCheck = true → symCheckG T E.toDEnv s.g.H = true) (hit : 0 < out.iterations)
    {C V : ℝ} (hC : ∀ x ∈ shiftsOf out.be.2, |FR.val x| ≤ C)
    (hV : ∀ i, i < cfg.nev + cfg.nex → |FR.val (out.ritzv i)| ≤ V) :
    let n := cfg.nev + cfg.nex
    let τ := tau n ε δ (gam F.u d3)
    τ ≤ 1 →
    VariationalUpTo (valM F s.g.H) n (fun i => FR.val (out.ritzv i))
      (sumB F.u (d1 + e1) (d2 + e2) d3 n out.iterations ε δ η (frob (valM F s.g.H)) C V τ) :=
  C90_ritz_mgpu_partial (fun _ => Or.inr hd) (fresh_of hs) hY hO hR hε hδ hη hacc hμ hE P hP cfg hN hsz hle hmax ritzv0 resid0 s hH out h hsym hit
    (householder_avoidsDev hd hs.mp hq (fun s : GG K R r c => s.g.C) _ _ _ _ _ _) hC hV

/-- **C91 in floating-point arithmetic**, multi-GPU backend (partial: as `C91_quadratic_partial`, reductions that
give the same bits on every communicator, a sort that keeps ascending lists; value `i` belongs to column `σ i`). -/
theorem C91_quadratic_mgpu_partial (hcop : Copies E) (hf : Fresh E) (hY : IgnoresTarget E) (hres : SameResidual E)
    (hO : OrthoPar F r E.toDEnv E.nevex d3 δ) (hR : RitzPar F FR T E.toDEnv E.nevex d2 e2 η) (hε : 0 ≤ ε)
    (hδ : 0 ≤ δ) (hη : 0 ≤ η) (hacc : AccuratePar F FR T E.toDEnv d1 e1 μ) (hμ : 0 ≤ μ) (hν1 : nu FR.u μ e1 < 1)
    (hE : Ascends E.toDEnv) (P : Plat R) (hP : SortsIndices P) (hkeep : SortKeepsSorted P) (cfg : Config R) (hN : cfg.N = N)
    (hsz : cfg.nev + cfg.nex = E.nevex) (hmax : Even cfg.maxDeg) (ritzv0 resid0 : ℕ → R) (s : GG K R r c)
    (hH : (valM F s.g.H).IsHermitian) (out : Outcome R (GG K R r c × List (Call R)))
    (h : solve P (traced (ggOps T E)) cfg ritzv0 resid0 (s, []) = .ok out)
    (hsym : cfg.symCheck = true → symCheckG T E.toDEnv s.g.H = true) (hit : 0 < out.iterations)
    (hq : QrAvoids P (ggOps T E) cfg ritzv0 resid0 s fun k x t => InaccurateDev T E F ε k x t.g.C)
    {C V : ℝ} (hC : ∀ x ∈ shiftsOf out.be.2, |FR.val x| ≤ C)
    (hV : ∀ i, i < cfg.nev + cfg.nex → |FR.val (out.ritzv i)| ≤ V) :
    let n := cfg.nev + cfg.nex
    let τ := tau n ε δ (gam F.u d3)
    let f := frob (valM F s.g.H)
    τ < 1 →
    ∃ σ : Equiv.Perm ℕ, PermOn 0 cfg.nev σ ∧ (out.iterations = 1 → σ = 1) ∧ ∀ i, i < n →
      NearEigenpair (valM F s.g.H) (FR.val (out.ritzv i)) (valV F (out.be.1.g.C (σ i))) (FR.val (out.resid (σ i)))
        (nu FR.u μ e1) (slack F.u (d1 + e1) out.iterations f C (FR.val (out.ritzv i))) τ
        (quotB F.u (d1 + e1) (d2 + e2) d3 n out.iterations ε δ η f C V) := by
  intro n τ f hτ1
  obtain ⟨σ, hσ, hσ1, hn, hp⟩ := quotients hcop hf hY hO hR hε hδ hη hacc hμ hE P hP cfg hN hsz hmax ritzv0 resid0 s hH out h hsym hit
    hq hC hV
  obtain ⟨ys, hy1, hy2⟩ := shiftsAt_path (C57_call_protocol hP.permutes ritzv0 resid0 s out h hsym)
  have hC0 : 0 ≤ C := by
    cases ys with
    | nil => simp at hy1; omega
    | cons y ys => exact (abs_nonneg _).trans (hC (-y) (by rw [hy2]; simp [pairsOf]))
  refine ⟨σ, hσ, hσ1, fun i hi => ?_⟩
  obtain ⟨hB, hm⟩ := hp i hi
  obtain ⟨xs, hlen, hxs, hmes⟩ := hm hres hkeep
  exact nearEigenpair_of hH hν1 hτ1 (hn.1 i hi) hB
    (Par.residual_of_measured hacc hμ hH hlen hC0 (fun x hx => hC x (hxs x hx)) hmes)

end

/-! ### Runs that meet the hypotheses -/

namespace Four
open Par.Stuck (rowL colL)
open Par.Four (cfg2)

/-- The environment of `Par.Four.envR` on devices, in all setups. -/
noncomputable def envR (aware scalapack copyDone : Bool) : GEnv (Fp 53) (Fp 53) :=
  { Par.Four.envR with
    scalapack := scalapack
    aware := aware
    copyDone := copyDone
    residual := fun x b b2 => Par.Four.kern.normp2 (Par.Four.kern.axpy (Par.Four.kern.ofBase (-x)) b2 b) }

variable (aware scalapack copyDone : Bool)

theorem orthoParR : OrthoPar (Fp.fl 53) rowL (envR aware scalapack copyDone).toDEnv (envR aware scalapack copyDone).nevex
    3 ((1 / 2) ^ 40) := ⟨Par.Four.orthoParR.back, Par.Four.orthoParR.heevd⟩

theorem ritzParR : RitzPar (Fp.fl 53) (Fp.fl 53) Par.Four.red (envR aware scalapack copyDone).toDEnv
    (envR aware scalapack copyDone).nevex 3 3 ((1 / 2) ^ 40) :=
  ⟨Par.Four.ritzParR.proj, Par.Four.ritzParR.rowK, Par.Four.ritzParR.heevd⟩

theorem accurateParR : AccuratePar (Fp.fl 53) (Fp.fl 53) Par.Four.red (envR aware scalapack copyDone).toDEnv 3 3
    ((1 / 2) ^ 53) := by
  obtain ⟨h1, h2, h3, h4, h5, h6, h7, h8, h9, h10⟩ := Par.Four.accurateParR
  exact ⟨h1, h2, h3, h4, h5, h6, h7, h8, h9, h10⟩

theorem qr_okR (X : ℕ → Fin 4 → Fp 53) : QrOf ((1 / 2) ^ 40) (envR aware scalapack copyDone).nevex
    (fun j => valV (Fp.fl 53) (X j))
    fun j => valV (Fp.fl 53) ((distArith Par.Four.red (envR aware scalapack copyDone).toDEnv).hhQR X j) :=
  Par.Four.qrR_ok X

/-- Non-vacuity of `C90_ritz_mgpu_partial` and `C90_householder_mgpu`: double precision on a grid of two times three
processes, a Householder QR and a dense eigensolver with errors of at most `2^-40`, staged and CUDA-aware. -/
example : ∃ (out : Outcome (Fp 53) (GG (Fp 53) (Fp 53) rowL colL × List (Call (Fp 53)))) (C V : ℝ),
    solve Par.Stuck.plat (traced (ggOps Par.Four.red (envR aware aware copyDone))) cfg2 Par.Stuck.val0 (fun _ => 0)
      (Two.start, []) = .ok out ∧
    0 < out.iterations ∧ (∀ x ∈ shiftsOf out.be.2, |(Fp.fl 53).val x| ≤ C) ∧
    (∀ i, i < 2 → |(Fp.fl 53).val (out.ritzv i)| ≤ V) ∧
    VariationalUpTo (valM (Fp.fl 53) Two.start.g.H) 2 (fun i => (Fp.fl 53).val (out.ritzv i))
      (sumB (Fp.fl 53).u (3 + 3) (3 + 3) 3 2 out.iterations ((1 / 2) ^ 40) ((1 / 2) ^ 40) ((1 / 2) ^ 40)
        (frob (valM (Fp.fl 53) Two.start.g.H)) C V (tau 2 ((1 / 2) ^ 40) ((1 / 2) ^ 40) (gam (Fp.fl 53).u 3))) := by
  obtain ⟨out, h1, hit⟩ := defined (traced (ggOps Par.Four.red (envR aware aware copyDone))) (Two.start, [])
  obtain ⟨C, V, D, hC, hV, hD⟩ := exists_bounds ((shiftsOf out.be.2).map (Fp.fl 53).val) (fun i => (Fp.fl 53).val (out.ritzv i)) 2
  have hC' : ∀ c ∈ shiftsOf out.be.2, |(Fp.fl 53).val c| ≤ C := fun c hc => hC _ (List.mem_map_of_mem hc)
  exact ⟨out, C, V, h1, hit, hC', hV, C90_householder_mgpu Iff.rfl (fun _ _ _ _ => rfl) (orthoParR aware aware copyDone)
    (ritzParR aware aware copyDone) (by positivity) (by positivity) (by positivity) (accurateParR aware aware copyDone)
    (by positivity) (fun b M i j h => Par.Four.ascendsR b M i j h) rfl (qr_okR _ _ _) Par.Stuck.plat Par.Four.plat_sorts cfg2 rfl
    rfl (by decide) (by decide) _ _ _ Par.Four.hermitian out h1 (by intro h; cases h) hit hC' hV tau_ritz.le⟩

/-- Non-vacuity of `C91_quadratic_mgpu_partial`: the same runs. -/
example : ∃ (out : Outcome (Fp 53) (GG (Fp 53) (Fp 53) rowL colL × List (Call (Fp 53)))) (C V : ℝ) (σ : Equiv.Perm ℕ),
    solve Par.Stuck.plat (traced (ggOps Par.Four.red (envR aware aware copyDone))) cfg2 Par.Stuck.val0 (fun _ => 0)
      (Two.start, []) = .ok out ∧
    0 < out.iterations ∧ (∀ x ∈ shiftsOf out.be.2, |(Fp.fl 53).val x| ≤ C) ∧
    (∀ i, i < 2 → |(Fp.fl 53).val (out.ritzv i)| ≤ V) ∧
    ∀ i, i < 2 → NearEigenpair (valM (Fp.fl 53) Two.start.g.H) ((Fp.fl 53).val (out.ritzv i))
      (valV (Fp.fl 53) (out.be.1.g.C (σ i))) ((Fp.fl 53).val (out.resid (σ i))) (nu (Fp.fl 53).u ((1 / 2) ^ 53) 3)
      (slack (Fp.fl 53).u (3 + 3) out.iterations (frob (valM (Fp.fl 53) Two.start.g.H)) C ((Fp.fl 53).val (out.ritzv i)))
      (tau 2 ((1 / 2) ^ 40) ((1 / 2) ^ 40) (gam (Fp.fl 53).u 3))
      (quotB (Fp.fl 53).u (3 + 3) (3 + 3) 3 2 out.iterations ((1 / 2) ^ 40) ((1 / 2) ^ 40) ((1 / 2) ^ 40)
        (frob (valM (Fp.fl 53) Two.start.g.H)) C V) := by
  obtain ⟨out, h1, hit⟩ := defined (traced (ggOps Par.Four.red (envR aware aware copyDone))) (Two.start, [])
  obtain ⟨C, V, D, hC, hV, hD⟩ := exists_bounds ((shiftsOf out.be.2).map (Fp.fl 53).val) (fun i => (Fp.fl 53).val (out.ritzv i)) 2
  have hC' : ∀ c ∈ shiftsOf out.be.2, |(Fp.fl 53).val c| ≤ C := fun c hc => hC _ (List.mem_map_of_mem hc)
  obtain ⟨σ, -, -, hσ⟩ := C91_quadratic_mgpu_partial (fun _ => Or.inr rfl) (fresh_of Iff.rfl) (fun _ _ _ _ => rfl)
    (fun _ _ _ => rfl) (orthoParR aware aware copyDone)
    (ritzParR aware aware copyDone) (by positivity) (by positivity) (by positivity) (accurateParR aware aware copyDone)
    (by positivity) nu_small (fun b M i j h => Par.Four.ascendsR b M i j h) Par.Stuck.plat Par.Four.plat_sorts
    Par.Four.plat_keeps cfg2 rfl rfl (by decide) _ _ _ Par.Four.hermitian out h1 (by intro h; cases h) hit
    (householder_avoidsDev rfl Iff.rfl.mp (qr_okR _ _ _) (fun s : GG (Fp 53) (Fp 53) rowL colL => s.g.C) _ _ _ _ _ _) hC' hV
    tau_ritz
  exact ⟨out, C, V, σ, h1, hit, hC', hV, hσ⟩

end Four
end ParGpu
end Rounded
end Verif
