/-
Properties C73 (reported residuals in floating-point arithmetic) and C74 (the matrix after a solve in floating-point
arithmetic), for the multi-GPU backend, staged and CUDA-aware, with and without ScaLAPACK.
-/
import Verif.Rounded.ParGpuRun
import Verif.Rounded.ParGpuProps
import Verif.Rounded.ParResidualProps

set_option linter.unusedSectionVars false

namespace Verif
namespace Rounded
namespace ParGpu

open Matrix
open Verif.Spmd
open Mpi (Layout GSt RunsOk)
open Mpi.Spmd (Pos)
open Par (Red1 AccuratePar Ascends symCheckG nu)

section
variable {K R 𝕜 : Type} [RCLike 𝕜] {N : ℕ} {r c : Layout N} {F : Fl K 𝕜} {FR : Fl R ℝ} {T : Red1 K R r c}
  {E : GEnv K R} {d e : ℕ} {μ : ℝ}
variable [Add R] [Sub R] [Mul R] [Div R] [Neg R] [Zero R] [One R] [NatCast R]

/-- **C74**, multi-GPU backend.  The matrix on the hosts is not changed by a solve, bit for bit, in any arithmetic: in
every schedule, every process that ends holds the part of the matrix it started with. -/
theorem C74_mgpu [LT R] [DecidableLT R] {red : Par.Reds K R r c} (hc : RunsOk r c E.cRuns) (hb : RunsOk c r E.bRuns)
    (hred : Par.Reproducible red) (P : Plat R) (cfg : Config R) (ritzv0 resid0 : ℕ → R) (s : GG K R r c)
    {n : ℕ} {u : Conf fun p => Except Err (Outcome R Unit) × GOwn K R r c p}
    (hr : Runs (fun p : Pos r c => solveProg red E P cfg ritzv0 resid0 p (s.part p)) n u) (hu : Final u)
    {p : Pos r c} {o : Outcome R Unit} {own : GOwn K R r c p} (ho : u p = .ret (.ok o, own)) :
    ∀ a b, own.own.H a b = s.g.H (r.glob p.1 a) (c.glob p.2 b) := by
  obtain ⟨T, rfl⟩ : ∃ T : Red1 K R r c, red = T.const := ⟨_, hred.eq_const p⟩
  have hends := C77_mgpu_outcome_partial P cfg ritzv0 resid0 hc hb T s hr hu p
  generalize hx : solve P (ggOps T E) cfg ritzv0 resid0 s = x at hends
  cases x with
  | error => obtain ⟨d, hd⟩ := hends; rw [ho] at hd; cases hd
  | ok out =>
    have hp : u p = _ := hends
    rw [ho] at hp
    have e1 : own = out.be.part p := by
      injection hp with hp; injection hp with hp
    subst e1
    intro a b
    show out.be.g.H (r.glob p.1 a) (c.glob p.2 b) = _
    rw [(host_keep T E s.g.H).solve hx rfl]

variable [LinearOrder R]

/-- **C73**, multi-GPU backend (partial).  As `Par.C73_residual_mpi_partial`, for the data of all processes, with the
matrix of the host.  `IgnoresTarget` and `SameResidual`: a product with `beta = 0` does not read its target, and the
kernel for residuals makes the operations the host makes. -/
theorem C73_residual_mgpu_partial (hA : AccuratePar F FR T E.toDEnv d e μ) (hμ : 0 ≤ μ) (hY : IgnoresTarget E)
    (hres : SameResidual E) (hE : Ascends E.toDEnv) (P : Plat R) (hP : SortsIndices P) (hkeep : SortKeepsSorted P)
    (cfg : Config R) (hN : cfg.N = N) (hsz : cfg.nev + cfg.nex = E.nevex) (hmax : Even cfg.maxDeg)
    (ritzv0 resid0 : ℕ → R) (s : GG K R r c) (hH : (valM F s.g.H).IsHermitian)
    (out : Outcome R (GG K R r c × List (Call R)))
    (h : solve P (traced (ggOps T E)) cfg ritzv0 resid0 (s, []) = .ok out)
    (hsym : cfg.symCheck = true → symCheckG T E.toDEnv s.g.H = true) (hit : 0 < out.iterations)
    {C : ℝ} (hC : ∀ x ∈ shiftsOf out.be.2, |FR.val x| ≤ C) :
    ∃ σ : Equiv.Perm ℕ, PermOn 0 cfg.nev σ ∧ (out.iterations = 1 → σ = 1) ∧ ∀ i, i < cfg.nev + cfg.nex →
      let x := FR.val (out.ritzv i)
      let v := valV F (out.be.1.g.C (σ i))
      let ν := nu FR.u μ e
      let ρ := Verif.nrm2 ((valM F s.g.H).mulVec v - (x : 𝕜) • v)
      |FR.val (out.resid (σ i)) - ρ| ≤
        ν * ρ + (1 + ν) * (slack F.u (d + e) out.iterations (frob (valM F s.g.H)) C x * Verif.nrm2 v) := by
  obtain ⟨σ, hσ, hσ1, hm⟩ := measured_at_end T E hY hres hE P hP hkeep cfg hN hsz hmax ritzv0 resid0 s out h hsym hit
  have hpath := C57_call_protocol hP.permutes ritzv0 resid0 s out h hsym
  obtain ⟨ys, hy1, hy2⟩ := shiftsAt_path hpath
  have hC0 : 0 ≤ C := by
    cases ys with
    | nil => simp at hy1; omega
    | cons y ys => exact (abs_nonneg _).trans (hC (-y) (by rw [hy2]; simp [pairsOf]))
  refine ⟨σ, hσ, hσ1, fun i hi => ?_⟩
  obtain ⟨xs, hlen, hxs, hmes⟩ := hm i hi
  exact Par.residual_of_measured hA hμ hH hlen hC0 (fun x hx => hC x (hxs x hx)) hmes

/-- **C73**, consequence for eigenvalues: every pair whose vector is not zero certifies an eigenvalue of the matrix
handed in. -/
theorem C73_eigenvalue_mgpu_partial (hA : AccuratePar F FR T E.toDEnv d e μ) (hμ : 0 ≤ μ) (hν1 : nu FR.u μ e ≤ 1)
    (hY : IgnoresTarget E) (hres : SameResidual E) (hE : Ascends E.toDEnv) (P : Plat R) (hP : SortsIndices P)
    (hkeep : SortKeepsSorted P)
    (cfg : Config R) (hN : cfg.N = N) (hsz : cfg.nev + cfg.nex = E.nevex) (hmax : Even cfg.maxDeg)
    (ritzv0 resid0 : ℕ → R) (s : GG K R r c) (hH : (valM F s.g.H).IsHermitian)
    (out : Outcome R (GG K R r c × List (Call R)))
    (h : solve P (traced (ggOps T E)) cfg ritzv0 resid0 (s, []) = .ok out)
    (hsym : cfg.symCheck = true → symCheckG T E.toDEnv s.g.H = true) (hit : 0 < out.iterations)
    {C : ℝ} (hC : ∀ x ∈ shiftsOf out.be.2, |FR.val x| ≤ C) :
    ∃ σ : Equiv.Perm ℕ, PermOn 0 cfg.nev σ ∧ ∀ i, i < cfg.nev + cfg.nex →
      let x := FR.val (out.ritzv i)
      let v := valV F (out.be.1.g.C (σ i))
      let ν := nu FR.u μ e
      v ≠ 0 → ∃ lam, IsEigenvalue (valM F s.g.H) lam ∧
        (1 - ν) * (|lam - x| * Verif.nrm2 v) ≤ FR.val (out.resid (σ i)) +
          (1 + ν) * (slack F.u (d + e) out.iterations (frob (valM F s.g.H)) C x * Verif.nrm2 v) := by
  obtain ⟨σ, hσ, -, hm⟩ := C73_residual_mgpu_partial hA hμ hY hres hE P hP hkeep cfg hN hsz hmax ritzv0 resid0 s hH out h
    hsym hit hC
  refine ⟨σ, hσ, fun i hi => ?_⟩
  have key := hm i hi
  dsimp only at key ⊢
  intro hv
  obtain ⟨lam, h1, h2⟩ := eigenvalue_of_residual hH hv (FR.val (out.ritzv i))
  refine ⟨lam, h1, ?_⟩
  have h3 := mul_le_mul_of_nonneg_left h2 (show 0 ≤ 1 - nu FR.u μ e by linarith)
  linarith [(abs_le.mp key).1]

/-- **C73 as seen by the processes**, multi-GPU (partial).  Reductions that give the same bits on every communicator.  In
every complete schedule in which some process returns successfully after at least one round, all processes return the
same values and residuals, and the first `nev` columns of the vectors in host memory are the parts of a block `V`; some
list of shifts is such that with any bound `C` on them the bounds of `C73_residual_mgpu_partial` hold for the values, the
residuals and the columns of `V`. -/
theorem C73_processes_mgpu_partial (hc : RunsOk r c E.cRuns) (hb : RunsOk c r E.bRuns)
    (hA : AccuratePar F FR T E.toDEnv d e μ) (hμ : 0 ≤ μ) (hY : IgnoresTarget E) (hres : SameResidual E)
    (hE : Ascends E.toDEnv) (P : Plat R) (hP : SortsIndices P) (hkeep : SortKeepsSorted P)
    (cfg : Config R) (hN : cfg.N = N) (hnev : cfg.nev = E.nev) (hsz : cfg.nev + cfg.nex = E.nevex)
    (hmax : Even cfg.maxDeg) (ritzv0 resid0 : ℕ → R) (s : GG K R r c) (hH : (valM F s.g.H).IsHermitian)
    (hsym : cfg.symCheck = true → symCheckG T E.toDEnv s.g.H = true)
    {n : ℕ} {u : Conf fun p => Except Err (Outcome R Unit) × GOwn K R r c p}
    (hr : Runs (fun p : Pos r c => solveProg T.const E P cfg ritzv0 resid0 p (s.part p)) n u)
    (hu : Final u) {p : Pos r c} {o : Outcome R Unit} {own : GOwn K R r c p} (ho : u p = .ret (.ok o, own))
    (hit : 0 < o.iterations) :
    ∃ (V : ℕ → Fin N → K) (shifts : List R),
      (∀ q, ∃ own, u q = .ret (.ok o, own) ∧
        ∀ j, j < cfg.nev → ∀ a, (if E.aware then own.oth.C else own.own.C) j a = V j (r.glob q.1 a)) ∧
      ∀ C : ℝ, (∀ x ∈ shifts, |FR.val x| ≤ C) →
        ∃ σ : Equiv.Perm ℕ, PermOn 0 cfg.nev σ ∧ (o.iterations = 1 → σ = 1) ∧ ∀ i, i < cfg.nev →
          let x := FR.val (o.ritzv i)
          let v := valV F (V (σ i))
          let ν := nu FR.u μ e
          let ρ := Verif.nrm2 ((valM F s.g.H).mulVec v - (x : 𝕜) • v)
          |FR.val (o.resid (σ i)) - ρ| ≤
            ν * ρ + (1 + ν) * (slack F.u (d + e) o.iterations (frob (valM F s.g.H)) C x * Verif.nrm2 v) := by
  have hends := C77_mgpu_outcome_partial P cfg ritzv0 resid0 hc hb T s hr hu
  have hsim := solve_sim (traced_sim (ggOps T E)) P cfg ritzv0 resid0 (be := (s, [])) (be' := s) rfl
  generalize hx : solve P (ggOps T E) cfg ritzv0 resid0 s = x at hends hsim
  generalize hy : solve P (traced (ggOps T E)) cfg ritzv0 resid0 (s, []) = y at hsim
  cases hsim with
  | error => obtain ⟨d, hd⟩ := hends p; rw [ho] at hd; cases hd
  | @ok out out' hrel =>
    have hp : u p = _ := hends p
    rw [ho] at hp
    have e1 : o = ⟨out'.ritzv, out'.resid, out'.iterations, out'.locked, ()⟩ := by
      injection hp with hp; injection hp with hp; injection hp
    subst e1
    have hbe : out.be.1 = out'.be := hrel.be
    obtain ⟨t, ht⟩ := solve_finish hx hit
    refine ⟨out'.be.g.C, shiftsOf out.be.2, fun q => ⟨_, hends q, fun j hj a => ?_⟩, fun C hC => ?_⟩
    · rw [ht]
      show (if E.aware then ((ggOps T E).finish t).oth q |>.C else Par.cut r q.1 ((ggOps T E).finish t).g.C) j a =
        ((ggOps T E).finish t).g.C j (r.glob q.1 a)
      have e2 : (ggOps T E).finish t = if E.aware then { t with oth := fun p => { t.oth p with
        C := copyCols 0 E.nev (Par.cut r p.1 t.g.C) (t.oth p).C } } else t := rfl
      rw [e2]
      cases E.aware with
      | true =>
        show copyCols 0 E.nev (Par.cut r q.1 t.g.C) (t.oth q).C j a = _
        rw [copyCols_apply, if_pos ⟨by omega, by omega⟩]
        rfl
      | false => rfl
    · obtain ⟨σ, hσ, h1, key⟩ := C73_residual_mgpu_partial hA hμ hY hres hE P hP hkeep cfg hN hsz hmax ritzv0 resid0 s hH
        out hy hsym (by rw [hrel.iterations]; exact hit) hC
      rw [hrel.iterations, hrel.ritzv, hrel.resid, hbe] at key
      rw [hrel.iterations] at h1
      exact ⟨σ, hσ, h1, fun i hi => key i (by omega)⟩

end

/-! ### A run -/

namespace Four
open Par.Stuck (rowL colL)

/-- The environment of `Par.Four` on devices, in all setups. -/
noncomputable def env (aware scalapack copyDone : Bool) : GEnv (Fp 53) (Fp 53) :=
  { Par.Four.env with
    scalapack := scalapack
    aware := aware
    copyDone := copyDone
    residual := fun x b b2 => Par.Four.kern.normp2 (Par.Four.kern.axpy (Par.Four.kern.ofBase (-x)) b2 b) }

/-- Non-vacuity of `C73_residual_mgpu_partial`, `C73_eigenvalue_mgpu_partial`, `C73_processes_mgpu_partial` and `C74_mgpu`:
double precision on a grid of two times three processes, in all setups, from different numbers in the other buffers of
the processes. -/
example (aware scalapack copyDone : Bool) :
    AccuratePar (Fp.fl 53) (Fp.fl 53) Par.Four.red (env aware scalapack copyDone).toDEnv 3 3 ((1 / 2) ^ 53) ∧
    IgnoresTarget (env aware scalapack copyDone) ∧ SameResidual (env aware scalapack copyDone) ∧
    Ascends (env aware scalapack copyDone).toDEnv ∧ SortsIndices Par.Stuck.plat ∧
    SortKeepsSorted Par.Stuck.plat ∧ (Par.Stuck.cfg1 Par.Stuck.tol).N = 4 ∧
    (Par.Stuck.cfg1 Par.Stuck.tol).nev = (env aware scalapack copyDone).nev ∧
    (Par.Stuck.cfg1 Par.Stuck.tol).nev + (Par.Stuck.cfg1 Par.Stuck.tol).nex = (env aware scalapack copyDone).nevex ∧
    Even (Par.Stuck.cfg1 Par.Stuck.tol).maxDeg ∧
    (valM (Fp.fl 53) Two.start.g.H).IsHermitian ∧ (Par.Stuck.cfg1 Par.Stuck.tol).symCheck = false ∧
    Par.Reproducible Par.Four.red.const ∧
    RunsOk rowL colL (env aware scalapack copyDone).cRuns ∧ RunsOk colL rowL (env aware scalapack copyDone).bRuns ∧
    (∃ n u p o own, Runs (fun p : Pos rowL colL => solveProg Par.Four.red.const (env aware scalapack copyDone)
      Par.Stuck.plat (Par.Stuck.cfg1 Par.Stuck.tol) Par.Stuck.val0 (fun _ => 0) p (Two.start.part p)) n u ∧ Final u ∧
      u p = .ret (.ok o, own) ∧ 0 < o.iterations) ∧
    (∃ out, solve Par.Stuck.plat (traced (ggOps Par.Four.red (env aware scalapack copyDone)))
      (Par.Stuck.cfg1 Par.Stuck.tol) Par.Stuck.val0 (fun _ => 0) (Two.start, []) = .ok out ∧ 0 < out.iterations) := by
  have hdef : ∀ {S : Type} (ops : Chase (Fp 53) S) (be : S), ∃ out, solve Par.Stuck.plat ops
      (Par.Stuck.cfg1 Par.Stuck.tol) Par.Stuck.val0 (fun _ => 0) be = .ok out ∧ 0 < out.iterations := by
    intro S ops be
    obtain ⟨out, h1, h2⟩ := C51_approx_solve_defined Par.Stuck.plat ops (Par.Stuck.cfg1 Par.Stuck.tol) rfl (by decide)
      (by decide) (by decide) (by decide) (by decide) (by decide) (by decide) (by intro h; cases h) Par.Stuck.val0
      (fun _ => 0) be
    exact ⟨out, h1, h2 (by intro h; cases h) (by decide)⟩
  refine ⟨?_, fun H X Y Y' => ?_, fun _ _ _ => rfl, Par.Four.ascends, Par.Four.plat_sorts, Par.Four.plat_keeps, rfl, rfl,
    rfl, by decide, Par.Four.hermitian, rfl, .const _, Par.Stuck.envRuns.1, Par.Stuck.envRuns.2, ?_, hdef _ _⟩
  · obtain ⟨h1, h2, h3, h4, h5, h6, h7, h8, h9, h10⟩ := Par.Four.accuratePar
    exact ⟨h1, h2, h3, h4, h5, h6, h7, h8, h9, h10⟩
  · rfl
  · obtain ⟨out, h1, h2⟩ := hdef (ggOps Par.Four.red (env aware scalapack copyDone)) Two.start
    obtain ⟨n, hn⟩ := prog_gives Par.Four.red (env aware scalapack copyDone) Par.Stuck.envRuns.1 Par.Stuck.envRuns.2
      (solveT Par.Stuck.plat (Par.Stuck.cfg1 Par.Stuck.tol) Par.Stuck.val0 fun _ => 0) Two.start
    have he := C77_mgpu_outcome_partial (E := env aware scalapack copyDone) Par.Stuck.plat (Par.Stuck.cfg1 Par.Stuck.tol)
      Par.Stuck.val0 (fun _ => 0) Par.Stuck.envRuns.1 Par.Stuck.envRuns.2 Par.Four.red Two.start hn (fun p => ⟨_, rfl⟩)
      ((0 : Fin 2), (0 : Fin 3))
    rw [h1] at he
    exact ⟨n, _, _, _, _, hn, fun p => ⟨_, rfl⟩, he, h2⟩

end Four
end ParGpu
end Rounded
end Verif
