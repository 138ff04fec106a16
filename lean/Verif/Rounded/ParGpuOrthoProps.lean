/-
Properties C84 (orthonormality in floating-point arithmetic), C85, C90 and C91 (their consequences for the computed
values and vectors), for the multi-GPU backend.
-/
import Verif.Rounded.ParGpuOrtho
import Verif.Rounded.ParGpuResidualProps
import Verif.Rounded.OrthoProps
import Verif.Rounded.VectorProps
import Verif.Rounded.DistinctProps
import Verif.Rounded.SumProps

set_option linter.unusedSectionVars false

namespace Verif
namespace Rounded
namespace ParGpu

open Matrix Finset
open Verif.Spmd
open Mpi (Layout GSt RunsOk)
open Mpi.Spmd (Pos)
open Par (Red1 AccuratePar Ascends symCheckG nu distArith OrthoPar)

section
variable {K R 𝕜 : Type} [RCLike 𝕜] [LinearOrder R] [Add R] [Sub R] [Mul R] [Div R] [Neg R] [Zero R] [One R] [NatCast R]
  {N : ℕ} {r c : Layout N} {T : Red1 K R r c} {E : GEnv K R} {F : Fl K 𝕜} {FR : Fl R ℝ} {d e d' : ℕ} {ε δ μ : ℝ}

/-- **C84**, multi-GPU backend (partial), reductions that give the same bits on every communicator: as
`C84_orthonormal_partial`, for the vectors held by the processes together.  `Copies`: a setup in which the
orthogonalisation leaves a copy of its result in the second buffer. -/
theorem C84_orthonormal_mgpu_partial (hcop : Copies E) (hA : OrthoPar F r E.toDEnv E.nevex d δ) (hε : 0 ≤ ε) (hδ : 0 ≤ δ)
    (hE : Ascends E.toDEnv) (P : Plat R) (hP : SortsIndices P) (cfg : Config R) (hN : cfg.N = N)
    (hsz : cfg.nev + cfg.nex = E.nevex) (hmax : Even cfg.maxDeg) (ritzv0 resid0 : ℕ → R) (s : GG K R r c)
    (out : Outcome R (GG K R r c)) (h : solve P (ggOps T E) cfg ritzv0 resid0 s = .ok out)
    (hsym : cfg.symCheck = true → symCheckG T E.toDEnv s.g.H = true) (hit : 0 < out.iterations)
    (hq : QrAvoids P (ggOps T E) cfg ritzv0 resid0 s fun k x t => InaccurateDev T E F ε k x t.g.C) :
    NearOrtho (tau (cfg.nev + cfg.nex) ε δ (gam F.u d)) (cfg.nev + cfg.nex) fun j => valV F (out.be.g.C j) := by
  obtain ⟨o, ho, hm, hbe, hi⟩ := watched h hq
  subst hN
  have hf := near_frame (T := T) (ε := ε) hcop hA hε hδ
  have hasc : MakesAscending (watch (fun k x s => InaccurateDev T E F ε k x s.g.C) (ggOps T E))
      (fun p => nl p.1) (nearPh (phasesC E) cols nl (valV F) E.nevex (tau E.nevex ε δ (gam F.u d)) ε) E.nevex :=
    fun s _ => makesAscending T E hE ⟨fun _ => True, fun _ => True, fun _ => True, fun _ => True⟩ s.1 trivial
  rw [← hsz] at hf
  rw [← hsz] at hasc
  obtain ⟨be0, st, -, -, -, ⟨t, ht, e⟩, -⟩ := C05_noSwap_partial P _ _ _ _ (fun _ _ => True) (fun _ _ _ => True) cfg hP hf
    (fun _ _ _ => rfl) hmax hasc (fun _ _ _ _ => trivial) (fun _ _ _ _ _ _ _ => trivial) ritzv0 resid0 (s, False) trivial o
    hsym ho (by omega)
  rw [hsz] at ht e
  rw [hsz]
  have e2 : (E.nevex = E.nevex ∧ o.be.2) = (E.nevex = E.nevex ∧ t.2) := congrArg Prod.snd (congrFun e E.nevex)
  simp only [true_and] at e2
  refine (ht.2 (by rw [← e2]; exact hm)).congr fun j _ => ?_
  rw [← hbe]
  exact congrArg (valV F) (congrArg Prod.fst (congrFun e j))

/-- **C84** with Householder QR, multi-GPU backend, staged or with ScaLAPACK. -/
theorem C84_householder_mgpu (hs : E.aware = true → E.scalapack = true) (hA : OrthoPar F r E.toDEnv E.nevex d δ)
    (hε : 0 ≤ ε) (hδ : 0 ≤ δ) (hE : Ascends E.toDEnv) (hd : cholDisable E.doCholQR E.envDisable = 1)
    (hq : ∀ X, QrOf ε E.nevex (fun j => valV F (X j)) fun j => valV F ((distArith T E.toDEnv).hhQR X j))
    (P : Plat R) (hP : SortsIndices P) (cfg : Config R) (hN : cfg.N = N) (hsz : cfg.nev + cfg.nex = E.nevex)
    (hmax : Even cfg.maxDeg) (ritzv0 resid0 : ℕ → R) (s : GG K R r c) (out : Outcome R (GG K R r c))
    (h : solve P (ggOps T E) cfg ritzv0 resid0 s = .ok out)
    (hsym : cfg.symCheck = true → symCheckG T E.toDEnv s.g.H = true) (hit : 0 < out.iterations) :
    NearOrtho (tau (cfg.nev + cfg.nex) ε δ (gam F.u d)) (cfg.nev + cfg.nex) fun j => valV F (out.be.g.C j) :=
  C84_orthonormal_mgpu_partial (fun _ => Or.inr hd) hA hε hδ hE P hP cfg hN hsz hmax ritzv0 resid0 s out h hsym hit
    (householder_avoidsDev hd hs hq (fun s : GG K R r c => s.g.C) _ _ _ _ _ _)

/-- **C84 as seen by the processes**, multi-GPU backend, Householder QR, staged or with ScaLAPACK: in every complete
schedule in which some process returns successfully after at least one round, all processes do, with the same values,
and the first `nev` vectors in their host memory are the parts of a block that is orthonormal up to `τ`. -/
theorem C84_processes_mgpu (hc : RunsOk r c E.cRuns) (hb : RunsOk c r E.bRuns)
    (hs : E.aware = true → E.scalapack = true) (hA : OrthoPar F r E.toDEnv E.nevex d δ)
    (hε : 0 ≤ ε) (hδ : 0 ≤ δ) (hE : Ascends E.toDEnv) (hd : cholDisable E.doCholQR E.envDisable = 1)
    (hq : ∀ X, QrOf ε E.nevex (fun j => valV F (X j)) fun j => valV F ((distArith T E.toDEnv).hhQR X j))
    (P : Plat R) (hP : SortsIndices P) (cfg : Config R) (hN : cfg.N = N) (hnev : cfg.nev = E.nev)
    (hsz : cfg.nev + cfg.nex = E.nevex) (hmax : Even cfg.maxDeg) (ritzv0 resid0 : ℕ → R) (s : GG K R r c)
    (hsym : cfg.symCheck = true → symCheckG T E.toDEnv s.g.H = true)
    {n : ℕ} {u : Conf fun p => Except Err (Outcome R Unit) × GOwn K R r c p}
    (hr : Runs (fun p : Pos r c => solveProg T.const E P cfg ritzv0 resid0 p (s.part p)) n u)
    (hu : Final u) {p : Pos r c} {o : Outcome R Unit} {own : GOwn K R r c p} (ho : u p = .ret (.ok o, own))
    (hit : 0 < o.iterations) :
    ∃ V : ℕ → Fin N → K,
      (∀ q, ∃ own, u q = .ret (.ok o, own) ∧
        ∀ j, j < cfg.nev → ∀ a, (if E.aware then own.oth.C else own.own.C) j a = V j (r.glob q.1 a)) ∧
      NearOrtho (tau (cfg.nev + cfg.nex) ε δ (gam F.u d)) cfg.nev fun j => valV F (V j) := by
  have hends := C77_mgpu_outcome_partial P cfg ritzv0 resid0 hc hb T s hr hu
  generalize hx : solve P (ggOps T E) cfg ritzv0 resid0 s = x at hends
  cases x with
  | error => obtain ⟨d, hd⟩ := hends p; rw [ho] at hd; cases hd
  | ok out =>
    have hp : u p = _ := hends p
    rw [ho] at hp
    have e1 : o = ⟨out.ritzv, out.resid, out.iterations, out.locked, ()⟩ := by
      injection hp with hp; injection hp with hp; injection hp
    subst e1
    obtain ⟨t, ht⟩ := solve_finish hx hit
    refine ⟨out.be.g.C, fun q => ⟨_, hends q, fun j hj a => ?_⟩,
      (C84_householder_mgpu hs hA hε hδ hE hd hq P hP cfg hN hsz hmax ritzv0 resid0 s out hx hsym hit).mono (by omega)⟩
    rw [ht]
    show (if E.aware then ((ggOps T E).finish t).oth q |>.C else Par.cut r q.1 ((ggOps T E).finish t).g.C) j a =
      ((ggOps T E).finish t).g.C j (r.glob q.1 a)
    have e2 : (ggOps T E).finish t = if E.aware then { t with oth := fun p => { t.oth p with
      C := copyCols 0 E.nev (Par.cut r p.1 t.g.C) (t.oth p).C } } else t := rfl
    rw [e2]
    cases E.aware with
    | true =>
      show copyCols 0 E.nev (Par.cut r q.1 t.g.C) (t.oth q).C j a = _
      rw [copyCols_apply, if_pos ⟨by omega, by omega⟩]
      rfl
    | false => rfl

/-- **C84 with C73**, multi-GPU backend (partial): as `C84_eigenvalue_partial`. -/
theorem C84_eigenvalue_mgpu_partial (hcop : Copies E) (hY : IgnoresTarget E) (hres : SameResidual E)
    (hA : OrthoPar F r E.toDEnv E.nevex d' δ) (hε : 0 ≤ ε) (hδ : 0 ≤ δ)
    (hacc : AccuratePar F FR T E.toDEnv d e μ) (hμ : 0 ≤ μ) (hν1 : nu FR.u μ e ≤ 1)
    (hE : Ascends E.toDEnv) (P : Plat R) (hP : SortsIndices P) (hkeep : SortKeepsSorted P)
    (cfg : Config R) (hN : cfg.N = N) (hsz : cfg.nev + cfg.nex = E.nevex) (hmax : Even cfg.maxDeg)
    (ritzv0 resid0 : ℕ → R) (s : GG K R r c) (hH : (valM F s.g.H).IsHermitian)
    (out : Outcome R (GG K R r c × List (Call R)))
    (h : solve P (traced (ggOps T E)) cfg ritzv0 resid0 (s, []) = .ok out)
    (hsym : cfg.symCheck = true → symCheckG T E.toDEnv s.g.H = true) (hit : 0 < out.iterations)
    (hq : QrAvoids P (ggOps T E) cfg ritzv0 resid0 s fun k x t => InaccurateDev T E F ε k x t.g.C)
    (hτ : tau (cfg.nev + cfg.nex) ε δ (gam F.u d') < 1) {C : ℝ} (hC : ∀ x ∈ shiftsOf out.be.2, |FR.val x| ≤ C) :
    ∃ σ : Equiv.Perm ℕ, PermOn 0 cfg.nev σ ∧ ∀ i, i < cfg.nev + cfg.nex →
      let x := FR.val (out.ritzv i)
      let ν := nu FR.u μ e
      let τ := tau (cfg.nev + cfg.nex) ε δ (gam F.u d')
      ∃ lam, IsEigenvalue (valM F s.g.H) lam ∧ (1 - ν) * (1 - τ) * |lam - x| ≤ FR.val (out.resid (σ i)) +
        (1 + ν) * (1 + τ) * slack F.u (d + e) out.iterations (frob (valM F s.g.H)) C x := by
  obtain ⟨σ, hσ, hm⟩ := C73_eigenvalue_mgpu_partial hacc hμ hν1 hY hres hE P hP hkeep cfg hN hsz hmax ritzv0 resid0 s hH out h
    hsym hit hC
  have hn : NearOrtho (tau (cfg.nev + cfg.nex) ε δ (gam F.u d')) (cfg.nev + cfg.nex)
      fun j => valV F (out.be.1.g.C j) := by
    have h1 := solve_sim (traced_sim (ggOps T E)) P cfg ritzv0 resid0 (be := (s, [])) (be' := s) rfl
    rw [h] at h1
    cases hw : solve P (ggOps T E) cfg ritzv0 resid0 s with
    | error e => rw [hw] at h1; cases h1
    | ok o =>
      rw [hw] at h1
      cases h1 with
      | ok h1 =>
        have e : out.be.1 = o.be := h1.be
        rw [e]
        exact C84_orthonormal_mgpu_partial hcop hA hε hδ hE P hP cfg hN hsz hmax ritzv0 resid0 s o hw hsym
          (by rw [← h1.iterations]; exact hit) hq
  refine ⟨σ, hσ, fun i hi => ?_⟩
  have hi' : σ i < cfg.nev + cfg.nex := by
    by_cases hlt : i < cfg.nev
    · have := (hσ.mem (Nat.zero_le _) hlt).2
      omega
    · rw [hσ i (by omega)]; exact hi
  have hs : 0 ≤ slack F.u (d + e) out.iterations (frob (valM F s.g.H)) C (FR.val (out.ritzv i)) := by
    have hu := F.u_nonneg
    obtain ⟨ys, hy1, hy2⟩ := shiftsAt_path (C57_call_protocol hP.permutes ritzv0 resid0 s out h hsym)
    have hC0 : 0 ≤ C := by
      cases ys with
      | nil => simp at hy1; omega
      | cons y ys => exact (abs_nonneg _).trans (hC (-y) (by rw [hy2]; simp [pairsOf]))
    exact slack_nonneg hu hC0 (frob_nonneg _)
  have hν : 0 ≤ nu FR.u μ e := by
    have := FR.u_nonneg
    have h1 : 1 ≤ (1 + FR.u) ^ (e + 1) := one_le_pow₀ (by linarith)
    unfold nu
    nlinarith
  exact absolute (hn.1 _ hi') hτ hν hν1 hs (hm i hi)


/-- **C85 in floating-point arithmetic**, multi-GPU backend (partial), reductions that give the same bits on
every communicator: as `C85_rounded_partial`. -/
theorem C85_rounded_mgpu_partial (hcop : Copies E) (hY : IgnoresTarget E) (hres : SameResidual E)
    (hA : OrthoPar F r E.toDEnv E.nevex d' δ) (hε : 0 ≤ ε) (hδ : 0 ≤ δ)
    (hacc : AccuratePar F FR T E.toDEnv d e μ) (hμ : 0 ≤ μ) (hν1 : nu FR.u μ e < 1)
    (hE : Ascends E.toDEnv) (P : Plat R) (hP : SortsIndices P) (hkeep : SortKeepsSorted P)
    (cfg : Config R) (hN : cfg.N = N) (hsz : cfg.nev + cfg.nex = E.nevex) (hmax : Even cfg.maxDeg)
    (ritzv0 resid0 : ℕ → R) (s : GG K R r c) (hH : (valM F s.g.H).IsHermitian)
    (out : Outcome R (GG K R r c × List (Call R)))
    (h : solve P (traced (ggOps T E)) cfg ritzv0 resid0 (s, []) = .ok out)
    (hsym : cfg.symCheck = true → symCheckG T E.toDEnv s.g.H = true) (hit : 0 < out.iterations)
    (hq : QrAvoids P (ggOps T E) cfg ritzv0 resid0 s fun k x t => InaccurateDev T E F ε k x t.g.C)
    {C V D : ℝ} (hC : ∀ x ∈ shiftsOf out.be.2, |FR.val x| ≤ C)
    (hV : ∀ i, i < cfg.nev + cfg.nex → |FR.val (out.ritzv i)| ≤ V)
    (hD : ∀ i j, i < cfg.nev + cfg.nex → j < cfg.nev + cfg.nex → |FR.val (out.ritzv i) - FR.val (out.ritzv j)| ≤ 2 * D)
    (m : ℕ) (hm : m = cfg.nev ∨ m = cfg.nev + cfg.nex) :
    let n := cfg.nev + cfg.nex
    let τ := tau n ε δ (gam F.u d')
    let ν := nu FR.u μ e
    let ρ := (Real.sqrt (∑ i ∈ range m, FR.val (out.resid i) ^ 2) +
      Real.sqrt m * ((1 + ν) * (1 + τ) * slack F.u (d + e) out.iterations (frob (valM F s.g.H)) C V)) / (1 - ν)
    2 * τ + 2 * τ * (1 + τ) * n < 1 →
    StandForDifferent (valM F s.g.H) (range m) (fun i => FR.val (out.ritzv i)) (distB τ m ρ D) := by
  intro n τ ν ρ hpos
  obtain ⟨σ, hσ, -, hr⟩ := C73_residual_mgpu_partial hacc hμ hY hres hE P hP hkeep cfg hN hsz hmax ritzv0 resid0 s hH out h
    hsym hit hC
  have hn : NearOrtho τ n fun j => valV F (out.be.1.g.C j) := by
    have h1 := solve_sim (traced_sim (ggOps T E)) P cfg ritzv0 resid0 (be := (s, [])) (be' := s) rfl
    rw [h] at h1
    cases hw : solve P (ggOps T E) cfg ritzv0 resid0 s with
    | error e => rw [hw] at h1; cases h1
    | ok o =>
      rw [hw] at h1
      cases h1 with
      | ok h1 =>
        have e : out.be.1 = o.be := h1.be
        rw [e]
        exact C84_orthonormal_mgpu_partial hcop hA hε hδ hE P hP cfg hN hsz hmax ritzv0 resid0 s o hw hsym
          (by rw [← h1.iterations]; exact hit) hq
  have hC0 : 0 ≤ C := by
    obtain ⟨ys, hy1, hy2⟩ := shiftsAt_path (C57_call_protocol hP.permutes ritzv0 resid0 s out h hsym)
    cases ys with
    | nil => simp at hy1; omega
    | cons y ys => exact (abs_nonneg _).trans (hC (-y) (by rw [hy2]; simp [pairsOf]))
  have hν : 0 ≤ nu FR.u μ e := by
    have := FR.u_nonneg
    have h1 : 1 ≤ (1 + FR.u) ^ (e + 1) := one_le_pow₀ (by linarith)
    unfold nu
    nlinarith
  have hn' := hn.comp (σ := σ) σ.injective fun i hi => by
    by_cases hlt : i < cfg.nev
    · have := (hσ.mem (Nat.zero_le _) hlt).2
      omega
    · rw [hσ i (by omega)]; exact hi
  exact standFor_run (vals := fun i => FR.val (out.ritzv i)) (resid := fun i => FR.val (out.resid i)) hH hn'
    (tau_nonneg hε hδ F.u_nonneg) F.u_nonneg hC0 hpos hν hν1 (by omega) (by omega) hσ hr hV hD


/-- **C90 in floating-point arithmetic**, multi-GPU backend (partial), reductions that give the same bits on
every communicator: as `C90_rounded_partial`. -/
theorem C90_rounded_mgpu_partial (hcop : Copies E) (hY : IgnoresTarget E) (hres : SameResidual E)
    (hA : OrthoPar F r E.toDEnv E.nevex d' δ) (hε : 0 ≤ ε) (hδ : 0 ≤ δ)
    (hacc : AccuratePar F FR T E.toDEnv d e μ) (hμ : 0 ≤ μ) (hν1 : nu FR.u μ e < 1)
    (hE : Ascends E.toDEnv) (P : Plat R) (hP : SortsIndices P) (hkeep : SortKeepsSorted P)
    (cfg : Config R) (hN : cfg.N = N) (hsz : cfg.nev + cfg.nex = E.nevex) (hmax : Even cfg.maxDeg)
    (ritzv0 resid0 : ℕ → R) (s : GG K R r c) (hH : (valM F s.g.H).IsHermitian)
    (out : Outcome R (GG K R r c × List (Call R)))
    (h : solve P (traced (ggOps T E)) cfg ritzv0 resid0 (s, []) = .ok out)
    (hsym : cfg.symCheck = true → symCheckG T E.toDEnv s.g.H = true) (hit : 0 < out.iterations)
    (hq : QrAvoids P (ggOps T E) cfg ritzv0 resid0 s fun k x t => InaccurateDev T E F ε k x t.g.C)
    {C V D : ℝ} (hC : ∀ x ∈ shiftsOf out.be.2, |FR.val x| ≤ C)
    (hV : ∀ i, i < cfg.nev + cfg.nex → |FR.val (out.ritzv i)| ≤ V)
    (hD : ∀ i j, i < cfg.nev + cfg.nex → j < cfg.nev + cfg.nex → |FR.val (out.ritzv i) - FR.val (out.ritzv j)| ≤ 2 * D)
    (m : ℕ) (hm : m = cfg.nev ∨ m = cfg.nev + cfg.nex) :
    let n := cfg.nev + cfg.nex
    let τ := tau n ε δ (gam F.u d')
    let ν := nu FR.u μ e
    let ρ := (Real.sqrt (∑ i ∈ range m, FR.val (out.resid i) ^ 2) +
      Real.sqrt m * ((1 + ν) * (1 + τ) * slack F.u (d + e) out.iterations (frob (valM F s.g.H)) C V)) / (1 - ν)
    2 * τ + 2 * τ * (1 + τ) * n < 1 →
    VariationalUpTo (valM F s.g.H) m (fun i => FR.val (out.ritzv i)) (distB τ m ρ D) := fun hpos =>
  variational_of_standFor (C85_rounded_mgpu_partial hcop hY hres hA hε hδ hacc hμ hν1 hE P hP hkeep cfg hN hsz hmax ritzv0 resid0 s hH
    out h hsym hit hq hC hV hD m hm hpos)


/-- **C91 in floating-point arithmetic**, multi-GPU backend (partial: as `C91_rounded_partial`, reductions that
give the same bits on every communicator; value `i` belongs to column `σ i`). -/
theorem C91_rounded_mgpu_partial (hA : AccuratePar F FR T E.toDEnv d e μ) (hμ : 0 ≤ μ) (hν1 : nu FR.u μ e < 1)
    (hY : IgnoresTarget E)
    (hres : SameResidual E) (hE : Ascends E.toDEnv) (P : Plat R) (hP : SortsIndices P) (hkeep : SortKeepsSorted P)
    (cfg : Config R) (hN : cfg.N = N) (hsz : cfg.nev + cfg.nex = E.nevex) (hmax : Even cfg.maxDeg)
    (ritzv0 resid0 : ℕ → R) (s : GG K R r c) (hH : (valM F s.g.H).IsHermitian)
    (out : Outcome R (GG K R r c × List (Call R)))
    (h : solve P (traced (ggOps T E)) cfg ritzv0 resid0 (s, []) = .ok out)
    (hsym : cfg.symCheck = true → symCheckG T E.toDEnv s.g.H = true) (hit : 0 < out.iterations)
    {C : ℝ} (hC : ∀ x ∈ shiftsOf out.be.2, |FR.val x| ≤ C) :
    ∃ σ : Equiv.Perm ℕ, PermOn 0 cfg.nev σ ∧ (out.iterations = 1 → σ = 1) ∧ ∀ i, i < cfg.nev + cfg.nex →
      let x := FR.val (out.ritzv i)
      let v := valV F (out.be.1.g.C (σ i))
      let ν := nu FR.u μ e
      NearEigenvector (valM F s.g.H) x v ((FR.val (out.resid (σ i)) +
        (1 + ν) * (slack F.u (d + e) out.iterations (frob (valM F s.g.H)) C x * Verif.nrm2 v)) / (1 - ν)) := by
  obtain ⟨σ, hσ, hσ1, hm⟩ := C73_residual_mgpu_partial hA hμ hY hres hE P hP hkeep cfg hN hsz hmax ritzv0 resid0 s hH out h hsym
    hit hC
  exact ⟨σ, hσ, hσ1, fun i hi => nearEigenvector_of_computed hH hν1 (hm i hi)⟩


end

/-! ### A run -/

namespace Four
open Par.Stuck (rowL colL)
open Par.Four (cfg2)

/-- The environment of `Par.Four.envQ` on devices, in all setups. -/
noncomputable def envQ (aware scalapack copyDone : Bool) : GEnv (Fp 53) (Fp 53) :=
  { Par.Four.envQ with
    scalapack := scalapack
    aware := aware
    copyDone := copyDone
    residual := fun x b b2 => Par.Four.kern.normp2 (Par.Four.kern.axpy (Par.Four.kern.ofBase (-x)) b2 b) }

variable (aware scalapack copyDone : Bool)

theorem orthoParG : OrthoPar (Fp.fl 53) rowL (envQ aware scalapack copyDone).toDEnv (envQ aware scalapack copyDone).nevex
    3 0 := ⟨Par.Four.orthoPar.back, Par.Four.orthoPar.heevd⟩

theorem accurateParG : AccuratePar (Fp.fl 53) (Fp.fl 53) Par.Four.red (envQ aware scalapack copyDone).toDEnv 3 3
    ((1 / 2) ^ 53) := by
  obtain ⟨h1, h2, h3, h4, h5, h6, h7, h8, h9, h10⟩ := Par.Four.accurateParQ
  exact ⟨h1, h2, h3, h4, h5, h6, h7, h8, h9, h10⟩

theorem qr_okG (X : ℕ → Fin 4 → Fp 53) : QrOf ((1 / 2) ^ 40) (envQ aware scalapack copyDone).nevex
    (fun j => valV (Fp.fl 53) (X j))
    fun j => valV (Fp.fl 53) ((distArith Par.Four.red (envQ aware scalapack copyDone).toDEnv).hhQR X j) :=
  Par.Four.qr_ok X

theorem defined {S : Type} (ops : Chase (Fp 53) S) (be : S) : ∃ out, solve Par.Stuck.plat ops cfg2 Par.Stuck.val0
    (fun _ => 0) be = .ok out ∧ 0 < out.iterations := by
  obtain ⟨out, h1, h2⟩ := C51_approx_solve_defined Par.Stuck.plat ops cfg2 rfl (by decide) (by decide)
    (by decide) (by decide) (by decide) (by decide) (by decide) (by intro h; cases h) Par.Stuck.val0 (fun _ => 0) be
  exact ⟨out, h1, h2 (by intro h; cases h) (by decide)⟩

/-- Non-vacuity of the theorems on orthonormality: double precision on a grid of two times three processes, two vectors,
a Householder QR with error `2^-40`, staged or with ScaLAPACK. -/
example (hs : aware = true → scalapack = true) :
    Copies (envQ aware scalapack copyDone) ∧ ((envQ aware scalapack copyDone).aware = true →
      (envQ aware scalapack copyDone).scalapack = true) ∧
    OrthoPar (Fp.fl 53) rowL (envQ aware scalapack copyDone).toDEnv (envQ aware scalapack copyDone).nevex 3 0 ∧
    Ascends (envQ aware scalapack copyDone).toDEnv ∧
    cholDisable (envQ aware scalapack copyDone).doCholQR (envQ aware scalapack copyDone).envDisable = 1 ∧
    (∀ X, QrOf ((1 / 2) ^ 40) (envQ aware scalapack copyDone).nevex (fun j => valV (Fp.fl 53) (X j))
      fun j => valV (Fp.fl 53) ((distArith Par.Four.red (envQ aware scalapack copyDone).toDEnv).hhQR X j)) ∧
    AccuratePar (Fp.fl 53) (Fp.fl 53) Par.Four.red (envQ aware scalapack copyDone).toDEnv 3 3 ((1 / 2) ^ 53) ∧
    IgnoresTarget (envQ aware scalapack copyDone) ∧ SameResidual (envQ aware scalapack copyDone) ∧
    nu (Fp.fl 53).u ((1 / 2) ^ 53) 3 ≤ 1 ∧
    SortsIndices Par.Stuck.plat ∧ SortKeepsSorted Par.Stuck.plat ∧ cfg2.N = 4 ∧
    cfg2.nev = (envQ aware scalapack copyDone).nev ∧ cfg2.nev + cfg2.nex = (envQ aware scalapack copyDone).nevex ∧
    Even cfg2.maxDeg ∧ (valM (Fp.fl 53) Two.start.g.H).IsHermitian ∧ cfg2.symCheck = false ∧
    (∃ out, solve Par.Stuck.plat (ggOps Par.Four.red (envQ aware scalapack copyDone)) cfg2 Par.Stuck.val0 (fun _ => 0)
      Two.start = .ok out ∧ 0 < out.iterations) ∧
    (∃ out, solve Par.Stuck.plat (traced (ggOps Par.Four.red (envQ aware scalapack copyDone))) cfg2 Par.Stuck.val0
      (fun _ => 0) (Two.start, []) = .ok out ∧ 0 < out.iterations) ∧
    QrAvoids Par.Stuck.plat (ggOps Par.Four.red (envQ aware scalapack copyDone)) cfg2 Par.Stuck.val0 (fun _ => 0) Two.start
      (fun k x t => InaccurateDev Par.Four.red (envQ aware scalapack copyDone) (Fp.fl 53) ((1 / 2) ^ 40) k x t.g.C) ∧
    RunsOk rowL colL (envQ aware scalapack copyDone).cRuns ∧ RunsOk colL rowL (envQ aware scalapack copyDone).bRuns ∧
    (∃ n u p o own, Runs (fun p : Pos rowL colL => solveProg Par.Four.red.const (envQ aware scalapack copyDone)
      Par.Stuck.plat cfg2 Par.Stuck.val0 (fun _ => 0) p (Two.start.part p)) n u ∧ Final u ∧
      u p = .ret (.ok o, own) ∧ 0 < o.iterations) ∧
    tau (cfg2.nev + cfg2.nex) ((1 / 2) ^ 40) 0 (gam (Fp.fl 53).u 3) < 1 := by
  refine ⟨fun _ => Or.inr rfl, hs, orthoParG _ _ _, fun b M i j h => Par.Four.ascends b M i j h, rfl, qr_okG _ _ _,
    accurateParG _ _ _, fun _ _ _ _ => rfl, fun _ _ _ => rfl, ?_, Par.Four.plat_sorts, Par.Four.plat_keeps, rfl, rfl, rfl,
    by decide, Par.Four.hermitian, rfl, defined _ _, defined _ _,
    householder_avoidsDev rfl hs (qr_okG _ _ _) (fun s : GG (Fp 53) (Fp 53) rowL colL => s.g.C) _ _ _ _ _ _,
    Par.Stuck.envRuns.1, Par.Stuck.envRuns.2, ?_, tau_small⟩
  · show (1 + (1 / 2 : ℝ) ^ 53) * (1 + (1 / 2) ^ 53) ^ 4 - 1 ≤ 1
    norm_num
  · obtain ⟨out, h1, h2⟩ := defined (ggOps Par.Four.red (envQ aware scalapack copyDone)) Two.start
    obtain ⟨n, hn⟩ := prog_gives Par.Four.red (envQ aware scalapack copyDone) Par.Stuck.envRuns.1 Par.Stuck.envRuns.2
      (solveT Par.Stuck.plat cfg2 Par.Stuck.val0 fun _ => 0) Two.start
    have he := C77_mgpu_outcome_partial (E := envQ aware scalapack copyDone) Par.Stuck.plat cfg2
      Par.Stuck.val0 (fun _ => 0) Par.Stuck.envRuns.1 Par.Stuck.envRuns.2 Par.Four.red Two.start hn (fun p => ⟨_, rfl⟩)
      ((0 : Fin 2), (0 : Fin 3))
    rw [h1] at he
    exact ⟨n, _, _, _, _, hn, fun p => ⟨_, rfl⟩, he, h2⟩

theorem small : 2 * tau 2 ((1 / 2) ^ 40) 0 (gam ((1 / 2) ^ 53) 3) + 2 * tau 2 ((1 / 2) ^ 40) 0 (gam ((1 / 2) ^ 53) 3) *
    (1 + tau 2 ((1 / 2) ^ 40) 0 (gam ((1 / 2) ^ 53) 3)) * ((2 : ℕ) : ℝ) < 1 := by
  have ht := tau_tiny
  have h0 : 0 ≤ tau 2 ((1 / 2) ^ 40) 0 (gam ((1 / 2) ^ 53) 3) := tau_nonneg (by positivity) le_rfl (by positivity)
  generalize tau 2 ((1 / 2) ^ 40) 0 (gam ((1 / 2) ^ 53) 3) = x at *
  push_cast
  nlinarith

theorem nu_small : nu (Fp.fl 53).u ((1 / 2) ^ 53) 3 < 1 := by
  show (1 + (1 / 2 : ℝ) ^ 53) * (1 + (1 / 2) ^ 53) ^ 4 - 1 < 1
  norm_num

theorem avoidsG (hs : aware = true → scalapack = true) :
    QrAvoids Par.Stuck.plat (ggOps Par.Four.red (envQ aware scalapack copyDone)) cfg2 Par.Stuck.val0 (fun _ => 0) Two.start
      fun k x t => InaccurateDev Par.Four.red (envQ aware scalapack copyDone) (Fp.fl 53) ((1 / 2) ^ 40) k x t.g.C :=
  householder_avoidsDev rfl hs (qr_okG _ _ _) (fun s : GG (Fp 53) (Fp 53) rowL colL => s.g.C) _ _ _ _ _ _

/-- Non-vacuity of `C85_rounded_mgpu_partial`: the same runs. -/
example (hs : aware = true → scalapack = true) :
    ∃ (out : Outcome (Fp 53) (GG (Fp 53) (Fp 53) rowL colL × List (Call (Fp 53)))) (C V D : ℝ),
    solve Par.Stuck.plat (traced (ggOps Par.Four.red (envQ aware scalapack copyDone))) cfg2 Par.Stuck.val0 (fun _ => 0)
      (Two.start, []) = .ok out ∧
    0 < out.iterations ∧ (∀ x ∈ shiftsOf out.be.2, |(Fp.fl 53).val x| ≤ C) ∧
    (∀ i, i < 2 → |(Fp.fl 53).val (out.ritzv i)| ≤ V) ∧
    (let τ := tau 2 ((1 / 2) ^ 40) 0 (gam (Fp.fl 53).u 3)
     let ν := nu (Fp.fl 53).u ((1 / 2) ^ 53) 3
     let ρ := (Real.sqrt (∑ i ∈ range 2, (Fp.fl 53).val (out.resid i) ^ 2) + Real.sqrt (2 : ℕ) *
       ((1 + ν) * (1 + τ) * slack (Fp.fl 53).u (3 + 3) out.iterations (frob (valM (Fp.fl 53) Two.start.g.H)) C V)) / (1 - ν)
     StandForDifferent (valM (Fp.fl 53) Two.start.g.H) (range 2) (fun i => (Fp.fl 53).val (out.ritzv i)) (distB τ 2 ρ D)) := by
  obtain ⟨out, h1, hit⟩ := defined (traced (ggOps Par.Four.red (envQ aware scalapack copyDone))) (Two.start, [])
  obtain ⟨C, V, D, hC, hV, hD⟩ := exists_bounds ((shiftsOf out.be.2).map (Fp.fl 53).val) (fun i => (Fp.fl 53).val (out.ritzv i)) 2
  have hC' : ∀ c ∈ shiftsOf out.be.2, |(Fp.fl 53).val c| ≤ C := fun c hc => hC _ (List.mem_map_of_mem hc)
  exact ⟨out, C, V, D, h1, hit, hC', hV,
    C85_rounded_mgpu_partial (fun _ => Or.inr rfl) (fun _ _ _ _ => rfl) (fun _ _ _ => rfl)
      (orthoParG aware scalapack copyDone) (by positivity) le_rfl (accurateParG aware scalapack copyDone) (by positivity)
      nu_small (fun b M i j h => Par.Four.ascends b M i j h) Par.Stuck.plat Par.Four.plat_sorts Par.Four.plat_keeps cfg2 rfl
      rfl (by decide) _ _ _ Par.Four.hermitian out h1 (by intro h; cases h) hit (avoidsG _ _ _ hs) hC' hV hD 2 (Or.inr rfl)
      small⟩

/-- Non-vacuity of `C90_rounded_mgpu_partial`: the same runs. -/
example (hs : aware = true → scalapack = true) :
    ∃ (out : Outcome (Fp 53) (GG (Fp 53) (Fp 53) rowL colL × List (Call (Fp 53)))) (C V D : ℝ),
    solve Par.Stuck.plat (traced (ggOps Par.Four.red (envQ aware scalapack copyDone))) cfg2 Par.Stuck.val0 (fun _ => 0)
      (Two.start, []) = .ok out ∧
    0 < out.iterations ∧ (∀ x ∈ shiftsOf out.be.2, |(Fp.fl 53).val x| ≤ C) ∧
    (∀ i, i < 2 → |(Fp.fl 53).val (out.ritzv i)| ≤ V) ∧
    (let τ := tau 2 ((1 / 2) ^ 40) 0 (gam (Fp.fl 53).u 3)
     let ν := nu (Fp.fl 53).u ((1 / 2) ^ 53) 3
     let ρ := (Real.sqrt (∑ i ∈ range 2, (Fp.fl 53).val (out.resid i) ^ 2) + Real.sqrt (2 : ℕ) *
       ((1 + ν) * (1 + τ) * slack (Fp.fl 53).u (3 + 3) out.iterations (frob (valM (Fp.fl 53) Two.start.g.H)) C V)) / (1 - ν)
     VariationalUpTo (valM (Fp.fl 53) Two.start.g.H) 2 (fun i => (Fp.fl 53).val (out.ritzv i)) (distB τ 2 ρ D)) := by
  obtain ⟨out, h1, hit⟩ := defined (traced (ggOps Par.Four.red (envQ aware scalapack copyDone))) (Two.start, [])
  obtain ⟨C, V, D, hC, hV, hD⟩ := exists_bounds ((shiftsOf out.be.2).map (Fp.fl 53).val) (fun i => (Fp.fl 53).val (out.ritzv i)) 2
  have hC' : ∀ c ∈ shiftsOf out.be.2, |(Fp.fl 53).val c| ≤ C := fun c hc => hC _ (List.mem_map_of_mem hc)
  exact ⟨out, C, V, D, h1, hit, hC', hV,
    C90_rounded_mgpu_partial (fun _ => Or.inr rfl) (fun _ _ _ _ => rfl) (fun _ _ _ => rfl)
      (orthoParG aware scalapack copyDone) (by positivity) le_rfl (accurateParG aware scalapack copyDone) (by positivity)
      nu_small (fun b M i j h => Par.Four.ascends b M i j h) Par.Stuck.plat Par.Four.plat_sorts Par.Four.plat_keeps cfg2 rfl
      rfl (by decide) _ _ _ Par.Four.hermitian out h1 (by intro h; cases h) hit (avoidsG _ _ _ hs) hC' hV hD 2 (Or.inr rfl)
      small⟩

/-- Non-vacuity of `C91_rounded_mgpu_partial`: the same runs, in all setups. -/
example : ∃ (out : Outcome (Fp 53) (GG (Fp 53) (Fp 53) rowL colL × List (Call (Fp 53)))) (C : ℝ) (σ : Equiv.Perm ℕ),
    solve Par.Stuck.plat (traced (ggOps Par.Four.red (envQ aware scalapack copyDone))) cfg2 Par.Stuck.val0 (fun _ => 0)
      (Two.start, []) = .ok out ∧
    0 < out.iterations ∧ (∀ x ∈ shiftsOf out.be.2, |(Fp.fl 53).val x| ≤ C) ∧
    ∀ i, i < 2 →
      let ν := nu (Fp.fl 53).u ((1 / 2) ^ 53) 3
      NearEigenvector (valM (Fp.fl 53) Two.start.g.H) ((Fp.fl 53).val (out.ritzv i))
        (valV (Fp.fl 53) (out.be.1.g.C (σ i))) (((Fp.fl 53).val (out.resid (σ i)) + (1 + ν) *
          (slack (Fp.fl 53).u (3 + 3) out.iterations (frob (valM (Fp.fl 53) Two.start.g.H)) C
            ((Fp.fl 53).val (out.ritzv i)) * Verif.nrm2 (valV (Fp.fl 53) (out.be.1.g.C (σ i))))) / (1 - ν)) := by
  obtain ⟨out, h1, hit⟩ := defined (traced (ggOps Par.Four.red (envQ aware scalapack copyDone))) (Two.start, [])
  obtain ⟨C, -, -, hC, -⟩ := exists_bounds ((shiftsOf out.be.2).map (Fp.fl 53).val) (fun i => (Fp.fl 53).val (out.ritzv i)) 2
  have hC' : ∀ c ∈ shiftsOf out.be.2, |(Fp.fl 53).val c| ≤ C := fun c hc => hC _ (List.mem_map_of_mem hc)
  obtain ⟨σ, -, -, hσ⟩ := C91_rounded_mgpu_partial (accurateParG aware scalapack copyDone) (by positivity) nu_small
    (fun _ _ _ _ => rfl) (fun _ _ _ => rfl) (fun b M i j h => Par.Four.ascends b M i j h) Par.Stuck.plat Par.Four.plat_sorts
    Par.Four.plat_keeps cfg2 rfl rfl (by decide) _ _ _ Par.Four.hermitian out h1 (by intro h; cases h) hit hC'
  exact ⟨out, C, σ, h1, hit, hC', hσ⟩

end Four
end ParGpu
end Rounded
end Verif
