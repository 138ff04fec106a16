/-
C84: after a solve the vectors in the buffer are orthonormal up to rounding errors, with a bound that does not grow with
the number of rounds.
-/
import Verif.Rounded.Ortho
import Verif.Rounded.Props
import Verif.Rounded.ParResidualProps
import Verif.Backend.LapackExists

set_option linter.unusedSectionVars false

namespace Verif
namespace Rounded

open Matrix Finset

section
variable {K 𝕜 R : Type*} [RCLike 𝕜] {N : ℕ} {F : Fl K 𝕜} {valR : R → ℝ} {A : Arith K R N} {E : Params} {d d' : ℕ}
  {ε δ ν : ℝ}
variable [Add R] [Sub R] [Mul R] [Div R] [Neg R] [Zero R] [One R] [NatCast R] [LT R] [DecidableLT R]

/-- A run of the backend is a run of the backend that is watched. -/
theorem watched {S : Type*} {ops : Chase R S} {bad : ℕ → R → S → Prop} {P : Plat R} {cfg : Config R} {r0 s0 : ℕ → R} {s : S}
    {out : Outcome R S} (h : solve P ops cfg r0 s0 s = .ok out) (hq : QrAvoids P ops cfg r0 s0 s bad) :
    ∃ o, solve P (watch bad ops) cfg r0 s0 (s, False) = .ok o ∧ ¬ o.be.2 ∧ o.be.1 = out.be ∧
      o.iterations = out.iterations := by
  have h1 := solve_sim (watch_sim bad ops) P cfg r0 s0 (be := (s, False)) (be' := s) rfl
  rw [h] at h1
  cases hw : solve P (watch bad ops) cfg r0 s0 (s, False) with
  | error e => rw [hw] at h1; cases h1
  | ok o =>
    rw [hw] at h1
    cases h1 with
    | ok h1 => exact ⟨o, rfl, hq o hw, h1.be, h1.iterations⟩

/-- **C84**, single-process CPU backend (partial).  Floating-point arithmetic with unit roundoff `u`; the product with
the small matrix has depth `d`, the eigenvectors of the small matrix are within `δ` of orthonormal ones, and every
call of `QR` in the run gave an orthonormal factor with error at most `ε`.  After a solve with at least one round, the
norms of the `nev + nex` vectors differ from one by at most
`τ = (γ (1 + ε) + ε) (1 + δ) √(nev + nex) + δ` with `γ = (1 + u)^d - 1`, and the inner products of two different ones
are at most `2 τ (1 + τ)`, whatever the number of rounds and the order in which the vectors were locked. -/
theorem C84_orthonormal_partial (hA : OrthoKernels F A E.nevex d δ) (hε : 0 ≤ ε) (hδ : 0 ≤ δ) (P : Plat R)
    (hP : PermutesIndices P) (cfg : Config R) (hN : cfg.N = N) (hsz : cfg.nev + cfg.nex = E.nevex)
    (hmax : Even cfg.maxDeg) (ritzv0 resid0 : ℕ → R) (s : Seq.St K N) (out : Outcome R (Seq.St K N))
    (h : solve P (ops A E) cfg ritzv0 resid0 s = .ok out)
    (hsym : cfg.symCheck = true → A.symCheck s.H = true) (hit : 0 < out.iterations)
    (hq : QrAvoids P (ops A E) cfg ritzv0 resid0 s fun k c t => Inaccurate F A E ε k c t.C) :
    NearOrtho (tau (cfg.nev + cfg.nex) ε δ (gam F.u d)) (cfg.nev + cfg.nex) fun j => valV F (out.be.C j) := by
  obtain ⟨o, ho, hm, hbe, hi⟩ := watched h hq
  obtain ⟨t, σ, ht, hσ, e⟩ := columns_at_end hP (by rw [hN, hsz]; exact near_bookkeeping hA hε hδ) hmax
    (be := (s, False)) trivial hsym ho (by omega)
  rw [hsz] at hσ ⊢
  have e1 : ∀ j, o.be.1.C j = t.1.C (σ j) := fun j => congrArg Prod.fst (congrFun e j)
  have e2 : (E.nevex = E.nevex ∧ o.be.2) = (σ E.nevex = E.nevex ∧ t.2) := congrArg Prod.snd (congrFun e E.nevex)
  rw [hσ E.nevex (by omega)] at e2
  simp only [true_and] at e2
  have key := (ht.2 (by rw [← e2]; exact hm)).comp σ.injective fun i hi => (hσ.mem (Nat.zero_le _) hi).2
  refine key.congr fun j _ => ?_
  rw [← hbe, e1]
  rfl

/-- With Householder QR the condition on the calls is one on the kernel: no call is inaccurate. -/
theorem householder_avoids (hd : cholDisable E.doCholQR E.envDisable = 1)
    (hq : ∀ X, QrOf ε E.nevex (fun j => valV F (X j)) fun j => valV F (A.hhQR X j)) {S : Type*} (C : S → ℕ → Fin N → K)
    (ops : Chase R S) (P : Plat R) (cfg : Config R) (r0 s0 : ℕ → R) (s : S) :
    QrAvoids P ops cfg r0 s0 s fun k c t => Inaccurate F A E ε k c (C t) := by
  have key : ∀ k c X, ¬ Inaccurate F A E ε k c X := by
    intro k c X h
    apply h
    have e : qrCols A E c X = A.hhQR X := if_pos hd
    rw [e]
    exact hq X
  exact QrAvoids.of_est (bad := fun k c t => Inaccurate F A E ε k c (C t)) (fun _ => key _ _ _)
    (fun _ _ _ _ _ _ _ _ => key _ _ _) ops cfg r0 s0 s

/-- **C84** with Householder QR (the environment variable `CHASE_DISABLE_CHOLQR` is 1, or Cholesky QR is switched off),
single-process CPU backend.  If Householder QR has error at most `ε` on every input, the vectors are orthonormal up to
`τ` after every solve with at least one round. -/
theorem C84_householder (hA : OrthoKernels F A E.nevex d δ) (hε : 0 ≤ ε) (hδ : 0 ≤ δ)
    (hd : cholDisable E.doCholQR E.envDisable = 1)
    (hq : ∀ X, QrOf ε E.nevex (fun j => valV F (X j)) fun j => valV F (A.hhQR X j)) (P : Plat R)
    (hP : PermutesIndices P) (cfg : Config R) (hN : cfg.N = N) (hsz : cfg.nev + cfg.nex = E.nevex)
    (hmax : Even cfg.maxDeg) (ritzv0 resid0 : ℕ → R) (s : Seq.St K N) (out : Outcome R (Seq.St K N))
    (h : solve P (ops A E) cfg ritzv0 resid0 s = .ok out)
    (hsym : cfg.symCheck = true → A.symCheck s.H = true) (hit : 0 < out.iterations) :
    NearOrtho (tau (cfg.nev + cfg.nex) ε δ (gam F.u d)) (cfg.nev + cfg.nex) fun j => valV F (out.be.C j) :=
  C84_orthonormal_partial hA hε hδ P hP cfg hN hsz hmax ritzv0 resid0 s out h hsym hit
    (householder_avoids hd hq _ _ _ _ _ _ _)

theorem slack_nonneg {u : ℝ} {d n : ℕ} {f C x : ℝ} (hu : 0 ≤ u) (hC : 0 ≤ C) (hf : 0 ≤ f) : 0 ≤ slack u d n f C x := by
  have hD : 0 ≤ gam u (2 * n) * (f + C) := mul_nonneg (gam_nonneg hu _) (add_nonneg hf hC)
  exact add_nonneg (mul_nonneg (gam_nonneg hu _) (add_nonneg (add_nonneg hf hD) (abs_nonneg _))) hD

/-- From a bound relative to the norm of the vector to an absolute one. -/
theorem absolute {v : Fin N → 𝕜} {Eig : ℝ → Prop} {x τ ν res sl : ℝ} (h1 : |Verif.nrm2 v - 1| ≤ τ) (hτ : τ < 1)
    (hν : 0 ≤ ν) (hν1 : ν ≤ 1) (hs : 0 ≤ sl)
    (hm : v ≠ 0 → ∃ lam, Eig lam ∧ (1 - ν) * (|lam - x| * Verif.nrm2 v) ≤ res + (1 + ν) * (sl * Verif.nrm2 v)) :
    ∃ lam, Eig lam ∧ (1 - ν) * (1 - τ) * |lam - x| ≤ res + (1 + ν) * (1 + τ) * sl := by
  have h1 := abs_le.mp h1
  have hpos : 0 < Verif.nrm2 v := by linarith
  have hv0 : v ≠ 0 := by
    rintro h0
    rw [h0, nrm2_eq_norm] at hpos
    simp at hpos
  obtain ⟨lam, h2, h3⟩ := hm hv0
  refine ⟨lam, h2, ?_⟩
  have h4 : (1 - ν) * (1 - τ) * |lam - x| ≤ (1 - ν) * (|lam - x| * Verif.nrm2 v) := by
    rw [mul_assoc]
    refine mul_le_mul_of_nonneg_left ?_ (by linarith)
    rw [mul_comm]
    exact mul_le_mul_of_nonneg_left (by linarith) (abs_nonneg _)
  have h5 : (1 + ν) * (sl * Verif.nrm2 v) ≤ (1 + ν) * (1 + τ) * sl := by
    rw [mul_assoc]
    refine mul_le_mul_of_nonneg_left ?_ (by linarith)
    rw [mul_comm]
    exact mul_le_mul_of_nonneg_right (by linarith) hs
  linarith

/-- **C84 with C73**, single-process CPU backend (partial): each returned value is close to an eigenvalue of the matrix
handed in, in absolute terms.  (In `C73_eigenvalue_partial` the bound is relative to the norm of the vector, and says
nothing if the vector is zero.) -/
theorem C84_eigenvalue_partial (hA : OrthoKernels F A E.nevex d δ) (hε : 0 ≤ ε) (hδ : 0 ≤ δ)
    (hacc : Accurate F valR A d' ν) (hν : 0 ≤ ν) (hν1 : ν ≤ 1) (P : Plat R)
    (hP : PermutesIndices P) (cfg : Config R) (hN : cfg.N = N) (hsz : cfg.nev + cfg.nex = E.nevex)
    (hmax : Even cfg.maxDeg) (ritzv0 resid0 : ℕ → R) (s : Seq.St K N) (hH : (valM F s.H).IsHermitian)
    (out : Outcome R (Seq.St K N × List (Call R)))
    (h : solve P (traced (ops A E)) cfg ritzv0 resid0 (s, []) = .ok out)
    (hsym : cfg.symCheck = true → A.symCheck s.H = true) (hit : 0 < out.iterations)
    (hq : QrAvoids P (ops A E) cfg ritzv0 resid0 s fun k c t => Inaccurate F A E ε k c t.C)
    (hτ : tau (cfg.nev + cfg.nex) ε δ (gam F.u d) < 1) {C : ℝ} (hC : ∀ c ∈ shiftsOf out.be.2, |valR c| ≤ C) :
    ∃ σ : Equiv.Perm ℕ, PermOn 0 cfg.nev σ ∧ ∀ i, i < cfg.nev + cfg.nex →
      let x := valR (out.ritzv i)
      let τ := tau (cfg.nev + cfg.nex) ε δ (gam F.u d)
      ∃ μ, IsEigenvalue (valM F s.H) μ ∧ (1 - ν) * (1 - τ) * |μ - x| ≤ valR (out.resid (σ i)) +
        (1 + ν) * (1 + τ) * slack F.u d' out.iterations (frob (valM F s.H)) C x := by
  obtain ⟨σ, hσ, hm⟩ := C73_eigenvalue_partial hacc hν hν1 P hP cfg hN hsz hmax ritzv0 resid0 s hH out h hsym hit hC
  have hn : NearOrtho (tau (cfg.nev + cfg.nex) ε δ (gam F.u d)) (cfg.nev + cfg.nex) fun j => valV F (out.be.1.C j) := by
    have h1 := solve_sim (traced_sim (ops A E)) P cfg ritzv0 resid0 (be := (s, [])) (be' := s) rfl
    rw [h] at h1
    cases hw : solve P (ops A E) cfg ritzv0 resid0 s with
    | error e => rw [hw] at h1; cases h1
    | ok o =>
      rw [hw] at h1
      cases h1 with
      | ok h1 =>
        have e : out.be.1 = o.be := h1.be
        rw [e]
        exact C84_orthonormal_partial hA hε hδ P hP cfg hN hsz hmax ritzv0 resid0 s o hw hsym
          (by rw [← h1.iterations]; exact hit) hq
  refine ⟨σ, hσ, fun i hi => ?_⟩
  have hs : 0 ≤ slack F.u d' out.iterations (frob (valM F s.H)) C (valR (out.ritzv i)) := by
    have hu := F.u_nonneg
    obtain ⟨ys, hy1, hy2, -⟩ := matrix_at_end P hP cfg ritzv0 resid0 s out h hsym
    have hC0 : 0 ≤ C := by
      cases ys with
      | nil => simp at hy1; omega
      | cons y ys => exact (abs_nonneg _).trans (hC (-y) (by rw [hy2]; simp [pairsOf]))
    exact slack_nonneg hu hC0 (frob_nonneg _)
  exact absolute (hn.1 i hi) hτ hν hν1 hs (hm i hi)

end

/-! ### The distributed backend -/

namespace Par
open Verif.Spmd
open Mpi (Layout GSt RunsOk scatter)
open Mpi.Spmd (Pos Own EndsWith)

section
variable {K R 𝕜 : Type} [RCLike 𝕜] [LinearOrder R] [Add R] [Sub R] [Mul R] [Div R] [Neg R] [Zero R] [One R] [NatCast R]
  {N : ℕ} {r c : Layout N} {T : Red1 K R r c} {E : DEnv K R} {F : Fl K 𝕜} {FR : Fl R ℝ} {d e d' : ℕ} {ε δ μ : ℝ}

/-- **C84**, distributed CPU backend (partial), reductions that give the same bits on every communicator: as
`C84_orthonormal_partial`, for the vectors held by the processes together. -/
theorem C84_orthonormal_mpi_partial (hA : OrthoPar F r E E.nevex d δ) (hε : 0 ≤ ε) (hδ : 0 ≤ δ) (hE : Ascends E)
    (P : Plat R) (hP : SortsIndices P) (cfg : Config R) (hN : cfg.N = N) (hsz : cfg.nev + cfg.nex = E.nevex)
    (hmax : Even cfg.maxDeg) (ritzv0 resid0 : ℕ → R) (g : GSt K N) (out : Outcome R (GSt K N))
    (h : solve P (gOps T E) cfg ritzv0 resid0 g = .ok out)
    (hsym : cfg.symCheck = true → symCheckG T E g.H = true) (hit : 0 < out.iterations)
    (hq : QrAvoids P (gOps T E) cfg ritzv0 resid0 g fun k x t => Inaccurate F (distArith T E) E.toParams ε k x t.C) :
    NearOrtho (tau (cfg.nev + cfg.nex) ε δ (gam F.u d)) (cfg.nev + cfg.nex) fun j => valV F (out.be.C j) := by
  obtain ⟨o, ho, hm, hbe, hi⟩ := watched h hq
  subst hN
  have hf := near_frame (T := T) (ε := ε) hA hε hδ
  have hasc : MakesAscending (watch (fun k x g => Inaccurate F (distArith T E) E.toParams ε k x g.C) (gOps T E))
      (fun p => gNl p.1) (nearPh (gPhases E) gCols gNl (valV F) E.nevex (tau E.nevex ε δ (gam F.u d)) ε) E.nevex :=
    fun s _ => gMakesAscending T E hE ⟨fun _ => True, fun _ => True, fun _ => True, fun _ => True⟩ s.1 trivial
  rw [← hsz] at hf
  rw [← hsz] at hasc
  obtain ⟨be0, st, -, -, -, ⟨t, ht, e⟩, -⟩ := C05_noSwap_partial P _ _ _ _ (fun _ _ => True) (fun _ _ _ => True) cfg hP hf
    (fun _ _ _ => rfl) hmax hasc (fun _ _ _ _ => trivial) (fun _ _ _ _ _ _ _ => trivial) ritzv0 resid0 (g, False) trivial o
    hsym ho (by omega)
  rw [hsz] at ht e
  rw [hsz]
  have e2 : (E.nevex = E.nevex ∧ o.be.2) = (E.nevex = E.nevex ∧ t.2) := congrArg Prod.snd (congrFun e E.nevex)
  simp only [true_and] at e2
  refine (ht.2 (by rw [← e2]; exact hm)).congr fun j _ => ?_
  rw [← hbe]
  exact congrArg (valV F) (congrArg Prod.fst (congrFun e j))

/-- **C84** with Householder QR, distributed CPU backend. -/
theorem C84_householder_mpi (hA : OrthoPar F r E E.nevex d δ) (hε : 0 ≤ ε) (hδ : 0 ≤ δ) (hE : Ascends E)
    (hd : cholDisable E.doCholQR E.envDisable = 1)
    (hq : ∀ X, QrOf ε E.nevex (fun j => valV F (X j)) fun j => valV F ((distArith T E).hhQR X j))
    (P : Plat R) (hP : SortsIndices P) (cfg : Config R) (hN : cfg.N = N) (hsz : cfg.nev + cfg.nex = E.nevex)
    (hmax : Even cfg.maxDeg) (ritzv0 resid0 : ℕ → R) (g : GSt K N) (out : Outcome R (GSt K N))
    (h : solve P (gOps T E) cfg ritzv0 resid0 g = .ok out)
    (hsym : cfg.symCheck = true → symCheckG T E g.H = true) (hit : 0 < out.iterations) :
    NearOrtho (tau (cfg.nev + cfg.nex) ε δ (gam F.u d)) (cfg.nev + cfg.nex) fun j => valV F (out.be.C j) :=
  C84_orthonormal_mpi_partial hA hε hδ hE P hP cfg hN hsz hmax ritzv0 resid0 g out h hsym hit
    (householder_avoids (E := E.toParams) hd hq (fun g : GSt K N => g.C) _ _ _ _ _ _)

/-- **C84 as seen by the processes**, Householder QR: in every complete schedule in which some process returns
successfully after at least one round, all processes do, with the same values, and their vectors are the parts of a
block that is orthonormal up to `τ`. -/
theorem C84_processes (hc : RunsOk r c E.cRuns) (hb : RunsOk c r E.bRuns) (hA : OrthoPar F r E E.nevex d δ)
    (hε : 0 ≤ ε) (hδ : 0 ≤ δ) (hE : Ascends E) (hd : cholDisable E.doCholQR E.envDisable = 1)
    (hq : ∀ X, QrOf ε E.nevex (fun j => valV F (X j)) fun j => valV F ((distArith T E).hhQR X j))
    (P : Plat R) (hP : SortsIndices P) (cfg : Config R) (hN : cfg.N = N) (hsz : cfg.nev + cfg.nex = E.nevex)
    (hmax : Even cfg.maxDeg) (ritzv0 resid0 : ℕ → R) (g : GSt K N)
    (hsym : cfg.symCheck = true → symCheckG T E g.H = true)
    {n : ℕ} {u : Conf fun p => Except Err (Outcome R Unit) × Own K r c p}
    (hr : Runs (fun p : Pos r c => solveProg T.const E P cfg ritzv0 resid0 p (scatter r c g p.1 p.2)) n u)
    (hu : Final u) {p : Pos r c} {o : Outcome R Unit} {own : Own K r c p} (ho : u p = .ret (.ok o, own))
    (hit : 0 < o.iterations) :
    ∃ V : ℕ → Fin N → K,
      (∀ q, ∃ own, u q = .ret (.ok o, own) ∧ ∀ j a, own.C j a = V j (r.glob q.1 a)) ∧
      NearOrtho (tau (cfg.nev + cfg.nex) ε δ (gam F.u d)) (cfg.nev + cfg.nex) fun j => valV F (V j) := by
  have hends := C77_outcome_partial P cfg ritzv0 resid0 hc hb T g hr hu
  generalize hx : solve P (gOps T E) cfg ritzv0 resid0 g = x at hends
  cases x with
  | error => obtain ⟨d, hd⟩ := hends p; rw [ho] at hd; cases hd
  | ok out =>
    have hp : u p = _ := hends p
    rw [ho] at hp
    have e1 : o = ⟨out.ritzv, out.resid, out.iterations, out.locked, ()⟩ := by
      injection hp with hp; injection hp with hp; injection hp
    subst e1
    exact ⟨out.be.C, fun q => ⟨_, hends q, fun j a => rfl⟩,
      C84_householder_mpi hA hε hδ hE hd hq P hP cfg hN hsz hmax ritzv0 resid0 g out hx hsym hit⟩

/-- **C84 with C73**, distributed CPU backend (partial): as `C84_eigenvalue_partial`. -/
theorem C84_eigenvalue_mpi_partial (hA : OrthoPar F r E E.nevex d' δ) (hε : 0 ≤ ε) (hδ : 0 ≤ δ)
    (hacc : AccuratePar F FR T E d e μ) (hμ : 0 ≤ μ) (hν1 : nu FR.u μ e ≤ 1)
    (hE : Ascends E) (P : Plat R) (hP : SortsIndices P) (hkeep : SortKeepsSorted P)
    (cfg : Config R) (hN : cfg.N = N) (hsz : cfg.nev + cfg.nex = E.nevex) (hmax : Even cfg.maxDeg)
    (ritzv0 resid0 : ℕ → R) (g : GSt K N) (hH : (valM F g.H).IsHermitian)
    (out : Outcome R (GSt K N × List (Call R)))
    (h : solve P (traced (gOps T E)) cfg ritzv0 resid0 (g, []) = .ok out)
    (hsym : cfg.symCheck = true → symCheckG T E g.H = true) (hit : 0 < out.iterations)
    (hq : QrAvoids P (gOps T E) cfg ritzv0 resid0 g fun k x t => Inaccurate F (distArith T E) E.toParams ε k x t.C)
    (hτ : tau (cfg.nev + cfg.nex) ε δ (gam F.u d') < 1) {C : ℝ} (hC : ∀ x ∈ shiftsOf out.be.2, |FR.val x| ≤ C) :
    ∃ σ : Equiv.Perm ℕ, PermOn 0 cfg.nev σ ∧ ∀ i, i < cfg.nev + cfg.nex →
      let x := FR.val (out.ritzv i)
      let ν := nu FR.u μ e
      let τ := tau (cfg.nev + cfg.nex) ε δ (gam F.u d')
      ∃ lam, IsEigenvalue (valM F g.H) lam ∧ (1 - ν) * (1 - τ) * |lam - x| ≤ FR.val (out.resid (σ i)) +
        (1 + ν) * (1 + τ) * slack F.u (d + e) out.iterations (frob (valM F g.H)) C x := by
  obtain ⟨σ, hσ, hm⟩ := C73_eigenvalue_mpi_partial hacc hμ hν1 hE P hP hkeep cfg hN hsz hmax ritzv0 resid0 g hH out h
    hsym hit hC
  have hn : NearOrtho (tau (cfg.nev + cfg.nex) ε δ (gam F.u d')) (cfg.nev + cfg.nex)
      fun j => valV F (out.be.1.C j) := by
    have h1 := solve_sim (traced_sim (gOps T E)) P cfg ritzv0 resid0 (be := (g, [])) (be' := g) rfl
    rw [h] at h1
    cases hw : solve P (gOps T E) cfg ritzv0 resid0 g with
    | error e => rw [hw] at h1; cases h1
    | ok o =>
      rw [hw] at h1
      cases h1 with
      | ok h1 =>
        have e : out.be.1 = o.be := h1.be
        rw [e]
        exact C84_orthonormal_mpi_partial hA hε hδ hE P hP cfg hN hsz hmax ritzv0 resid0 g o hw hsym
          (by rw [← h1.iterations]; exact hit) hq
  refine ⟨σ, hσ, fun i hi => ?_⟩
  have hi' : σ i < cfg.nev + cfg.nex := by
    by_cases hlt : i < cfg.nev
    · have := (hσ.mem (Nat.zero_le _) hlt).2
      omega
    · rw [hσ i (by omega)]; exact hi
  have hs : 0 ≤ slack F.u (d + e) out.iterations (frob (valM F g.H)) C (FR.val (out.ritzv i)) := by
    have hu := F.u_nonneg
    obtain ⟨ys, hy1, hy2, -⟩ := matrix_at_end T E P hP.permutes cfg ritzv0 resid0 g out h hsym
    have hC0 : 0 ≤ C := by
      cases ys with
      | nil => simp at hy1; omega
      | cons y ys => exact (abs_nonneg _).trans (hC (-y) (by rw [hy2]; simp [pairsOf]))
    exact slack_nonneg hu hC0 (frob_nonneg _)
  have hν : 0 ≤ nu FR.u μ e := by
    have := FR.u_nonneg
    have h1 : 1 ≤ (1 + FR.u) ^ (e + 1) := one_le_pow₀ (by linarith)
    unfold nu
    nlinarith
  exact absolute (hn.1 _ hi') hτ hν hν1 hs (hm i hi)

end
end Par

/-! ### Runs that meet the hypotheses -/

/-- A Householder QR with small error exists: the exact factor, with entries replaced by rational numbers nearby. -/
theorem exists_hhqr {p N n : ℕ} (hn : n ≤ N) {ε : ℝ} (hε : 0 < ε) (V : Matrix (Fin N) (Fin n) (Fp p)) :
    ∃ Y : Matrix (Fin N) (Fin n) (Fp p), ∀ X Z : ℕ → Fin N → Fp p, (∀ i (j : Fin n), X j i = V i j) →
      (∀ i (j : Fin n), Z j i = Y i j) → QrOf ε n (fun j => valV (Fp.fl p) (X j)) fun j => valV (Fp.fl p) (Z j) := by
  obtain ⟨Q, T, h1, h2⟩ := exists_qr (fun i j => (Fp.fl p).val (V i j)) hn
  have hη : 0 < ε / (N + 1) := by positivity
  choose q hq1 hq2 using fun (i : Fin N) (j : Fin n) => exists_rat_btwn (show Q i j < Q i j + ε / (N + 1) by linarith)
  refine ⟨fun i j => ⟨q i j⟩, fun X Z hX hZ => ⟨fun j i => if h : j < n then Q i ⟨j, h⟩ else 0, ?_, fun j hj => ⟨?_, ?_⟩⟩⟩
  · intro i j hi hj
    have := congrFun (congrFun h1 ⟨i, hi⟩) ⟨j, hj⟩
    rw [Matrix.mul_apply, Matrix.one_apply] at this
    simp only [Fin.mk.injEq] at this
    rw [← this]
    simp [dotc, hi, hj]
  · unfold Verif.nrm2
    refine Real.sqrt_le_iff.mpr ⟨hε.le, ?_⟩
    have hle : ∀ i : Fin N, ‖(valV (Fp.fl p) (Z j) - fun i => if h : j < n then Q i ⟨j, h⟩ else 0) i‖ ^ 2 ≤
        (ε / (N + 1)) ^ 2 := by
      intro i
      have e : (valV (Fp.fl p) (Z j) - fun i => if h : j < n then Q i ⟨j, h⟩ else 0) i = (q i ⟨j, hj⟩ : ℝ) - Q i ⟨j, hj⟩ := by
        show (Fp.fl p).val (Z j i) - (if h : j < n then Q i ⟨j, h⟩ else 0) = _
        rw [dif_pos hj, hZ i ⟨j, hj⟩]
        rfl
      rw [e, Real.norm_eq_abs, sq_abs]
      have a := hq1 i ⟨j, hj⟩
      have b := hq2 i ⟨j, hj⟩
      exact pow_le_pow_left₀ (by linarith) (by linarith) 2
    refine (Finset.sum_le_sum fun i _ => hle i).trans ?_
    rw [Finset.sum_const, Finset.card_univ, Fintype.card_fin, nsmul_eq_mul, div_pow]
    have hN : (0 : ℝ) ≤ N := Nat.cast_nonneg N
    rw [← mul_div_assoc, div_le_iff₀ (by positivity)]
    nlinarith [sq_nonneg ε, sq_nonneg (N : ℝ), mul_nonneg (sq_nonneg ε) hN, mul_nonneg (sq_nonneg ε) (sq_nonneg (N : ℝ))]
  · refine ⟨fun k => if h : k < n then triu T ⟨k, h⟩ ⟨j, hj⟩ else 0, ?_⟩
    have e : valV (Fp.fl p) (X j) - ∑ k ∈ range (j + 1), (if h : k < n then triu T ⟨k, h⟩ ⟨j, hj⟩ else 0) •
        (fun i : Fin N => if h : k < n then Q i ⟨k, h⟩ else 0) = 0 := by
      ext i
      have h3 := congrFun (congrFun h2 i) ⟨j, hj⟩
      rw [Matrix.mul_apply] at h3
      have h4 : valV (Fp.fl p) (X j) i = (Fp.fl p).val (V i ⟨j, hj⟩) := congrArg (Fp.fl p).val (hX i ⟨j, hj⟩)
      rw [Pi.sub_apply, h4, ← h3, Finset.sum_apply]
      have h5 : ∑ k : Fin n, Q i k * triu T k ⟨j, hj⟩ =
          ∑ k ∈ range n, if h : k < n then Q i ⟨k, h⟩ * triu T ⟨k, h⟩ ⟨j, hj⟩ else 0 := by
        rw [Finset.sum_range]
        exact Finset.sum_congr rfl fun k _ => by rw [dif_pos k.isLt]
      rw [h5, ← Finset.sum_subset (s₁ := range (j + 1)) (by intro k hk; rw [mem_range] at *; omega)]
      · rw [Pi.zero_apply, sub_eq_zero]
        refine Finset.sum_congr rfl fun k hk => ?_
        have hk' : k < n := by rw [mem_range] at hk; omega
        simp only [hk', dif_pos, Pi.smul_apply, smul_eq_mul, mul_comm]
      · intro k hk hk'
        rw [mem_range] at hk hk'
        rw [dif_pos hk]
        have : triu T ⟨k, hk⟩ ⟨j, hj⟩ = 0 := if_neg (by rw [Fin.le_def]; simp only; omega)
        rw [this, mul_zero]
    rw [e]
    have e0 : Verif.nrm2 (0 : Fin N → ℝ) = 0 := by simp [Verif.nrm2]
    rw [e0]
    exact mul_nonneg hε.le (Real.sqrt_nonneg _)

/-- A QR factorisation with error at most `2^-40`. -/
noncomputable def hhqr {m b : ℕ} (V : Matrix (Fin m) (Fin b) (Fp 53)) : Matrix (Fin m) (Fin b) (Fp 53) :=
  if h : b ≤ m then (exists_hhqr h (show (0 : ℝ) < (1 / 2) ^ 40 by positivity) V).choose else V

theorem hhqr_ok {m b : ℕ} (h : b ≤ m) (X : ℕ → Fin m → Fp 53) :
    QrOf ((1 / 2) ^ 40) b (fun j => valV (Fp.fl 53) (X j)) fun j => valV (Fp.fl 53) (setBlk 0 (hhqr (getBlk 0 b X)) X j) := by
  have key := (exists_hhqr h (show (0 : ℝ) < (1 / 2) ^ 40 by positivity) (getBlk 0 b X)).choose_spec
  refine key X _ (fun i j => ?_) fun i j => ?_
  · simp [getBlk]
  · unfold setBlk
    rw [dif_pos ⟨Nat.zero_le _, by omega⟩]
    simp only [hhqr, dif_pos h, Nat.sub_zero]

theorem tau_small : tau 2 ((1 / 2) ^ 40) 0 (gam ((1 / 2) ^ 53) 3) < 1 := by
  have h : Real.sqrt ((2 : ℕ) : ℝ) ≤ 2 := Real.sqrt_le_iff.mpr ⟨by norm_num, by norm_num⟩
  have hc : (((1 + (1 / 2 : ℝ) ^ 53) ^ 3 - 1) * (1 + (1 / 2) ^ 40) + (1 / 2) ^ 40) < 1 / 4 := by norm_num
  have hc0 : 0 ≤ (((1 + (1 / 2 : ℝ) ^ 53) ^ 3 - 1) * (1 + (1 / 2) ^ 40) + (1 / 2) ^ 40) := by norm_num
  unfold tau gam
  generalize (((1 + (1 / 2 : ℝ) ^ 53) ^ 3 - 1) * (1 + (1 / 2) ^ 40) + (1 / 2) ^ 40) = x at *
  generalize Real.sqrt ((2 : ℕ) : ℝ) = y at *
  nlinarith

namespace Two

/-- The arithmetic of `arith` with the QR factorisation above. -/
noncomputable def arithQ : Arith (Fp 53) (Fp 53) 2 := { arith 53 ⟨8⟩ with hhQR := fun X => setBlk 0 (hhqr (getBlk 0 2 X)) X }

theorem orthoKernels : OrthoKernels (Fp.fl 53) arithQ 2 3 0 where
  back := by
    intro b hb X Z i j
    obtain ⟨d', h1, h2⟩ := Par.Four.sum_dot (fun k => X i k) fun k => Z k j
    exact ⟨d', by omega, h2⟩
  heevd := by
    intro b _ M
    refine ⟨1, by simp, fun j => ?_⟩
    have e : (fun k => (Fp.fl 53).val ((arithQ.heevd M).2 k j) - (1 : Matrix (Fin b) (Fin b) ℝ) k j) = 0 := by
      ext k
      show (Fp.fl 53).val (if k = j then 1 else 0) - (1 : Matrix (Fin b) (Fin b) ℝ) k j = 0
      rw [Matrix.one_apply]
      split_ifs
      · show ((1 : ℚ) : ℝ) - 1 = 0; simp
      · show ((0 : ℚ) : ℝ) - 0 = 0; simp
    rw [e]
    simp [Verif.nrm2]

theorem accurateQ : Accurate (Fp.fl 53) Fp.toReal arithQ 2 (1 / 2) where
  ofBase := (accurate 53 ⟨8⟩).ofBase
  neg := (accurate 53 ⟨8⟩).neg
  add := (accurate 53 ⟨8⟩).add
  gemm := (accurate 53 ⟨8⟩).gemm
  axpy := (accurate 53 ⟨8⟩).axpy
  nrm2 := (accurate 53 ⟨8⟩).nrm2

/-- Non-vacuity of `C84_orthonormal_partial`, `C84_householder` and `C84_eigenvalue_partial`: double precision, a
Householder QR with error `2^-40`, any start vectors. -/
example (s : Seq.St (Fp 53) 2) : OrthoKernels (Fp.fl 53) arithQ params.nevex 3 0 ∧
    cholDisable params.doCholQR params.envDisable = 1 ∧
    (∀ X, QrOf ((1 / 2) ^ 40) params.nevex (fun j => valV (Fp.fl 53) (X j)) fun j => valV (Fp.fl 53) (arithQ.hhQR X j)) ∧
    Accurate (Fp.fl 53) Fp.toReal arithQ 2 (1 / 2) ∧ PermutesIndices (plat 53) ∧ (cfg 53).N = 2 ∧
    (cfg 53).nev + (cfg 53).nex = params.nevex ∧ Even (cfg 53).maxDeg ∧ (valM (Fp.fl 53) (start 53).H).IsHermitian ∧
    arithQ.symCheck s.H = true ∧
    (∃ out, solve (plat 53) (ops arithQ params) (cfg 53) (ritzv0 53) (fun _ => 0) s = .ok out ∧ 0 < out.iterations) ∧
    QrAvoids (plat 53) (ops arithQ params) (cfg 53) (ritzv0 53) (fun _ => 0) s
      (fun k c t => Inaccurate (Fp.fl 53) arithQ params ((1 / 2) ^ 40) k c t.C) ∧
    (∃ out, solve (plat 53) (traced (ops arithQ params)) (cfg 53) (ritzv0 53) (fun _ => 0) (s, []) = .ok out ∧
      0 < out.iterations) ∧ tau 2 ((1 / 2) ^ 40) 0 (gam (Fp.fl 53).u 3) < 1 := by
  have hdef : ∀ {S : Type} (ops : Chase (Fp 53) S) (be : S), (ops.checkSymmetryEasy be).1 = true →
      ∃ out, solve (plat 53) ops (cfg 53) (ritzv0 53) (fun _ => 0) be = .ok out ∧ 0 < out.iterations := by
    intro S ops be hs
    obtain ⟨out, h1, h2⟩ := C51_approx_solve_defined (plat 53) ops (cfg 53) rfl (by decide) (by decide)
      (by decide) (by decide) (by decide) (by decide) (by decide) (by intro h; cases h) (ritzv0 53) (fun _ => 0) be
    exact ⟨out, h1, h2 (fun _ => hs) (by decide)⟩
  have hq : ∀ X, QrOf ((1 / 2) ^ 40) params.nevex (fun j => valV (Fp.fl 53) (X j))
      fun j => valV (Fp.fl 53) (arithQ.hhQR X j) := fun X => hhqr_ok le_rfl X
  exact ⟨orthoKernels, rfl, hq, accurateQ, plat_permutes 53, rfl, rfl, by decide, start_hermitian 53, rfl,
    hdef _ _ rfl, householder_avoids rfl hq (fun s : Seq.St (Fp 53) 2 => s.C) _ _ _ _ _ _, hdef _ _ rfl, tau_small⟩

end Two

namespace Par
namespace Four
open Verif.Spmd
open Mpi (Layout GSt RunsOk scatter)
open Mpi.Spmd (Pos Own EndsWith)
open Stuck (rowL colL sum)

/-- One wanted pair and one more. -/
def cfg2 : Config (Fp 53) := { Stuck.cfg1 Stuck.tol with nex := 1 }

noncomputable def envQ : DEnv (Fp 53) (Fp 53) := { env with nex := 1, kern := { kern with hhqr := hhqr } }

theorem orthoPar : OrthoPar (Fp.fl 53) rowL envQ envQ.nevex 3 0 where
  back := by
    intro q b hb X Z i j
    obtain ⟨d', h1, h2⟩ := sum_dot (fun k => X i k) fun k => Z k j
    have : b ≤ 2 := hb
    exact ⟨d', by omega, h2⟩
  heevd := by
    intro b _ M
    refine ⟨1, by simp, fun j => ?_⟩
    have e : (fun k => (Fp.fl 53).val ((envQ.kern.heevd M).2 k j) - (1 : Matrix (Fin b) (Fin b) ℝ) k j) = 0 := by
      ext k
      show (Fp.fl 53).val (if k = j then 1 else 0) - (1 : Matrix (Fin b) (Fin b) ℝ) k j = 0
      rw [Matrix.one_apply]
      split_ifs
      · show ((1 : ℚ) : ℝ) - 1 = 0; simp
      · show ((0 : ℚ) : ℝ) - 0 = 0; simp
    rw [e]
    simp [Verif.nrm2]

theorem accurateParQ : AccuratePar (Fp.fl 53) (Fp.fl 53) red envQ 3 3 ((1 / 2) ^ 53) where
  ofBase := accuratePar.ofBase
  neg := accuratePar.neg
  add := accuratePar.add
  gemmAdj := accuratePar.gemmAdj
  axpy := accuratePar.axpy
  colK := accuratePar.colK
  rowR := accuratePar.rowR
  normp2 := accuratePar.normp2
  sqrt := accuratePar.sqrt
  small := accuratePar.small

theorem qr_ok (X : ℕ → Fin 4 → Fp 53) : QrOf ((1 / 2) ^ 40) envQ.nevex (fun j => valV (Fp.fl 53) (X j))
    fun j => valV (Fp.fl 53) ((distArith red envQ).hhQR X j) := hhqr_ok (show 2 ≤ 4 by omega) X

/-- Non-vacuity of the theorems for the distributed backend: double precision on a grid of two times three processes, two
vectors, a Householder QR with error `2^-40`. -/
example : OrthoPar (Fp.fl 53) rowL envQ envQ.nevex 3 0 ∧ Ascends envQ ∧
    cholDisable envQ.doCholQR envQ.envDisable = 1 ∧
    (∀ X, QrOf ((1 / 2) ^ 40) envQ.nevex (fun j => valV (Fp.fl 53) (X j))
      fun j => valV (Fp.fl 53) ((distArith red envQ).hhQR X j)) ∧
    AccuratePar (Fp.fl 53) (Fp.fl 53) red envQ 3 3 ((1 / 2) ^ 53) ∧ nu (Fp.fl 53).u ((1 / 2) ^ 53) 3 ≤ 1 ∧
    SortsIndices Stuck.plat ∧ SortKeepsSorted Stuck.plat ∧ cfg2.N = 4 ∧ cfg2.nev + cfg2.nex = envQ.nevex ∧
    Even cfg2.maxDeg ∧ (valM (Fp.fl 53) Stuck.glob.H).IsHermitian ∧ cfg2.symCheck = false ∧
    (∃ out, solve Stuck.plat (gOps red envQ) cfg2 Stuck.val0 (fun _ => 0) Stuck.glob = .ok out ∧ 0 < out.iterations) ∧
    (∃ out, solve Stuck.plat (traced (gOps red envQ)) cfg2 Stuck.val0 (fun _ => 0) (Stuck.glob, []) = .ok out ∧
      0 < out.iterations) ∧
    QrAvoids Stuck.plat (gOps red envQ) cfg2 Stuck.val0 (fun _ => 0) Stuck.glob
      (fun k x t => Inaccurate (Fp.fl 53) (distArith red envQ) envQ.toParams ((1 / 2) ^ 40) k x t.C) ∧
    RunsOk rowL colL envQ.cRuns ∧ RunsOk colL rowL envQ.bRuns ∧
    (∃ n u p o own, Runs (fun p : Pos rowL colL => solveProg red.const envQ Stuck.plat cfg2 Stuck.val0
      (fun _ => 0) p (scatter rowL colL Stuck.glob p.1 p.2)) n u ∧ Final u ∧ u p = .ret (.ok o, own) ∧ 0 < o.iterations) ∧
    tau (cfg2.nev + cfg2.nex) ((1 / 2) ^ 40) 0 (gam (Fp.fl 53).u 3) < 1 := by
  have hdef : ∀ {S : Type} (ops : Chase (Fp 53) S) (be : S), ∃ out, solve Stuck.plat ops cfg2 Stuck.val0
      (fun _ => 0) be = .ok out ∧ 0 < out.iterations := by
    intro S ops be
    obtain ⟨out, h1, h2⟩ := C51_approx_solve_defined Stuck.plat ops cfg2 rfl (by decide) (by decide)
      (by decide) (by decide) (by decide) (by decide) (by decide) (by intro h; cases h) Stuck.val0 (fun _ => 0) be
    exact ⟨out, h1, h2 (by intro h; cases h) (by decide)⟩
  refine ⟨orthoPar, fun b M i j h => ascends b M i j h, rfl, qr_ok, accurateParQ, ?_, plat_sorts, plat_keeps, rfl, rfl,
    by decide, hermitian, rfl, hdef _ _, hdef _ _,
    householder_avoids (E := envQ.toParams) rfl qr_ok (fun g : GSt (Fp 53) 4 => g.C) _ _ _ _ _ _, Stuck.envRuns.1,
    Stuck.envRuns.2, ?_, tau_small⟩
  · show (1 + (1 / 2 : ℝ) ^ 53) * (1 + (1 / 2) ^ 53) ^ 4 - 1 ≤ 1
    norm_num
  · obtain ⟨out, h1, h2⟩ := hdef (gOps red envQ) Stuck.glob
    obtain ⟨n, hn⟩ := prog_gives red envQ Stuck.envRuns.1 Stuck.envRuns.2
      (solveT Stuck.plat cfg2 Stuck.val0 fun _ => 0) Stuck.glob
    have hfin : Final (fun p : Pos rowL colL => (.ret (((solveT Stuck.plat cfg2 Stuck.val0 fun _ => 0).run
        (gOps red envQ) Stuck.glob).1, scatter rowL colL ((solveT Stuck.plat cfg2 Stuck.val0 fun _ => 0).run
        (gOps red envQ) Stuck.glob).2 p.1 p.2) : Prog (fun p => Except Err (Outcome (Fp 53) Unit) × Own (Fp 53) rowL colL p)
        p)) := fun p => ⟨_, rfl⟩
    have he := C77_outcome_partial (E := envQ) Stuck.plat cfg2 Stuck.val0 (fun _ => 0) Stuck.envRuns.1
      Stuck.envRuns.2 red Stuck.glob hn hfin ((0 : Fin 2), (0 : Fin 3))
    rw [h1] at he
    exact ⟨n, _, _, _, _, hn, hfin, he, h2⟩

end Four
end Par
end Rounded
end Verif
