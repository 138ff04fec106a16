/-
C64, C65 and C66 on the backends: single process, distributed, multi-GPU (C65), in-place.
-/
import Verif.Backend.ConvergenceProps
import Verif.Backend.MgpuProps
import Verif.Backend.UserArray
import Verif.Solver.ReachSim

open Polynomial

namespace Verif

variable {K : Type*} [RCLike K] {N : ℕ}

/-! ### The backends meet the contracts -/

theorem Seq.backs {E : Env K} (hL : E.lapack.Ok) {cfg : Config ℝ} (hnev : E.nev = cfg.nev)
    (hnex : E.nex = cfg.nex) (hN : cfg.N = N) (hle : cfg.nev + cfg.nex ≤ N)
    {H : Matrix (Fin N) (Fin N) K} (hH : H.IsHermitian) :
    Backs (Seq.ops E) Seq.St.C Seq.St.C Seq.St.locked (Seq.phases E H) cfg H := by
  subst hN
  have hE : E.nevex = cfg.nev + cfg.nex := by unfold Env.nevex; rw [hnev, hnex]
  have hb := Seq.bookkeeping (E := E) hL (by rw [hE]; exact hle) hH
  have hs := Seq.spaceContract (E := E) hL (by rw [hE]; exact hle) hH
  rw [hE] at hb hs
  exact ⟨hb.frame, hs, fun _ _ _ _ => rfl, fun _ => rfl⟩

theorem Mpi.backsWith {G : Mpi.GEnv K N} {q : ℕ → ℝ → Mpi.GSt K N → Mpi.GSt K N}
    {d : (ℕ → ℝ) → ℕ → Mpi.GSt K N → (ℕ → ℝ) × Mpi.GSt K N} (hq : Mpi.QrLike G q)
    (hd : Mpi.ResdLike G d) (hL : G.base.lapack.Ok) {cfg : Config ℝ} (hnev : G.base.nev = cfg.nev)
    (hnex : G.base.nex = cfg.nex) (hN : cfg.N = N) (hle : cfg.nev + cfg.nex ≤ N)
    {H : Matrix (Fin N) (Fin N) K} (hH : H.IsHermitian) :
    Backs (Mpi.gOpsWith G q d) Mpi.GSt.cols Mpi.GSt.cols Mpi.GSt.nl (Mpi.gPhases G H) cfg H := by
  subst hN
  have hE : G.base.nevex = cfg.nev + cfg.nex := by unfold Env.nevex; rw [hnev, hnex]
  have hb := Mpi.gFrameWith (G := G) hq hd hL (by rw [hE]; exact hle) hH
  have hs := Mpi.spaceContractWith (G := G) hq hd hL (by rw [hE]; exact hle) hH
  rw [hE] at hb hs
  exact ⟨hb, hs, fun _ _ _ _ => rfl, fun _ => rfl⟩

theorem Mpi.backs {G : Mpi.GEnv K N} (hL : G.base.lapack.Ok) {cfg : Config ℝ}
    (hnev : G.base.nev = cfg.nev) (hnex : G.base.nex = cfg.nex) (hN : cfg.N = N)
    (hle : cfg.nev + cfg.nex ≤ N) {H : Matrix (Fin N) (Fin N) K} (hH : H.IsHermitian) :
    Backs (Mpi.gOps G) Mpi.GSt.cols Mpi.GSt.cols Mpi.GSt.nl (Mpi.gPhases G H) cfg H :=
  Mpi.backsWith (Mpi.gQr_like hL (by unfold Env.nevex; rw [hnev, hnex]; exact hle)) Mpi.gResd_like hL
    hnev hnex hN hle hH

theorem InPlace.backs {E : Env K} {k : InPlace.Kind} (hL : E.lapack.Ok) (hε : 0 ≤ E.lapack.eps)
    {cfg : Config ℝ} (hnev : E.nev = cfg.nev) (hnex : E.nex = cfg.nex) (hN : cfg.N = N)
    (hle : cfg.nev + cfg.nex ≤ N) {H : Matrix (Fin N) (Fin N) K} (hH : H.IsHermitian) :
    Backs (InPlace.safeOps E k) InPlace.St.V1
      (fun s => ((InPlace.ops E k).initVecs false ((InPlace.ops E k).start s)).V1) InPlace.St.locked
      (InPlace.phases E k H) cfg H := by
  subst hN
  have hE : E.nevex = cfg.nev + cfg.nex := by unfold Env.nevex; rw [hnev, hnex]
  have hb := InPlace.bookkeeping (E := E) (k := k) hL hε (by rw [hE]; exact hle) hH
  have hs := InPlace.spaceContract (E := E) (k := k) hL hε (by rw [hE]; exact hle) hH
  rw [hE] at hb hs
  exact ⟨hb.frame, hs, fun _ _ _ _ => rfl, fun s => by cases k <;> rfl⟩

/-- In approximation mode the bound is that of one Lanczos run from the first start column. -/
theorem Seq.boundOf_approx (E : Env K) {cfg : Config ℝ} (happ : cfg.approx = true) (s : Seq.St K N) :
    Verif.boundOf (Seq.ops E) cfg s = lanczosBound axpyOwn E.lapack s.H
      (min (cfg.nev + cfg.nex) (min (cfg.N / 2) cfg.lanczosIter)) s.C := by
  unfold Verif.boundOf
  rw [happ]
  rfl

theorem Mpi.boundOf_approx (G : Mpi.GEnv K N) (q : ℕ → ℝ → Mpi.GSt K N → Mpi.GSt K N)
    (d : (ℕ → ℝ) → ℕ → Mpi.GSt K N → (ℕ → ℝ) × Mpi.GSt K N) {cfg : Config ℝ} (happ : cfg.approx = true)
    (g : Mpi.GSt K N) :
    Verif.boundOf (Mpi.gOpsWith G q d) cfg g = lanczosBound axpyOwn G.base.lapack g.H
      (min (cfg.nev + cfg.nex) (min (cfg.N / 2) cfg.lanczosIter)) g.C := by
  unfold Verif.boundOf
  rw [happ]
  rfl

theorem InPlace.boundOf_approx (E : Env K) {cfg : Config ℝ} (happ : cfg.approx = true)
    (s : InPlace.St K N) :
    Verif.boundOf (InPlace.ops E .cpu) cfg s = lanczosBound axpyOwn E.lapack s.H
      (min (cfg.nev + cfg.nex) (min (cfg.N / 2) cfg.lanczosIter)) s.V1 := by
  unfold Verif.boundOf
  rw [happ]
  rfl

theorem boundOf_withQr {S : Type*} (C : Chase ℝ S) (q : ℕ → ℝ → S → S) {cfg : Config ℝ}
    (happ : cfg.approx = true) (s : S) :
    Verif.boundOf (C.withQr q) cfg s = Verif.boundOf C cfg s := by
  unfold Verif.boundOf
  rw [happ]
  rfl

/-! ### C65 -/

/-- The caller's `n` start columns `V` span a space that is spanned by independent eigenvectors `U` of `H`
with the values `μ`; the largest of the caller's start values is at least every `μ`, and all of them are
below `bound`. -/
structure InvariantStart (H : Matrix (Fin N) (Fin N) K) (n : ℕ) (V : ℕ → Fin N → K) (r0 : ℕ → ℝ)
    (bound : ℝ) (U : ℕ → Fin N → K) (μ : ℕ → ℝ) : Prop where
  indep : LinearIndependent K (fun j : Fin n => U j)
  eigen : ∀ j, j < n → H.mulVec (U j) = (μ j : K) • U j
  span : Submodule.span K (V '' {j | j < n}) = Submodule.span K (U '' {j | j < n})
  largest : ∃ k, k < n ∧ ∀ j, j < n → μ j ≤ r0 k
  below : ∀ k, k < n → r0 k < bound

/-- The solve ended after one round with exact pairs: the values are the `μ` in ascending order, the columns
`X` orthonormal eigenvectors for them that span the space of the `U`. -/
structure OneRound {S : Type*} (H : Matrix (Fin N) (Fin N) K) (nev n : ℕ) (U : ℕ → Fin N → K) (μ : ℕ → ℝ)
    (out : Outcome ℝ S) (X : ℕ → Fin N → K) : Prop where
  rounds : out.iterations = 1
  locked : out.locked = nev
  resid : ∀ i, i < n → out.resid i = 0
  ortho : ∀ i j, i < n → j < n → ∑ k, star (X i k) * X j k = if i = j then 1 else 0
  eigen : ∀ i, i < n → H.mulVec (X i) = (out.ritzv i : K) • X i
  span : Submodule.span K (X '' {j | j < n}) = Submodule.span K (U '' {j | j < n})
  asc : ∀ i j, i ≤ j → j < n → out.ritzv i ≤ out.ritzv j
  values : ∃ e : Equiv.Perm (Fin n), ∀ i : Fin n, out.ritzv i = μ (e i)

theorem prefixSpan_image (n : ℕ) (V : ℕ → Fin N → K) :
    prefixSpan n V = Submodule.span K (V '' {j | j < n}) := rfl

/-- Certified pairs with residuals zero are eigenpairs. -/
theorem CertifiedPairs.eigen {H : Matrix (Fin N) (Fin N) K} {nev n : ℕ} {vals resid : ℕ → ℝ}
    {X : ℕ → Fin N → K} (h : CertifiedPairs H nev n vals resid X) (hn : nev ≤ n)
    (h0 : ∀ i, i < n → resid i = 0) : ∀ i, i < n → H.mulVec (X i) = (vals i : K) • X i := by
  obtain ⟨-, -, -, ⟨σ, hσ, hr⟩, -⟩ := h
  intro i hi
  have hlt : σ i < n := by
    by_contra hc
    have := σ.injective (hσ (σ i) (by omega))
    omega
  have h1 := (hr i hi).1
  unfold IsResidual at h1
  rw [h0 _ hlt, eq_comm, Real.sqrt_eq_zero (Finset.sum_nonneg fun _ _ => sq_nonneg _),
    Finset.sum_eq_zero_iff_of_nonneg (fun _ _ => sq_nonneg _)] at h1
  funext k
  have h2 := h1 k (Finset.mem_univ _)
  rw [sq_eq_zero_iff, norm_eq_zero, sub_eq_zero] at h2
  exact h2

/-- **C65** (single process) A solve in approximation mode whose start columns are a basis of a space
spanned by eigenvectors of the matrix, and whose start values are as the caller got them from an earlier solve
of that matrix or larger (but below the spectral bound), ends after one round with exact eigenpairs. -/
theorem C65_seq (P : Plat ℝ) (hP : SortsIndices P) (E : Env K) (hL : E.lapack.Ok) (cfg : Config ℝ)
    (hnev : E.nev = cfg.nev) (hnex : E.nex = cfg.nex) (hN : cfg.N = N) (hle : cfg.nev + cfg.nex ≤ N)
    (hmax : Even cfg.maxDeg) (happ : cfg.approx = true) (htol : 0 ≤ cfg.tol) (hit : 1 ≤ cfg.maxIter)
    (ritzv0 resid0 : ℕ → ℝ) (s : Seq.St K N) (hH : s.H.IsHermitian) (U : ℕ → Fin N → K) (μ : ℕ → ℝ)
    (hs : InvariantStart s.H (cfg.nev + cfg.nex) s.C ritzv0 (Verif.boundOf (Seq.ops E) cfg s) U μ)
    (out : Outcome ℝ (Seq.St K N)) (h : solve P (Seq.ops E) cfg ritzv0 resid0 s = .ok out) :
    OneRound s.H cfg.nev (cfg.nev + cfg.nex) U μ out out.be.C := by
  have hB := Seq.backs hL hnev hnex hN hle hH
  obtain ⟨a1, a2, a3, a4, a5, a6⟩ := C65_restart hP hB hH hmax htol happ hit
    (be := s) (be0 := if cfg.symCheck then ((Seq.ops E).checkSymmetryEasy s).2 else s)
    (fun _ => C09_hermitian_accepted E.lapack s.H hH) rfl rfl hs.indep hs.eigen hs.span hs.largest
    (by
      rw [Seq.boundOf_approx E happ]
      have := hs.below
      rw [Seq.boundOf_approx E happ] at this
      by_cases hc : cfg.symCheck = true
      · rw [if_pos hc]; exact this
      · rw [if_neg hc]; exact this) h
  obtain ⟨-, hc⟩ := C50_seq P hP E hL cfg hnev hnex hN hle hmax ritzv0 resid0 s hH out h
  have hc := hc (by omega)
  exact ⟨a1, a2, a3, hc.1, hc.eigen (by omega) a3, a4, a5, a6⟩

/-- The same on the data of all processes, with any QR and residuals the results above allow. -/
theorem Mpi.C65_global {G : Mpi.GEnv K N} {q : ℕ → ℝ → Mpi.GSt K N → Mpi.GSt K N}
    {d : (ℕ → ℝ) → ℕ → Mpi.GSt K N → (ℕ → ℝ) × Mpi.GSt K N} (hq : Mpi.QrLike G q)
    (hd : Mpi.ResdLike G d) (P : Plat ℝ) (hP : SortsIndices P) (hkeep : SortKeepsSorted P)
    (hL : G.base.lapack.Ok) (ht : 0 ≤ G.symTol) (cfg : Config ℝ)
    (hnev : G.base.nev = cfg.nev) (hnex : G.base.nex = cfg.nex) (hN : cfg.N = N)
    (hle : cfg.nev + cfg.nex ≤ N) (hmax : Even cfg.maxDeg) (happ : cfg.approx = true) (htol : 0 ≤ cfg.tol)
    (hit : 1 ≤ cfg.maxIter) (ritzv0 resid0 : ℕ → ℝ) (g : Mpi.GSt K N) (hH : g.H.IsHermitian)
    (U : ℕ → Fin N → K) (μ : ℕ → ℝ)
    (hs : InvariantStart g.H (cfg.nev + cfg.nex) g.C ritzv0 (Verif.boundOf (Mpi.gOpsWith G q d) cfg g) U μ)
    (out : Outcome ℝ (Mpi.GSt K N)) (h : solve P (Mpi.gOpsWith G q d) cfg ritzv0 resid0 g = .ok out) :
    OneRound g.H cfg.nev (cfg.nev + cfg.nex) U μ out out.be.C := by
  have hB := Mpi.backsWith hq hd hL hnev hnex hN hle hH
  obtain ⟨a1, a2, a3, a4, a5, a6⟩ := C65_restart hP hB hH hmax htol happ hit
    (be := g) (be0 := if cfg.symCheck then ((Mpi.gOpsWith G q d).checkSymmetryEasy g).2 else g)
    (fun _ => Mpi.gSymCheck_hermitian ht g hH) rfl rfl hs.indep hs.eigen hs.span hs.largest
    (by
      rw [Mpi.boundOf_approx G q d happ]
      have := hs.below
      rw [Mpi.boundOf_approx G q d happ] at this
      by_cases hc : cfg.symCheck = true
      · rw [if_pos hc]; exact this
      · rw [if_neg hc]; exact this) h
  obtain ⟨-, hc⟩ := Mpi.gSolveWith hq hd P hP hL ht cfg hnev hnex hN hle hmax ritzv0 resid0 g hH out h
  obtain ⟨be0, st, -, -, -, σ, -, -, -, h8, h9, -, h10⟩ := hc (by omega)
  have hc := h10 hkeep
  rw [h8 a1] at hc
  exact ⟨a1, a2, a3, h9, hc.eigen (by omega) a3, a4, a5, a6⟩

/-- **C65** (distributed CPU backend), for every process grid and distribution: every process ends with its
rows of the same exact eigenvectors. -/
theorem Mpi.C65_mpi {r c : Mpi.Layout N} {E : Mpi.MEnv K} (hc : Mpi.RunsOk r c E.cRuns)
    (hb : Mpi.RunsOk c r E.bRuns) (P : Plat ℝ) (hP : SortsIndices P) (hkeep : SortKeepsSorted P)
    (hL : E.base.lapack.Ok) (ht : 0 ≤ E.symTol) (cfg : Config ℝ) (hnev : E.base.nev = cfg.nev)
    (hnex : E.base.nex = cfg.nex) (hN : cfg.N = N) (hle : cfg.nev + cfg.nex ≤ N)
    (hmax : Even cfg.maxDeg) (happ : cfg.approx = true) (htol : 0 ≤ cfg.tol) (hit : 1 ≤ cfg.maxIter)
    (ritzv0 resid0 : ℕ → ℝ) {s : Mpi.Fam K r c} {g : Mpi.GSt K N} (h : Mpi.Rep s g)
    (hH : g.H.IsHermitian) (i0 : Fin r.procs) (j0 : Fin c.procs) (U : ℕ → Fin N → K) (μ : ℕ → ℝ)
    (hs : InvariantStart g.H (cfg.nev + cfg.nex) g.C ritzv0 (Verif.boundOf (Mpi.opsAt E i0 j0) cfg s) U μ)
    (out : Outcome ℝ (Mpi.Fam K r c))
    (ho : solve P (Mpi.opsAt E i0 j0) cfg ritzv0 resid0 s = .ok out) :
    ∃ X : ℕ → Fin N → K, (∀ i j k a, (out.be i j).C k a = X k (r.glob i a)) ∧
      OneRound g.H cfg.nev (cfg.nev + cfg.nex) U μ out X := by
  rw [boundOf_sim (Mpi.sim hc hb i0 j0) cfg h] at hs
  have h0 := solve_sim (Mpi.sim hc hb i0 j0) P cfg ritzv0 resid0 h
  rw [ho] at h0
  generalize hz : solve P (Mpi.gOps (E.glob r)) cfg ritzv0 resid0 g = z at h0
  cases h0 with
  | ok h0 =>
    rename_i z
    have hE : E.base.nevex = cfg.nev + cfg.nex := by unfold Env.nevex; rw [hnev, hnex]
    obtain ⟨b1, b2, b3, b4, b5, b6, b7, b8⟩ := Mpi.C65_global (G := E.glob r)
      (Mpi.gQr_like hL (by show E.base.nevex ≤ N; rw [hE]; exact hle)) Mpi.gResd_like P hP hkeep hL ht cfg hnev hnex hN
      hle hmax happ htol hit ritzv0 resid0 g hH U μ hs z hz
    exact ⟨z.be.C, h0.be.C, h0.iterations.trans b1, h0.locked.trans b2, by rw [h0.resid]; exact b3, b4,
      by rw [h0.ritzv]; exact b5, b6, by rw [h0.ritzv]; exact b7, by rw [h0.ritzv]; exact b8⟩

/-- **C65** (multi-GPU backend, the setups of C60): the first `nev` columns in host memory are the exact
eigenvectors.  The start columns are those the backend works on (`pview`): in the CUDA-aware variant not the
caller's, see `C54_mgpu_aware_refuted`. -/
theorem Mgpu.C65_mgpu {r c : Mpi.Layout N} {E : Mgpu.GpuEnv K} (hS : E.Sound)
    (hc : Mpi.RunsOk r c E.mpi.cRuns) (hb : Mpi.RunsOk c r E.mpi.bRuns)
    (P : Plat ℝ) (hP : SortsIndices P) (hkeep : SortKeepsSorted P) (hL : E.mpi.base.lapack.Ok)
    (ht : 0 ≤ E.mpi.symTol) (cfg : Config ℝ) (hnev : E.mpi.base.nev = cfg.nev)
    (hnex : E.mpi.base.nex = cfg.nex) (hN : cfg.N = N) (hle : cfg.nev + cfg.nex ≤ N)
    (hmax : Even cfg.maxDeg) (happ : cfg.approx = true) (htol : 0 ≤ cfg.tol) (hit : 1 ≤ cfg.maxIter)
    (ritzv0 resid0 : ℕ → ℝ) {s : Mgpu.GFam K r c} {g : Mpi.GSt K N}
    (h : Mpi.Rep (Mgpu.pview E s) g) (hH : g.H.IsHermitian) (i0 : Fin r.procs) (j0 : Fin c.procs)
    (U : ℕ → Fin N → K) (μ : ℕ → ℝ)
    (hs : InvariantStart g.H (cfg.nev + cfg.nex) g.C ritzv0 (lanczosBound axpyOwn E.mpi.base.lapack g.H
      (min (cfg.nev + cfg.nex) (min (cfg.N / 2) cfg.lanczosIter)) g.C) U μ)
    (out : Outcome ℝ (Mgpu.GFam K r c))
    (ho : solve P (Mgpu.opsAt E i0 j0) cfg ritzv0 resid0 s = .ok out) :
    ∃ X : ℕ → Fin N → K, (∀ i j k, k < cfg.nev → ∀ a, (out.be i j).host.C k a = X k (r.glob i a)) ∧
      OneRound g.H cfg.nev (cfg.nev + cfg.nex) U μ out X := by
  have hE : E.mpi.base.nevex = cfg.nev + cfg.nex := by unfold Env.nevex; rw [hnev, hnex]
  have h0 := solve_simP (Mgpu.sim hS hc hb i0 j0) P cfg hE (Or.inl fun _ => trivial) ritzv0 resid0 h
  have h1 := solve_simP_end (Mgpu.sim hS hc hb i0 j0) P cfg hE (Or.inl fun _ => trivial) ritzv0 resid0 h
  rw [ho] at h0 h1
  generalize hz : solve P (Mgpu.refOps (E.mpi.glob r) E.aware) cfg ritzv0 resid0 g = z at h0 h1
  cases h0 with
  | ok h0 =>
    rename_i z
    cases h1 with
    | ok h1 =>
      obtain ⟨b1, b2, b3, b4, b5, b6, b7, b8⟩ := Mpi.C65_global (G := E.mpi.glob r)
        (Mgpu.refQr_like hL (by show E.mpi.base.nevex ≤ N; rw [hE]; exact hle) E.aware)
        (Mgpu.refResd_like _ _) P hP hkeep hL ht cfg hnev hnex hN
        hle hmax happ htol hit ritzv0 resid0 g hH U μ
        (by rw [Mpi.boundOf_approx _ _ _ happ]; exact hs) z hz
      refine ⟨z.be.C, fun i j k hk a => ?_, h0.iterations.trans b1, h0.locked.trans b2,
        by rw [h0.resid]; exact b3, b4, by rw [h0.ritzv]; exact b5, b6, by rw [h0.ritzv]; exact b7,
        by rw [h0.ritzv]; exact b8⟩
      exact Mgpu.end_host (h1.2 (by rw [h0.iterations, b1]; exact one_pos)) i j k (by rw [hnev]; exact hk) a

/-- **C65** (in-place CPU backend): the exact eigenvectors are in the internal buffer, and **the caller's
array, which held a basis of them, is filled with zeros** (the restart makes an odd number of rounds, C41). -/
theorem InPlace.C65_inplace_partial (P : Plat ℝ) (hP : SortsIndices P) (E : Env K)
    (hL : E.lapack.Ok) (hε : 0 ≤ E.lapack.eps) (cfg : Config ℝ)
    (hnev : E.nev = cfg.nev) (hnex : E.nex = cfg.nex) (hN : cfg.N = N) (hle : cfg.nev + cfg.nex ≤ N)
    (hmax : Even cfg.maxDeg) (happ : cfg.approx = true) (htol : 0 ≤ cfg.tol) (hit : 1 ≤ cfg.maxIter)
    (ritzv0 resid0 : ℕ → ℝ) (s : InPlace.St K N)
    (hq : QrAvoids P (InPlace.ops E .cpu) cfg ritzv0 resid0 s (InPlace.badQr E))
    (hH : s.H.IsHermitian) (hfl : s.flipped = false) (U : ℕ → Fin N → K) (μ : ℕ → ℝ)
    (hs : InvariantStart s.H (cfg.nev + cfg.nex) (s.userV .cpu) ritzv0
      (Verif.boundOf (InPlace.ops E .cpu) cfg s) U μ)
    (out : Outcome ℝ (InPlace.St K N)) (h : solve P (InPlace.ops E .cpu) cfg ritzv0 resid0 s = .ok out) :
    OneRound s.H cfg.nev (cfg.nev + cfg.nex) U μ out out.be.V1 ∧
    ∀ j, j < cfg.nev + cfg.nex → out.be.userV .cpu j = 0 := by
  have hB := InPlace.backs (k := .cpu) hL hε hnev hnex hN hle hH
  have h' : solve P (InPlace.safeOps E .cpu) cfg ritzv0 resid0 s = .ok out :=
    solve_withQr h hq InPlace.safeQr_agree
  have huser : s.userV .cpu = s.V1 := by
    show (if s.flipped = true then s.V2 else s.V1) = _
    rw [hfl]; rfl
  rw [huser] at hs
  obtain ⟨a1, a2, a3, a4, a5, a6⟩ := C65_restart hP hB hH hmax htol happ hit
    (be := s) (be0 := if cfg.symCheck then ((InPlace.safeOps E .cpu).checkSymmetryEasy s).2 else s)
    (fun _ => C09_hermitian_accepted E.lapack s.H hH) rfl rfl hs.indep hs.eigen hs.span hs.largest
    (by
      rw [InPlace.safeOps, boundOf_withQr _ _ happ, InPlace.boundOf_approx E happ]
      have := hs.below
      rw [InPlace.boundOf_approx E happ] at this
      by_cases hc : cfg.symCheck = true
      · rw [if_pos hc]; exact this
      · rw [if_neg hc]; exact this) h'
  obtain ⟨-, hc, -⟩ := C41_inplace_partial P hP E .cpu hL hε cfg hnev hnex hN hle hmax ritzv0 resid0 s hq hH
    hfl out h
  have hc : CertifiedPairs s.H cfg.nev (cfg.nev + cfg.nex) out.ritzv out.resid out.be.V1 := hc (by omega)
  have heig := hc.eigen (by omega) a3
  refine ⟨⟨a1, a2, a3, hc.1, heig, a4, a5, a6⟩, ?_⟩
  obtain ⟨first, -, hf, σ, hσ, hv⟩ := C41_inplace_odd P hP E hL hε cfg hnev hnex hN hle hmax ritzv0 resid0 s
    hq hH hfl out h (by rw [a1])
  intro j hj
  rw [hv j (by rw [hf a1]; exact Nat.zero_le _) hj,
    heig _ ((hσ.widen le_rfl (Nat.le_add_right _ _)).lt hj), sub_self]

end Verif
