/-
C05 is false on the distributed backends: a solve, with the operations of the backends and kernels as
documented, at the end of which the first value and the first column belong to different eigenvalues.  The same
solve on a single process shows that C06 is false.
-/
import Verif.Backend.NoSwapRun

namespace Verif
namespace NoSwapRun

variable {K : Type*} [RCLike K]

/-- What is wrong at the end of the run on `diag(1, 2, 3)`, for the columns `X`: the solve reports two converged
pairs and for the first one the value 25933/25925, a little above 1, and the residual 0.  But the first column
is an eigenvector of the value 2, and the residual of the first pair is 25917/25925, ten times the tolerance. -/
structure Mismatch {S : Type*} (tol : ℝ) (out : Outcome ℝ S) (X : ℕ → Fin 3 → K) : Prop where
  iterations : out.iterations = 2
  locked : out.locked = 2
  values : out.ritzv 0 = 25933 / 25925 ∧ out.ritzv 1 = 2
  reported : out.resid 0 = 0 ∧ out.resid 1 = 644 / 25925
  unit : ∑ k, ‖X 0 k‖ ^ 2 = 1
  column : (Matrix.diagonal ![1, 2, 3] : Matrix (Fin 3) (Fin 3) K).mulVec (X 0) = (2 : K) • X 0
  residual : Real.sqrt (∑ k, ‖(Matrix.diagonal ![1, 2, 3] : Matrix (Fin 3) (Fin 3) K).mulVec (X 0) k -
    (out.ritzv 0 : K) * X 0 k‖ ^ 2) = 25917 / 25925
  above : 9 * tol < 25917 / 25925

theorem mismatch {S : Type*} {cfg : Config ℝ} {out : Outcome ℝ S} {X : ℕ → Fin 3 → K}
    (ht : cfg.tol = 1 / 10) (h : out.iterations = 2 ∧ out.locked = 2 ∧ out.ritzv 0 = 25933 / 25925 ∧
      out.ritzv 1 = 2 ∧ out.resid 0 = 0 ∧ out.resid 1 = 644 / 25925 ∧
      ∃ y : K, ‖y‖ = 1 ∧ X 0 = y • mid) : Mismatch cfg.tol out X := by
  obtain ⟨h1, h2, h3, h4, h5, h6, y, hy, hX⟩ := h
  refine ⟨h1, h2, ⟨h3, h4⟩, ⟨h5, h6⟩, ?_, ?_, ?_, by rw [ht]; norm_num⟩
  · rw [hX, Fin.sum_univ_three]
    simp [mid, hy]
  · rw [hX, Matrix.mulVec_smul, smul_comm (2 : K)]
    have := mat_mid (K := K)
    rw [cast_two] at this
    exact congrArg _ this
  · have h := residual_mid (K := K) (v := out.ritzv 0) hy rfl
    rw [hX]
    exact h.trans (by rw [h3]; norm_num)

theorem Mismatch.congr {S S' : Type*} {tol : ℝ} {out : Outcome ℝ S} {out' : Outcome ℝ S'}
    {X : ℕ → Fin 3 → K} (h : Mismatch tol out X) (h1 : out'.iterations = out.iterations)
    (h2 : out'.locked = out.locked) (h3 : out'.ritzv = out.ritzv) (h4 : out'.resid = out.resid) :
    Mismatch tol out' X :=
  ⟨h1.trans h.iterations, h2.trans h.locked, h3 ▸ h.values, h4 ▸ h.reported, h.unit, h.column,
    h3 ▸ h.residual, h.above⟩

theorem begin_of {C : ℕ → Fin 3 → K} (h : C 0 = ![1, 0, 4] ∧ C 1 = ![0, 1, 0]) :
    ∀ j, j < 2 → C j = begin j := by
  intro j hj
  interval_cases j
  · rw [h.1]
    show _ = side _ _
    rw [RCLike.ofReal_one, RCLike.ofReal_ofNat 4]
    rfl
  · exact h.2

theorem global {G : Mpi.GEnv K 3} {q : ℕ → ℝ → Mpi.GSt K 3 → Mpi.GSt K 3}
    {d : (ℕ → ℝ) → ℕ → Mpi.GSt K 3 → (ℕ → ℝ) × Mpi.GSt K 3} (hq : Mpi.QrLike G q)
    (hd : Mpi.ResdLike G d) (P : Plat ℝ) (hP : SortsIndices P) (hbig : 8 / 17 < P.maxVal)
    (hL : G.base.lapack.Ok) (ht : 0 ≤ G.symTol) (hnev : G.base.nev = 2) (hnex : G.base.nex = 0)
    (c : Config ℝ) (hmax : Even c.maxDeg) (hdeg : 2 ≤ c.maxDeg) (hit : 2 ≤ c.maxIter)
    (hlan : 1 ≤ c.lanczosIter) (resid0 : ℕ → ℝ) (g : Mpi.GSt K 3) (hH : g.H = mat)
    (hC : ∀ j, j < 2 → g.C j = begin j) (out : Outcome ℝ (Mpi.GSt K 3))
    (h : solve P (Mpi.gOpsWith G q d) (conf c) values resid0 g = .ok out) :
    Mismatch (conf c).tol out out.be.C := by
  have hB := Mpi.backsWith (cfg := conf c) hq hd hL hnev hnex rfl (by show 2 + 0 ≤ 3; omega) mat_hermitian
  have hb : ∀ g' : Mpi.GSt K 3, g'.H = mat → (∀ j, j < 2 → g'.C j = begin j) →
      Verif.boundOf (Mpi.gOpsWith G q d) (conf c) g' = 57 / 17 := by
    intro g' h1 h2
    rw [Mpi.boundOf_approx G q d rfl, h1]
    have hm : min ((conf c).nev + (conf c).nex) (min ((conf c).N / 2) (conf c).lanczosIter) = 1 := by
      have h1 : (conf c).nev + (conf c).nex = 2 := rfl
      have h2 : (conf c).N = 3 := rfl
      have h3 : (conf c).lanczosIter = c.lanczosIter := rfl
      omega
    rw [hm]
    exact bound_begin hL (h2 0 (by omega))
  obtain ⟨h1, h2, h3, h4, h5, h6, s, e, ⟨y, hy, hs⟩, -⟩ := run hP hB hmax hdeg hit hbig
    (fun _ => Mpi.gSymCheck_hermitian ht g (hH ▸ mat_hermitian)) rfl hH hC (by
      split_ifs
      · exact hb _ hH hC
      · exact hb _ hH hC) h
  have e' : out.be.C = s.C := e
  exact mismatch rfl ⟨h1, h2, h3, h4, h5, h6, y, hy, by rw [e']; exact hs⟩

end NoSwapRun

open NoSwapRun

variable {K : Type*} [RCLike K]

/-- **C06 is false on the single-process backend**, with kernels as documented: the same solve completes, and
the residual it reports for the first pair is 0, but the residual of the first value and the first column is
the number it reports for the second pair. -/
theorem C06_seq_refuted (P : Plat ℝ) (hP : SortsIndices P) (hbig : 8 / 17 < P.maxVal) (E : Env K)
    (hL : E.lapack.Ok) (hnev : E.nev = 2) (hnex : E.nex = 0)
    (cfg : Config ℝ) (hmax : Even cfg.maxDeg) (hdeg : 2 ≤ cfg.maxDeg) (hext : 1 ≤ cfg.degExtra)
    (hit : 2 ≤ cfg.maxIter) (hlan : 1 ≤ cfg.lanczosIter) (resid0 : ℕ → ℝ) (s : Seq.St K 3)
    (hH : s.H = Matrix.diagonal ![1, 2, 3]) (hC : s.C 0 = ![1, 0, 4] ∧ s.C 1 = ![0, 1, 0]) :
    ∃ out, solve P (Seq.ops E) (conf cfg) (fun _ => 11 / 17) resid0 s = .ok out ∧
      out.locked = 2 ∧ out.resid 0 = 0 ∧ out.resid 1 = 644 / 25925 ∧
      Real.sqrt (∑ k, ‖(Matrix.diagonal ![1, 2, 3] : Matrix (Fin 3) (Fin 3) K).mulVec (out.be.C 0) k -
        (out.ritzv 0 : K) * out.be.C 0 k‖ ^ 2) = 644 / 25925 := by
  obtain ⟨out, h, -⟩ := C51_approx_solve_defined P (Seq.ops E) (conf cfg) rfl hmax
    (show 2 ≤ 3 by omega) (show 1 ≤ 2 by omega) hdeg hext (show 1 ≤ 2 by omega) hlan
    (fun h => absurd h (by show ¬ false = true; simp)) values resid0 s
  refine ⟨out, h, ?_⟩
  have hB := Seq.backs (N := 3) (cfg := conf cfg) hL hnev hnex rfl (by show 2 + 0 ≤ 3; omega) mat_hermitian
  have hb : ∀ s' : Seq.St K 3, s'.H = mat → s'.C 0 = begin 0 →
      Verif.boundOf (Seq.ops E) (conf cfg) s' = 57 / 17 := by
    intro s' h1 h2
    rw [Seq.boundOf_approx E rfl, h1]
    have hm : min ((conf cfg).nev + (conf cfg).nex) (min ((conf cfg).N / 2) (conf cfg).lanczosIter) = 1 := by
      have h1 : (conf cfg).nev + (conf cfg).nex = 2 := rfl
      have h2 : (conf cfg).N = 3 := rfl
      have h3 : (conf cfg).lanczosIter = cfg.lanczosIter := rfl
      omega
    rw [hm]
    exact bound_begin hL h2
  obtain ⟨-, h2, h3, -, h5, h6, t, e, -, x, hx, hs⟩ := run hP hB hmax hdeg hit hbig
    (fun _ => C09_hermitian_accepted E.lapack s.H (hH ▸ mat_hermitian)) rfl hH (begin_of hC) (by
      by_cases hc : cfg.symCheck = true
      · rw [if_pos hc]; exact hb _ hH (begin_of hC 0 (by omega))
      · rw [if_neg hc]; exact hb _ hH (begin_of hC 0 (by omega))) h
  refine ⟨h2, h5, h6, ?_⟩
  have e' : out.be.C 0 = t.C 1 := by
    rw [e]
    rfl
  have hr := residual_side (K := K) (v := out.ritzv 0) (a := 161) (b := -2) (x := x) rfl
  rw [e', hs]
  refine hr.trans ?_
  rw [h3, show ‖x‖ ^ 2 = 1 / 25925 by linarith]
  rw [show (1 / 25925 * ((161 * (1 - 25933 / 25925)) ^ 2 + (-2 * (3 - 25933 / 25925)) ^ 2) : ℝ) =
    (644 / 25925) ^ 2 by norm_num]
  exact Real.sqrt_sq (by norm_num)

/-- **C05 is false on the distributed CPU backend**, for every process grid and distribution, with kernels as
documented: the solve of `diag(1, 2, 3)` from the start vectors (1, 0, 4) and (0, 1, 0) and start values 11/17
completes, and its first value and its first column do not belong together. -/
theorem Mpi.C05_mpi_refuted {r c : Mpi.Layout 3} {E : Mpi.MEnv K} (hc : Mpi.RunsOk r c E.cRuns)
    (hb : Mpi.RunsOk c r E.bRuns) (P : Plat ℝ) (hP : SortsIndices P) (hbig : 8 / 17 < P.maxVal)
    (hL : E.base.lapack.Ok) (ht : 0 ≤ E.symTol) (hnev : E.base.nev = 2) (hnex : E.base.nex = 0)
    (cfg : Config ℝ) (hmax : Even cfg.maxDeg) (hdeg : 2 ≤ cfg.maxDeg) (hext : 1 ≤ cfg.degExtra)
    (hit : 2 ≤ cfg.maxIter) (hlan : 1 ≤ cfg.lanczosIter) (resid0 : ℕ → ℝ) {s : Mpi.Fam K r c}
    {g : Mpi.GSt K 3} (h : Mpi.Rep s g) (hH : g.H = Matrix.diagonal ![1, 2, 3])
    (hC : g.C 0 = ![1, 0, 4] ∧ g.C 1 = ![0, 1, 0]) (i0 : Fin r.procs) (j0 : Fin c.procs) :
    ∃ out, solve P (Mpi.opsAt E i0 j0) (conf cfg) (fun _ => 11 / 17) resid0 s = .ok out ∧
      ∃ X : ℕ → Fin 3 → K, (∀ i j k a, (out.be i j).C k a = X k (r.glob i a)) ∧
        Mismatch (conf cfg).tol out X := by
  obtain ⟨out, ho, -⟩ := C51_approx_solve_defined P (Mpi.opsAt E i0 j0) (conf cfg) rfl hmax
    (show 2 ≤ 3 by omega) (show 1 ≤ 2 by omega) hdeg hext (show 1 ≤ 2 by omega) hlan
    (fun h => absurd h (by show ¬ false = true; simp)) values resid0 s
  refine ⟨out, ho, ?_⟩
  have h0 := solve_sim (Mpi.sim hc hb i0 j0) P (conf cfg) values resid0 h
  rw [ho] at h0
  generalize hz : solve P (Mpi.gOps (E.glob r)) (conf cfg) values resid0 g = z at h0
  cases h0 with
  | ok h0 =>
    rename_i z
    have hE : E.base.nevex = 2 := by unfold Env.nevex; rw [hnev, hnex]
    have hm := NoSwapRun.global (G := E.glob r)
      (Mpi.gQr_like hL (by show E.base.nevex ≤ 3; omega)) Mpi.gResd_like P hP hbig hL ht hnev hnex cfg
      hmax hdeg hit hlan resid0 g hH (begin_of hC) z hz
    exact ⟨z.be.C, h0.be.C, hm.congr h0.iterations h0.locked h0.ritzv h0.resid⟩

/-- **C05 is false on the multi-GPU backend** as well (the setups of C60): the same solve, the columns being
those in host memory at the end. -/
theorem Mgpu.C05_mgpu_refuted {r c : Mpi.Layout 3} {E : Mgpu.GpuEnv K} (hS : E.Sound)
    (hc : Mpi.RunsOk r c E.mpi.cRuns) (hb : Mpi.RunsOk c r E.mpi.bRuns)
    (P : Plat ℝ) (hP : SortsIndices P) (hbig : 8 / 17 < P.maxVal)
    (hL : E.mpi.base.lapack.Ok) (ht : 0 ≤ E.mpi.symTol) (hnev : E.mpi.base.nev = 2)
    (hnex : E.mpi.base.nex = 0)
    (cfg : Config ℝ) (hmax : Even cfg.maxDeg) (hdeg : 2 ≤ cfg.maxDeg) (hext : 1 ≤ cfg.degExtra)
    (hit : 2 ≤ cfg.maxIter) (hlan : 1 ≤ cfg.lanczosIter) (resid0 : ℕ → ℝ) {s : Mgpu.GFam K r c}
    {g : Mpi.GSt K 3} (h : Mpi.Rep (Mgpu.pview E s) g) (hH : g.H = Matrix.diagonal ![1, 2, 3])
    (hC : g.C 0 = ![1, 0, 4] ∧ g.C 1 = ![0, 1, 0]) (i0 : Fin r.procs) (j0 : Fin c.procs) :
    ∃ out, solve P (Mgpu.opsAt E i0 j0) (conf cfg) (fun _ => 11 / 17) resid0 s = .ok out ∧
      ∃ X : ℕ → Fin 3 → K, (∀ i j k, k < 2 → ∀ a, (out.be i j).host.C k a = X k (r.glob i a)) ∧
        Mismatch (conf cfg).tol out X := by
  obtain ⟨out, ho, -⟩ := C51_approx_solve_defined P (Mgpu.opsAt E i0 j0) (conf cfg) rfl hmax
    (show 2 ≤ 3 by omega) (show 1 ≤ 2 by omega) hdeg hext (show 1 ≤ 2 by omega) hlan
    (fun h => absurd h (by show ¬ false = true; simp)) values resid0 s
  refine ⟨out, ho, ?_⟩
  have hE : E.mpi.base.nevex = 2 := by unfold Env.nevex; rw [hnev, hnex]
  have h0 := solve_simP (Mgpu.sim hS hc hb i0 j0) P (conf cfg) hE (Or.inl fun _ => trivial) values resid0 h
  have h1 := solve_simP_end (Mgpu.sim hS hc hb i0 j0) P (conf cfg) hE (Or.inl fun _ => trivial) values resid0 h
  rw [ho] at h0 h1
  generalize hz : solve P (Mgpu.refOps (E.mpi.glob r) E.aware) (conf cfg) values resid0 g = z at h0 h1
  cases h0 with
  | ok h0 =>
    rename_i z
    cases h1 with
    | ok h1 =>
      have hm := NoSwapRun.global (G := E.mpi.glob r)
        (Mgpu.refQr_like hL (by show E.mpi.base.nevex ≤ 3; omega) E.aware)
        (Mgpu.refResd_like _ _) P hP hbig hL ht hnev hnex cfg hmax hdeg hit hlan resid0 g hH
        (begin_of hC) z hz
      refine ⟨z.be.C, fun i j k hk a => ?_, hm.congr h0.iterations h0.locked h0.ritzv h0.resid⟩
      exact Mgpu.end_host (h1.2 (by rw [h0.iterations, hm.iterations]; omega)) i j k (by rw [hnev]; exact hk) a

/-! ### A grid -/

section example_
variable (K)

theorem NoSwapRun.exRow : Mpi.CyclicOk 3 1 0 2 := ⟨by decide, by decide, by decide⟩
theorem NoSwapRun.exCol : Mpi.CyclicOk 3 2 0 2 := ⟨by decide, by decide, by decide⟩

/-- The parameters of a 2 x 2 grid with different distributions of rows and columns. -/
noncomputable def NoSwapRun.exMEnv : Mpi.MEnv K where
  base := { exEnv K with nev := 2, nex := 0 }
  gen := fun p k => (p + k : ℕ)
  probe := fun p k => (p + k : ℕ)
  scalapack := true
  symTol := 0
  cRuns := Mpi.commRuns 3 1 2 0 2 2 0 fun p => if p = 0 then 2 else 1
  bRuns := Mpi.commRuns 3 2 2 0 1 2 0 fun p => if p = 0 then 2 else 1

theorem NoSwapRun.exRuns : Mpi.RunsOk (Mpi.cyclicLayout exRow) (Mpi.cyclicLayout exCol) (exMEnv K).cRuns ∧
    Mpi.RunsOk (Mpi.cyclicLayout exCol) (Mpi.cyclicLayout exRow) (exMEnv K).bRuns := by
  constructor
  · refine Mpi.cyclic_runs (by decide) exRow exCol (Or.inr ⟨rfl, rfl⟩)
      (lens := fun p => if p = 0 then 2 else 1) ?_
    intro p hp
    interval_cases p <;> exact ⟨_, rfl⟩
  · refine Mpi.cyclic_runs (by decide) exCol exRow (Or.inr ⟨rfl, rfl⟩)
      (lens := fun p => if p = 0 then 2 else 1) ?_
    intro p hp
    interval_cases p <;> exact ⟨_, rfl⟩

/-- The data of all processes before the solve. -/
noncomputable def NoSwapRun.exState : Mpi.GSt K 3 :=
  ⟨⟨Matrix.diagonal ![1, 2, 3], fun j => if j = 0 then ![1, 0, 4] else ![0, 1, 0], fun _ _ => 0, fun _ _ => 0,
    fun _ _ => 0, .bAc, 0, true⟩, true⟩

/-- The configuration is one a caller makes with the setters. -/
example : conf (Config.run .d 3 2 0 []) =
    Config.run .d 3 2 0 [.approx true, .opt false, .deg 2, .tol (1 / 10)] := rfl

/-- The refutation of C06 with that configuration. -/
example : ∃ out, solve (realPlat 1 id) (Seq.ops (exMEnv K).base) (conf (Config.run .d 3 2 0 [])) (fun _ => 11 / 17)
    (fun _ => 0) (exState K).toSt = .ok out ∧ out.resid 0 = 0 := by
  obtain ⟨out, h1, -, h2, -⟩ := C06_seq_refuted (realPlat 1 id)
    (realPlat_sorts 1 id) (by show (8 / 17 : ℝ) < 1; norm_num) (exMEnv K).base (Lapack.ideal_ok _ _ _) rfl rfl
    (Config.run .d 3 2 0 []) (by decide) (by decide) (by decide) (by decide) (by decide) (fun _ => 0)
    (exState K).toSt rfl ⟨rfl, rfl⟩
  exact ⟨out, h1, h2⟩

/-- Both refutations on the 2 x 2 grid, with the configuration of the example. -/
example : (∃ out X, solve (realPlat 1 id) (Mpi.opsAt (r := Mpi.cyclicLayout exRow) (c := Mpi.cyclicLayout exCol)
      (exMEnv K) (0 : Fin 2) (1 : Fin 2)) (conf (Config.run .d 3 2 0 [])) (fun _ => 11 / 17) (fun _ => 0)
      (Mpi.scatter _ _ (exState K)) = .ok out ∧ Mismatch (K := K) (1 / 10) out X) ∧
    ∃ out X, solve (realPlat 1 id) (Mgpu.opsAt (r := Mpi.cyclicLayout exRow) (c := Mpi.cyclicLayout exCol)
      ⟨{ exMEnv K with scalapack := false }, false, false⟩ (0 : Fin 2) (1 : Fin 2))
      (conf (Config.run .d 3 2 0 [])) (fun _ => 11 / 17) (fun _ => 0)
      (Mgpu.onHost K _ _ (exState K) (fun _ _ => 1) true) = .ok out ∧ Mismatch (K := K) (1 / 10) out X := by
  constructor
  · obtain ⟨out, h1, X, -, h2⟩ := Mpi.C05_mpi_refuted (exRuns K).1 (exRuns K).2 (realPlat 1 id)
      (realPlat_sorts 1 id) (by show (8 / 17 : ℝ) < 1; norm_num) (Lapack.ideal_ok _ _ _) (le_refl _) rfl rfl
      (Config.run .d 3 2 0 []) (by decide) (by decide) (by decide) (by decide) (by decide) (fun _ => 0)
      (Mpi.scatter_rep _ _ (exState K)) rfl ⟨rfl, rfl⟩ (0 : Fin 2) (1 : Fin 2)
    exact ⟨out, X, h1, h2⟩
  · obtain ⟨out, h1, X, -, h2⟩ := Mgpu.C05_mgpu_refuted
      (E := ⟨{ exMEnv K with scalapack := false }, false, false⟩) (Or.inl ⟨rfl, rfl⟩) (exRuns K).1 (exRuns K).2
      (realPlat 1 id) (realPlat_sorts 1 id) (by show (8 / 17 : ℝ) < 1; norm_num) (Lapack.ideal_ok _ _ _)
      (le_refl _) rfl rfl
      (Config.run .d 3 2 0 []) (by decide) (by decide) (by decide) (by decide) (by decide) (fun _ => 0)
      (s := Mgpu.onHost K _ _ (exState K) (fun _ _ => 1) true)
      (Mpi.scatter_rep _ _ (exState K)) rfl ⟨rfl, rfl⟩ (0 : Fin 2) (1 : Fin 2)
    exact ⟨out, X, h1, h2⟩

end example_

end Verif
