/-
Concrete solves that meet the hypotheses of C64, C65, C66 and C67, on a matrix of order 7.
-/
import Verif.Backend.SubspaceApi
import Verif.Backend.LanczosChk

open Matrix

namespace Verif

section
variable (K : Type*) [RCLike K]

/-- The diagonal matrix with entries `-7, -6, …, -1`. -/
noncomputable def exDiag : Matrix (Fin 7) (Fin 7) K := diagonal fun i => (((i.val : ℝ) - 7 : ℝ) : K)

/-- Unit vectors. -/
def exU (j : ℕ) : Fin 7 → K := fun i => if i.val = j then 1 else 0

/-- A basis of the space of the first five unit vectors; the first vector is not an eigenvector. -/
def exStart (j : ℕ) : Fin 7 → K := if j = 0 then exU K 0 + exU K 1 + exU K 2 else exU K j

/-- Five independent vectors; the second is the sum of an eigenvector with the smallest value and one with
the largest. -/
def exStart2 (j : ℕ) : Fin 7 → K :=
  if j = 0 then exU K 1 + exU K 2 + exU K 3 else if j = 1 then exU K 0 + exU K 6 else exU K j

/-- Start values: four small ones and one that is the largest eigenvalue. -/
noncomputable def exVals (k : ℕ) : ℝ := if k = 4 then -1 else (k : ℝ) - 7

end

variable {K : Type*} [RCLike K]

theorem exDiag_hermitian : (exDiag K).IsHermitian := by
  unfold exDiag
  rw [Matrix.IsHermitian, Matrix.diagonal_conjTranspose]
  congr 1
  funext i
  simp

theorem exDiag_U (j : ℕ) : (exDiag K).mulVec (exU K j) = (((j : ℝ) - 7 : ℝ) : K) • exU K j := by
  funext i
  unfold exDiag exU
  rw [Matrix.mulVec_diagonal, Pi.smul_apply, smul_eq_mul]
  by_cases h : i.val = j
  · rw [if_pos h, h]
  · rw [if_neg h, mul_zero, mul_zero]

theorem exU_ortho : OrthoOn 7 (exU K) := by
  intro i j hi hj
  interval_cases i <;> interval_cases j <;> simp [dotc, exU, Fin.sum_univ_succ]

theorem exU_indep : LinearIndependent K (fun j : Fin 5 => exU K j) :=
  OrthoOn.linearIndependent fun i j hi hj => exU_ortho i j (by omega) (by omega)

theorem exStart_span : Submodule.span K (exStart K '' {j | j < 5}) =
    Submodule.span K (exU K '' {j | j < 5}) := by
  refine prefixSpan_eq_of_le exU_indep (prefixSpan_le fun j hj => ?_)
  have hm : ∀ i, i < 5 → exStart K i ∈ prefixSpan 5 (exStart K) := fun i hi => mem_prefixSpan hi
  match j with
  | 0 =>
    have e : exU K 0 = exStart K 0 - exStart K 1 - exStart K 2 := by
      show exU K 0 = exU K 0 + exU K 1 + exU K 2 - exU K 1 - exU K 2
      abel
    rw [e]
    exact Submodule.sub_mem _ (Submodule.sub_mem _ (hm 0 (by omega)) (hm 1 (by omega))) (hm 2 (by omega))
  | j + 1 =>
    have e : exU K (j + 1) = exStart K (j + 1) := by unfold exStart; simp
    rw [e]
    exact hm _ hj

theorem lanczosBound_nonneg {N : ℕ} (p : ℕ → ℕ) (L : Lapack K) (H : Matrix (Fin N) (Fin N) K) (M : ℕ)
    (C : ℕ → Fin N → K) : 0 ≤ lanczosBound p L H M C := by
  unfold lanczosBound
  positivity

/-- The start of C65 for any nonnegative bound. -/
theorem exInvariantStart {bound : ℝ} (hb : 0 ≤ bound) :
    InvariantStart (exDiag K) 5 (exStart K) (fun k => (k : ℝ) - 7) bound (exU K) (fun j => (j : ℝ) - 7) where
  indep := exU_indep
  eigen := fun j _ => exDiag_U j
  span := exStart_span
  largest := ⟨4, by omega, fun j hj => by
    have : (j : ℝ) ≤ 4 := by exact_mod_cast (by omega : j ≤ 4)
    push_cast; linarith⟩
  below := fun k hk => by
    have : (k : ℝ) ≤ 4 := by exact_mod_cast (by omega : k ≤ 4)
    linarith

/-- The Lanczos process for the bound of that solve (three steps) divides by nothing that is zero. -/
theorem exStart_krylov : LinearIndependent K (fun k : Fin 3 => (exDiag K ^ (k : ℕ)).mulVec (exStart K 0)) := by
  rw [Fintype.linearIndependent_iff]
  intro g hg
  have hc : ∀ i : Fin 7, ∑ k : Fin 3, g k * ((((i.val : ℝ) - 7 : ℝ) : K) ^ (k : ℕ) * exStart K 0 i) = 0 := by
    intro i
    have := congrFun hg i
    simpa [exDiag, Matrix.diagonal_pow, Matrix.mulVec_diagonal] using this
  have key : ∀ (i : Fin 7) (x : K), exStart K 0 i = 1 → (((i.val : ℝ) - 7 : ℝ) : K) = x →
      g 0 + x * g 1 + x ^ 2 * g 2 = 0 := by
    intro i x h1 h2
    have := hc i
    rw [Fin.sum_univ_three, h1, h2] at this
    simp only [Fin.val_zero, Fin.val_one, Fin.val_two, pow_zero, pow_one, mul_one] at this
    linear_combination this
  have h0 := key 0 (-7) (by simp [exStart, exU]) (by push_cast; simp)
  have h1 := key 1 (-6) (by simp [exStart, exU]) (by
    have : ((((1 : Fin 7).val : ℕ) : ℝ) - 7) = -6 := by norm_num
    rw [this]; push_cast; simp)
  have h2 := key 2 (-5) (by simp [exStart, exU]) (by
    have : ((((2 : Fin 7).val : ℕ) : ℝ) - 7) = -5 := by norm_num
    rw [this]; push_cast; simp)
  have e2 : g 2 = 0 := by linear_combination (1 / 2) * h0 - h1 + (1 / 2) * h2
  have e1 : g 1 = 0 := by linear_combination h1 - h0 + 13 * e2
  have e0 : g 0 = 0 := by linear_combination h0 + 7 * e1 - 49 * e2
  intro i
  fin_cases i
  · exact e0
  · exact e1
  · exact e2

/-- **C65** on the single process backend: there is such a solve, of a matrix and start columns for which
also the Lanczos process is defined. -/
example : ∃ (s : Seq.St K 7) (out : Outcome ℝ (Seq.St K 7)),
    solve (realPlat 1 id) (Seq.ops (exEnv K)) (exCfg 4) (fun k => (k : ℝ) - 7) (fun _ => 0) s = .ok out ∧
    OneRound (exDiag K) 3 5 (exU K) (fun j => (j : ℝ) - 7) out out.be.C ∧
    ∃ l, mLanczosChk axpyOwn s.H (min 5 (min (7 / 2) (exCfg 4).lanczosIter)) 1 false s.C = .ok l := by
  obtain ⟨s, hs, hC⟩ : ∃ s : Seq.St K 7, s.H = exDiag K ∧ s.C = exStart K :=
    ⟨⟨exDiag K, exStart K, fun _ _ => 0, fun _ _ => 0, fun _ _ => 0, .bAc, 0, true⟩, rfl, rfl⟩
  have hL : (exEnv K).lapack.Ok := Lapack.ideal_ok _ _ _
  have hH : s.H.IsHermitian := by rw [hs]; exact exDiag_hermitian
  obtain ⟨out, ho, -⟩ := C51_approx_solve_defined (realPlat 1 id) (Seq.ops (exEnv K)) (exCfg 4) rfl
    (by decide) (by decide) (by decide) (by decide) (by decide) (by decide) (by decide)
    (fun h => absurd h (by decide)) (fun k => (k : ℝ) - 7) (fun _ => 0) s
  refine ⟨s, out, ho, ?_, ?_⟩
  · rw [← hs]
    refine C65_seq (realPlat 1 id) (realPlat_sorts _ _) (exEnv K) hL (exCfg 4) rfl rfl rfl (by decide)
      (by decide) rfl (by show (0 : ℝ) ≤ 1 / 10000000000; positivity) (by decide) _ _ s hH _ _ ?_ out ho
    rw [hs, hC]
    refine exInvariantStart ?_
    exact (lanczosBound_nonneg _ _ _ _ _).trans_eq (Seq.boundOf_approx (N := 7) (cfg := exCfg 4) (exEnv K) rfl s).symm
  · have h3 : min 5 (min (7 / 2) (exCfg 4).lanczosIter) = 3 := by decide
    rw [h3, C67_lanczos_partial axpyOwn _ hH 3 1 (fun _ _ => rfl) (by omega), if_pos]
    · exact ⟨_, rfl⟩
    · intro i hi
      obtain rfl : i = 0 := by omega
      rw [hs, hC]
      exact exStart_krylov

/-- **C65** on a 3 x 2 grid of processes. -/
example : ∃ (s : Mpi.Fam K (Mpi.cyclicLayout Mpi.exRow) (Mpi.cyclicLayout Mpi.exCol)) (g : Mpi.GSt K 7)
    (out : Outcome ℝ (Mpi.Fam K (Mpi.cyclicLayout Mpi.exRow) (Mpi.cyclicLayout Mpi.exCol)))
    (X : ℕ → Fin 7 → K),
    Mpi.Rep s g ∧ g.H = exDiag K ∧ g.C = exStart K ∧
    solve (realPlat 1 id) (Mpi.opsAt (Mpi.exMEnv K) (2 : Fin 3) (1 : Fin 2)) (exCfg 4)
      (fun k => (k : ℝ) - 7) (fun _ => 0) s = .ok out ∧
    (∀ i j k a, (out.be i j).C k a = X k ((Mpi.cyclicLayout Mpi.exRow).glob i a)) ∧
    OneRound (exDiag K) 3 5 (exU K) (fun j => (j : ℝ) - 7) out X := by
  obtain ⟨g, hs, hC⟩ : ∃ g : Mpi.GSt K 7, g.H = exDiag K ∧ g.C = exStart K :=
    ⟨⟨⟨exDiag K, exStart K, fun _ _ => 0, fun _ _ => 0, fun _ _ => 0, .bAc, 0, true⟩, true⟩, rfl, rfl⟩
  have hL : (exEnv K).lapack.Ok := Lapack.ideal_ok _ _ _
  have hH : g.H.IsHermitian := by rw [hs]; exact exDiag_hermitian
  have hrep := Mpi.scatter_rep (Mpi.cyclicLayout Mpi.exRow) (Mpi.cyclicLayout Mpi.exCol) g
  obtain ⟨out, ho, -⟩ := C51_approx_solve_defined (realPlat 1 id)
    (Mpi.opsAt (r := Mpi.cyclicLayout Mpi.exRow) (c := Mpi.cyclicLayout Mpi.exCol) (Mpi.exMEnv K) (2 : Fin 3)
      (1 : Fin 2)) (exCfg 4) rfl
    (by decide) (by decide) (by decide) (by decide) (by decide) (by decide) (by decide)
    (fun h => absurd h (by decide)) (fun k => (k : ℝ) - 7) (fun _ => 0) (Mpi.scatter _ _ g)
  have e := (boundOf_sim (Mpi.sim (Mpi.exRuns K).1 (Mpi.exRuns K).2 (2 : Fin 3) (1 : Fin 2)) (exCfg 4) hrep).trans
    (Mpi.boundOf_approx (N := 7) (cfg := exCfg 4) ((Mpi.exMEnv K).glob _) _ _ rfl g)
  have hI : InvariantStart g.H 5 g.C (fun k => (k : ℝ) - 7) (lanczosBound axpyOwn (exEnv K).lapack g.H
      (min 5 (min (7 / 2) (exCfg 4).lanczosIter)) g.C) (exU K) (fun j => (j : ℝ) - 7) := by
    rw [hs, hC]
    exact exInvariantStart (lanczosBound_nonneg _ _ _ _ _)
  obtain ⟨X, h1, h2⟩ := Mpi.C65_mpi (N := 7) (Mpi.exRuns K).1 (Mpi.exRuns K).2 (realPlat 1 id) (realPlat_sorts _ _)
    (realPlat_keeps _ _) hL (le_refl _) (exCfg 4) rfl rfl rfl (by decide) (by decide) rfl
    (by show (0 : ℝ) ≤ 1 / 10000000000; positivity) (by decide) _ _ hrep hH (2 : Fin 3) (1 : Fin 2) (exU K)
    (fun j => (j : ℝ) - 7) (Eq.mpr (congrArg (fun b => InvariantStart g.H 5 g.C (fun k => (k : ℝ) - 7) b (exU K)
      (fun j => (j : ℝ) - 7)) e) hI) out ho
  rw [hs] at h2
  exact ⟨_, g, out, X, hrep, hs, hC, ho, h1, h2⟩

/-- **C65** on a 3 x 2 grid of processes with GPUs, in both variants: the solve exists and the start meets
the hypothesis. -/
example (aware : Bool) :
    let r := Mpi.cyclicLayout Mpi.exRow
    let c := Mpi.cyclicLayout Mpi.exCol
    ∃ (s : Mgpu.GFam K r c) (g : Mpi.GSt K 7) (out : Outcome ℝ (Mgpu.GFam K r c)),
    Mpi.Rep (Mgpu.pview (Mgpu.exGpu K aware) s) g ∧ g.H = exDiag K ∧
    solve (realPlat 1 id) (Mgpu.opsAt (Mgpu.exGpu K aware) (2 : Fin 3) (1 : Fin 2)) (exCfg 4)
      (fun k => (k : ℝ) - 7) (fun _ => 0) s = .ok out ∧
    InvariantStart g.H 5 g.C (fun k => (k : ℝ) - 7) (lanczosBound axpyOwn
      (Mgpu.exGpu K aware).mpi.base.lapack g.H (min 5 (min (7 / 2) (exCfg 4).lanczosIter)) g.C) (exU K)
      (fun j => (j : ℝ) - 7) ∧ (Mgpu.exGpu K aware).Sound := by
  intro r c
  obtain ⟨g, hg⟩ : ∃ g : Mpi.GSt K 7, g =
    ⟨⟨exDiag K, exStart K, exStart K, exStart K, exStart K, .bAc, 0, true⟩, true⟩ := ⟨_, rfl⟩
  obtain ⟨out, ho, -⟩ := C51_approx_solve_defined (realPlat 1 id)
    (Mgpu.opsAt (r := r) (c := c) (Mgpu.exGpu K aware) (2 : Fin 3) (1 : Fin 2)) (exCfg 4) rfl
    (by decide) (by decide) (by decide) (by decide) (by decide) (by decide) (by decide)
    (fun h => absurd h (by decide)) (fun k => (k : ℝ) - 7) (fun _ => 0)
    (Mgpu.onHost K r c g (exStart K) true)
  have hgH : g.H = exDiag K := by rw [hg]
  refine ⟨_, g, out, ?_, hgH, ho, ?_, Mgpu.exGpu_sound K aware⟩
  · subst hg
    cases aware
    · exact Mpi.scatter_rep r c (⟨⟨exDiag K, exStart K, exStart K, exStart K, exStart K, .bAc, 0, true⟩, true⟩ :
        Mpi.GSt K 7)
    · exact ⟨fun _ _ _ _ => rfl, fun _ _ _ _ => rfl, fun _ _ _ _ => rfl, fun _ _ _ _ => rfl,
        fun _ _ _ _ => rfl, fun _ _ => rfl, fun _ _ => rfl, fun _ _ => rfl, fun _ _ => rfl⟩
  · subst hg
    exact exInvariantStart (lanczosBound_nonneg _ _ _ _ _)

/-- **C65** on the in-place backend: the caller passes a basis of the wanted space and gets back zeros. -/
example : ∃ (s : InPlace.St K 7) (out : Outcome ℝ (InPlace.St K 7)),
    solve (realPlat 1 id) (InPlace.ops (exEnv K) .cpu) (exCfg 4) (fun k => (k : ℝ) - 7) (fun _ => 0) s
      = .ok out ∧ s.userV .cpu = exStart K ∧
    OneRound (exDiag K) 3 5 (exU K) (fun j => (j : ℝ) - 7) out out.be.V1 ∧
    ∀ j, j < 5 → out.be.userV .cpu j = 0 := by
  obtain ⟨s, hs, hC, hfl⟩ : ∃ s : InPlace.St K 7, s.H = exDiag K ∧ s.userV .cpu = exStart K ∧
      s.flipped = false :=
    ⟨⟨exDiag K, exDiag K, exStart K, fun _ _ => 0, fun _ _ => 0, false, fun _ => 0, 0, true⟩, rfl, rfl, rfl⟩
  have hL : (exEnv K).lapack.Ok := Lapack.ideal_ok _ _ _
  have hH : s.H.IsHermitian := by rw [hs]; exact exDiag_hermitian
  obtain ⟨out, ho, -⟩ := C51_approx_solve_defined (realPlat 1 id) (InPlace.ops (exEnv K) .cpu) (exCfg 4) rfl
    (by decide) (by decide) (by decide) (by decide) (by decide) (by decide) (by decide)
    (fun h => absurd h (by decide)) (fun k => (k : ℝ) - 7) (fun _ => 0) s
  have hI : InvariantStart s.H 5 (s.userV .cpu) (fun k => (k : ℝ) - 7)
      (boundOf (InPlace.ops (exEnv K) .cpu) (exCfg 4) s) (exU K) (fun j => (j : ℝ) - 7) := by
    rw [hC, hs]
    exact exInvariantStart ((lanczosBound_nonneg _ _ _ _ _).trans_eq
      (InPlace.boundOf_approx (N := 7) (cfg := exCfg 4) (exEnv K) rfl s).symm)
  obtain ⟨h1, h2⟩ := InPlace.C65_inplace_partial (realPlat 1 id) (realPlat_sorts _ _) (exEnv K) hL (le_refl _)
    (exCfg 4) rfl rfl rfl (by decide) (by decide) rfl (by show (0 : ℝ) ≤ 1 / 10000000000; positivity) (by decide)
    _ _ s (.of_householder rfl _ _ _ _ _) hH hfl (exU K) (fun j => (j : ℝ) - 7) hI out ho
  rw [hs] at h1
  exact ⟨s, out, ho, hC, h1, h2⟩

/-! ### C64 and C66 -/

theorem exDiag_eigen {μ : ℝ} {x : Fin 7 → K} (h : (exDiag K).mulVec x = (μ : K) • x) (i : Fin 7)
    (hi : x i ≠ 0) : μ = (i.val : ℝ) - 7 := by
  have := congrFun h i
  unfold exDiag at this
  rw [Matrix.mulVec_diagonal, Pi.smul_apply, smul_eq_mul] at this
  exact_mod_cast (mul_right_cancel₀ hi this).symm

theorem exStart2_indep : LinearIndependent K (fun j : Fin 5 => exStart2 K j) := by
  rw [Fintype.linearIndependent_iff]
  intro g hg
  have hc : ∀ i : Fin 7, ∑ k : Fin 5, g k * exStart2 K k i = 0 := by
    intro i
    simpa using congrFun hg i
  have h0 := hc 0
  have h1 := hc 1
  have h2 := hc 2
  have h3 := hc 3
  have h4 := hc 4
  simp [Fin.sum_univ_succ, exStart2, exU] at h0 h1 h2 h3 h4
  intro i
  fin_cases i <;> simp_all

/-- The start of C66, for the interval of the first round. -/
theorem exGeometricStart {I : Interval ℝ} (h1 : I.lambda ≤ I.lower) (h2 : I.lower < I.upper)
    (h3 : I.lower = -1) (deg : ℕ) :
    GeometricStart (exDiag K) I 5 deg (-7) (exU K 0) (exU K 6) (exStart2 K) where
  point := h1
  proper := h2
  nonzero := by
    rintro μ ⟨y, hy, he⟩
    obtain ⟨i, hi⟩ := Function.ne_iff.mp hy
    have hμ := exDiag_eigen he i hi
    have h6 : (i.val : ℝ) ≤ 6 := by exact_mod_cast (by omega : i.val ≤ 6)
    unfold gain
    refine (lt_of_lt_of_le one_pos (Polynomial.Chebyshev.one_le_abs_eval_T_real _ ?_)).ne'
    rw [le_abs]
    right
    rw [← neg_div, le_div_iff₀ (by linarith)]
    linarith
  indep := exStart2_indep
  eigen := by
    have := exDiag_U (K := K) 0
    rwa [show ((0 : ℕ) : ℝ) - 7 = -7 by norm_num] at this
  below := by rw [h3]; norm_num
  damped := by
    intro μ x hx hμ
    by_cases h6 : x 6 = 0
    · refine Finset.sum_eq_zero fun k _ => ?_
      by_cases hk : k.val = 6
      · rw [show k = 6 from Fin.ext hk, h6, star_zero, zero_mul]
      · unfold exU; rw [if_neg hk, mul_zero]
    · have := exDiag_eigen hx 6 h6
      norm_num at this
      rcases hμ with h | h <;> linarith
  mem := by
    have : exU K 0 + exU K 6 = exStart2 K 1 := rfl
    rw [this]
    exact Submodule.subset_span ⟨1, by simp, rfl⟩

theorem exVals_le (k : ℕ) (hk : k < 5) : exVals k ≤ -1 := by
  unfold exVals
  split_ifs
  · exact le_rfl
  · have : (k : ℝ) ≤ 4 := by exact_mod_cast (by omega : k ≤ 4)
    linarith

/-- The first round of a solve with the start values `exVals`. -/
theorem exFirstOn {S : Type*} (P : Plat ℝ) (ops : Chase ℝ S) (s : S)
    (hsym : (ops.checkSymmetryEasy s).1 = true)
    (hb : 0 ≤ boundOf ops (exCfg 4) (if (exCfg 4).symCheck then (ops.checkSymmetryEasy s).2 else s)) :
    ∃ be0 st0 st' I, be0 = (if (exCfg 4).symCheck then (ops.checkSymmetryEasy s).2 else s) ∧
      initState P ops (exCfg 4) exVals (fun _ => 0) be0 = .ok st0 ∧
      Step P ops (exCfg 4) st0 st' ∧ FilterRuns P ops (exCfg 4) st0 I ∧
      st0.locked = 0 ∧ I.lambda ≤ I.lower ∧ I.lower < I.upper ∧ I.lower = -1 := by
  obtain ⟨out, ho, hpos⟩ := C51_approx_solve_defined P ops (exCfg 4) rfl
    (by decide) (by decide) (by decide) (by decide) (by decide) (by decide) (by decide)
    (fun h => absurd h (by decide)) exVals (fun _ => 0) s
  have hp := hpos (fun _ => hsym) (by decide)
  obtain ⟨be0, st0, st, e0, h0, hst, -, -, rfl⟩ := solve_ok ho (fun _ => hsym)
  have hst0 : st0.iteration = 0 ∧ st0.locked = 0 ∧ st0.ritzv = exVals := by
    obtain ⟨be1, l, -, hl, -, rfl⟩ := initState_ok h0
    refine ⟨rfl, rfl, ?_⟩
    unfold lanczos at hl
    rw [show (exCfg 4).approx = true from rfl] at hl
    split_ifs at hl with c1 c2
    · cases hl; rfl
    · exact absurd rfl c2
  rcases steps_head hst with rfl | ⟨st', hs, -⟩
  · have : 0 < st.iteration := hp
    omega
  obtain ⟨I, -, -, -, hI, -⟩ := filterRuns_of_iter hs.1 hs.2
  obtain ⟨a1, a2, a3⟩ := first_interval rfl h0 hI (fun k hk => by
    rw [e0]
    exact (exVals_le k hk).trans_lt (lt_of_lt_of_le (by norm_num) hb))
  refine ⟨be0, st0, st', I, e0, h0, hs, hI, hst0.2.1, a1, a2, le_antisymm ?_ ?_⟩
  · obtain ⟨x, ⟨⟨k1, hk1, e1⟩, -⟩, hl⟩ := (C63_lower_end_partial P ops (exCfg 4) exVals _ be0 st0 (.init h0) I
      hI).1 hst0.1
    rw [hl, ← e1, hst0.2.2]
    exact (min_le_left _ _).trans (exVals_le _ hk1)
  · have := a3 4 (by decide)
    exact this

theorem exFirst {S : Type*} (ops : Chase ℝ S) (s : S)
    (hsym : (ops.checkSymmetryEasy s).1 = true)
    (hb : 0 ≤ boundOf ops (exCfg 4) (if (exCfg 4).symCheck then (ops.checkSymmetryEasy s).2 else s)) :
    ∃ be0 st0 st' I, be0 = (if (exCfg 4).symCheck then (ops.checkSymmetryEasy s).2 else s) ∧
      initState (realPlat 1 id) ops (exCfg 4) exVals (fun _ => 0) be0 = .ok st0 ∧
      Step (realPlat 1 id) ops (exCfg 4) st0 st' ∧ FilterRuns (realPlat 1 id) ops (exCfg 4) st0 I ∧
      st0.locked = 0 ∧ I.lambda ≤ I.lower ∧ I.lower < I.upper ∧ I.lower = -1 :=
  exFirstOn (realPlat 1 id) ops s hsym hb

/-- **C64**, **C66** on the single process backend: a first round that meets the hypotheses. -/
example : ∃ (s : Seq.St K 7) (st0 st' : St ℝ (Seq.St K 7)) (I : Interval ℝ),
    s.H = exDiag K ∧ (exEnv K).lapack.Ok ∧
    initState (realPlat 1 id) (Seq.ops (exEnv K)) (exCfg 4) exVals (fun _ => 0) s = .ok st0 ∧
    Step (realPlat 1 id) (Seq.ops (exEnv K)) (exCfg 4) st0 st' ∧
    FilterRuns (realPlat 1 id) (Seq.ops (exEnv K)) (exCfg 4) st0 I ∧ st0.locked = 0 ∧
    GeometricStart s.H I 5 (startDegree (exCfg 4)) (-7) (exU K 0) (exU K 6) st0.be.C ∧
    GeometricRound s.H I 5 (startDegree (exCfg 4)) st'.iteration (-7) (exU K 0) (exU K 6) st'.ritzv st'.be.C ∧
    1 < gain I (startDegree (exCfg 4)) (-7) := by
  obtain ⟨s, hs, hC⟩ : ∃ s : Seq.St K 7, s.H = exDiag K ∧ s.C = exStart2 K :=
    ⟨⟨exDiag K, exStart2 K, fun _ _ => 0, fun _ _ => 0, fun _ _ => 0, .bAc, 0, true⟩, rfl, rfl⟩
  have hL : (exEnv K).lapack.Ok := Lapack.ideal_ok _ _ _
  have hH : s.H.IsHermitian := by rw [hs]; exact exDiag_hermitian
  obtain ⟨be0, st0, st', I, e0, h0, h1, h2, h3, h4, h5, h6⟩ := exFirst (Seq.ops (exEnv K)) s
    (C09_hermitian_accepted (exEnv K).lapack _ hH) ((lanczosBound_nonneg _ _ _ _ _).trans_eq
      (Seq.boundOf_approx (N := 7) (cfg := exCfg 4) (exEnv K) rfl _).symm)
  have hb : be0.H = exDiag K ∧ be0.C = exStart2 K := by
    rw [e0, ← hs, ← hC]
    split_ifs <;> exact ⟨rfl, rfl⟩
  have hst : st0.be.C = exStart2 K := by
    obtain ⟨be1, l, hb1, hl, -, rfl⟩ := initState_ok h0
    rw [show (exCfg 4).approx = true from rfl] at hl hb1
    simp only [Bool.not_true, Bool.false_eq_true, if_false] at hl hb1
    unfold lanczos at hl
    split_ifs at hl with c1 c2
    · cases hl
      rw [hb1, ← hb.2]
      rfl
    · exact absurd rfl c2
  have hg : GeometricStart be0.H I 5 (startDegree (exCfg 4)) (-7) (exU K 0) (exU K 6) st0.be.C := by
    rw [hb.1, hst]
    exact exGeometricStart h4 h5 h6 _
  refine ⟨be0, st0, st', I, hb.1, hL, h0, h1, h2, h3, hg, ?_, ?_⟩
  · have hH0 : be0.H.IsHermitian := by rw [hb.1]; exact exDiag_hermitian
    exact C66_seq (cfg := exCfg 4) (N := 7) (realPlat_sorts _ _) (exEnv K) hL rfl rfl rfl (by decide)
      (by decide) rfl be0 hH0 st0 st0 st' h0 h2 (-7) _ _ hg (.init h0) h3 h1
  · exact one_lt_gain h5 (by decide) (by rw [h6]; norm_num)

/-- **C64**, **C66** on the distributed backend: a first round that meets the hypotheses. -/
example : ∃ (s : Mpi.Fam K (Mpi.cyclicLayout Mpi.exRow) (Mpi.cyclicLayout Mpi.exCol)) (g : Mpi.GSt K 7)
    (st0 st' : St ℝ (Mpi.Fam K (Mpi.cyclicLayout Mpi.exRow) (Mpi.cyclicLayout Mpi.exCol))) (I : Interval ℝ)
    (X0 : ℕ → Fin 7 → K), Mpi.Rep s g ∧ g.H = exDiag K ∧
    initState (realPlat 1 id) (Mpi.opsAt (Mpi.exMEnv K) (2 : Fin 3) (1 : Fin 2)) (exCfg 4) exVals (fun _ => 0) s
      = .ok st0 ∧
    Step (realPlat 1 id) (Mpi.opsAt (Mpi.exMEnv K) (2 : Fin 3) (1 : Fin 2)) (exCfg 4) st0 st' ∧
    FilterRuns (realPlat 1 id) (Mpi.opsAt (Mpi.exMEnv K) (2 : Fin 3) (1 : Fin 2)) (exCfg 4) st0 I ∧
    st0.locked = 0 ∧ (∀ i j k a, (st0.be i j).C k a = X0 k ((Mpi.cyclicLayout Mpi.exRow).glob i a)) ∧
    GeometricStart g.H I 5 (startDegree (exCfg 4)) (-7) (exU K 0) (exU K 6) X0 := by
  let g : Mpi.GSt K 7 :=
    ⟨⟨exDiag K, exStart2 K, fun _ _ => 0, fun _ _ => 0, fun _ _ => 0, .bAc, 0, true⟩, true⟩
  have hrep := Mpi.scatter_rep (Mpi.cyclicLayout Mpi.exRow) (Mpi.cyclicLayout Mpi.exCol) g
  have hS := Mpi.sim (Mpi.exRuns K).1 (Mpi.exRuns K).2 (2 : Fin 3) (1 : Fin 2)
  have hsym := Mpi.C09_mpi_hermitian_accepted (E := Mpi.exMEnv K) (Mpi.exRuns K).1 (Mpi.exRuns K).2
    (s := Mpi.scatter (Mpi.cyclicLayout Mpi.exRow) (Mpi.cyclicLayout Mpi.exCol) g)
    (fun _ _ _ _ => rfl) exDiag_hermitian (le_refl _)
  obtain ⟨be0, st0, st', I, e0, h0, h1, h2, h3, h4, h5, h6⟩ := exFirst
    (Mpi.opsAt (Mpi.exMEnv K) (2 : Fin 3) (1 : Fin 2)) _ hsym (by
      have hr : Mpi.Rep (if (exCfg 4).symCheck then
          ((Mpi.opsAt (Mpi.exMEnv K) (2 : Fin 3) (1 : Fin 2)).checkSymmetryEasy
            (Mpi.scatter (Mpi.cyclicLayout Mpi.exRow) (Mpi.cyclicLayout Mpi.exCol) g)).2
          else Mpi.scatter (Mpi.cyclicLayout Mpi.exRow) (Mpi.cyclicLayout Mpi.exCol) g)
          (if (exCfg 4).symCheck then ((Mpi.gOps
            ((Mpi.exMEnv K).glob (Mpi.cyclicLayout Mpi.exRow))).checkSymmetryEasy g).2 else g) := by
        split_ifs
        · exact (hS.checkSymmetryEasy _ _ hrep).2
        · exact hrep
      exact (lanczosBound_nonneg _ _ _ _ _).trans_eq ((boundOf_sim hS (exCfg 4) hr).trans
        (Mpi.boundOf_approx (N := 7) (cfg := exCfg 4) ((Mpi.exMEnv K).glob _) _ _ rfl _)).symm)
  obtain ⟨g0, hg0, hgH, hgC⟩ : ∃ g0, Mpi.Rep be0 g0 ∧ g0.H = exDiag K ∧ g0.C = exStart2 K := by
    rw [e0]
    split_ifs
    · exact ⟨_, (hS.checkSymmetryEasy _ _ hrep).2, rfl, rfl⟩
    · exact ⟨g, hrep, rfl, rfl⟩
  have hst : ∀ i j k a, (st0.be i j).C k a = exStart2 K k ((Mpi.cyclicLayout Mpi.exRow).glob i a) := by
    obtain ⟨z0, hz0, hrel⟩ := init_sim hS _ _ hg0 h0
    obtain ⟨be1, l, hb1, hl, -, rfl⟩ := initState_ok hz0
    rw [show (exCfg 4).approx = true from rfl] at hl hb1
    simp only [Bool.not_true, Bool.false_eq_true, if_false] at hl hb1
    unfold lanczos at hl
    split_ifs at hl with c1 c2
    · cases hl
      intro i j k a
      rw [hrel.be.C i j k a, ← hgC, hb1]
      rfl
    · exact absurd rfl c2
  refine ⟨be0, g0, st0, st', I, exStart2 K, hg0, hgH, h0, h1, h2, h3, hst, ?_⟩
  rw [hgH]
  exact exGeometricStart h4 h5 h6 _

/-- The first round of the multi-GPU backend from the start columns of the examples. -/
theorem exFirstMgpu {K : Type*} [RCLike K] {r c : Mpi.Layout 7} {E : Mgpu.GpuEnv K} (hE : E.Sound) (hc : Mpi.RunsOk r c E.mpi.cRuns)
    (hb : Mpi.RunsOk c r E.mpi.bRuns) (hn : E.mpi.base.nevex = 5) (i0 : Fin r.procs) (j0 : Fin c.procs)
    {s : Mgpu.GFam K r c} {g : Mpi.GSt K 7} (hrep : Mpi.Rep (Mgpu.pview E s) g) (hgH : g.H = exDiag K)
    (hgC : g.C = exStart2 K) (hsym : ((Mgpu.opsAt E i0 j0).checkSymmetryEasy s).1 = true) :
    ∃ (s : Mgpu.GFam K r c) (g : Mpi.GSt K 7) (st0 st' : St ℝ (Mgpu.GFam K r c)) (I : Interval ℝ)
      (X0 : ℕ → Fin 7 → K), Mpi.Rep (Mgpu.pview E s) g ∧ g.H = exDiag K ∧
      initState (realPlat 1 id) (Mgpu.opsAt E i0 j0) (exCfg 4) exVals (fun _ => 0) s = .ok st0 ∧
      Step (realPlat 1 id) (Mgpu.opsAt E i0 j0) (exCfg 4) st0 st' ∧
      FilterRuns (realPlat 1 id) (Mgpu.opsAt E i0 j0) (exCfg 4) st0 I ∧
      st0.locked = 0 ∧ (∀ i j k a, ((st0.be i j).work E.aware).C k a = X0 k (r.glob i a)) ∧
      GeometricStart g.H I 5 (startDegree (exCfg 4)) (-7) (exU K 0) (exU K 6) X0 := by
  have hS := Mgpu.sim hE hc hb i0 j0
  have hbound : 0 ≤ Verif.boundOf (Mgpu.opsAt E i0 j0) (exCfg 4)
      (if (exCfg 4).symCheck then ((Mgpu.opsAt E i0 j0).checkSymmetryEasy s).2 else s) := by
    have hr : Mpi.Rep (Mgpu.pview E (if (exCfg 4).symCheck then
        ((Mgpu.opsAt E i0 j0).checkSymmetryEasy s).2 else s))
        (if (exCfg 4).symCheck then ((Mgpu.refOps (E.mpi.glob r) E.aware).checkSymmetryEasy g).2 else g) := by
      split_ifs
      · exact (hS.checkSymmetryEasy _ _ hrep).2
      · exact hrep
    rw [boundOf_simP hS (exCfg 4) hr]
    exact (lanczosBound_nonneg _ _ _ _ _).trans_eq
      (Mpi.boundOf_approx (N := 7) (cfg := exCfg 4) (E.mpi.glob r) (Mgpu.refQr _ _) (Mgpu.refResd _ _) rfl _).symm
  obtain ⟨be0, st0, st', I, e0, h0, h1, h2, h3, h4, h5, h6⟩ := exFirst (Mgpu.opsAt E i0 j0) _ hsym hbound
  obtain ⟨g0, hg0, hgH, hgC⟩ : ∃ g0, Mpi.Rep (Mgpu.pview E be0) g0 ∧ g0.H = exDiag K ∧
      g0.C = exStart2 K := by
    rw [e0]
    split_ifs
    · exact ⟨_, (hS.checkSymmetryEasy _ _ hrep).2, hgH, hgC⟩
    · exact ⟨g, hrep, hgH, hgC⟩
  have hst : ∀ i j k a, ((st0.be i j).work E.aware).C k a = exStart2 K k (r.glob i a) := by
    obtain ⟨z0, hz0, hrel⟩ := init_simP hS _ (exCfg 4) hn hg0 h0
    obtain ⟨be1, l, hb1, hl, -, rfl⟩ := initState_ok hz0
    rw [show (exCfg 4).approx = true from rfl] at hl hb1
    simp only [Bool.not_true, Bool.false_eq_true, if_false] at hl hb1
    unfold lanczos at hl
    split_ifs at hl with c1 c2
    · cases hl
      intro i j k a
      refine (hrel.1.be.rep.C i j k a).trans ?_
      rw [← hgC, hb1]
      rfl
    · exact absurd rfl c2
  refine ⟨be0, g0, st0, st', I, exStart2 K, hg0, hgH, h0, h1, h2, h3, hst, ?_⟩
  rw [hgH]
  exact exGeometricStart h4 h5 h6 _

/-- **C64**, **C66** on the multi-GPU backend, in both variants: a first round that meets the hypotheses. -/
example (aware : Bool) : ∃ (s : Mgpu.GFam K (Mpi.cyclicLayout Mpi.exRow) (Mpi.cyclicLayout Mpi.exCol))
    (g : Mpi.GSt K 7)
    (st0 st' : St ℝ (Mgpu.GFam K (Mpi.cyclicLayout Mpi.exRow) (Mpi.cyclicLayout Mpi.exCol))) (I : Interval ℝ)
    (X0 : ℕ → Fin 7 → K), Mpi.Rep (Mgpu.pview (Mgpu.exGpu K aware) s) g ∧ g.H = exDiag K ∧
    initState (realPlat 1 id) (Mgpu.opsAt (Mgpu.exGpu K aware) (2 : Fin 3) (1 : Fin 2)) (exCfg 4) exVals
      (fun _ => 0) s = .ok st0 ∧
    Step (realPlat 1 id) (Mgpu.opsAt (Mgpu.exGpu K aware) (2 : Fin 3) (1 : Fin 2)) (exCfg 4) st0 st' ∧
    FilterRuns (realPlat 1 id) (Mgpu.opsAt (Mgpu.exGpu K aware) (2 : Fin 3) (1 : Fin 2)) (exCfg 4) st0 I ∧
    st0.locked = 0 ∧ (∀ i j k a, ((st0.be i j).work (Mgpu.exGpu K aware).aware).C k a =
      X0 k ((Mpi.cyclicLayout Mpi.exRow).glob i a)) ∧
    GeometricStart g.H I 5 (startDegree (exCfg 4)) (-7) (exU K 0) (exU K 6) X0 := by
  let g : Mpi.GSt K 7 := ⟨⟨exDiag K, exStart2 K, exStart2 K, exStart2 K, exStart2 K, .bAc, 0, true⟩, true⟩
  refine exFirstMgpu (Mgpu.exGpu_sound K aware) (Mpi.exRuns K).1 (Mpi.exRuns K).2 rfl _ _
    (s := Mgpu.onHost K (Mpi.cyclicLayout Mpi.exRow) (Mpi.cyclicLayout Mpi.exCol) g (exStart2 K) true)
    (g := g) ?_ rfl rfl ?_
  · cases aware
    · exact Mpi.scatter_rep _ _ g
    · exact ⟨fun _ _ _ _ => rfl, fun _ _ _ _ => rfl, fun _ _ _ _ => rfl, fun _ _ _ _ => rfl, fun _ _ _ _ => rfl,
          fun _ _ => rfl, fun _ _ => rfl, fun _ _ => rfl, fun _ _ => rfl⟩
  · exact Mpi.C09_mpi_hermitian_accepted (E := (Mgpu.exGpu K aware).mpi) (Mpi.exRuns K).1 (Mpi.exRuns K).2
      (fun _ _ _ _ => rfl) exDiag_hermitian (le_refl _)

/-- **C64**, **C66** on the in-place backends: a first round that meets the hypotheses. -/
example : ∃ (s : InPlace.St K 7) (st0 st' : St ℝ (InPlace.St K 7)) (I : Interval ℝ),
    s.userH .cpu = exDiag K ∧ cholDisable (exEnv K).doCholQR (exEnv K).envDisable = 1 ∧
    initState (realPlat 1 id) (InPlace.ops (exEnv K) .cpu) (exCfg 4) exVals (fun _ => 0) s = .ok st0 ∧
    Step (realPlat 1 id) (InPlace.ops (exEnv K) .cpu) (exCfg 4) st0 st' ∧
    FilterRuns (realPlat 1 id) (InPlace.ops (exEnv K) .cpu) (exCfg 4) st0 I ∧ st0.locked = 0 ∧
    GeometricStart (s.userH .cpu) I 5 (startDegree (exCfg 4)) (-7) (exU K 0) (exU K 6) st0.be.V1 := by
  obtain ⟨s, hs, hC⟩ : ∃ s : InPlace.St K 7, s.H = exDiag K ∧ s.V1 = exStart2 K :=
    ⟨⟨exDiag K, exDiag K, exStart2 K, fun _ _ => 0, fun _ _ => 0, false, fun _ => 0, 0, true⟩, rfl, rfl⟩
  have hH : s.H.IsHermitian := by rw [hs]; exact exDiag_hermitian
  obtain ⟨be0, st0, st', I, e0, h0, h1, h2, h3, h4, h5, h6⟩ := exFirst (InPlace.ops (exEnv K) .cpu) s
    (C09_hermitian_accepted (exEnv K).lapack _ hH) ((lanczosBound_nonneg _ _ _ _ _).trans_eq
      (InPlace.boundOf_approx (N := 7) (cfg := exCfg 4) (exEnv K) rfl _).symm)
  have hb : be0.H = exDiag K ∧ be0.V1 = exStart2 K := by
    rw [e0, ← hs, ← hC]
    split_ifs <;> exact ⟨rfl, rfl⟩
  have hst : st0.be.V1 = exStart2 K := by
    obtain ⟨be1, l, hb1, hl, -, rfl⟩ := initState_ok h0
    rw [show (exCfg 4).approx = true from rfl] at hl hb1
    simp only [Bool.not_true, Bool.false_eq_true, if_false] at hl hb1
    unfold lanczos at hl
    split_ifs at hl with c1 c2
    · cases hl
      rw [hb1, ← hb.2]
      rfl
    · exact absurd rfl c2
  refine ⟨be0, st0, st', I, hb.1, rfl, h0, h1, h2, h3, ?_⟩
  rw [hst, show be0.userH .cpu = exDiag K from hb.1]
  exact exGeometricStart h4 h5 h6 _

/-- **C64**, **C66** on the in-place backends with Cholesky QR: a first round that meets the hypotheses. -/
example : ∃ (s : InPlace.St K 7) (st0 st' : St ℝ (InPlace.St K 7 × Prop)) (I : Interval ℝ),
    s.userH .cpu = exDiag K ∧ cholDisable (exEnvChol K).doCholQR (exEnvChol K).envDisable ≠ 1 ∧
    initState exPlat (watch (InPlace.badQr (exEnvChol K)) (InPlace.ops (exEnvChol K) .cpu)) (exCfg 4) exVals
      (fun _ => 0) (s, False) = .ok st0 ∧
    Step exPlat (watch (InPlace.badQr (exEnvChol K)) (InPlace.ops (exEnvChol K) .cpu)) (exCfg 4) st0 st' ∧
    ¬ st'.be.2 ∧
    FilterRuns exPlat (watch (InPlace.badQr (exEnvChol K)) (InPlace.ops (exEnvChol K) .cpu)) (exCfg 4) st0 I ∧
    st0.locked = 0 ∧
    GeometricStart (s.userH .cpu) I 5 (startDegree (exCfg 4)) (-7) (exU K 0) (exU K 6) st0.be.1.V1 := by
  obtain ⟨s, hs, hC⟩ : ∃ s : InPlace.St K 7, s.H = exDiag K ∧ s.V1 = exStart2 K :=
    ⟨⟨exDiag K, exDiag K, exStart2 K, fun _ _ => 0, fun _ _ => 0, false, fun _ => 0, 0, true⟩, rfl, rfl⟩
  have hH : s.H.IsHermitian := by rw [hs]; exact exDiag_hermitian
  obtain ⟨be0, st0, st', I, e0, h0, h1, h2, h3, h4, h5, h6⟩ := exFirstOn exPlat
    (watch (InPlace.badQr (exEnvChol K)) (InPlace.ops (exEnvChol K) .cpu)) (s, False)
    (C09_hermitian_accepted (exEnvChol K).lapack _ hH) ((lanczosBound_nonneg _ _ _ _ _).trans_eq
      ((boundOf_sim (watch_sim _ _) _ rfl).trans
        (InPlace.boundOf_approx (N := 7) (cfg := exCfg 4) (exEnvChol K) rfl _)).symm)
  have hb : be0.1.H = exDiag K ∧ be0.1.V1 = exStart2 K ∧ be0 = (be0.1, False) := by
    rw [e0, ← hs, ← hC]
    split_ifs <;> exact ⟨rfl, rfl, rfl⟩
  have hst : st0.be.1.V1 = exStart2 K ∧ st0.be.2 = False := by
    obtain ⟨be1, l, hb1, hl, -, rfl⟩ := initState_ok h0
    rw [show (exCfg 4).approx = true from rfl] at hl hb1
    simp only [Bool.not_true, Bool.false_eq_true, if_false] at hl hb1
    unfold lanczos at hl
    split_ifs at hl with c1 c2
    · cases hl
      rw [hb1, ← hb.2.1]
      refine ⟨rfl, ?_⟩
      show be0.2 = False
      rw [hb.2.2]
    · exact absurd rfl c2
  refine ⟨be0.1, st0, st', I, hb.1, by simp [cholDisable, exEnvChol, exEnv], hb.2.2 ▸ h0, h1, ?_, h2, h3, ?_⟩
  · refine iter_clean (P := exPlat) ?_ h1.2 (by rw [hst.2]; exact id)
    intro _ _ _ _ _ _ _ _ hbad
    exact absurd hbad.2.1 (not_lt.mpr (by show (1 : ℝ) ≤ 10; norm_num))
  · rw [hst.1, show be0.1.userH .cpu = exDiag K from hb.1]
    exact exGeometricStart h4 h5 h6 _

/-! ### C67 -/

/-- `C67_eigenvector_refuted`: a start column that is an eigenvector of the matrix. -/
example (store : Bool) : mLanczosChk axpyOwn (exDiag K) 2 1 store (fun _ => exU K 0) = .error .divZero :=
  C67_eigenvector_refuted axpyOwn _ exDiag_hermitian 2 1 (fun _ _ => rfl) le_rfl store _ 0 one_pos _ (exDiag_U 0)

/-- `C67_few_eigenvalues_refuted`: two steps with the identity matrix fail from every start columns. -/
example (C : ℕ → Fin 7 → K) (numvec : ℕ) (hn : 0 < numvec) (store : Bool) :
    mLanczosChk axpyOwn (1 : Matrix (Fin 7) (Fin 7) K) 2 numvec store C = .error .divZero := by
  refine C67_few_eigenvalues_refuted axpyOwn _ Matrix.isHermitian_one 2 numvec (fun _ _ => rfl) hn store C {1} ?_
    (by simp)
  rintro μ ⟨y, hy, he⟩
  obtain ⟨i, hi⟩ := Function.ne_iff.mp hy
  have := congrFun he i
  rw [Matrix.one_mulVec, Pi.smul_apply, smul_eq_mul] at this
  have h1 : (μ : K) = 1 := by
    have h2 : (1 : K) * y i = (μ : K) * y i := by rw [one_mul]; exact this
    exact (mul_right_cancel₀ hi h2).symm
  simp only [Finset.mem_singleton]
  exact_mod_cast h1

end Verif
