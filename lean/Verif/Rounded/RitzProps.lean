/-
C90 in floating-point arithmetic, without the residuals: sums of returned values lie between the sums of the extreme
eigenvalues of the matrix handed in up to rounding errors alone, however far the solve is from convergence.
-/
import Verif.Rounded.RitzRun
import Verif.Rounded.SumProps

set_option linter.unusedSectionVars false

namespace Verif
namespace Rounded

open Matrix Finset

section
variable {K 𝕜 R : Type*} [RCLike 𝕜] {N : ℕ} {F : Fl K 𝕜} {valR : R → ℝ} {A : Arith K R N} {E : Params} {d1 d2 d3 : ℕ}
  {ε δ η ν : ℝ}
variable [Add R] [Sub R] [Mul R] [Div R] [Neg R] [Zero R] [One R] [NatCast R] [LT R] [DecidableLT R]

/-- The bound for the difference between a value and the Rayleigh quotient of its vector: `n` vectors, `m` rounds,
Frobenius norm `f` of the matrix handed in, shifts of size at most `C`, values of size at most `V`.  All terms vanish with
`u`, `ε`, `δ` and `η`. -/
noncomputable def quotB (u : ℝ) (d1 d2 d3 n m : ℕ) (ε δ η f C V : ℝ) : ℝ :=
  ritzB n ε δ η (gam u d3) f V (projB u d1 d2 ε f (gam u (2 * m) * (f + C)))

/-- The bound for each value in a sum: in addition `n` vectors that are orthonormal only up to `τ`. -/
noncomputable def sumB (u : ℝ) (d1 d2 d3 n m : ℕ) (ε δ η f C V τ : ℝ) : ℝ :=
  quotB u d1 d2 d3 n m ε δ η f C V + f * kap τ n

/-- **The values are Rayleigh quotients**, up to rounding errors, in every run in which the calls of `QR` are accurate. -/
theorem quotients (hO : OrthoKernels F A E.nevex d3 δ) (hR : RitzKernels F valR A E.nevex d2 η) (hε : 0 ≤ ε)
    (hδ : 0 ≤ δ) (hη : 0 ≤ η) (hacc : Accurate F valR A d1 ν) (P : Plat R) (hP : PermutesIndices P) (cfg : Config R)
    (hN : cfg.N = N) (hsz : cfg.nev + cfg.nex = E.nevex) (hmax : Even cfg.maxDeg)
    (ritzv0 resid0 : ℕ → R) (s : Seq.St K N) (hH : (valM F s.H).IsHermitian)
    (out : Outcome R (Seq.St K N × List (Call R)))
    (h : solve P (traced (ops A E)) cfg ritzv0 resid0 (s, []) = .ok out)
    (hsym : cfg.symCheck = true → A.symCheck s.H = true) (hit : 0 < out.iterations)
    (hq : QrAvoids P (ops A E) cfg ritzv0 resid0 s fun k c t => Inaccurate F A E ε k c t.C)
    {C V : ℝ} (hC : ∀ c ∈ shiftsOf out.be.2, |valR c| ≤ C)
    (hV : ∀ i, i < cfg.nev + cfg.nex → |valR (out.ritzv i)| ≤ V) :
    NearOrtho (tau (cfg.nev + cfg.nex) ε δ (gam F.u d3)) (cfg.nev + cfg.nex) (fun j => valV F (out.be.1.C j)) ∧
    ∀ i, i < cfg.nev + cfg.nex →
      ‖dotc (valV F (out.be.1.C i)) ((valM F s.H).mulVec (valV F (out.be.1.C i))) - (valR (out.ritzv i) : 𝕜)‖ ≤
        quotB F.u d1 d2 d3 (cfg.nev + cfg.nex) out.iterations ε δ η (frob (valM F s.H)) C V := by
  refine ⟨?_, fun i hi => ?_⟩
  · show NearOrtho _ _ fun j => valV F (out.be.1.C j)
    have h1 := solve_sim (traced_sim (ops A E)) P cfg ritzv0 resid0 (be := (s, [])) (be' := s) rfl
    rw [h] at h1
    cases hw : solve P (ops A E) cfg ritzv0 resid0 s with
    | error e => rw [hw] at h1; cases h1
    | ok o =>
      rw [hw] at h1
      cases h1 with
      | ok h1 =>
        have e : out.be.1 = o.be := h1.be
        rw [e]
        exact C84_orthonormal_partial hO hε hδ P hP cfg hN hsz hmax ritzv0 resid0 s o hw hsym
          (by rw [← h1.iterations]; exact hit) hq
  have hC0 : 0 ≤ C := by
    obtain ⟨ys, hy1, hy2, -⟩ := matrix_at_end P hP cfg ritzv0 resid0 s out h hsym
    cases ys with
    | nil => simp at hy1; omega
    | cons y ys => exact (abs_nonneg _).trans (hC (-y) (by rw [hy2]; simp [pairsOf]))
  have hu := F.u_nonneg
  set f := frob (valM F s.H) with hf
  have hf0 : 0 ≤ f := frob_nonneg _
  have hD0 : 0 ≤ gam F.u (2 * out.iterations) * (f + C) := mul_nonneg (gam_nonneg hu _) (by linarith)
  obtain ⟨xs, h1, h2, hp⟩ := ritz_at_end hO hε hδ P hP cfg hN hsz hmax ritzv0 resid0 s out h hsym hit hq i hi
  obtain ⟨a, b⟩ := drift hacc s.H xs fun c hc => hC c (h2 c hc)
  refine ritz_error hacc (hsz ▸ hR : RitzKernels F valR A (cfg.nev + cfg.nex) d2 η)
    (hsz ▸ hO : OrthoKernels F A (cfg.nev + cfg.nex) d3 δ) hε hδ hη hH hD0
    (fun i j hij => congrArg F.val (a i j hij)) (fun k => (b k).trans ?_) hp (hV i hi)
  have e1 : gam F.u (2 * xs.length) ≤ gam F.u (2 * out.iterations) := gam_mono hu (by omega)
  have e2 : ‖F.val (s.H k k)‖ ≤ f := norm_le_frob (valM F s.H) k k
  exact mul_le_mul e1 (by linarith) (by positivity) (gam_nonneg hu _)

/-- **C90 in floating-point arithmetic, without the residuals**, single-process CPU backend (partial: every call of `QR`
in the run is assumed to be accurate).  For any `m` of the returned values: their sum is at least the sum of the `m`
smallest and at most the sum of the `m` largest eigenvalues of the matrix handed in, up to rounding errors. -/
theorem C90_ritz_partial (hO : OrthoKernels F A E.nevex d3 δ) (hR : RitzKernels F valR A E.nevex d2 η) (hε : 0 ≤ ε)
    (hδ : 0 ≤ δ) (hη : 0 ≤ η) (hacc : Accurate F valR A d1 ν) (P : Plat R) (hP : PermutesIndices P) (cfg : Config R)
    (hN : cfg.N = N) (hsz : cfg.nev + cfg.nex = E.nevex) (hle : cfg.nev + cfg.nex ≤ N) (hmax : Even cfg.maxDeg)
    (ritzv0 resid0 : ℕ → R) (s : Seq.St K N) (hH : (valM F s.H).IsHermitian)
    (out : Outcome R (Seq.St K N × List (Call R)))
    (h : solve P (traced (ops A E)) cfg ritzv0 resid0 (s, []) = .ok out)
    (hsym : cfg.symCheck = true → A.symCheck s.H = true) (hit : 0 < out.iterations)
    (hq : QrAvoids P (ops A E) cfg ritzv0 resid0 s fun k c t => Inaccurate F A E ε k c t.C)
    {C V : ℝ} (hC : ∀ c ∈ shiftsOf out.be.2, |valR c| ≤ C)
    (hV : ∀ i, i < cfg.nev + cfg.nex → |valR (out.ritzv i)| ≤ V) :
    let n := cfg.nev + cfg.nex
    let τ := tau n ε δ (gam F.u d3)
    τ ≤ 1 →
    VariationalUpTo (valM F s.H) n (fun i => valR (out.ritzv i))
      (sumB F.u d1 d2 d3 n out.iterations ε δ η (frob (valM F s.H)) C V τ) := by
  intro n τ hτ1
  obtain ⟨hn, hp⟩ := quotients hO hR hε hδ hη hacc P hP cfg hN hsz hmax ritzv0 resid0 s hH out h hsym hit hq hC hV
  exact fun w hw hm T hT => variational_near hH hle hn (tau_nonneg hε hδ F.u_nonneg) hτ1 hp hw hm hT

/-- **C90 in floating-point arithmetic** with Householder QR (the environment variable `CHASE_DISABLE_CHOLQR` is 1, or
Cholesky QR is switched off), single-process CPU backend. -/
theorem C90_householder (hO : OrthoKernels F A E.nevex d3 δ) (hR : RitzKernels F valR A E.nevex d2 η) (hε : 0 ≤ ε)
    (hδ : 0 ≤ δ) (hη : 0 ≤ η) (hacc : Accurate F valR A d1 ν) (hd : cholDisable E.doCholQR E.envDisable = 1)
    (hq : ∀ X, QrOf ε E.nevex (fun j => valV F (X j)) fun j => valV F (A.hhQR X j))
    (P : Plat R) (hP : PermutesIndices P) (cfg : Config R)
    (hN : cfg.N = N) (hsz : cfg.nev + cfg.nex = E.nevex) (hle : cfg.nev + cfg.nex ≤ N) (hmax : Even cfg.maxDeg)
    (ritzv0 resid0 : ℕ → R) (s : Seq.St K N) (hH : (valM F s.H).IsHermitian)
    (out : Outcome R (Seq.St K N × List (Call R)))
    (h : solve P (traced (ops A E)) cfg ritzv0 resid0 (s, []) = .ok out)
    (hsym : cfg.symCheck = true → A.symCheck s.H = true) (hit : 0 < out.iterations)
    {C V : ℝ} (hC : ∀ c ∈ shiftsOf out.be.2, |valR c| ≤ C)
    (hV : ∀ i, i < cfg.nev + cfg.nex → |valR (out.ritzv i)| ≤ V) :
    let n := cfg.nev + cfg.nex
    let τ := tau n ε δ (gam F.u d3)
    τ ≤ 1 →
    VariationalUpTo (valM F s.H) n (fun i => valR (out.ritzv i))
      (sumB F.u d1 d2 d3 n out.iterations ε δ η (frob (valM F s.H)) C V τ) :=
  C90_ritz_partial hO hR hε hδ hη hacc P hP cfg hN hsz hle hmax ritzv0 resid0 s hH out h hsym hit
    (householder_avoids hd hq (fun s : Seq.St K N => s.C) _ _ _ _ _ _) hC hV

end

/-- The bound consists of rounding errors: with exact kernels it is zero. -/
theorem sumB_zero (d1 d2 d3 n m : ℕ) (f C V : ℝ) : sumB 0 d1 d2 d3 n m 0 0 0 f C V 0 = 0 := by
  simp [sumB, quotB, ritzB, projB, gam, kap, highB]

/-! ### Runs that meet the hypotheses -/

/-- An accurate dense eigensolver exists: the exact eigenpairs, with entries replaced by rational numbers nearby. -/
theorem exists_heevd {p b : ℕ} {η δ : ℝ} (hη : 0 < η) (hδ : 0 < δ) (M : Matrix (Fin b) (Fin b) (Fp p)) :
    ∃ y : (Fin b → Fp p) × Matrix (Fin b) (Fin b) (Fp p),
      (∀ j, Verif.nrm2 ((lowerH (Fp.fl p) M).mulVec (fun k => (Fp.fl p).val (y.2 k j)) -
        ((y.1 j).toReal : ℝ) • fun k => (Fp.fl p).val (y.2 k j)) ≤ η * frob (lowerH (Fp.fl p) M)) ∧
      (∃ W : Matrix (Fin b) (Fin b) ℝ, Wᴴ * W = 1 ∧ ∀ j, Verif.nrm2 (fun k => (Fp.fl p).val (y.2 k j) - W k j) ≤ δ) ∧
      ∀ i j, i ≤ j → (y.1 i).val ≤ (y.1 j).val := by
  set L := lowerH (Fp.fl p) M with hL
  have hH : L.IsHermitian := by
    refine Matrix.IsHermitian.ext fun i k => ?_
    simp only [hL, lowerH]
    rcases lt_trichotomy i k with h | h | h
    · simp [h, h.not_gt]
    · subst h; simp
    · simp [h, h.not_gt]
  by_cases h0 : frob L = 0
  · have hL0 : L = 0 := by
      ext i k
      have := norm_le_frob L i k
      rw [h0] at this
      simpa using le_antisymm this (norm_nonneg _)
    refine ⟨(0, fun i k => if i = k then 1 else 0), fun j => ?_, ⟨1, by simp, fun j => ?_⟩, fun i j _ => le_rfl⟩
    · have e : Fp.toReal (0 : Fp p) = 0 := by
        show ((0 : ℚ) : ℝ) = 0
        simp
      rw [h0, hL0]
      simp [e, Verif.nrm2]
    · have e : (fun k => (Fp.fl p).val (if k = j then (1 : Fp p) else 0) - (1 : Matrix (Fin b) (Fin b) ℝ) k j) = 0 := by
        ext k
        rw [Matrix.one_apply]
        split_ifs
        · show ((1 : ℚ) : ℝ) - 1 = 0; simp
        · show ((0 : ℚ) : ℝ) - 0 = 0; simp
      show Verif.nrm2 (fun k => (Fp.fl p).val (if k = j then (1 : Fp p) else 0) - (1 : Matrix (Fin b) (Fin b) ℝ) k j) ≤ δ
      rw [e]
      simp [Verif.nrm2, hδ.le]
  have hpos : 0 < η * frob L := mul_pos hη (lt_of_le_of_ne (frob_nonneg _) (Ne.symm h0))
  obtain ⟨w, hw, hmono⟩ := eigenvaluesOf_exists hH
  obtain ⟨B, hB⟩ := hw.basis hH
  set W : Matrix (Fin b) (Fin b) ℝ := fun k j => B j k with hW
  let U : Set ((Fin b → ℝ) × (Fin b → Fin b → ℝ)) := {y | ∀ j,
    Verif.nrm2 (L.mulVec (fun k => y.2 k j) - (y.1 j) • fun k => y.2 k j) < η * frob L ∧
      Verif.nrm2 (fun k => y.2 k j - W k j) < δ}
  have hU : IsOpen U := by
    have e : U = ⋂ j, ({y | Verif.nrm2 (L.mulVec (fun k => y.2 k j) - (y.1 j) • fun k => y.2 k j) < η * frob L} ∩
      {y | Verif.nrm2 (fun k => y.2 k j - W k j) < δ}) := by
      ext y; simp [U]
    rw [e]
    refine isOpen_iInter_of_finite fun j => IsOpen.inter (isOpen_lt ?_ continuous_const) (isOpen_lt ?_ continuous_const)
    · unfold Verif.nrm2 Matrix.mulVec dotProduct
      simp only [Pi.sub_apply, Pi.smul_apply, smul_eq_mul]
      fun_prop
    · unfold Verif.nrm2
      fun_prop
  have hmem : (w, fun k j => W k j) ∈ U := by
    refine fun j => ⟨?_, ?_⟩
    · have h1 : L.mulVec (fun k => W k j) = (w j) • fun k => W k j := by
        ext i
        have h5 := congrFun (congrArg WithLp.ofLp (hB j)) i
        simpa [Matrix.toEuclideanLin, hW] using h5
      show Verif.nrm2 (L.mulVec (fun k => W k j) - (w j) • fun k => W k j) < _
      rw [h1, sub_self]
      simpa [Verif.nrm2] using hpos
    · simpa [Verif.nrm2] using hδ
  let U' : Set ((Fin b → ℝ) × (Fin b → Fin b → ℝ)) := U ∩ {y | ∀ i j, i < j → y.1 i < y.1 j}
  have hU' : IsOpen U' := by
    refine hU.inter ?_
    have e : {y : (Fin b → ℝ) × (Fin b → Fin b → ℝ) | ∀ i j, i < j → y.1 i < y.1 j} =
        ⋂ i, ⋂ j, ⋂ _ : i < j, {y | y.1 i < y.1 j} := by
      ext y; simp
    rw [e]
    exact isOpen_iInter_of_finite fun i => isOpen_iInter_of_finite fun j => isOpen_iInter_of_finite fun _ =>
      isOpen_lt (by fun_prop) (by fun_prop)
  have hne : U'.Nonempty := by
    have hc : Continuous fun t : ℝ => ((fun j : Fin b => w j + t * (j : ℕ), fun k j => W k j) :
        (Fin b → ℝ) × (Fin b → Fin b → ℝ)) := by fun_prop
    obtain ⟨t, ht, hb⟩ := Metric.isOpen_iff.mp (hU.preimage hc) 0 (by simpa using hmem)
    refine ⟨_, hb (show t / 2 ∈ Metric.ball 0 t by
      rw [Metric.mem_ball, Real.dist_eq, sub_zero, abs_of_pos (by linarith)]; linarith), fun i j hij => ?_⟩
    have h1 := hmono hij.le
    have h2 : ((i : ℕ) : ℝ) < (j : ℕ) := by exact_mod_cast hij
    show w i + t / 2 * (i : ℕ) < w j + t / 2 * (j : ℕ)
    nlinarith
  have hd : DenseRange (fun q : (Fin b → ℚ) × (Fin b → Fin b → ℚ) =>
      ((fun i => (q.1 i : ℝ), fun i j => (q.2 i j : ℝ)) : (Fin b → ℝ) × (Fin b → Fin b → ℝ))) := by
    have h1 : DenseRange fun (q : Fin b → ℚ) i => (q i : ℝ) := DenseRange.piMap fun _ => Rat.denseRange_cast
    have h2 : DenseRange fun (q : Fin b → Fin b → ℚ) i j => (q i j : ℝ) := DenseRange.piMap fun _ => h1
    exact h1.prodMap h2
  obtain ⟨q, hq, hs⟩ := hd.exists_mem_open hU' hne
  refine ⟨(fun i => ⟨q.1 i⟩, fun i j => ⟨q.2 i j⟩), fun j => (hq j).1.le, ⟨W, ?_, fun j => (hq j).2.le⟩, fun i j hij => ?_⟩
  · ext i j
    rw [Matrix.mul_apply, Matrix.one_apply]
    have := (orthonormal_iff_ite.mp B.orthonormal) i j
    rw [EuclideanSpace.inner_eq_star_dotProduct] at this
    rw [← this]
    exact Finset.sum_congr rfl fun k _ => mul_comm _ _
  · rcases hij.lt_or_eq with h | rfl
    · have : (q.1 i : ℝ) < q.1 j := hs i j h
      exact_mod_cast this.le
    · exact le_rfl

/-- A dense eigensolver with errors of at most `2^-40`. -/
noncomputable def heevd {b : ℕ} (M : Matrix (Fin b) (Fin b) (Fp 53)) : (Fin b → Fp 53) × Matrix (Fin b) (Fin b) (Fp 53) :=
  (exists_heevd (show (0 : ℝ) < (1 / 2) ^ 40 by positivity) (show (0 : ℝ) < (1 / 2) ^ 40 by positivity) M).choose

theorem heevd_ok {b : ℕ} (M : Matrix (Fin b) (Fin b) (Fp 53)) :
    (∀ j, Verif.nrm2 ((lowerH (Fp.fl 53) M).mulVec (fun k => (Fp.fl 53).val ((heevd M).2 k j)) -
        (((heevd M).1 j).toReal : ℝ) • fun k => (Fp.fl 53).val ((heevd M).2 k j)) ≤ (1 / 2) ^ 40 * frob (lowerH (Fp.fl 53) M)) ∧
      (∃ W : Matrix (Fin b) (Fin b) ℝ, Wᴴ * W = 1 ∧
        ∀ j, Verif.nrm2 (fun k => (Fp.fl 53).val ((heevd M).2 k j) - W k j) ≤ (1 / 2) ^ 40) ∧
      ∀ i j, i ≤ j → ((heevd M).1 i).val ≤ ((heevd M).1 j).val :=
  (exists_heevd (show (0 : ℝ) < (1 / 2) ^ 40 by positivity) (show (0 : ℝ) < (1 / 2) ^ 40 by positivity) M).choose_spec

theorem tau_ritz : tau 2 ((1 / 2) ^ 40) ((1 / 2) ^ 40) (gam ((1 / 2) ^ 53) 3) < 1 := by
  have h : Real.sqrt ((2 : ℕ) : ℝ) ≤ 2 := Real.sqrt_le_iff.mpr ⟨by norm_num, by norm_num⟩
  have h0 : 0 ≤ Real.sqrt ((2 : ℕ) : ℝ) := Real.sqrt_nonneg _
  have hc : (((1 + (1 / 2 : ℝ) ^ 53) ^ 3 - 1) * (1 + (1 / 2) ^ 40) + (1 / 2) ^ 40) * (1 + (1 / 2) ^ 40) < 1 / 4 := by norm_num
  have hc0 : 0 ≤ (((1 + (1 / 2 : ℝ) ^ 53) ^ 3 - 1) * (1 + (1 / 2) ^ 40) + (1 / 2) ^ 40) * (1 + (1 / 2) ^ 40) := by norm_num
  have hd : (1 / 2 : ℝ) ^ 40 ≤ 1 / 4 := by norm_num
  unfold tau gam
  rw [← mul_assoc]
  generalize (((1 + (1 / 2 : ℝ) ^ 53) ^ 3 - 1) * (1 + (1 / 2) ^ 40) + (1 / 2) ^ 40) * (1 + (1 / 2) ^ 40) = x at *
  generalize Real.sqrt ((2 : ℕ) : ℝ) = y at *
  generalize (1 / 2 : ℝ) ^ 40 = z at *
  nlinarith

namespace Two

/-- The arithmetic of `arithQ` with the eigensolver above. -/
noncomputable def arithR : Arith (Fp 53) (Fp 53) 2 := { arithQ with heevd := heevd }

theorem orthoKernelsR : OrthoKernels (Fp.fl 53) arithR 2 3 ((1 / 2) ^ 40) where
  back := orthoKernels.back
  heevd := fun _ M => (heevd_ok M).2.1

theorem ritzKernelsR : RitzKernels (Fp.fl 53) Fp.toReal arithR 2 2 ((1 / 2) ^ 40) where
  proj := by
    intro b _ X Y i j
    refine ⟨2, le_rfl, ?_⟩
    exact Dot.add (F := Fp.fl 53) (.prod (X 0 i) (Y 0 j)) (.prod (X 1 i) (Y 1 j))
  heevd := fun _ M => (heevd_ok M).1

theorem accurateR : Accurate (Fp.fl 53) Fp.toReal arithR 2 (1 / 2) where
  ofBase := (accurate 53 ⟨8⟩).ofBase
  neg := (accurate 53 ⟨8⟩).neg
  add := (accurate 53 ⟨8⟩).add
  gemm := (accurate 53 ⟨8⟩).gemm
  axpy := (accurate 53 ⟨8⟩).axpy
  nrm2 := (accurate 53 ⟨8⟩).nrm2

end Two

/-- Non-vacuity of `C90_ritz_partial` and `C90_householder`: double precision, a Householder QR and a dense eigensolver
with errors of at most `2^-40`. -/
example : ∃ (out : Outcome (Fp 53) (Seq.St (Fp 53) 2 × List (Call (Fp 53)))) (C V : ℝ),
    solve (Two.plat 53) (traced (ops Two.arithR Two.params)) (Two.cfg 53) (Two.ritzv0 53) (fun _ => 0)
      (Two.start 53, []) = .ok out ∧ 0 < out.iterations ∧
    (∀ c ∈ shiftsOf out.be.2, |c.toReal| ≤ C) ∧ (∀ i, i < 2 → |(out.ritzv i).toReal| ≤ V) ∧
    VariationalUpTo (valM (Fp.fl 53) (Two.start 53).H) 2 (fun i => (out.ritzv i).toReal)
      (sumB (Fp.fl 53).u 2 2 3 2 out.iterations ((1 / 2) ^ 40) ((1 / 2) ^ 40) ((1 / 2) ^ 40)
        (frob (valM (Fp.fl 53) (Two.start 53).H)) C V (tau 2 ((1 / 2) ^ 40) ((1 / 2) ^ 40) (gam (Fp.fl 53).u 3))) := by
  have hq : ∀ X, QrOf ((1 / 2) ^ 40) Two.params.nevex (fun j => valV (Fp.fl 53) (X j))
      fun j => valV (Fp.fl 53) (Two.arithR.hhQR X j) := fun X => hhqr_ok le_rfl X
  obtain ⟨out, h1, h2⟩ := C51_approx_solve_defined (Two.plat 53) (traced (ops Two.arithR Two.params)) (Two.cfg 53) rfl
    (by decide) (by decide) (by decide) (by decide) (by decide) (by decide) (by decide) (by intro h; cases h)
    (Two.ritzv0 53) (fun _ => 0) (Two.start 53, [])
  have hit := h2 (fun _ => rfl) (by decide)
  obtain ⟨C, V, D, hC, hV, hD⟩ := exists_bounds ((shiftsOf out.be.2).map Fp.toReal) (fun i => (out.ritzv i).toReal) 2
  have hC' : ∀ c ∈ shiftsOf out.be.2, |c.toReal| ≤ C := fun c hc => hC _ (List.mem_map_of_mem hc)
  exact ⟨out, C, V, h1, hit, hC', hV, C90_householder Two.orthoKernelsR Two.ritzKernelsR (by positivity) (by positivity)
    (by positivity) Two.accurateR rfl hq (Two.plat 53) (Two.plat_permutes 53) (Two.cfg 53) rfl rfl (by decide) (by decide)
    _ _ _ (Two.start_hermitian 53) out h1 (fun _ => rfl) hit hC' hV tau_ritz.le⟩

end Rounded
end Verif
