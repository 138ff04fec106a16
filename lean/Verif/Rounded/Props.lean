/-
Properties C73 (reported residuals in floating-point arithmetic) and C74 (the matrix after a solve in floating-point
arithmetic), for the sequential CPU backend.
-/
import Verif.Rounded.Fp

set_option linter.unusedSectionVars false

namespace Verif
namespace Rounded

open Matrix

section
variable {K 𝕜 R : Type*} [RCLike 𝕜] {N : ℕ}
variable [Add R] [Sub R] [Mul R] [Div R] [Neg R] [Zero R] [One R] [NatCast R] [LT R] [DecidableLT R]
  {F : Fl K 𝕜} {valR : R → ℝ} {A : Arith K R N} {E : Params} {d : ℕ} {ν : ℝ}

/-- **C74** (partial).  After a solve of `n` rounds in floating-point arithmetic with unit roundoff `u` the entries of the
matrix outside the diagonal are the same; a diagonal entry `h` has moved by at most `((1+u)^(2n) - 1) (|h| + C)`, where
`C` bounds the numbers added to the diagonal in the course of the solve.  The full claim (nothing has moved) is false,
see `C74_refuted`. -/
theorem C74_drift_partial (hA : Accurate F valR A d ν) (P : Plat R) (hP : PermutesIndices P) (cfg : Config R)
    (ritzv0 resid0 : ℕ → R) (s : Seq.St K N) (out : Outcome R (Seq.St K N × List (Call R)))
    (h : solve P (traced (ops A E)) cfg ritzv0 resid0 (s, []) = .ok out)
    (hsym : cfg.symCheck = true → A.symCheck s.H = true) {C : ℝ} (hC : ∀ c ∈ shiftsOf out.be.2, |valR c| ≤ C) :
    (∀ i j, i ≠ j → out.be.1.H i j = s.H i j) ∧
    ∀ i, ‖F.val (out.be.1.H i i) - F.val (s.H i i)‖ ≤
      ((1 + F.u) ^ (2 * out.iterations) - 1) * (‖F.val (s.H i i)‖ + C) := by
  obtain ⟨xs, h1, h2, h3⟩ := matrix_at_end P hP cfg ritzv0 resid0 s out h hsym
  rw [h2] at hC
  obtain ⟨a, b⟩ := drift hA s.H xs hC
  rw [h3, ← h1]
  exact ⟨a, b⟩

/-- The bound used below: `F` is the Frobenius norm of the matrix, `C` bounds the shifts, `n` is the number of rounds,
`d` the depth of the matrix products, `x` the value of the pair. -/
def slack (u : ℝ) (d n : ℕ) (F C x : ℝ) : ℝ :=
  let D := ((1 + u) ^ (2 * n) - 1) * (F + C)
  ((1 + u) ^ (d + 2) - 1) * (F + D + |x|) + D

/-- **C73** (partial).  Floating-point arithmetic with unit roundoff `u`, matrix products of depth `d`, norms with
relative error `ν`.  After a solve with at least one round, the residual reported for a pair (value `x`, vector `v`)
differs from the exact norm `‖H v - x v‖` for the matrix handed in by at most
`ν ‖H v - x v‖ + (1 + ν) slack ‖v‖`.  As for `C06_residuals_partial` the residual stands at the position the pair had
before the final sort. -/
theorem C73_residual_partial (hA : Accurate F valR A d ν) (hν : 0 ≤ ν) (P : Plat R) (hP : PermutesIndices P)
    (cfg : Config R) (hN : cfg.N = N) (hsz : cfg.nev + cfg.nex = E.nevex) (hmax : Even cfg.maxDeg)
    (ritzv0 resid0 : ℕ → R) (s : Seq.St K N) (hH : (valM F s.H).IsHermitian)
    (out : Outcome R (Seq.St K N × List (Call R)))
    (h : solve P (traced (ops A E)) cfg ritzv0 resid0 (s, []) = .ok out)
    (hsym : cfg.symCheck = true → A.symCheck s.H = true) (hit : 0 < out.iterations)
    {C : ℝ} (hC : ∀ c ∈ shiftsOf out.be.2, |valR c| ≤ C) :
    ∃ σ : Equiv.Perm ℕ, PermOn 0 cfg.nev σ ∧ ∀ i, i < cfg.nev + cfg.nex →
      let x := valR (out.ritzv i)
      let v := valV F (out.be.1.C i)
      let r := Verif.nrm2 ((valM F s.H).mulVec v - (x : 𝕜) • v)
      |valR (out.resid (σ i)) - r| ≤
        ν * r + (1 + ν) * (slack F.u d out.iterations (frob (valM F s.H)) C x * Verif.nrm2 v) := by
  have hu := F.u_nonneg
  obtain ⟨σ, hσ, hm⟩ := measured_at_end P hP cfg hN hsz hmax ritzv0 resid0 s out h hsym hit
  refine ⟨σ, hσ, fun i hi => ?_⟩
  obtain ⟨xs, hlen, hxs, hmes⟩ := hm i hi
  obtain ⟨hoff, hdiag⟩ := drift hA s.H xs fun c hc => hC c (hxs c hc)
  -- some shift exists, so `C` is not negative
  obtain ⟨ys, hy1, hy2, -⟩ := matrix_at_end P hP cfg ritzv0 resid0 s out h hsym
  have hC0 : 0 ≤ C := by
    cases ys with
    | nil => simp at hy1; omega
    | cons y ys => exact (abs_nonneg _).trans (hC (-y) (by rw [hy2]; simp [pairsOf]))
  set D := gam F.u (2 * out.iterations) * (frob (valM F s.H) + C) with hD
  have hD0 : 0 ≤ D := mul_nonneg (gam_nonneg hu _) (add_nonneg (frob_nonneg _) hC0)
  have hdiag' : ∀ i, ‖F.val (afterShifts A s.H (pairsOf xs) i i) - F.val (s.H i i)‖ ≤ D := by
    intro i
    refine (hdiag i).trans (mul_le_mul (gam_mono hu (by omega)) ?_ ?_ (gam_nonneg hu _))
    · have : ‖F.val (s.H i i)‖ ≤ frob (valM F s.H) := norm_le_frob (valM F s.H) i i
      linarith
    · have := norm_nonneg (F.val (s.H i i))
      linarith
  have key := measured_error hA hν hD0 (fun i j hij => by rw [hoff i j hij]) hdiag' hmes
  rw [hH.eq] at key
  exact key

/-- For a vector that is not zero: an eigenvalue lies within the residual norm divided by the norm of the vector. -/
theorem eigenvalue_of_residual {H : Matrix (Fin N) (Fin N) 𝕜} (hH : H.IsHermitian) {v : Fin N → 𝕜} (hv : v ≠ 0)
    (x : ℝ) : ∃ μ, IsEigenvalue H μ ∧ |μ - x| * Verif.nrm2 v ≤ Verif.nrm2 (H.mulVec v - (x : 𝕜) • v) := by
  have hn : Verif.nrm2 v ≠ 0 := by
    intro h0
    have h1 := nrm2_sq v
    rw [h0] at h1
    apply hv
    funext i
    have h2 := (Finset.sum_eq_zero_iff_of_nonneg (fun i _ => sq_nonneg ‖v i‖)).mp
      (by simpa using h1.symm) i (Finset.mem_univ i)
    simpa using h2
  have hpos : 0 < Verif.nrm2 v := lt_of_le_of_ne (nrm2_nonneg v) (Ne.symm hn)
  set a : 𝕜 := (((Verif.nrm2 v)⁻¹ : ℝ) : 𝕜) with ha
  have hna : ‖a‖ = (Verif.nrm2 v)⁻¹ := by
    rw [ha, RCLike.norm_ofReal, abs_of_pos (inv_pos.mpr hpos)]
  have hunit : ∑ i, ‖(a • v) i‖ ^ 2 = 1 := by
    rw [← nrm2_sq, nrm2_smul, hna, inv_mul_cancel₀ hn, one_pow]
  obtain ⟨μ, h1, h2⟩ := C28_residual_certifies_eigenvalue H hH (a • v) hunit x
  refine ⟨μ, h1, ?_⟩
  have e : H.mulVec (a • v) - (x : 𝕜) • a • v = a • (H.mulVec v - (x : 𝕜) • v) := by
    rw [Matrix.mulVec_smul, smul_sub, smul_comm]
  rw [e, nrm2_smul, hna] at h2
  calc |μ - x| * Verif.nrm2 v ≤ (Verif.nrm2 v)⁻¹ * Verif.nrm2 (H.mulVec v - (x : 𝕜) • v) * Verif.nrm2 v :=
        mul_le_mul_of_nonneg_right h2 hpos.le
    _ = _ := by field_simp

/-- **C73**, consequence for eigenvalues: every reported pair whose vector is not zero certifies an eigenvalue of the
matrix handed in, at a distance bounded by the reported residual and the rounding errors. -/
theorem C73_eigenvalue_partial (hA : Accurate F valR A d ν) (hν : 0 ≤ ν) (hν1 : ν ≤ 1) (P : Plat R) (hP : PermutesIndices P)
    (cfg : Config R) (hN : cfg.N = N) (hsz : cfg.nev + cfg.nex = E.nevex) (hmax : Even cfg.maxDeg)
    (ritzv0 resid0 : ℕ → R) (s : Seq.St K N) (hH : (valM F s.H).IsHermitian)
    (out : Outcome R (Seq.St K N × List (Call R)))
    (h : solve P (traced (ops A E)) cfg ritzv0 resid0 (s, []) = .ok out)
    (hsym : cfg.symCheck = true → A.symCheck s.H = true) (hit : 0 < out.iterations)
    {C : ℝ} (hC : ∀ c ∈ shiftsOf out.be.2, |valR c| ≤ C) :
    ∃ σ : Equiv.Perm ℕ, PermOn 0 cfg.nev σ ∧ ∀ i, i < cfg.nev + cfg.nex →
      let x := valR (out.ritzv i)
      let v := valV F (out.be.1.C i)
      v ≠ 0 → ∃ μ, IsEigenvalue (valM F s.H) μ ∧
        (1 - ν) * (|μ - x| * Verif.nrm2 v) ≤ valR (out.resid (σ i)) +
          (1 + ν) * (slack F.u d out.iterations (frob (valM F s.H)) C x * Verif.nrm2 v) := by
  obtain ⟨σ, hσ, hm⟩ := C73_residual_partial hA hν P hP cfg hN hsz hmax ritzv0 resid0 s hH out h hsym hit hC
  refine ⟨σ, hσ, fun i hi => ?_⟩
  have key := hm i hi
  dsimp only at key ⊢
  intro hv
  obtain ⟨μ, h1, h2⟩ := eigenvalue_of_residual hH hv (valR (out.ritzv i))
  refine ⟨μ, h1, ?_⟩
  have h3 := mul_le_mul_of_nonneg_left h2 (show 0 ≤ 1 - ν by linarith)
  linarith [(abs_le.mp key).1]

end
/-! ### A run -/

namespace Two

/-- Library functions in `p`-bit arithmetic; the sort is insertion sort. -/
def plat (p : ℕ) : Plat (Fp p) where
  maxVal := ⟨1000000⟩
  degNeeded := fun _ _ _ _ _ => some 2
  condEst := fun _ _ _ _ _ _ => 1
  sortIdx := fun u key k => Toy.plat.sortIdx u (fun i => (key i).val) k
  gauss := fun _ => ⟨1 / 2⟩

theorem plat_permutes (p : ℕ) : PermutesIndices (plat p) := fun u key => Toy.plat_sorts.permutes u fun i => (key i).val

/-- One wanted pair out of two, start vectors given. -/
def cfg (p : ℕ) : Config (Fp p) where
  N := 2
  nev := 1
  nex := 1
  approx := true
  maxIter := 25
  tol := ⟨1 / 2 ^ 30⟩
  deg := 2
  optimization := false
  maxDeg := 36
  degExtra := 2
  lanczosIter := 10
  numLanczos := 4
  cholqr := false
  symCheck := true

/-- The diagonal matrix of `2^-60` and `4`, and the unit vectors as start vectors. -/
def start (p : ℕ) : Seq.St (Fp p) 2 where
  H := fun i j => if i = j then (if i = 0 then ⟨1 / 2 ^ 60⟩ else ⟨4⟩) else 0
  C := fun j i => if j = i then 1 else 0
  B := fun _ _ => 0
  C2 := fun _ _ => 0
  B2 := fun _ _ => 0
  next := .bAc
  locked := 0
  isSym := false

def params : Params := ⟨1, 1, false, none⟩

/-- start values -/
def ritzv0 (p : ℕ) : ℕ → Fp p := fun i => if i = 0 then ⟨1 / 2 ^ 60⟩ else ⟨4⟩

/-- A run in double precision: one round, after which the first diagonal entry is zero. -/
theorem run53 : ∃ out, solve (plat 53) (traced (ops (arith 53 ⟨8⟩) params)) (cfg 53) (ritzv0 53) (fun _ => 0)
      (start 53, []) = .ok out ∧ out.iterations = 1 ∧ out.locked = 1 ∧ out.be.1.H 0 0 = ⟨0⟩ ∧
      shiftsOf out.be.2 = [⟨-6⟩, ⟨6⟩] ∧ out.ritzv 0 = ⟨0⟩ ∧ out.resid 0 = ⟨0⟩ ∧
      out.be.1.C 0 0 = ⟨1⟩ ∧ out.be.1.C 0 1 = ⟨0⟩ := by
  obtain ⟨out, h, g⟩ := Toy.okAnd_elim (p := fun out : Outcome (Fp 53) (Seq.St (Fp 53) 2 × List (Call (Fp 53))) =>
      decide (out.iterations = 1 ∧ out.locked = 1 ∧ out.be.1.H 0 0 = ⟨0⟩ ∧ shiftsOf out.be.2 = [⟨-6⟩, ⟨6⟩] ∧
        out.ritzv 0 = ⟨0⟩ ∧ out.resid 0 = ⟨0⟩ ∧ out.be.1.C 0 0 = ⟨1⟩ ∧ out.be.1.C 0 1 = ⟨0⟩))
    (x := solve (plat 53) (traced (ops (arith 53 ⟨8⟩) params)) (cfg 53) (ritzv0 53) (fun _ => 0) (start 53, []))
    (by rw [Toy.solve_eq_solveE]; decide +kernel)
  exact ⟨out, h, of_decide_eq_true g⟩

theorem start_hermitian (p : ℕ) : (valM (Fp.fl p) (start p).H).IsHermitian := by
  ext i j
  show star ((Fp.fl p).val ((start p).H j i)) = (Fp.fl p).val ((start p).H i j)
  by_cases hij : i = j
  · subst hij; simp
  · have h1 : (start p).H j i = 0 := if_neg (Ne.symm hij)
    have h2 : (start p).H i j = 0 := if_neg hij
    rw [h1, h2]; simp

/-- Non-vacuity of `C73_residual_partial`, `C73_eigenvalue_partial` and `C74_drift_partial`: a run in double precision
with accurate kernels meets all hypotheses. -/
example : Accurate (Fp.fl 53) Fp.toReal (arith 53 ⟨8⟩) 2 (1 / 2) ∧ PermutesIndices (plat 53) ∧
    (cfg 53).N = 2 ∧ (cfg 53).nev + (cfg 53).nex = params.nevex ∧ Even (cfg 53).maxDeg ∧
    (valM (Fp.fl 53) (start 53).H).IsHermitian ∧
    ∃ out, solve (plat 53) (traced (ops (arith 53 ⟨8⟩) params)) (cfg 53) (ritzv0 53) (fun _ => 0) (start 53, [])
      = .ok out ∧ 0 < out.iterations ∧ (∀ c ∈ shiftsOf out.be.2, |Fp.toReal c| ≤ 6) ∧
      valV (Fp.fl 53) (out.be.1.C 0) ≠ 0 := by
  obtain ⟨out, h, h1, -, -, h4, -, -, h7, -⟩ := run53
  refine ⟨accurate 53 _, plat_permutes 53, rfl, rfl, by decide, start_hermitian 53, out, h, by omega, ?_, ?_⟩
  · rw [h4]
    intro c hc
    simp only [List.mem_cons, List.not_mem_nil, or_false] at hc
    rcases hc with rfl | rfl <;> simp [Fp.toReal]
  · intro h0
    have := congrFun h0 0
    unfold valV at this
    rw [h7] at this
    simp [Fp.fl, Fp.toReal] at this

end Two

/-- **C74 is false**: in double precision (numbers of 53 bits, rounded to nearest, ties to even, no overflow or
underflow), with accurate kernels and a Hermitian matrix, there is a solve that converges in one round after which the
matrix handed in is not the same.  The first diagonal entry was `2^-60` and is `0`. -/
theorem C74_refuted : ∃ (A : Arith (Fp 53) (Fp 53) 2) (E : Params) (P : Plat (Fp 53)) (cfg : Config (Fp 53))
    (ritzv0 resid0 : ℕ → Fp 53) (s : Seq.St (Fp 53) 2) (out : Outcome (Fp 53) (Seq.St (Fp 53) 2 × List (Call (Fp 53)))),
    Accurate (Fp.fl 53) Fp.toReal A 2 (1 / 2) ∧ PermutesIndices P ∧ cfg.N = 2 ∧ cfg.nev + cfg.nex = E.nevex ∧
    (valM (Fp.fl 53) s.H).IsHermitian ∧ solve P (traced (ops A E)) cfg ritzv0 resid0 (s, []) = .ok out ∧
    out.iterations = 1 ∧ out.locked = cfg.nev ∧ (s.H 0 0).toReal = (1 / 2) ^ 60 ∧ (out.be.1.H 0 0).toReal = 0 := by
  obtain ⟨out, h, h1, h2, h3, -⟩ := Two.run53
  refine ⟨Two.arith 53 ⟨8⟩, Two.params, Two.plat 53, Two.cfg 53, Two.ritzv0 53, fun _ => 0, Two.start 53, out,
    Two.accurate 53 _, Two.plat_permutes 53, rfl, rfl, Two.start_hermitian 53, h, h1, h2, ?_, ?_⟩
  · show ((1 / 2 ^ 60 : ℚ) : ℝ) = _
    push_cast
    norm_num
  · rw [h3]
    simp [Fp.toReal]

end Rounded
end Verif
