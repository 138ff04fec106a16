/-
The numbers of the run in `NoSwapRun`: the matrix `diag(1, 2, 3)`, the spaces spanned by `(1, 0, 4)` and by
`(161, 0, -2)` together with the second unit vector, and the Ritz pairs of the matrix in these spaces.
-/
import Verif.Backend.SubspaceProps
import Verif.Backend.LanczosWitness

open Polynomial

namespace Verif
namespace NoSwapRun

variable {K : Type*} [RCLike K]

/-- The matrix `diag(1, 2, 3)`. -/
def mat : Matrix (Fin 3) (Fin 3) K := Matrix.diagonal ![1, 2, 3]

/-- The second unit vector, an eigenvector. -/
def mid : Fin 3 → K := ![0, 1, 0]

/-- A vector without a part along `mid`. -/
def side (a b : K) : Fin 3 → K := ![a, 0, b]

theorem mat_mulVec (x : Fin 3 → K) : mat.mulVec x = ![x 0, 2 * x 1, 3 * x 2] := by
  funext i
  unfold mat
  rw [Matrix.mulVec_diagonal]
  fin_cases i <;> simp

theorem mat_hermitian : (mat : Matrix (Fin 3) (Fin 3) K).IsHermitian := by
  unfold mat
  rw [Matrix.isHermitian_diagonal_iff]
  intro i
  fin_cases i <;> simp [IsSelfAdjoint]

theorem cast_two : ((2 : ℝ) : K) = 2 := RCLike.ofReal_ofNat 2
theorem cast_three : ((3 : ℝ) : K) = 3 := RCLike.ofReal_ofNat 3

theorem mat_mid : mat.mulVec (mid : Fin 3 → K) = ((2 : ℝ) : K) • mid := by
  rw [mat_mulVec, cast_two]
  funext i
  fin_cases i <;> simp [mid]

theorem aeval_side (p : ℝ[X]) (a b : K) :
    (aeval mat p).mulVec (side a b) = side (((p.eval 1 : ℝ) : K) * a) (((p.eval 3 : ℝ) : K) * b) := by
  have h1 : (mat : Matrix (Fin 3) (Fin 3) K).mulVec (side a 0) = ((1 : ℝ) : K) • side a 0 := by
    rw [mat_mulVec]; funext i; fin_cases i <;> simp [side]
  have h3 : (mat : Matrix (Fin 3) (Fin 3) K).mulVec (side 0 b) = ((3 : ℝ) : K) • side 0 b := by
    rw [mat_mulVec, cast_three]; funext i; fin_cases i <;> simp [side]
  have e : (side a b : Fin 3 → K) = side a 0 + side 0 b := by
    funext i; fin_cases i <;> simp [side]
  rw [e, Matrix.mulVec_add, aeval_mulVec_eigenvector _ p h1, aeval_mulVec_eigenvector _ p h3]
  generalize ((p.eval 1 : ℝ) : K) = u
  generalize ((p.eval 3 : ℝ) : K) = v
  funext i; fin_cases i <;> simp [side]

theorem aeval_mid (p : ℝ[X]) :
    (aeval mat p).mulVec (mid : Fin 3 → K) = ((p.eval 2 : ℝ) : K) • mid :=
  aeval_mulVec_eigenvector _ p mat_mid

theorem dot_comb (a b a' b' : ℝ) (x y x' y' : K) :
    dotc (x • side (a : K) (b : K) + y • mid) (x' • side (a' : K) (b' : K) + y' • mid) =
      ((a * a' + b * b' : ℝ) : K) * (star x * x') + star y * y' := by
  unfold dotc
  rw [Fin.sum_univ_three]
  simp [side, mid]
  ring

theorem mat_comb (a b : ℝ) (x y : K) :
    mat.mulVec (x • side (a : K) (b : K) + y • mid) =
      x • side ((a : ℝ) : K) ((3 * b : ℝ) : K) + (2 * y) • mid := by
  rw [mat_mulVec, RCLike.ofReal_mul, cast_three]
  funext i
  fin_cases i <;> simp [side, mid]
  ring

theorem pair_indep {a b : ℝ} (h : a ≠ 0) {x y : K} (hx : x ≠ 0) (hy : y ≠ 0) {f : ℕ → Fin 3 → K}
    (hf : (f 0 = x • side (a : K) (b : K) ∧ f 1 = y • mid) ∨
      (f 0 = y • mid ∧ f 1 = x • side (a : K) (b : K))) :
    LinearIndependent K (fun j : Fin 2 => f j) := by
  have ha : (a : K) ≠ 0 := RCLike.ofReal_ne_zero.mpr h
  rw [linearIndependent_fin2]
  show f 1 ≠ 0 ∧ ∀ c : K, c • f 1 ≠ f 0
  rcases hf with ⟨h0, h1⟩ | ⟨h0, h1⟩
  · rw [h0, h1]
    refine ⟨fun e => hy ?_, fun c e => ?_⟩
    · simpa [mid] using congrFun e 1
    · have := congrFun e 0
      simp [mid, side, hx, h] at this
  · rw [h0, h1]
    refine ⟨fun e => ?_, fun c e => hy ?_⟩
    · have := congrFun e 0
      simp [side, hx, h] at this
    · simpa [mid, side] using (congrFun e 1).symm

theorem mem_pair {f : ℕ → Fin 3 → K} {v : Fin 3 → K} (h : v ∈ prefixSpan 2 f) :
    ∃ x y : K, v = x • f 0 + y • f 1 := by
  obtain ⟨c, rfl⟩ := mem_prefixSpan_iff.mp h
  exact ⟨c 0, c 1, Fin.sum_univ_two _⟩

theorem star_mul_self_norm (x : K) : star x * x = ((‖x‖ ^ 2 : ℝ) : K) := by
  rw [RCLike.star_def, RCLike.conj_mul, RCLike.ofReal_pow]

/-- The Ritz pairs of the first space. -/
theorem ritz_first {Y : ℕ → Fin 3 → K} {θ : ℕ → ℝ} (ho : OrthoOn 2 Y)
    (hg : ∀ i j, i < 2 → j < 2 → dotc (Y i) (mat.mulVec (Y j)) = if i = j then (θ i : K) else 0)
    (hasc : θ 0 ≤ θ 1)
    (hm : ∀ i, i < 2 → ∃ x y : K, Y i = x • side ((1 : ℝ) : K) ((4 : ℝ) : K) + y • mid) :
    ∃ x y : K, 17 * ‖x‖ ^ 2 = 1 ∧ ‖y‖ = 1 ∧ Y 0 = y • mid ∧ Y 1 = x • side ((1 : ℝ) : K) ((4 : ℝ) : K) ∧
      θ 0 = 2 ∧ θ 1 = 49 / 17 := by
  obtain ⟨x0, y0, e0⟩ := hm 0 (by norm_num)
  obtain ⟨x1, y1, e1⟩ := hm 1 (by norm_num)
  have o00 := ho 0 0 (by norm_num) (by norm_num)
  have o11 := ho 1 1 (by norm_num) (by norm_num)
  have o01 := ho 0 1 (by norm_num) (by norm_num)
  have g00 := hg 0 0 (by norm_num) (by norm_num)
  have g11 := hg 1 1 (by norm_num) (by norm_num)
  have g01 := hg 0 1 (by norm_num) (by norm_num)
  rw [e0, mat_comb, dot_comb] at g00
  rw [e1, mat_comb, dot_comb] at g11
  rw [e0, e1, mat_comb, dot_comb] at g01
  rw [e0, dot_comb] at o00
  rw [e1, dot_comb] at o11
  rw [e0, e1, dot_comb] at o01
  simp only [if_true, zero_ne_one, if_false] at o00 o11 o01 g00 g11 g01
  rw [star_mul_self_norm, star_mul_self_norm] at o00 o11
  rw [mul_left_comm (star y0) 2 y0, star_mul_self_norm, star_mul_self_norm] at g00
  rw [mul_left_comm (star y1) 2 y1, star_mul_self_norm, star_mul_self_norm] at g11
  rw [mul_left_comm (star y0) 2 y1] at g01
  rw [← cast_two] at g00 g11 g01
  have r00 : 17 * ‖x0‖ ^ 2 + ‖y0‖ ^ 2 = 1 := by
    have : (((1 * 1 + 4 * 4) * ‖x0‖ ^ 2 + ‖y0‖ ^ 2 : ℝ) : K) = ((1 : ℝ) : K) := by
      rw [RCLike.ofReal_add, RCLike.ofReal_mul, o00, RCLike.ofReal_one]
    have := RCLike.ofReal_injective this
    linarith
  have r11 : 17 * ‖x1‖ ^ 2 + ‖y1‖ ^ 2 = 1 := by
    have : (((1 * 1 + 4 * 4) * ‖x1‖ ^ 2 + ‖y1‖ ^ 2 : ℝ) : K) = ((1 : ℝ) : K) := by
      rw [RCLike.ofReal_add, RCLike.ofReal_mul, o11, RCLike.ofReal_one]
    have := RCLike.ofReal_injective this
    linarith
  have s00 : 49 * ‖x0‖ ^ 2 + 2 * ‖y0‖ ^ 2 = θ 0 := by
    have : (((1 * 1 + 4 * (3 * 4)) * ‖x0‖ ^ 2 + 2 * ‖y0‖ ^ 2 : ℝ) : K) = ((θ 0 : ℝ) : K) := by
      rw [RCLike.ofReal_add, RCLike.ofReal_mul, RCLike.ofReal_mul 2, g00]
    have := RCLike.ofReal_injective this
    linarith
  have s11 : 49 * ‖x1‖ ^ 2 + 2 * ‖y1‖ ^ 2 = θ 1 := by
    have : (((1 * 1 + 4 * (3 * 4)) * ‖x1‖ ^ 2 + 2 * ‖y1‖ ^ 2 : ℝ) : K) = ((θ 1 : ℝ) : K) := by
      rw [RCLike.ofReal_add, RCLike.ofReal_mul, RCLike.ofReal_mul 2, g11]
    have := RCLike.ofReal_injective this
    linarith
  have hx : star x0 * x1 = 0 := by
    have h1 : ((1 * 1 + 4 * 4 : ℝ) : K) = 17 := by
      rw [show (1 * 1 + 4 * 4 : ℝ) = 17 by norm_num]; exact RCLike.ofReal_ofNat 17
    have h2 : ((1 * 1 + 4 * (3 * 4) : ℝ) : K) = 49 := by
      rw [show (1 * 1 + 4 * (3 * 4) : ℝ) = 49 by norm_num]; exact RCLike.ofReal_ofNat 49
    rw [h1] at o01
    rw [h2, cast_two] at g01
    linear_combination (1 / 15 : K) * g01 - (2 / 15 : K) * o01
  have hy : star y0 * y1 = 0 := by
    rw [hx] at o01
    simpa using o01
  have hx' : ‖x0‖ = 0 ∨ ‖x1‖ = 0 := by
    have := congrArg norm hx
    rwa [norm_mul, norm_star, norm_zero, mul_eq_zero] at this
  have hy' : ‖y0‖ = 0 ∨ ‖y1‖ = 0 := by
    have := congrArg norm hy
    rwa [norm_mul, norm_star, norm_zero, mul_eq_zero] at this
  rcases hx' with h | h
  · rw [h] at r00 s00
    have hy0 : ‖y0‖ = 1 := by
      have h1 : ‖y0‖ ^ 2 = 1 := by linarith
      have := norm_nonneg y0
      nlinarith
    have hy1 : ‖y1‖ = 0 := by
      rcases hy' with h' | h'
      · rw [h'] at hy0; norm_num at hy0
      · exact h'
    rw [hy1] at r11 s11
    rw [hy0] at s00
    refine ⟨x1, y0, by linarith, hy0, ?_, ?_, by linarith, by linarith⟩
    · rw [e0, norm_eq_zero.mp h, zero_smul, zero_add]
    · rw [e1, norm_eq_zero.mp hy1, zero_smul, add_zero]
  · exfalso
    rw [h] at r11 s11
    have hy0 : ‖y0‖ = 0 := by
      rcases hy' with h' | h'
      · exact h'
      · rw [h'] at r11; norm_num at r11
    rw [hy0] at r00 s00
    linarith

/-- The second Ritz pair of the second space, when the first column is kept. -/
theorem ritz_second {Y : ℕ → Fin 3 → K} {θ : ℝ} {y : K} (ho : OrthoOn 2 Y) (hy : ‖y‖ = 1)
    (h0 : Y 0 = y • mid) (hg : dotc (Y 1) (mat.mulVec (Y 1)) = (θ : K))
    (hm : ∃ x z : K, Y 1 = x • side ((161 : ℝ) : K) ((-2 : ℝ) : K) + z • mid) :
    ∃ x : K, 25925 * ‖x‖ ^ 2 = 1 ∧ Y 1 = x • side ((161 : ℝ) : K) ((-2 : ℝ) : K) ∧
      θ = 25933 / 25925 := by
  obtain ⟨x, z, e1⟩ := hm
  have o01 := ho 0 1 (by norm_num) (by norm_num)
  have o11 := ho 1 1 (by norm_num) (by norm_num)
  have hz : z = 0 := by
    have e0 : Y 0 = (0 : K) • side ((0 : ℝ) : K) ((0 : ℝ) : K) + y • mid := by
      rw [h0, zero_smul, zero_add]
    rw [e0, e1, dot_comb] at o01
    simp at o01
    rcases o01 with h | h
    · rw [h, norm_zero] at hy; norm_num at hy
    · exact h
  rw [e1, hz, dot_comb] at o11
  rw [e1, hz, mat_comb, dot_comb] at hg
  rw [star_mul_self_norm] at o11 hg
  have r11 : 25925 * ‖x‖ ^ 2 = 1 := by
    have : (((161 * 161 + -2 * -2) * ‖x‖ ^ 2 : ℝ) : K) = ((1 : ℝ) : K) := by
      rw [RCLike.ofReal_mul, RCLike.ofReal_one]
      simpa using o11
    have := RCLike.ofReal_injective this
    linarith
  have s11 : 25933 * ‖x‖ ^ 2 = θ := by
    have : (((161 * 161 + -2 * (3 * -2)) * ‖x‖ ^ 2 : ℝ) : K) = ((θ : ℝ) : K) := by
      rw [RCLike.ofReal_mul]
      simpa using hg
    have := RCLike.ofReal_injective this
    linarith
  refine ⟨x, r11, by rw [e1, hz, zero_smul, add_zero], ?_⟩
  rw [← s11]
  linarith

theorem residual_mid {v r : ℝ} {y : K} (hy : ‖y‖ = 1) (h : IsResidual mat v (y • mid : Fin 3 → K) r) :
    r = |2 - v| := by
  rw [h, mat_mulVec, Fin.sum_univ_three]
  have e : (2 : K) * y - (v : K) * y = ((2 - v : ℝ) : K) * y := by
    rw [RCLike.ofReal_sub, cast_two]; ring
  simp only [mid, Pi.smul_apply, smul_eq_mul, Matrix.cons_val_zero, Matrix.cons_val_one, Matrix.cons_val]
  simp only [mul_zero, sub_zero, norm_zero, mul_one]
  rw [e, norm_mul, hy, RCLike.norm_ofReal]
  norm_num
  exact Real.sqrt_sq_eq_abs _

theorem residual_side {v r a b : ℝ} {x : K} (h : IsResidual mat v (x • side (a : K) (b : K)) r) :
    r = Real.sqrt (‖x‖ ^ 2 * ((a * (1 - v)) ^ 2 + (b * (3 - v)) ^ 2)) := by
  rw [h, mat_mulVec, Fin.sum_univ_three]
  congr 1
  have e1 : x * (a : K) - (v : K) * (x * (a : K)) = x * ((a * (1 - v) : ℝ) : K) := by
    rw [RCLike.ofReal_mul, RCLike.ofReal_sub, RCLike.ofReal_one]; ring
  have e3 : 3 * (x * (b : K)) - (v : K) * (x * (b : K)) = x * ((b * (3 - v) : ℝ) : K) := by
    rw [RCLike.ofReal_mul, RCLike.ofReal_sub, cast_three]; ring
  simp only [side, Pi.smul_apply, smul_eq_mul, Matrix.cons_val_zero, Matrix.cons_val_one, Matrix.cons_val]
  rw [e1, e3]
  simp only [mul_zero, sub_zero, norm_zero, norm_mul, RCLike.norm_ofReal]
  rw [mul_pow, mul_pow, sq_abs, sq_abs]
  ring

end NoSwapRun
end Verif
