/-
A run of the sequential backend in double precision with Cholesky QR and dependent start vectors.  The kernels work in
rounded arithmetic and meet the contracts; the factorisation does not notice the dependence.
-/
import Verif.Rounded.CholFour

set_option linter.unusedSectionVars false

namespace Verif
namespace Rounded
namespace Two

open Matrix Finset

/-! ### Kernels in rounded arithmetic -/

section
variable {p : ℕ}

/-- Square root in rounded arithmetic. -/
def sqrtF (x : Fp p) : Fp p := ⟨rnd p (qsqrt x.val)⟩

/-- An entry of a matrix. -/
def entF {b : ℕ} (G : Matrix (Fin b) (Fin b) (Fp p)) (i j : ℕ) : Fp p := if h : i < b ∧ j < b then G ⟨i, h.1⟩ ⟨j, h.2⟩ else 0

/-- Cholesky factorisation of a matrix of dimension two, every operation rounded. -/
def potrfF {b : ℕ} (G : Matrix (Fin b) (Fin b) (Fp p)) : ℤ × Matrix (Fin b) (Fin b) (Fp p) :=
  if 0 < entF G 0 0 then
    let r := sqrtF (entF G 0 0)
    let x := entF G 0 1 / r
    let d := entF G 1 1 - x * x
    if 0 < d then (0, fun i j => if i.val = 0 then (if j.val = 0 then r else x) else if j.val = 0 then G i j else sqrtF d)
    else (2, G)
  else (1, G)

/-- Triangular solve with a matrix of dimension two, every operation rounded. -/
def trsmF {b m : ℕ} (U : Matrix (Fin b) (Fin b) (Fp p)) (X : ℕ → Fin m → Fp p) : ℕ → Fin m → Fp p := fun j a =>
  if j = 0 then X 0 a / entF U 0 0
  else if j = 1 then (X 1 a - entF U 0 1 * (X 0 a / entF U 0 0)) / entF U 1 1
  else X j a

theorem entF_eq {b : ℕ} (G : Matrix (Fin b) (Fin b) (Fp p)) (i j : Fin b) : entF G i j = G i j := by
  unfold entF; rw [dif_pos ⟨i.isLt, j.isLt⟩]

theorem v_sub (x y : Fp p) : |(Fp.fl p).val (x - y) - ((Fp.fl p).val x - (Fp.fl p).val y)| ≤
    (1 / 2) ^ p * |(Fp.fl p).val x - (Fp.fl p).val y| := by
  have := Fp.err_real (p := p) (x.val - y.val)
  push_cast at this
  exact this
theorem v_mul (x y : Fp p) : |(Fp.fl p).val (x * y) - (Fp.fl p).val x * (Fp.fl p).val y| ≤
    (1 / 2) ^ p * |(Fp.fl p).val x * (Fp.fl p).val y| := by
  have := Fp.err_real (p := p) (x.val * y.val)
  push_cast at this
  exact this
theorem v_div (x y : Fp p) : |(Fp.fl p).val (x / y) - (Fp.fl p).val x / (Fp.fl p).val y| ≤
    (1 / 2) ^ p * |(Fp.fl p).val x / (Fp.fl p).val y| := by
  have := Fp.err_real (p := p) (x.val / y.val)
  push_cast at this
  exact this

end

theorem v_pos (x : Fp 53) : 0 < x ↔ 0 < (Fp.fl 53).val x := by
  show (0 : ℚ) < x.val ↔ (0 : ℝ) < (x.val : ℝ)
  exact_mod_cast Iff.rfl

theorem v_sqrt {x : Fp 53} (hx : 0 < x) : 0 < (Fp.fl 53).val (sqrtF x) ∧
    |(Fp.fl 53).val (sqrtF x) ^ 2 - (Fp.fl 53).val x| ≤ (1 / 2) ^ 51 * (Fp.fl 53).val x ∧
    |(Fp.fl 53).val (sqrtF x) ^ 2 - (Fp.fl 53).val x| ≤ (1 / 2) ^ 50 * (Fp.fl 53).val (sqrtF x) ^ 2 := by
  have hq : 0 < x.val := hx
  obtain ⟨h1, h2, h3⟩ := qsqrt_real hq
  have h4 := Fp.err_real (p := 53) (qsqrt x.val)
  have e1 : (Fp.fl 53).val (sqrtF x) = ((rnd 53 (qsqrt x.val) : ℚ) : ℝ) := rfl
  have e2 : (Fp.fl 53).val x = (x.val : ℝ) := rfl
  rw [e1, e2]
  generalize ((rnd 53 (qsqrt x.val) : ℚ) : ℝ) = r at *
  generalize ((qsqrt x.val : ℚ) : ℝ) = q at *
  generalize (x.val : ℝ) = a at *
  rw [abs_of_pos h1, abs_le] at h4
  obtain ⟨l, g⟩ := h4
  have hr : 0 < r := by nlinarith
  have q2 : 0 < q ^ 2 := by positivity
  have r1 : r ^ 2 ≤ (1 + 3 * (1 / 2) ^ 53) * q ^ 2 := by
    have : r ≤ (1 + (1 / 2) ^ 53) * q := by linarith
    have := mul_le_mul this this hr.le (by positivity)
    nlinarith
  have r2 : (1 - 2 * (1 / 2) ^ 53) * q ^ 2 ≤ r ^ 2 := by
    have : (1 - (1 / 2) ^ 53) * q ≤ r := by linarith
    have := mul_le_mul this this (mul_nonneg (by norm_num) h1.le) hr.le
    nlinarith
  have a1 : (1 - (1 / 2) ^ 58) * a ≤ q ^ 2 := by linarith
  generalize q ^ 2 = s at *
  generalize r ^ 2 = t at *
  refine ⟨hr, abs_le.mpr ⟨?_, ?_⟩, abs_le.mpr ⟨?_, ?_⟩⟩ <;> norm_num at * <;> nlinarith

theorem rel {x y z : ℝ} (hz : 0 ≤ z) (h1 : z - x ≤ y) (h2 : y ≤ (1 / 2) ^ 53 * z) : y ≤ (1 / 2) ^ 52 * x ∧ z ≤ 2 * x := by
  norm_num at *
  constructor <;> linarith

theorem trs {v k x w z : ℝ} (hm : |w - v| ≤ (1 / 2) ^ 53 * |v|) (hs : |z - (x - w)| ≤ (1 / 2) ^ 53 * |x - w|)
    (b1 : |k - z| ≤ (1 / 2) ^ 52 * |k|) (b2 : |z| ≤ 2 * |k|) : |v + k - x| ≤ (1 / 2) ^ 50 * (|v| + |k|) := by
  have e : v + k - x = (v - w) + (k - z) + (z - (x - w)) := by ring
  rw [e]
  refine (abs_add_three _ _ _).trans ?_
  rw [abs_sub_comm v w]
  have h3 := abs_sub_abs_le_abs_sub (x - w) z
  rw [abs_sub_comm (x - w) z] at h3
  have h4 := (rel (abs_nonneg _) h3 hs).1
  have := abs_nonneg v
  have := abs_nonneg k
  generalize |x - w| = q at *
  generalize |z - (x - w)| = r at *
  generalize |w - v| = t at *
  generalize |k - z| = l at *
  norm_num at hm b1 h4 ⊢
  linarith

theorem apart {q c y z w : ℝ} (k1 : 4 * (1 / 2) ^ 50 * (q + c) ≤ q + -2 * q + c) (hc : 0 < c)
    (hy : y ≤ (1 + (1 / 2) ^ 50) * q) (hz : z ≤ (1 + 3 * (1 / 2) ^ 53) * y) (hw : w ≤ (1 + (1 / 2) ^ 53) * z) : 0 < c - w := by
  have h1 : z ≤ (1 + 3 * (1 / 2) ^ 53) * ((1 + (1 / 2) ^ 50) * q) :=
    hz.trans (mul_le_mul_of_nonneg_left hy (by norm_num))
  have h2 : w ≤ (1 + (1 / 2) ^ 53) * ((1 + 3 * (1 / 2) ^ 53) * ((1 + (1 / 2) ^ 50) * q)) :=
    hw.trans (mul_le_mul_of_nonneg_left h1 (by norm_num))
  norm_num at k1 h2
  linarith

theorem fact11 {c x w d t : ℝ} (hw : |w - x * x| ≤ (1 / 2) ^ 53 * |x * x|) (hd : |d - (c - w)| ≤ (1 / 2) ^ 53 * |c - w|)
    (hp : 0 < d) (ht : |t ^ 2 - d| ≤ (1 / 2) ^ 51 * d) : |x * x + t * t - c| ≤ (1 / 2) ^ 50 * (x * x + t * t) := by
  have hx : 0 ≤ x * x := mul_self_nonneg x
  rw [abs_of_nonneg hx] at hw
  have hz : 0 < c - w := by
    by_contra hc
    rw [abs_of_nonpos (not_lt.mp hc)] at hd
    have := (abs_le.mp hd).2
    norm_num at this hc
    linarith
  rw [abs_of_pos hz] at hd
  rw [← pow_two t]
  generalize x * x = y at *
  generalize t ^ 2 = s at *
  obtain ⟨w1, w2⟩ := abs_le.mp hw
  obtain ⟨d1, d2⟩ := abs_le.mp hd
  obtain ⟨t1, t2⟩ := abs_le.mp ht
  refine abs_le.mpr ⟨?_, ?_⟩ <;> norm_num at * <;> linarith

theorem potrfF_ok (G : Matrix (Fin 2) (Fin 2) (Fp 53)) (h : (potrfF G).1 = 0) :
    (∀ j, (Fp.fl 53).val ((potrfF G).2 j j) ≠ 0) ∧ ∀ i j : Fin 2, i ≤ j →
    ‖((upper (Fp.fl 53) (potrfF G).2)ᴴ * upper (Fp.fl 53) (potrfF G).2) i j - hpart (Fp.fl 53) G i j‖ ≤
      (1 / 2) ^ 50 * ∑ l, ‖upper (Fp.fl 53) (potrfF G).2 l i‖ * ‖upper (Fp.fl 53) (potrfF G).2 l j‖ := by
  unfold potrfF at h ⊢
  by_cases h0 : 0 < entF G 0 0
  swap
  · rw [if_neg h0] at h; simp at h
  rw [if_pos h0] at h ⊢
  dsimp only at h ⊢
  by_cases h1 : 0 < entF G 1 1 - entF G 0 1 / sqrtF (entF G 0 0) * (entF G 0 1 / sqrtF (entF G 0 0))
  swap
  · rw [if_neg h1] at h; simp at h
  rw [if_pos h1]
  dsimp only
  obtain ⟨a1, -, a3⟩ := v_sqrt h0
  obtain ⟨b1, b2, b3⟩ := v_sqrt h1
  have hw := v_mul (entF G 0 1 / sqrtF (entF G 0 0)) (entF G 0 1 / sqrtF (entF G 0 0))
  have hd := v_sub (entF G 1 1) (entF G 0 1 / sqrtF (entF G 0 0) * (entF G 0 1 / sqrtF (entF G 0 0)))
  have hx := v_div (entF G 0 1) (sqrtF (entF G 0 0))
  have g00 : hpart (Fp.fl 53) G 0 0 = (Fp.fl 53).val (entF G 0 0) := by
    rw [show entF G 0 0 = G 0 0 from entF_eq G 0 0]; simp [hpart]
  have g11 : hpart (Fp.fl 53) G 1 1 = (Fp.fl 53).val (entF G 1 1) := by
    rw [show entF G 1 1 = G 1 1 from entF_eq G 1 1]; simp [hpart]
  have g01 : hpart (Fp.fl 53) G 0 1 = (Fp.fl 53).val (entF G 0 1) := by
    rw [show entF G 0 1 = G 0 1 from entF_eq G 0 1]; simp [hpart]
  generalize sqrtF (entF G 0 0) = r at *
  generalize entF G 0 1 / r = x at *
  have hd' := (v_pos _).mp h1
  generalize sqrtF (entF G 1 1 - x * x) = t at *
  set U : Matrix (Fin 2) (Fin 2) (Fp 53) := fun i j => if i.val = 0 then (if j.val = 0 then r else x)
      else if j.val = 0 then G i j else t with hU
  have u00 : upper (Fp.fl 53) U 0 0 = (Fp.fl 53).val r := by simp [upper, hU]
  have u01 : upper (Fp.fl 53) U 0 1 = (Fp.fl 53).val x := by simp [upper, hU]
  have u10 : upper (Fp.fl 53) U 1 0 = 0 := by simp [upper]
  have u11 : upper (Fp.fl 53) U 1 1 = (Fp.fl 53).val t := by simp [upper, hU]
  have f11 := fact11 hw hd hd' b2
  constructor
  · intro j
    fin_cases j
    · exact a1.ne'
    · exact b1.ne'
  · have hP : ∀ i j, ((upper (Fp.fl 53) U)ᴴ * upper (Fp.fl 53) U) i j =
        upper (Fp.fl 53) U 0 i * upper (Fp.fl 53) U 0 j + upper (Fp.fl 53) U 1 i * upper (Fp.fl 53) U 1 j := by
      intro i j
      rw [Matrix.mul_apply, Fin.sum_univ_two]
      simp [Matrix.conjTranspose_apply]
    intro i j hij
    rw [hP, Fin.sum_univ_two]
    fin_cases i <;> fin_cases j
    · show ‖upper (Fp.fl 53) U 0 0 * upper (Fp.fl 53) U 0 0 + upper (Fp.fl 53) U 1 0 * upper (Fp.fl 53) U 1 0 -
        hpart (Fp.fl 53) G 0 0‖ ≤ _ * (‖upper (Fp.fl 53) U 0 0‖ * ‖upper (Fp.fl 53) U 0 0‖ + ‖upper (Fp.fl 53) U 1 0‖ * _)
      rw [u00, u10, g00, Real.norm_eq_abs, Real.norm_eq_abs, norm_zero, zero_mul, zero_mul, abs_of_pos a1, add_zero, ← pow_two]
      exact a3
    · show ‖upper (Fp.fl 53) U 0 0 * upper (Fp.fl 53) U 0 1 + upper (Fp.fl 53) U 1 0 * upper (Fp.fl 53) U 1 1 -
        hpart (Fp.fl 53) G 0 1‖ ≤ _ * (‖upper (Fp.fl 53) U 0 0‖ * ‖upper (Fp.fl 53) U 0 1‖ + ‖upper (Fp.fl 53) U 1 0‖ * _)
      rw [u00, u10, u01, g01, zero_mul, add_zero, norm_zero, zero_mul, add_zero, Real.norm_eq_abs, Real.norm_eq_abs,
        Real.norm_eq_abs, abs_of_pos a1]
      generalize (Fp.fl 53).val r = r at *
      generalize (Fp.fl 53).val x = x at *
      generalize (Fp.fl 53).val (entF G 0 1) = b at *
      have e1 : r * x - b = r * (x - b / r) := by field_simp
      rw [e1, abs_mul, abs_of_pos a1, mul_left_comm]
      refine mul_le_mul_of_nonneg_left ?_ a1.le
      have := abs_sub_abs_le_abs_sub (b / r) x
      rw [abs_sub_comm] at this
      exact (rel (abs_nonneg _) this hx).1.trans (mul_le_mul_of_nonneg_right (by norm_num) (abs_nonneg _))
    · exact absurd hij (by decide)
    · show ‖upper (Fp.fl 53) U 0 1 * upper (Fp.fl 53) U 0 1 + upper (Fp.fl 53) U 1 1 * upper (Fp.fl 53) U 1 1 -
        hpart (Fp.fl 53) G 1 1‖ ≤ _ * (‖upper (Fp.fl 53) U 0 1‖ * ‖upper (Fp.fl 53) U 0 1‖ +
          ‖upper (Fp.fl 53) U 1 1‖ * ‖upper (Fp.fl 53) U 1 1‖)
      rw [u01, u11, g11, Real.norm_eq_abs, Real.norm_eq_abs, Real.norm_eq_abs, abs_mul_abs_self, abs_mul_abs_self]
      exact f11

theorem trsmF_ok {m : ℕ} (U : Matrix (Fin 2) (Fin 2) (Fp 53)) (X : ℕ → Fin m → Fp 53)
    (hU : ∀ j, (Fp.fl 53).val (U j j) ≠ 0) (j : Fin 2) (a : Fin m) :
    ‖∑ l : Fin 2, upper (Fp.fl 53) U l j * (Fp.fl 53).val (trsmF U X l a) - (Fp.fl 53).val (X j a)‖ ≤
      (1 / 2) ^ 50 * ∑ l : Fin 2, ‖upper (Fp.fl 53) U l j‖ * ‖(Fp.fl 53).val (trsmF U X l a)‖ := by
  have h0 : (Fp.fl 53).val (entF U 0 0) ≠ 0 := by rw [show entF U 0 0 = U 0 0 from entF_eq U 0 0]; exact hU 0
  have h1 : (Fp.fl 53).val (entF U 1 1) ≠ 0 := by rw [show entF U 1 1 = U 1 1 from entF_eq U 1 1]; exact hU 1
  have u00 : upper (Fp.fl 53) U 0 0 = (Fp.fl 53).val (entF U 0 0) := by
    rw [show entF U 0 0 = U 0 0 from entF_eq U 0 0]; simp [upper]
  have u01 : upper (Fp.fl 53) U 0 1 = (Fp.fl 53).val (entF U 0 1) := by
    rw [show entF U 0 1 = U 0 1 from entF_eq U 0 1]; simp [upper]
  have u10 : upper (Fp.fl 53) U 1 0 = 0 := by simp [upper]
  have u11 : upper (Fp.fl 53) U 1 1 = (Fp.fl 53).val (entF U 1 1) := by
    rw [show entF U 1 1 = U 1 1 from entF_eq U 1 1]; simp [upper]
  have t0 : trsmF U X ((0 : Fin 2) : ℕ) a = X 0 a / entF U 0 0 := rfl
  have t1 : trsmF U X ((1 : Fin 2) : ℕ) a = (X 1 a - entF U 0 1 * (X 0 a / entF U 0 0)) / entF U 1 1 := rfl
  have hq := v_div (X 0 a) (entF U 0 0)
  have hm := v_mul (entF U 0 1) (X 0 a / entF U 0 0)
  have hs := v_sub (X 1 a) (entF U 0 1 * (X 0 a / entF U 0 0))
  have hv := v_div (X 1 a - entF U 0 1 * (X 0 a / entF U 0 0)) (entF U 1 1)
  have bound : ∀ u x q : ℝ, u ≠ 0 → |q - x / u| ≤ (1 / 2) ^ 53 * |x / u| →
      |u * q - x| ≤ (1 / 2) ^ 52 * (|u| * |q|) ∧ |x| ≤ 2 * (|u| * |q|) := by
    intro u x q hu h
    have e1 : u * q - x = u * (q - x / u) := by field_simp
    have e2 : |x| = |u| * |x / u| := by rw [← abs_mul]; congr 1; field_simp
    have h2 := abs_sub_abs_le_abs_sub (x / u) q
    rw [abs_sub_comm] at h2
    rw [e1, abs_mul, e2, mul_left_comm, mul_left_comm 2]
    have hp := abs_nonneg u
    obtain ⟨r1, r2⟩ := rel (abs_nonneg _) h2 h
    exact ⟨mul_le_mul_of_nonneg_left r1 hp, mul_le_mul_of_nonneg_left r2 hp⟩
  rw [Fin.sum_univ_two, Fin.sum_univ_two, t0, t1]
  fin_cases j
  · show ‖upper (Fp.fl 53) U 0 0 * _ + upper (Fp.fl 53) U 1 0 * _ - (Fp.fl 53).val (X 0 a)‖ ≤
      _ * (‖upper (Fp.fl 53) U 0 0‖ * _ + ‖upper (Fp.fl 53) U 1 0‖ * _)
    rw [u00, u10, zero_mul, add_zero, norm_zero, zero_mul, add_zero]
    refine (bound _ _ _ h0 hq).1.trans (mul_le_mul_of_nonneg_right (by norm_num) (by positivity))
  · show ‖upper (Fp.fl 53) U 0 1 * _ + upper (Fp.fl 53) U 1 1 * _ - (Fp.fl 53).val (X 1 a)‖ ≤
      _ * (‖upper (Fp.fl 53) U 0 1‖ * _ + ‖upper (Fp.fl 53) U 1 1‖ * _)
    rw [u01, u11]
    obtain ⟨b1, b2⟩ := bound _ _ _ h1 hv
    simp only [Real.norm_eq_abs]
    rw [← abs_mul, ← abs_mul] at *
    generalize (Fp.fl 53).val ((X 1 a - entF U 0 1 * (X 0 a / entF U 0 0)) / entF U 1 1) = y at *
    generalize (Fp.fl 53).val (X 1 a - entF U 0 1 * (X 0 a / entF U 0 0)) = z at *
    generalize (Fp.fl 53).val (entF U 0 1 * (X 0 a / entF U 0 0)) = w at *
    generalize (Fp.fl 53).val (X 1 a) = x at *
    generalize (Fp.fl 53).val (entF U 0 1) * (Fp.fl 53).val (X 0 a / entF U 0 0) = v at *
    generalize (Fp.fl 53).val (entF U 1 1) * y = k at *
    exact trs hm hs b1 b2

theorem succeedsF (G : Matrix (Fin 2) (Fin 2) (Fp 53)) (h : PosAbove (Fp.fl 53) (2 * (2 : ℕ) * (1 / 2) ^ 50) G) :
    (potrfF G).1 = 0 := by
  obtain ⟨h1, h2⟩ := h
  have E00 : entF G 0 0 = G 0 0 := entF_eq G 0 0
  have E11 : entF G 1 1 = G 1 1 := entF_eq G 1 1
  have E01 : entF G 0 1 = G 0 1 := entF_eq G 0 1
  have g0 : 0 < entF G 0 0 := by rw [v_pos, E00]; exact h1 0
  have g1 : 0 < entF G 1 1 := by rw [v_pos, E11]; exact h1 1
  have key : ∀ s : ℝ, 4 * (1 / 2) ^ 50 * (s ^ 2 * (Fp.fl 53).val (entF G 0 0) + (Fp.fl 53).val (entF G 1 1)) ≤
      s ^ 2 * (Fp.fl 53).val (entF G 0 0) + 2 * s * (Fp.fl 53).val (entF G 0 1) + (Fp.fl 53).val (entF G 1 1) := by
    intro s
    have h3 := h2 ![s, 1]
    have p00 : hpart (Fp.fl 53) G 0 0 = (Fp.fl 53).val (entF G 0 0) := by rw [E00]; simp [hpart]
    have p11 : hpart (Fp.fl 53) G 1 1 = (Fp.fl 53).val (entF G 1 1) := by rw [E11]; simp [hpart]
    have p01 : hpart (Fp.fl 53) G 0 1 = (Fp.fl 53).val (entF G 0 1) := by rw [E01]; simp [hpart]
    have p10 : hpart (Fp.fl 53) G 1 0 = (Fp.fl 53).val (entF G 0 1) := by rw [E01]; simp [hpart]
    rw [Fin.sum_univ_two, Fin.sum_univ_two, Fin.sum_univ_two, Fin.sum_univ_two, p00, p01, p10, p11, ← E00, ← E11] at h3
    simp only [Matrix.cons_val_zero, Matrix.cons_val_one, star_trivial, Real.norm_eq_abs, sq_abs, abs_one, RCLike.re_to_real] at h3
    push_cast at h3
    linarith
  obtain ⟨a1, a2, -⟩ := v_sqrt g0
  have hx := v_div (entF G 0 1) (sqrtF (entF G 0 0))
  have hw := v_mul (entF G 0 1 / sqrtF (entF G 0 0)) (entF G 0 1 / sqrtF (entF G 0 0))
  have hd := v_sub (entF G 1 1) (entF G 0 1 / sqrtF (entF G 0 0) * (entF G 0 1 / sqrtF (entF G 0 0)))
  have hpos : 0 < entF G 1 1 - entF G 0 1 / sqrtF (entF G 0 0) * (entF G 0 1 / sqrtF (entF G 0 0)) := by
    rw [v_pos] at g0 g1 ⊢
    generalize (Fp.fl 53).val (entF G 1 1 - entF G 0 1 / sqrtF (entF G 0 0) * (entF G 0 1 / sqrtF (entF G 0 0))) = d at *
    generalize (Fp.fl 53).val (entF G 0 1 / sqrtF (entF G 0 0) * (entF G 0 1 / sqrtF (entF G 0 0))) = w at *
    generalize (Fp.fl 53).val (entF G 0 1 / sqrtF (entF G 0 0)) = x at *
    generalize (Fp.fl 53).val (sqrtF (entF G 0 0)) = r at *
    generalize (Fp.fl 53).val (entF G 0 0) = a at *
    generalize (Fp.fl 53).val (entF G 1 1) = c at *
    generalize (Fp.fl 53).val (entF G 0 1) = b at *
    have k1 := key (-(b / a))
    have e1 : (-(b / a)) ^ 2 * a = b ^ 2 / a := by field_simp
    have e2 : 2 * -(b / a) * b = -2 * (b ^ 2 / a) := by field_simp
    rw [e1, e2] at k1
    have hq0 : 0 ≤ b ^ 2 / a := by positivity
    have hbr : (b / r) ^ 2 ≤ (1 + (1 / 2) ^ 50) * (b ^ 2 / a) := by
      have hr2 : 0 < r ^ 2 := by positivity
      have e3 : b ^ 2 = b ^ 2 / a * a := by field_simp
      rw [div_pow, div_le_iff₀ hr2]
      conv_lhs => rw [e3]
      rw [mul_comm (1 + (1 / 2 : ℝ) ^ 50), mul_assoc]
      refine mul_le_mul_of_nonneg_left ?_ hq0
      have := (abs_le.mp a2).1
      norm_num at *
      nlinarith
    have hx2 : x * x ≤ (1 + 3 * (1 / 2) ^ 53) * (b / r) ^ 2 := by
      have h5 : |x| ≤ (1 + (1 / 2) ^ 53) * |b / r| := by
        have := abs_sub_abs_le_abs_sub x (b / r)
        linarith
      have h6 := mul_le_mul h5 h5 (abs_nonneg _) (mul_nonneg (by norm_num) (abs_nonneg _))
      rw [abs_mul_abs_self] at h6
      have e4 : |b / r| * |b / r| = (b / r) ^ 2 := by rw [abs_mul_abs_self]; ring
      have h7 : 0 ≤ (b / r) ^ 2 := by positivity
      have e5 : (1 + (1 / 2 : ℝ) ^ 53) * |b / r| * ((1 + (1 / 2) ^ 53) * |b / r|) = (1 + (1 / 2) ^ 53) ^ 2 * (b / r) ^ 2 := by
        rw [← e4]; ring
      rw [e5] at h6
      refine h6.trans (mul_le_mul_of_nonneg_right (by norm_num) h7)
    have hww : w ≤ (1 + (1 / 2) ^ 53) * (x * x) := by
      have hx0 : 0 ≤ x * x := mul_self_nonneg x
      rw [abs_of_nonneg hx0] at hw
      have := (abs_le.mp hw).2
      linarith
    generalize b ^ 2 / a = q at *
    generalize (b / r) ^ 2 = y at *
    generalize x * x = z at *
    have hcw : 0 < c - w := apart k1 g1 hbr hx2 hww
    rw [abs_of_pos hcw] at hd
    have := (abs_le.mp hd).1
    have h8 : (1 / 2 : ℝ) ^ 53 * (c - w) ≤ 1 / 2 * (c - w) := mul_le_mul_of_nonneg_right (by norm_num) hcw.le
    linarith
  unfold potrfF
  rw [if_pos g0]
  dsimp only
  rw [if_pos hpos]

/-- The kernels of Cholesky QR in double precision. -/
def cholF : CholKern (Fp 53) 2 2 where
  gram := fun X i j => Par.Stuck.sum fun a => X i a * X j a
  potrf := potrfF
  trsm := trsmF
  shift := shiftGram 2

theorem cholF_acc : CholAcc (Fp.fl 53) cholF (epsQ : ℝ) ((1 / 2) ^ 50) where
  gram := by
    intro X i j _
    obtain ⟨d', h1, h2⟩ := Par.Four.sum_dot (X i) (X j)
    refine (dotc_error (F := Fp.fl 53) h2 (n := 3) (by omega)).trans (mul_le_mul_of_nonneg_right ?_ ?_)
    · show (1 + (1 / 2 : ℝ) ^ 53) ^ 3 - 1 ≤ _
      norm_num
    · exact mul_nonneg (nrm2_nonneg _) (nrm2_nonneg _)
  potrf := potrfF_ok
  succeeds := succeedsF
  trsm := fun U X hU j a => trsmF_ok U X hU j a
  shift := fun G => shift_ok (by norm_num) G (by norm_num)

/-! ### The run -/

/-- The growth factor of algorithm.inc 502-505. -/
def rhoF (t : Fp 53) : Fp 53 :=
  let a := t - sqrtF (t * t - 1)
  let b := t + sqrtF (t * t - 1)
  if |a.val| < |b.val| then ⟨|b.val|⟩ else ⟨|a.val|⟩

/-- The estimate of the condition, algorithm.inc 496-511, for Ritz values outside the interval (the square root of a
negative number is a NaN in the code). -/
def condF (upperb lowerb r1 rk : Fp 53) (d dmax : ℕ) : Fp 53 :=
  let cc := (upperb + lowerb) / ⟨2⟩
  let ee := (upperb - lowerb) / ⟨2⟩
  (fun x => x * rhoF ((rk - cc) / ee))^[d] 1 * (fun x => x * rhoF ((r1 - cc) / ee))^[dmax - d] 1

/-- Library functions, with the estimate of the code. -/
def platZ : Plat (Fp 53) := { plat 53 with condEst := condF }

/-- The arithmetic: products in double precision, a dense eigensolver for diagonal matrices of order two, Cholesky QR in
double precision with the thresholds of the code (chase_mpi 364-365). -/
noncomputable def arithZ : Arith (Fp 53) (Fp 53) 2 :=
  { arith 53 ⟨3⟩ with
    heevd := Par.Four.heevdC
    nrm2 := fun w => ⟨qsqrt ((w 0).val ^ 2 + (w 1).val ^ 2)⟩
    hhQR := fun X => setBlk 0 (hhqr (getBlk 0 2 X)) X
    cholQR1 := cholF.qr1
    cholQR2 := cholF.qr2
    shiftedcholQR2 := cholF.shifted .seq
    above := fun x => 10 ^ 8 < x.val
    below := fun x => x.val < 20 }

/-- The diagonal matrix of `1` and `3`; the start vectors are `(2, 11)` and three times this vector. -/
def startZ : Seq.St (Fp 53) 2 where
  H := fun i j => if i = j then (if i = 0 then ⟨1⟩ else ⟨3⟩) else 0
  C := fun j i => ⟨(if j = 0 then 1 else 3) * (if i = 0 then 2 else 11)⟩
  B := fun _ _ => 0
  C2 := fun _ _ => 0
  B2 := fun _ _ => 0
  next := .bAc
  locked := 0
  isSym := false

/-- The run: one round, one pair locked. -/
theorem runZ : ∃ out, solve platZ (ops arithZ paramsC) (cfg 53) (fun _ => ⟨1⟩) (fun _ => 0) startZ = .ok out ∧
      out.iterations = 1 ∧ out.locked = 1 ∧ out.ritzv 0 = ⟨0⟩ ∧ out.resid 0 = ⟨0⟩ ∧ out.be.C 0 0 = ⟨0⟩ ∧ out.be.C 0 1 = ⟨0⟩ := by
  obtain ⟨out, h, g⟩ := Toy.okAnd_elim (p := fun out : Outcome (Fp 53) (Seq.St (Fp 53) 2) =>
      decide (out.iterations = 1 ∧ out.locked = 1 ∧ out.ritzv 0 = ⟨0⟩ ∧ out.resid 0 = ⟨0⟩ ∧ out.be.C 0 0 = ⟨0⟩ ∧
        out.be.C 0 1 = ⟨0⟩))
    (x := solve platZ (ops arithZ paramsC) (cfg 53) (fun _ => ⟨1⟩) (fun _ => 0) startZ)
    (by rw [Toy.solve_eq_solveE]; decide +kernel)
  exact ⟨out, h, of_decide_eq_true g⟩

theorem accurateZ : Accurate (Fp.fl 53) Fp.toReal arithZ 2 ((1 / 2) ^ 50) where
  ofBase := (accurate 53 ⟨3⟩).ofBase
  neg := (accurate 53 ⟨3⟩).neg
  add := (accurate 53 ⟨3⟩).add
  gemm := (accurate 53 ⟨3⟩).gemm
  axpy := (accurate 53 ⟨3⟩).axpy
  nrm2 := by
    intro w
    have e1 : Fp.toReal (arithZ.nrm2 w) = ((qsqrt ((w 0).val ^ 2 + (w 1).val ^ 2) : ℚ) : ℝ) := rfl
    have e2 : Verif.nrm2 (fun i => (Fp.fl 53).val (w i)) ^ 2 = (((w 0).val ^ 2 + (w 1).val ^ 2 : ℚ) : ℝ) := by
      rw [nrm2_sq, Fin.sum_univ_two]
      simp only [Real.norm_eq_abs, sq_abs]
      push_cast
      rfl
    have e3 := nrm2_nonneg (fun i => (Fp.fl 53).val (w i))
    rw [e1]
    generalize Verif.nrm2 (fun i => (Fp.fl 53).val (w i)) = y at *
    generalize hD : (w 0).val ^ 2 + (w 1).val ^ 2 = D at *
    have h0 : 0 ≤ D := by rw [← hD]; positivity
    rcases h0.eq_or_lt with h | h
    · subst h
      have : y = 0 := by simpa using e2
      subst this
      have : qsqrt 0 = 0 := by decide +kernel
      rw [this]
      simp
    · obtain ⟨h1, h2, h3⟩ := qsqrt_real h
      rw [← e2] at h2 h3
      generalize ((qsqrt D : ℚ) : ℝ) = q at *
      have hy : q ≤ y := abs_le_of_sq_le_sq' h2 e3 |>.2
      rw [abs_sub_comm, abs_of_nonneg (by linarith)]
      have h4 : (y - q) * y ≤ (1 / 2) ^ 58 * y * y := by nlinarith
      have hy0 : 0 < y := by linarith
      have h5 := le_of_mul_le_mul_right h4 hy0
      refine h5.trans (mul_le_mul_of_nonneg_right (by norm_num) e3)

theorem orthoZ : OrthoKernels (Fp.fl 53) arithZ 2 3 0 where
  back := orthoKernels.back
  heevd := Par.Four.orthoC.heevd

theorem hermitianZ : (valM (Fp.fl 53) startZ.H).IsHermitian := by
  ext i j
  show star ((Fp.fl 53).val (startZ.H j i)) = (Fp.fl 53).val (startZ.H i j)
  by_cases hij : i = j
  · subst hij; simp
  · have h1 : startZ.H j i = 0 := if_neg (Ne.symm hij)
    have h2 : startZ.H i j = 0 := if_neg hij
    rw [h1, h2]; simp

/-- The eigenvalues of the matrix are 1 and 3. -/
theorem eigenZ (x : Fin 2 → ℝ) (μ : ℝ) (hx : x ≠ 0) (h : valM (Fp.fl 53) startZ.H *ᵥ x = μ • x) : μ = 1 ∨ μ = 3 := by
  have m00 : valM (Fp.fl 53) startZ.H 0 0 = 1 := by show (((1 : ℚ)) : ℝ) = 1; norm_num
  have m01 : valM (Fp.fl 53) startZ.H 0 1 = 0 := by show (((0 : ℚ)) : ℝ) = 0; norm_num
  have m10 : valM (Fp.fl 53) startZ.H 1 0 = 0 := by show (((0 : ℚ)) : ℝ) = 0; norm_num
  have m11 : valM (Fp.fl 53) startZ.H 1 1 = 3 := by show (((3 : ℚ)) : ℝ) = 3; norm_num
  have h0 := congrFun h 0
  have h1 := congrFun h 1
  simp only [Matrix.mulVec, dotProduct, Fin.sum_univ_two, m00, m01, m10, m11, Pi.smul_apply, smul_eq_mul] at h0 h1
  by_contra hc
  push Not at hc
  apply hx
  have a0 : x 0 = 0 := by
    have : (μ - 1) * x 0 = 0 := by linarith
    rcases mul_eq_zero.mp this with h | h
    · exact absurd (by linarith) hc.1
    · exact h
  have a1 : x 1 = 0 := by
    have : (μ - 3) * x 1 = 0 := by linarith
    rcases mul_eq_zero.mp this with h | h
    · exact absurd (by linarith) hc.2
    · exact h
  funext i
  fin_cases i
  · exact a0
  · exact a1

/-- **The condition on the blocks cannot be dropped from C87.**  All kernels are accurate in the sense of C73, C84 and
C87 (errors of at most `2^-39`), the matrix is symmetric, Cholesky QR chooses its routine by the estimate of the code, but
the two start vectors are multiples of each other.  The Cholesky factorisation succeeds, the second column becomes zero,
and the solve returns after one round with the wanted pair locked: a vanishing residual, a vanishing vector, and a value
that is at a distance of at least one from every eigenvalue. -/
theorem C87_dependent_refuted :
    (OrthoKernels (Fp.fl 53) arithZ paramsC.nevex 3 0 ∧ Accurate (Fp.fl 53) Fp.toReal arithZ 2 ((1 / 2) ^ 50) ∧
      CholAcc (Fp.fl 53) cholF (epsQ : ℝ) ((1 / 2) ^ 50) ∧ UsesChol arithZ cholF .seq ∧
      (∀ X, QrOf ((1 / 2) ^ 39) paramsC.nevex (fun j => valV (Fp.fl 53) (X j)) fun j => valV (Fp.fl 53) (arithZ.hhQR X j)) ∧
      528 * ((paramsC.nevex : ℝ) * Real.sqrt paramsC.nevex * (1 / 2) ^ 50) ≤ (1 / 2) ^ 39 ∧
      PermutesIndices platZ ∧ (valM (Fp.fl 53) startZ.H).IsHermitian) ∧
    ∃ out, solve platZ (ops arithZ paramsC) (cfg 53) (fun _ => ⟨1⟩) (fun _ => 0) startZ = .ok out ∧
      out.iterations = 1 ∧ out.locked = (cfg 53).nev ∧ (Fp.fl 53).val (out.resid 0) = 0 ∧ valV (Fp.fl 53) (out.be.C 0) = 0 ∧
      ∀ (x : Fin 2 → ℝ) (μ : ℝ), x ≠ 0 → valM (Fp.fl 53) startZ.H *ᵥ x = μ • x → 1 ≤ |μ - (Fp.fl 53).val (out.ritzv 0)| := by
  have hz : (Fp.fl 53).val ⟨0⟩ = 0 := by show (((0 : ℚ)) : ℝ) = 0; norm_num
  refine ⟨⟨orthoZ, accurateZ, cholF_acc, ⟨fun _ => rfl, fun _ => rfl, fun _ => rfl⟩, fun X => ?_, Par.Four.unit_small,
    plat_permutes 53, hermitianZ⟩, ?_⟩
  · obtain ⟨Q, hQ, h⟩ := hhqr_ok (b := 2) (m := 2) le_rfl X
    refine ⟨Q, hQ, fun j hj => ⟨(h j hj).1.trans (by norm_num), ?_⟩⟩
    obtain ⟨t, ht⟩ := (h j hj).2
    exact ⟨t, ht.trans (mul_le_mul_of_nonneg_right (by norm_num) (nrm2_nonneg _))⟩
  · obtain ⟨out, h, h1, h2, h3, h4, h5, h6⟩ := runZ
    refine ⟨out, h, h1, h2, by rw [h4, hz], ?_, fun x μ hx he => ?_⟩
    · funext i
      fin_cases i
      · show (Fp.fl 53).val (out.be.C 0 0) = 0; rw [h5, hz]
      · show (Fp.fl 53).val (out.be.C 0 1) = 0; rw [h6, hz]
    · rw [h3, hz, sub_zero]
      rcases eigenZ x μ hx he with rfl | rfl <;> norm_num

end Two
end Rounded
end Verif
