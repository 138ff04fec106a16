/-
Kernels of Cholesky QR for two columns that meet the contract of `Rounded/Chol.lean`: rational arithmetic, with square
roots of sixty bits.
-/
import Verif.Rounded.CholProps

set_option linter.unusedSectionVars false

namespace Verif
namespace Rounded
namespace Two

open Matrix Finset

/-! ### Square roots -/

/-- The integer square root of a number of at most `2 f` bits. -/
def isqrt : ℕ → ℕ → ℕ
  | 0, _ => 0
  | f + 1, n => if (2 * isqrt f (n / 4) + 1) * (2 * isqrt f (n / 4) + 1) ≤ n then 2 * isqrt f (n / 4) + 1
      else 2 * isqrt f (n / 4)

theorem isqrt_spec : ∀ f n, n < 4 ^ f → isqrt f n * isqrt f n ≤ n ∧ n < (isqrt f n + 1) * (isqrt f n + 1)
  | 0, n, h => by simp at h; simp [isqrt, h]
  | f + 1, n, h => by
    have h1 := isqrt_spec f (n / 4) (by rw [pow_succ] at h; omega)
    unfold isqrt
    generalize isqrt f (n / 4) = r at *
    have e1 : (r + 1) * (r + 1) = r * r + 2 * r + 1 := by ring
    have e2 : (2 * r + 1) * (2 * r + 1) = 4 * (r * r) + 4 * r + 1 := by ring
    have e3 : (2 * r + 1 + 1) * (2 * r + 1 + 1) = 4 * (r * r) + 8 * r + 4 := by ring
    have e4 : 2 * r * (2 * r) = 4 * (r * r) := by ring
    rw [e1] at h1
    split_ifs with h2
    · rw [e2] at h2 ⊢
      rw [e3]
      generalize r * r = q at *
      omega
    · rw [e2] at h2 ⊢
      rw [e4]
      generalize r * r = q at *
      omega

/-- A square root with sixty bits. -/
def qsqrt (D : ℚ) : ℚ :=
  let m := D.num.toNat * D.den * 4 ^ 60
  (isqrt (m.log2 + 1) m : ℕ) / ((D.den : ℚ) * 2 ^ 60)

theorem qsqrt_spec {D : ℚ} (hD : 0 < D) : 0 < qsqrt D ∧ qsqrt D ^ 2 ≤ D ∧ D - qsqrt D ^ 2 ≤ (1 / 2) ^ 58 * D := by
  unfold qsqrt
  dsimp only
  set m := D.num.toNat * D.den * 4 ^ 60 with hm
  have hn : 0 < D.num.toNat := by
    have := Rat.num_pos.mpr hD
    omega
  have hd : 0 < D.den := D.den_pos
  have hlt : m < 4 ^ (m.log2 + 1) := by
    have h1 : m < 2 ^ (m.log2 + 1) := Nat.lt_log2_self
    exact h1.trans_le (Nat.pow_le_pow_left (by norm_num) _)
  obtain ⟨h1, h2⟩ := isqrt_spec _ m hlt
  generalize isqrt (m.log2 + 1) m = t at *
  have hm1 : 4 ^ 60 ≤ m := by
    have : 1 ≤ D.num.toNat * D.den := Nat.mul_pos hn hd
    rw [hm]
    exact Nat.le_mul_of_pos_left _ this
  have ht : 2 ^ 60 ≤ t := by
    by_contra hc
    have h3 : t + 1 ≤ 2 ^ 60 := by omega
    have h4 := Nat.mul_le_mul h3 h3
    have : (2 : ℕ) ^ 60 * 2 ^ 60 = 4 ^ 60 := by norm_num
    omega
  have eD : D * ((D.den : ℚ) * 2 ^ 60) ^ 2 = (m : ℚ) := by
    have e1 : D * D.den = D.num := Rat.mul_den_eq_num D
    have e2 : (D.num : ℚ) = (D.num.toNat : ℚ) := by
      have : (D.num.toNat : ℤ) = D.num := Int.toNat_of_nonneg (by omega)
      exact_mod_cast this.symm
    rw [hm]
    push_cast
    rw [← e2, ← e1]
    ring
  have hp : (0 : ℚ) < (D.den : ℚ) * 2 ^ 60 := by positivity
  generalize (D.den : ℚ) * 2 ^ 60 = w at *
  have q1 : (t : ℚ) * t ≤ m := by exact_mod_cast h1
  have q2 : (m : ℚ) < (t + 1) * (t + 1) := by exact_mod_cast h2
  have q3 : (2 : ℚ) ^ 60 ≤ t := by exact_mod_cast ht
  have ht0 : (0 : ℚ) < t := lt_of_lt_of_le (by positivity) q3
  have hw : 0 < w ^ 2 := by positivity
  refine ⟨by positivity, ?_, ?_⟩
  · rw [div_pow, div_le_iff₀ hw, eD]
    nlinarith
  · have e3 : D - (t / w) ^ 2 = (m - t * t) / w ^ 2 := by
      rw [div_pow, eq_div_iff hw.ne', sub_mul, eD, div_mul_cancel₀ _ hw.ne']
      ring
    have e4 : D = m / w ^ 2 := by rw [eq_div_iff hw.ne', eD]
    rw [e3]
    conv_rhs => rw [e4]
    rw [← mul_div_assoc]
    refine div_le_div_of_nonneg_right ?_ hw.le
    nlinarith

/-! ### The kernels -/

variable {p : ℕ}

/-- An entry of a matrix. -/
def ent {b : ℕ} (G : Matrix (Fin b) (Fin b) (Fp p)) (i j : ℕ) : ℚ := if h : i < b ∧ j < b then (G ⟨i, h.1⟩ ⟨j, h.2⟩).val else 0

/-- Cholesky factorisation of a matrix of dimension two. -/
def potrf {b : ℕ} (G : Matrix (Fin b) (Fin b) (Fp p)) : ℤ × Matrix (Fin b) (Fin b) (Fp p) :=
  if ent G 0 0 ≤ 0 then (1, G)
  else
    let r := qsqrt (ent G 0 0)
    let x := ent G 0 1 / r
    if ent G 1 1 - x ^ 2 ≤ 0 then (2, G)
    else (0, fun i j => if i.val = 0 then (if j.val = 0 then ⟨r⟩ else ⟨x⟩)
      else if j.val = 0 then G i j else ⟨qsqrt (ent G 1 1 - x ^ 2)⟩)

/-- Triangular solve with a matrix of dimension two. -/
def trsm {b m : ℕ} (U : Matrix (Fin b) (Fin b) (Fp p)) (X : ℕ → Fin m → Fp p) : ℕ → Fin m → Fp p := fun j a =>
  if j = 0 then ⟨(X 0 a).val / ent U 0 0⟩
  else if j = 1 then ⟨((X 1 a).val - ent U 0 1 * ((X 0 a).val / ent U 0 0)) / ent U 1 1⟩
  else X j a

/-- The unit roundoff used for the shift, `2^-52`. -/
def epsQ : ℚ := (1 / 2) ^ 52

/-- The shift of the diagonal. -/
def shiftGram (N : ℕ) {b : ℕ} (G : Matrix (Fin b) (Fin b) (Fp p)) : Matrix (Fin b) (Fin b) (Fp p) := fun i j =>
  if i = j then ⟨(G i i).val + qsqrt N * epsQ * ∑ l, |(G l l).val|⟩ else G i j

/-! ### The contract -/

theorem ent_eq {b : ℕ} (G : Matrix (Fin b) (Fin b) (Fp p)) (i j : Fin b) : ent G i j = (G i j).val := by
  unfold ent; rw [dif_pos ⟨i.isLt, j.isLt⟩]

theorem hpart00 (G : Matrix (Fin 2) (Fin 2) (Fp p)) : hpart (Fp.fl p) G 0 0 = (ent G 0 0 : ℝ) := by
  rw [show ent G 0 0 = (G 0 0).val from ent_eq G 0 0]; simp [hpart]; rfl
theorem hpart11 (G : Matrix (Fin 2) (Fin 2) (Fp p)) : hpart (Fp.fl p) G 1 1 = (ent G 1 1 : ℝ) := by
  rw [show ent G 1 1 = (G 1 1).val from ent_eq G 1 1]; simp [hpart]; rfl
theorem hpart01 (G : Matrix (Fin 2) (Fin 2) (Fp p)) : hpart (Fp.fl p) G 0 1 = (ent G 0 1 : ℝ) := by
  rw [show ent G 0 1 = (G 0 1).val from ent_eq G 0 1]; simp [hpart]; rfl
theorem hpart10 (G : Matrix (Fin 2) (Fin 2) (Fp p)) : hpart (Fp.fl p) G 1 0 = (ent G 0 1 : ℝ) := by
  rw [show ent G 0 1 = (G 0 1).val from ent_eq G 0 1]; simp [hpart]; rfl

theorem qsqrt_real {D : ℚ} (hD : 0 < D) : (0 : ℝ) < qsqrt D ∧ ((qsqrt D : ℚ) : ℝ) ^ 2 ≤ D ∧
    (D : ℝ) - (qsqrt D : ℝ) ^ 2 ≤ (1 / 2) ^ 58 * D := by
  obtain ⟨h1, h2, h3⟩ := qsqrt_spec hD
  refine ⟨by exact_mod_cast h1, by exact_mod_cast h2, ?_⟩
  have : ((D - qsqrt D ^ 2 : ℚ) : ℝ) ≤ (((1 / 2) ^ 58 * D : ℚ) : ℝ) := Rat.cast_le.mpr h3
  push_cast at this
  exact this

theorem potrf_ok (G : Matrix (Fin 2) (Fin 2) (Fp p)) {e : ℝ} (he : (1 / 2) ^ 57 ≤ e) (h : (potrf G).1 = 0) :
    (∀ j, (Fp.fl p).val ((potrf G).2 j j) ≠ 0) ∧ ∀ i j : Fin 2, i ≤ j →
    ‖((upper (Fp.fl p) (potrf G).2)ᴴ * upper (Fp.fl p) (potrf G).2) i j - hpart (Fp.fl p) G i j‖ ≤
      e * ∑ l, ‖upper (Fp.fl p) (potrf G).2 l i‖ * ‖upper (Fp.fl p) (potrf G).2 l j‖ := by
  unfold potrf at h ⊢
  by_cases h0 : ent G 0 0 ≤ 0
  · rw [if_pos h0] at h; simp at h
  rw [if_neg h0] at h ⊢
  dsimp only at h ⊢
  by_cases h1 : ent G 1 1 - (ent G 0 1 / qsqrt (ent G 0 0)) ^ 2 ≤ 0
  · rw [if_pos h1] at h; simp at h
  rw [if_neg h1]
  dsimp only
  obtain ⟨a1, a2, a3⟩ := qsqrt_real (not_le.mp h0)
  obtain ⟨b1, b2, b3⟩ := qsqrt_real (not_le.mp h1)
  have g00 := hpart00 G
  have g11 := hpart11 G
  have g01 := hpart01 G
  generalize hr : qsqrt (ent G 0 0) = r at *
  generalize hx : ent G 0 1 / r = x at *
  generalize ht : qsqrt (ent G 1 1 - x ^ 2) = t at *
  have hxr : (x : ℝ) * r = (ent G 0 1 : ℝ) := by
    rw [← hx]; push_cast; field_simp
  push_cast at b2 b3
  set U : Matrix (Fin 2) (Fin 2) (Fp p) := fun i j => if i.val = 0 then (if j.val = 0 then ⟨r⟩ else ⟨x⟩)
      else if j.val = 0 then G i j else ⟨t⟩ with hU
  have u00 : upper (Fp.fl p) U 0 0 = (r : ℝ) := by simp [upper, hU]; rfl
  have u01 : upper (Fp.fl p) U 0 1 = (x : ℝ) := by simp [upper, hU]; rfl
  have u10 : upper (Fp.fl p) U 1 0 = 0 := by simp [upper]
  have u11 : upper (Fp.fl p) U 1 1 = (t : ℝ) := by simp [upper, hU]; rfl
  constructor
  · intro j
    fin_cases j
    · show ((r : ℚ) : ℝ) ≠ 0; exact a1.ne'
    · show ((t : ℚ) : ℝ) ≠ 0; exact b1.ne'
  · have hP : ∀ i j, ((upper (Fp.fl p) U)ᴴ * upper (Fp.fl p) U) i j =
        upper (Fp.fl p) U 0 i * upper (Fp.fl p) U 0 j + upper (Fp.fl p) U 1 i * upper (Fp.fl p) U 1 j := by
      intro i j
      rw [Matrix.mul_apply, Fin.sum_univ_two]
      simp [Matrix.conjTranspose_apply]
    have c : ((1 : ℝ) / 2) ^ 58 * 2 = (1 / 2) ^ 57 := by norm_num
    intro i j hij
    rw [hP, Fin.sum_univ_two]
    fin_cases i <;> fin_cases j
    · show ‖upper (Fp.fl p) U 0 0 * upper (Fp.fl p) U 0 0 + upper (Fp.fl p) U 1 0 * upper (Fp.fl p) U 1 0 -
        hpart (Fp.fl p) G 0 0‖ ≤ e * (‖upper (Fp.fl p) U 0 0‖ * ‖upper (Fp.fl p) U 0 0‖ + ‖upper (Fp.fl p) U 1 0‖ * _)
      rw [u00, u10, g00, Real.norm_eq_abs, Real.norm_eq_abs, norm_zero, zero_mul, abs_of_pos a1, abs_sub_comm, abs_of_nonneg (by nlinarith)]
      nlinarith
    · show ‖upper (Fp.fl p) U 0 0 * upper (Fp.fl p) U 0 1 + upper (Fp.fl p) U 1 0 * upper (Fp.fl p) U 1 1 -
        hpart (Fp.fl p) G 0 1‖ ≤ _
      rw [u00, u10, u01, g01, zero_mul, add_zero, ← hxr, mul_comm, sub_self, norm_zero]
      have : 0 ≤ e := le_trans (by positivity) he
      positivity
    · exact absurd hij (by decide)
    · show ‖upper (Fp.fl p) U 0 1 * upper (Fp.fl p) U 0 1 + upper (Fp.fl p) U 1 1 * upper (Fp.fl p) U 1 1 -
        hpart (Fp.fl p) G 1 1‖ ≤ e * (‖upper (Fp.fl p) U 0 1‖ * ‖upper (Fp.fl p) U 0 1‖ +
          ‖upper (Fp.fl p) U 1 1‖ * ‖upper (Fp.fl p) U 1 1‖)
      rw [u01, u11, g11, Real.norm_eq_abs, Real.norm_eq_abs, Real.norm_eq_abs, abs_of_pos b1, abs_mul_abs_self, abs_sub_comm, abs_of_nonneg (by nlinarith)]
      have : 0 ≤ e := le_trans (by positivity) he
      have := mul_nonneg this (mul_self_nonneg (x : ℝ))
      nlinarith

theorem succeeds (G : Matrix (Fin 2) (Fin 2) (Fp p)) {e : ℝ} (he : (1 / 2) ^ 57 ≤ e)
    (h : PosAbove (Fp.fl p) (2 * (2 : ℕ) * e) G) : (potrf G).1 = 0 := by
  obtain ⟨h1, h2⟩ := h
  have g0 : 0 < ent G 0 0 := by
    have h3 := h1 0
    rw [show ent G 0 0 = (G 0 0).val from ent_eq G 0 0]
    have : (0 : ℝ) < ((G 0 0).val : ℝ) := h3
    exact_mod_cast this
  have g1 : 0 < ent G 1 1 := by
    have h3 := h1 1
    rw [show ent G 1 1 = (G 1 1).val from ent_eq G 1 1]
    have : (0 : ℝ) < ((G 1 1).val : ℝ) := h3
    exact_mod_cast this
  obtain ⟨a1, a2, a3⟩ := qsqrt_real g0
  have r00 : RCLike.re ((Fp.fl p).val (G 0 0)) = (ent G 0 0 : ℝ) := by
    rw [show ent G 0 0 = (G 0 0).val from ent_eq G 0 0]; rfl
  have r11 : RCLike.re ((Fp.fl p).val (G 1 1)) = (ent G 1 1 : ℝ) := by
    rw [show ent G 1 1 = (G 1 1).val from ent_eq G 1 1]; rfl
  have key : ∀ s : ℝ, 4 * e * (s ^ 2 * (ent G 0 0 : ℝ) + (ent G 1 1 : ℝ)) ≤
      s ^ 2 * (ent G 0 0 : ℝ) + 2 * s * (ent G 0 1 : ℝ) + (ent G 1 1 : ℝ) := by
    intro s
    have h3 := h2 ![s, 1]
    rw [Fin.sum_univ_two, Fin.sum_univ_two, Fin.sum_univ_two, Fin.sum_univ_two, hpart00, hpart01, hpart10, hpart11, r00, r11] at h3
    simp only [Matrix.cons_val_zero, Matrix.cons_val_one, star_trivial, Real.norm_eq_abs, sq_abs, abs_one, RCLike.re_to_real] at h3
    push_cast at h3
    linarith
  have hpos : 0 < ent G 1 1 - (ent G 0 1 / qsqrt (ent G 0 0)) ^ 2 := by
    have hR : (0 : ℝ) < (ent G 1 1 : ℝ) - ((ent G 0 1 : ℝ) / (qsqrt (ent G 0 0) : ℝ)) ^ 2 := by
      have ga : (0 : ℝ) < (ent G 0 0 : ℝ) := by exact_mod_cast g0
      have gc : (0 : ℝ) < (ent G 1 1 : ℝ) := by exact_mod_cast g1
      generalize (qsqrt (ent G 0 0) : ℝ) = r at *
      generalize (ent G 0 0 : ℝ) = a at *
      generalize (ent G 1 1 : ℝ) = c at *
      generalize (ent G 0 1 : ℝ) = b at *
      have k1 := key (-(b / a))
      have e1 : (-(b / a)) ^ 2 * a = b ^ 2 / a := by field_simp
      have e2 : 2 * -(b / a) * b = -2 * (b ^ 2 / a) := by field_simp
      rw [e1, e2] at k1
      have hr2 : 0 < r ^ 2 := by positivity
      have hb : b ^ 2 / a ≤ c := by
        have : 0 ≤ e := le_trans (by positivity) he
        have h5 : 0 ≤ b ^ 2 / a := by positivity
        have := mul_nonneg (show 0 ≤ 4 * e by linarith) (add_nonneg h5 gc.le)
        linarith
      rw [div_pow, sub_pos, div_lt_iff₀ hr2]
      have e3 : b ^ 2 = b ^ 2 / a * a := by field_simp
      rw [e3]
      generalize b ^ 2 / a = q at *
      -- `q (1 + 4 e) ≤ c (1 - 4 e)` and `(1 - 2^-58) a ≤ r²`
      have k2 : 4 * e * c ≤ c - q - 4 * e * q := by linarith
      have he' : 4 * e * c ≥ 4 * (1 / 2) ^ 57 * c := by
        refine mul_le_mul_of_nonneg_right ?_ gc.le
        linarith
      have hq0 : 0 ≤ q ∨ q < 0 := le_or_gt _ _
      rcases hq0 with hq0 | hq0
      · have k3 : q ≤ c - 4 * (1 / 2) ^ 57 * c := by
          have : 0 ≤ 4 * e * q := by
            have : 0 ≤ e := le_trans (by positivity) he
            positivity
          linarith
        have k4 : q * a ≤ (c - 4 * (1 / 2) ^ 57 * c) * a := mul_le_mul_of_nonneg_right k3 ga.le
        have k5 : c * (a - (1 / 2) ^ 58 * a) ≤ c * r ^ 2 := mul_le_mul_of_nonneg_left (by linarith) gc.le
        have k6 : 0 < c * a := by positivity
        have e5 : (c - 4 * (1 / 2) ^ 57 * c) * a = c * a - 4 * (1 / 2) ^ 57 * (c * a) := by ring
        have e6 : c * (a - (1 / 2) ^ 58 * a) = c * a - (1 / 2) ^ 58 * (c * a) := by ring
        rw [e5] at k4
        rw [e6] at k5
        have : ((1 : ℝ) / 2) ^ 58 * (c * a) < 4 * (1 / 2) ^ 57 * (c * a) := by
          refine mul_lt_mul_of_pos_right ?_ k6
          norm_num
        linarith
      · have : q * a < 0 := mul_neg_of_neg_of_pos hq0 ga
        have : 0 < c * r ^ 2 := by positivity
        linarith
    exact_mod_cast hR
  unfold potrf
  rw [if_neg (not_le.mpr g0)]
  dsimp only
  rw [if_neg (not_le.mpr hpos)]

theorem trsm_ok {m : ℕ} (U : Matrix (Fin 2) (Fin 2) (Fp p)) (X : ℕ → Fin m → Fp p) {e : ℝ} (he : 0 ≤ e)
    (hU : ∀ j, (Fp.fl p).val (U j j) ≠ 0) (j : Fin 2) (a : Fin m) :
    ‖∑ l : Fin 2, upper (Fp.fl p) U l j * (Fp.fl p).val (trsm U X l a) - (Fp.fl p).val (X j a)‖ ≤
      e * ∑ l : Fin 2, ‖upper (Fp.fl p) U l j‖ * ‖(Fp.fl p).val (trsm U X l a)‖ := by
  have h0 : (ent U 0 0 : ℝ) ≠ 0 := by
    rw [show ent U 0 0 = (U 0 0).val from ent_eq U 0 0]; exact hU 0
  have h1 : (ent U 1 1 : ℝ) ≠ 0 := by
    rw [show ent U 1 1 = (U 1 1).val from ent_eq U 1 1]; exact hU 1
  have u00 : upper (Fp.fl p) U 0 0 = (ent U 0 0 : ℝ) := by
    rw [show ent U 0 0 = (U 0 0).val from ent_eq U 0 0]; simp [upper]; rfl
  have u01 : upper (Fp.fl p) U 0 1 = (ent U 0 1 : ℝ) := by
    rw [show ent U 0 1 = (U 0 1).val from ent_eq U 0 1]; simp [upper]; rfl
  have u10 : upper (Fp.fl p) U 1 0 = 0 := by simp [upper]
  have u11 : upper (Fp.fl p) U 1 1 = (ent U 1 1 : ℝ) := by
    rw [show ent U 1 1 = (U 1 1).val from ent_eq U 1 1]; simp [upper]; rfl
  have t0 : (Fp.fl p).val (trsm U X (0 : Fin 2) a) = ((X 0 a).val : ℝ) / (ent U 0 0 : ℝ) := by
    show (((X 0 a).val / ent U 0 0 : ℚ) : ℝ) = _
    push_cast; rfl
  have t1 : (Fp.fl p).val (trsm U X (1 : Fin 2) a) =
      (((X 1 a).val : ℝ) - (ent U 0 1 : ℝ) * (((X 0 a).val : ℝ) / (ent U 0 0 : ℝ))) / (ent U 1 1 : ℝ) := by
    show (((((X 1 a).val - ent U 0 1 * ((X 0 a).val / ent U 0 0)) / ent U 1 1 : ℚ)) : ℝ) = _
    push_cast; rfl
  have hz : ∑ l : Fin 2, upper (Fp.fl p) U l j * (Fp.fl p).val (trsm U X l a) - (Fp.fl p).val (X j a) = 0 := by
    rw [Fin.sum_univ_two, t0, t1]
    fin_cases j
    · show upper (Fp.fl p) U 0 0 * _ + upper (Fp.fl p) U 1 0 * _ - ((X 0 a).val : ℝ) = 0
      rw [u00, u10]; field_simp; ring
    · show upper (Fp.fl p) U 0 1 * _ + upper (Fp.fl p) U 1 1 * _ - ((X 1 a).val : ℝ) = 0
      rw [u01, u11]; field_simp; ring
  rw [hz, norm_zero]
  positivity

theorem shift_ok {N : ℕ} (hN : 0 < N) (G : Matrix (Fin 2) (Fin 2) (Fp p)) {e : ℝ} (he : (1 / 2) ^ 57 ≤ e) :
    ∃ s : ℝ, |s - Real.sqrt N * (epsQ : ℝ) * ∑ j, ‖(Fp.fl p).val (G j j)‖| ≤
      e * (Real.sqrt N * (epsQ : ℝ) * ∑ j, ‖(Fp.fl p).val (G j j)‖) ∧
    (∀ i j, i ≠ j → shiftGram N G i j = G i j) ∧
    ∀ j, |RCLike.re ((Fp.fl p).val (shiftGram N G j j)) - (RCLike.re ((Fp.fl p).val (G j j)) + s)| ≤
      e * (|RCLike.re ((Fp.fl p).val (G j j))| + |s|) := by
  have hN' : (0 : ℚ) < (N : ℚ) := by exact_mod_cast hN
  obtain ⟨a1, a2, a3⟩ := qsqrt_real hN'
  have he0 : 0 ≤ e := le_trans (by positivity) he
  have hE : (0 : ℝ) ≤ (epsQ : ℝ) := by unfold epsQ; push_cast; positivity
  have eT : ((∑ l, |(G l l).val| : ℚ) : ℝ) = ∑ j, ‖(Fp.fl p).val (G j j)‖ := by
    push_cast; rfl
  refine ⟨(qsqrt N : ℝ) * (epsQ : ℝ) * ∑ j, ‖(Fp.fl p).val (G j j)‖, ?_, fun i j hij => if_neg hij, fun j => ?_⟩
  · have hT : 0 ≤ ∑ j, ‖(Fp.fl p).val (G j j)‖ := Finset.sum_nonneg fun _ _ => norm_nonneg _
    generalize ∑ j, ‖(Fp.fl p).val (G j j)‖ = T at *
    have hs : Real.sqrt N ^ 2 = N := Real.sq_sqrt (Nat.cast_nonneg N)
    have hs0 : 0 < Real.sqrt N := Real.sqrt_pos.mpr (by exact_mod_cast hN)
    push_cast at a2 a3
    generalize (qsqrt N : ℝ) = r at *
    have hrs : r ≤ Real.sqrt N := Real.le_sqrt_of_sq_le a2
    have h1 : Real.sqrt N - r ≤ e * Real.sqrt N := by
      have h2 : (Real.sqrt N - r) * Real.sqrt N ≤ (1 / 2) ^ 58 * Real.sqrt N * Real.sqrt N := by nlinarith
      have h3 := le_of_mul_le_mul_right h2 hs0
      have : ((1 : ℝ) / 2) ^ 58 * Real.sqrt N ≤ e * Real.sqrt N := by
        refine mul_le_mul_of_nonneg_right (le_trans ?_ he) hs0.le
        norm_num
      linarith
    have e1 : r * (epsQ : ℝ) * T - Real.sqrt N * (epsQ : ℝ) * T = -((Real.sqrt N - r) * ((epsQ : ℝ) * T)) := by ring
    rw [e1, abs_neg, abs_of_nonneg (mul_nonneg (by linarith) (mul_nonneg hE hT))]
    have := mul_le_mul_of_nonneg_right h1 (mul_nonneg hE hT)
    linarith
  · have e1 : RCLike.re ((Fp.fl p).val (shiftGram N G j j)) = RCLike.re ((Fp.fl p).val (G j j)) +
        (qsqrt N : ℝ) * (epsQ : ℝ) * ∑ j, ‖(Fp.fl p).val (G j j)‖ := by
      have : (shiftGram N G j j).val = (G j j).val + qsqrt N * epsQ * ∑ l, |(G l l).val| := by
        unfold shiftGram; rw [if_pos rfl]
      show (((shiftGram N G j j).val : ℚ) : ℝ) = ((G j j).val : ℝ) + _
      rw [this, ← eT]
      push_cast
      ring
    rw [e1, sub_self, abs_zero]
    positivity

/-! ### A run of the single-process backend -/

/-- The kernels for two columns with two rows; the entries of the Gram matrix are rounded inner products. -/
def chol2 : CholKern (Fp 53) 2 2 where
  gram := fun X i j => Par.Stuck.sum fun a => X i a * X j a
  potrf := potrf
  trsm := trsm
  shift := shiftGram 2

theorem chol2_acc : CholAcc (Fp.fl 53) chol2 (epsQ : ℝ) ((1 / 2) ^ 51) where
  gram := by
    intro X i j _
    obtain ⟨d', h1, h2⟩ := Par.Four.sum_dot (X i) (X j)
    refine (dotc_error (F := Fp.fl 53) h2 (n := 3) (by omega)).trans (mul_le_mul_of_nonneg_right ?_ ?_)
    · show (1 + (1 / 2 : ℝ) ^ 53) ^ 3 - 1 ≤ _
      norm_num
    · exact mul_nonneg (nrm2_nonneg _) (nrm2_nonneg _)
  potrf := fun G h => potrf_ok G (by norm_num) h
  succeeds := fun G h => succeeds G (by norm_num) h
  trsm := fun U X hU j a => trsm_ok U X (by positivity) hU j a
  shift := fun G => shift_ok (by norm_num) G (by norm_num)

/-- The arithmetic of `arith` with Cholesky QR, and the thresholds of the code for its choice (chase_mpi 364-365, 400-411). -/
noncomputable def arithC : Arith (Fp 53) (Fp 53) 2 :=
  { arith 53 ⟨8⟩ with
    hhQR := fun X => setBlk 0 (hhqr (getBlk 0 2 X)) X
    cholQR1 := chol2.qr1
    cholQR2 := chol2.qr2
    shiftedcholQR2 := chol2.shifted .seq
    above := fun x => 10 ^ 8 < x.val
    below := fun x => x.val < 20 }

/-- Cholesky QR is on, the default. -/
def paramsC : Params := ⟨1, 1, true, none⟩

/-- As `plat`, with an estimate for the condition that makes `QR` choose `cholQR2`. -/
def platC : Plat (Fp 53) := { plat 53 with condEst := fun _ _ _ _ _ _ => ⟨100⟩ }

/-- The block is not diagonal, or a column vanishes. -/
def badB (_ : ℕ) (c : Fp 53) (s : Seq.St (Fp 53) 2) : Bool :=
  decide (s.C 0 0 = 0) || decide (s.C 0 1 ≠ 0) || decide (s.C 1 0 ≠ 0) || decide (s.C 1 1 = 0) || decide (c ≠ ⟨100⟩)

theorem runC : ∃ out, solve platC (watchB badB (ops arithC paramsC)) (cfg 53) (ritzv0 53) (fun _ => 0)
      (start 53, false) = .ok out ∧ out.be.2 = false ∧ 0 < out.iterations := by
  obtain ⟨out, h, g⟩ := Toy.okAnd_elim (p := fun out : Outcome (Fp 53) (Seq.St (Fp 53) 2 × Bool) =>
      decide (out.be.2 = false ∧ 0 < out.iterations))
    (x := solve platC (watchB badB (ops arithC paramsC)) (cfg 53) (ritzv0 53) (fun _ => 0) (start 53, false))
    (by rw [Toy.solve_eq_solveE]; decide +kernel)
  exact ⟨out, h, of_decide_eq_true g⟩

theorem orthoC : OrthoKernels (Fp.fl 53) arithC 2 3 0 where
  back := orthoKernels.back
  heevd := orthoKernels.heevd

theorem usesC : UsesChol arithC chol2 .seq where
  qr1 := fun _ => rfl
  qr2 := fun _ => rfl
  shifted := fun _ => rfl

/-- A diagonal block without vanishing columns has condition one. -/
theorem conditioned_diag {X : ℕ → Fin 2 → Fp p} (h00 : X 0 0 ≠ 0) (h01 : X 0 1 = 0) (h10 : X 1 0 = 0) (h11 : X 1 1 ≠ 0) :
    Conditioned (Fp.fl p) 1 2 X := by
  have hne : ∀ x : Fp p, x ≠ 0 → (Fp.fl p).val x ≠ 0 := by
    intro x hx h
    have h1 : ((x.val : ℚ) : ℝ) = 0 := h
    have h2 : x.val = 0 := by exact_mod_cast h1
    exact hx (by cases x; exact congrArg Fp.mk h2)
  have hz : (Fp.fl p).val (0 : Fp p) = 0 := (Fp.fl p).val_zero
  refine ⟨one_pos, fun j hj h => ?_, fun b => ?_⟩
  · rcases (by omega : j = 0 ∨ j = 1) with rfl | rfl
    · exact hne _ h00 (congrFun h 0)
    · exact hne _ h11 (congrFun h 1)
  · have e0 : valV (Fp.fl p) (X 0) 1 = 0 := by show (Fp.fl p).val (X 0 1) = 0; rw [h01, hz]
    have e1 : valV (Fp.fl p) (X 1) 0 = 0 := by show (Fp.fl p).val (X 1 0) = 0; rw [h10, hz]
    rw [Finset.sum_range_succ, Finset.sum_range_one, Finset.sum_range_succ, Finset.sum_range_one, nrm2_sq, nrm2_sq, nrm2_sq,
      Fin.sum_univ_two, Fin.sum_univ_two, Fin.sum_univ_two, e0, e1]
    simp only [Pi.add_apply, Pi.smul_apply, e0, e1]
    simp only [smul_zero, norm_zero, add_zero, zero_add, norm_smul]
    apply le_of_eq
    ring

theorem unit_small : 1056 * (((2 : ℕ) : ℝ) * Real.sqrt ((2 : ℕ) : ℝ) * (1 / 2) ^ 51) ≤ 2 * (1 / 2) ^ 40 := by
  have h : Real.sqrt ((2 : ℕ) : ℝ) ≤ 3 / 2 := Real.sqrt_le_iff.mpr ⟨by norm_num, by norm_num⟩
  generalize Real.sqrt ((2 : ℕ) : ℝ) = y at *
  push_cast
  nlinarith

theorem avoidsC : QrAvoids platC (ops arithC paramsC) (cfg 53) (ritzv0 53) (fun _ => 0) (start 53)
    fun l c t => IllConditioned (Fp.fl 53) arithC paramsC (epsQ : ℝ) ((1 / 2) ^ 51) ((1 / 2) ^ 40) l c t.C := by
  obtain ⟨out, h1, h2, -⟩ := runC
  refine QrAvoids.of_run (fun k c s hb => ?_) h1 h2
  by_contra hc
  apply hb.2
  simp only [badB, Bool.or_eq_true, decide_eq_true_eq, not_or, not_not] at hc
  obtain ⟨⟨⟨⟨c1, c2⟩, c3⟩, c4⟩, rfl⟩ := hc
  refine ⟨1, conditioned_diag c1 c2 c3 c4, ?_⟩
  have a1 : arithC.above ⟨100⟩ = false := by
    show decide ((10 : ℚ) ^ 8 < 100) = false
    norm_num
  have a2 : arithC.below ⟨100⟩ = false := by
    show decide ((100 : ℚ) < 20) = false
    norm_num
  rw [if_neg (by rw [a1]; simp), if_neg (by rw [a2]; simp)]
  have := unit_small
  show 704 * (((2 : ℕ) : ℝ) * Real.sqrt ((2 : ℕ) : ℝ) * (1 / 2) ^ 51) ≤ 1 ^ 2
  have h3 : (0 : ℝ) ≤ ((2 : ℕ) : ℝ) * Real.sqrt ((2 : ℕ) : ℝ) * (1 / 2) ^ 51 := by positivity
  have h4 : (2 : ℝ) * (1 / 2) ^ 40 ≤ 1 := by norm_num
  linarith

/-- Non-vacuity of `C87_cholesky`: double precision, Cholesky QR switched on with the thresholds of the code, kernels of
relative error `2^-51`, and a run of one round in which `QR` uses `cholQR2`. -/
example : OrthoKernels (Fp.fl 53) arithC paramsC.nevex 3 0 ∧ CholAcc (Fp.fl 53) chol2 (epsQ : ℝ) ((1 / 2) ^ 51) ∧
    UsesChol arithC chol2 .seq ∧
    528 * ((paramsC.nevex : ℝ) * Real.sqrt paramsC.nevex * (1 / 2) ^ 51) ≤ (1 / 2) ^ 40 ∧
    cholDisable paramsC.doCholQR paramsC.envDisable ≠ 1 ∧
    (∀ X, QrOf ((1 / 2) ^ 40) paramsC.nevex (fun j => valV (Fp.fl 53) (X j)) fun j => valV (Fp.fl 53) (arithC.hhQR X j)) ∧
    PermutesIndices platC ∧ (cfg 53).N = 2 ∧ (cfg 53).nev + (cfg 53).nex = paramsC.nevex ∧ Even (cfg 53).maxDeg ∧
    arithC.symCheck (start 53).H = true ∧
    (∃ out, solve platC (ops arithC paramsC) (cfg 53) (ritzv0 53) (fun _ => 0) (start 53) = .ok out ∧ 0 < out.iterations) ∧
    QrAvoids platC (ops arithC paramsC) (cfg 53) (ritzv0 53) (fun _ => 0) (start 53)
      fun l c t => IllConditioned (Fp.fl 53) arithC paramsC (epsQ : ℝ) ((1 / 2) ^ 51) ((1 / 2) ^ 40) l c t.C := by
  have hdef : ∀ {S : Type} (ops : Chase (Fp 53) S) (be : S), (ops.checkSymmetryEasy be).1 = true →
      ∃ out, solve platC ops (cfg 53) (ritzv0 53) (fun _ => 0) be = .ok out ∧ 0 < out.iterations := by
    intro S ops be hs
    obtain ⟨out, h1, h2⟩ := C51_approx_solve_defined platC ops (cfg 53) rfl (by decide) (by decide)
      (by decide) (by decide) (by decide) (by decide) (by decide) (by intro h; cases h) (ritzv0 53) (fun _ => 0) be
    exact ⟨out, h1, h2 (fun _ => hs) (by decide)⟩
  refine ⟨orthoC, chol2_acc, usesC, ?_, by decide, fun X => hhqr_ok le_rfl X, plat_permutes 53, rfl, rfl, by decide, rfl,
    hdef _ _ rfl, avoidsC⟩
  have := unit_small
  show 528 * (((2 : ℕ) : ℝ) * Real.sqrt ((2 : ℕ) : ℝ) * (1 / 2) ^ 51) ≤ (1 / 2) ^ 40
  linarith

/-- `Suited` for the other two routines, on the block of the first unit vectors: `cholQR1` at the estimate 1 and
`shiftedcholQR2` at the estimate `10^9`. -/
example : Suited (Fp.fl 53) arithC 2 (epsQ : ℝ) ((1 / 2) ^ 51) ((1 / 2) ^ 40) ⟨1⟩ (start 53).C ∧
    Suited (Fp.fl 53) arithC 2 (epsQ : ℝ) ((1 / 2) ^ 51) ((1 / 2) ^ 40) ⟨10 ^ 9⟩ (start 53).C := by
  have hc : Conditioned (Fp.fl 53) 1 2 (start 53).C := conditioned_diag (by decide) (by decide) (by decide) (by decide)
  have hu : (2 : ℕ) * Real.sqrt (2 : ℕ) * (1 / 2 : ℝ) ^ 51 ≤ (1 / 2) ^ 49 := by
    have h : Real.sqrt ((2 : ℕ) : ℝ) ≤ 2 := Real.sqrt_le_iff.mpr ⟨by norm_num, by norm_num⟩
    generalize Real.sqrt ((2 : ℕ) : ℝ) = y at *
    push_cast
    nlinarith
  have hu0 : (0 : ℝ) ≤ (2 : ℕ) * Real.sqrt (2 : ℕ) * (1 / 2 : ℝ) ^ 51 := by positivity
  refine ⟨⟨1, hc, ?_⟩, ⟨1, hc, ?_⟩⟩
  · have a1 : arithC.above ⟨1⟩ = false := by
      show decide ((10 : ℚ) ^ 8 < 1) = false
      norm_num
    have a2 : arithC.below ⟨1⟩ = true := by
      show decide ((1 : ℚ) < 20) = true
      norm_num
    rw [if_neg (by rw [a1]; simp), if_pos a2]
    generalize ((2 : ℕ) : ℝ) * Real.sqrt (2 : ℕ) * (1 / 2) ^ 51 = x at *
    constructor <;> norm_num at hu ⊢ <;> linarith
  · have a1 : arithC.above ⟨10 ^ 9⟩ = true := by
      show decide ((10 : ℚ) ^ 8 < 10 ^ 9) = true
      norm_num
    rw [if_pos a1]
    have hn : ∀ j, j < 2 → Verif.nrm2 (valV (Fp.fl 53) ((start 53).C j)) ^ 2 = 1 := by
      intro j hj
      rw [nrm2_sq, Fin.sum_univ_two]
      have v0 : (Fp.fl 53).val 0 = 0 := (Fp.fl 53).val_zero
      have v1 : (Fp.fl 53).val 1 = 1 := (Fp.fl 53).val_one
      rcases (by omega : j = 0 ∨ j = 1) with rfl | rfl
      · show ‖(Fp.fl 53).val 1‖ ^ 2 + ‖(Fp.fl 53).val 0‖ ^ 2 = 1
        rw [v0, v1]; simp
      · show ‖(Fp.fl 53).val 0‖ ^ 2 + ‖(Fp.fl 53).val 1‖ ^ 2 = 1
        rw [v0, v1]; simp
    have hs : 0 ≤ shiftOf (Fp.fl 53) (epsQ : ℝ) 2 (start 53).C ∧ shiftOf (Fp.fl 53) (epsQ : ℝ) 2 (start 53).C ≤ (1 / 2) ^ 10 := by
      unfold shiftOf
      rw [Finset.sum_congr rfl fun j hj => hn j (Finset.mem_range.mp hj)]
      have h : Real.sqrt ((2 : ℕ) : ℝ) ≤ 2 := Real.sqrt_le_iff.mpr ⟨by norm_num, by norm_num⟩
      have h0 := Real.sqrt_nonneg ((2 : ℕ) : ℝ)
      generalize Real.sqrt ((2 : ℕ) : ℝ) = y at *
      simp only [Finset.sum_const, Finset.card_range, epsQ]
      push_cast
      norm_num
      constructor <;> nlinarith
    generalize shiftOf (Fp.fl 53) (epsQ : ℝ) 2 (start 53).C = t at *
    refine ⟨(1 / 2) ^ 9, by norm_num, fun j hj => ?_, fun j hj => ?_, ?_⟩
    · rw [hn j hj]; norm_num at hs ⊢; linarith
    · rw [hn j hj]; norm_num at hs ⊢; linarith
    · generalize ((2 : ℕ) : ℝ) * Real.sqrt (2 : ℕ) * (1 / 2) ^ 51 = x at *
      norm_num at hu ⊢; nlinarith

end Two
end Rounded
end Verif
