/-
C28: what residual norms and Rayleigh quotients say about the spectrum.
-/
import Verif.Backend.DenseProof
import Verif.Backend.LapackExists

namespace Verif

open Matrix

variable {K : Type*} [RCLike K] {N : ℕ}

/-- `μ` is an eigenvalue of `H`. -/
def IsEigenvalue (H : Matrix (Fin N) (Fin N) K) (μ : ℝ) : Prop :=
  ∃ y : Fin N → K, y ≠ 0 ∧ H.mulVec y = (μ : K) • y

theorem nrm2_sq (x : Fin N → K) : nrm2 x ^ 2 = ∑ i, ‖x i‖ ^ 2 :=
  Real.sq_sqrt (Finset.sum_nonneg fun i _ => sq_nonneg _)

theorem nrm2_nonneg (x : Fin N → K) : 0 ≤ nrm2 x := Real.sqrt_nonneg _

theorem dotc_self (x : Fin N → K) : dotc x x = ((∑ i, ‖x i‖ ^ 2 : ℝ) : K) := by
  unfold dotc
  rw [RCLike.ofReal_sum]
  refine Finset.sum_congr rfl fun i _ => ?_
  rw [RCLike.star_def, RCLike.conj_mul]
  push_cast
  rfl

/-- A matrix moves to the other side of the inner product as its adjoint. -/
theorem dotc_mulVec {m n : ℕ} (A : Matrix (Fin m) (Fin n) K) (x : Fin m → K) (y : Fin n → K) :
    dotc x (A.mulVec y) = dotc (Aᴴ.mulVec x) y := by
  rw [dotc_eq, dotc_eq, Matrix.star_mulVec, Matrix.conjTranspose_conjTranspose,
    Matrix.dotProduct_mulVec]

theorem norm_sq_unitary {Z : Matrix (Fin N) (Fin N) K} (hZ : Zᴴ * Z = 1) (x : Fin N → K) :
    ∑ i, ‖Zᴴ.mulVec x i‖ ^ 2 = ∑ i, ‖x i‖ ^ 2 := by
  have h : dotc (Zᴴ.mulVec x) (Zᴴ.mulVec x) = dotc x x := by
    rw [dotc_mulVec, Matrix.conjTranspose_conjTranspose, Matrix.mulVec_mulVec,
      mul_eq_one_comm.mp hZ, Matrix.one_mulVec]
  rw [dotc_self, dotc_self] at h
  exact_mod_cast h

section Eig
variable {H Z : Matrix (Fin N) (Fin N) K} {w : Fin N → ℝ}

theorem eig_adj (hZ : Zᴴ * Z = 1) (hH : H * Z = Z * diagonal (fun i => (w i : K))) :
    Zᴴ * H = diagonal (fun i => (w i : K)) * Zᴴ := by
  have h2 : Z * Zᴴ = 1 := mul_eq_one_comm.mp hZ
  calc Zᴴ * H = Zᴴ * (H * Z) * Zᴴ := by
        rw [← Matrix.mul_assoc, Matrix.mul_assoc (Zᴴ * H), h2, Matrix.mul_one]
    _ = diagonal (fun i => (w i : K)) * Zᴴ := by rw [hH, ← Matrix.mul_assoc, hZ, Matrix.one_mul]

/-- In the basis of eigenvectors `H` acts entry by entry. -/
theorem eig_coord (hZ : Zᴴ * Z = 1) (hH : H * Z = Z * diagonal (fun i => (w i : K)))
    (x : Fin N → K) (i : Fin N) :
    Zᴴ.mulVec (H.mulVec x) i = (w i : K) * Zᴴ.mulVec x i := by
  rw [Matrix.mulVec_mulVec, eig_adj hZ hH, ← Matrix.mulVec_mulVec, Matrix.mulVec_diagonal]

theorem eig_isEigenvalue (hZ : Zᴴ * Z = 1) (hH : H * Z = Z * diagonal (fun i => (w i : K)))
    (i : Fin N) : IsEigenvalue H (w i) := by
  refine ⟨fun k => Z k i, ?_, ?_⟩
  · intro h0
    have := congrFun (congrFun hZ i) i
    rw [Matrix.mul_apply, Matrix.one_apply_eq] at this
    simp only [congrFun h0] at this
    simp at this
  · funext k
    have := congrFun (congrFun hH k) i
    rw [Matrix.mul_apply, Matrix.mul_diagonal] at this
    simp only [Matrix.mulVec, dotProduct, Pi.smul_apply, smul_eq_mul]
    rw [this, mul_comm]

end Eig

/-- **C28** For a Hermitian matrix, a unit vector and any value, some eigenvalue lies within the
residual norm of the value. -/
theorem C28_residual_certifies_eigenvalue (H : Matrix (Fin N) (Fin N) K) (hH : H.IsHermitian)
    (x : Fin N → K) (hx : ∑ i, ‖x i‖ ^ 2 = 1) (v : ℝ) :
    ∃ μ, IsEigenvalue H μ ∧ |μ - v| ≤ nrm2 (H.mulVec x - (v : K) • x) := by
  obtain ⟨w, Z, hZ, hHZ, -⟩ := exists_eig H hH
  by_contra hcon
  push Not at hcon
  set r := nrm2 (H.mulVec x - (v : K) • x) with hr
  have hlt : ∀ i, r < |w i - v| := fun i => hcon _ (eig_isEigenvalue hZ hHZ i)
  have e1 : r ^ 2 = ∑ i, (w i - v) ^ 2 * ‖Zᴴ.mulVec x i‖ ^ 2 := by
    rw [hr, nrm2_sq, ← norm_sq_unitary hZ]
    refine Finset.sum_congr rfl fun i _ => ?_
    have : Zᴴ.mulVec (H.mulVec x - (v : K) • x) i = ((w i - v : ℝ) : K) * Zᴴ.mulVec x i := by
      rw [Matrix.mulVec_sub, Matrix.mulVec_smul, Pi.sub_apply, eig_coord hZ hHZ, Pi.smul_apply,
        smul_eq_mul]
      push_cast
      ring
    rw [this, norm_mul, mul_pow, RCLike.norm_ofReal, sq_abs]
  have e2 : ∑ i, ‖Zᴴ.mulVec x i‖ ^ 2 = 1 := by rw [norm_sq_unitary hZ, hx]
  have hr0 : 0 ≤ r := nrm2_nonneg _
  have hsq : ∀ i, r ^ 2 < (w i - v) ^ 2 := fun i => by
    rw [← sq_abs (w i - v)]
    have := hlt i
    nlinarith
  have hle : ∑ i, r ^ 2 * ‖Zᴴ.mulVec x i‖ ^ 2 < ∑ i, (w i - v) ^ 2 * ‖Zᴴ.mulVec x i‖ ^ 2 := by
    refine Finset.sum_lt_sum (fun i _ => mul_le_mul_of_nonneg_right (hsq i).le (sq_nonneg _)) ?_
    by_contra hall
    push Not at hall
    have : ∀ i, ‖Zᴴ.mulVec x i‖ ^ 2 = 0 := by
      intro i
      have h1 := hall i (Finset.mem_univ _)
      have h2 := hsq i
      have h3 := sq_nonneg ‖Zᴴ.mulVec x i‖
      nlinarith
    simp only [this, Finset.sum_const_zero] at e2
    exact zero_ne_one e2
  rw [← Finset.mul_sum, e2, mul_one, ← e1] at hle
  exact lt_irrefl _ hle

/-- **C28** The Rayleigh quotient of a unit vector lies between two eigenvalues. -/
theorem C28_rayleigh_within_spectrum (H : Matrix (Fin N) (Fin N) K) (hH : H.IsHermitian)
    (x : Fin N → K) (hx : ∑ i, ‖x i‖ ^ 2 = 1) (v : ℝ)
    (hv : ∑ k, star (x k) * H.mulVec x k = (v : K)) :
    ∃ μ₁ μ₂, IsEigenvalue H μ₁ ∧ IsEigenvalue H μ₂ ∧ μ₁ ≤ v ∧ v ≤ μ₂ := by
  obtain ⟨w, Z, hZ, hHZ, -⟩ := exists_eig H hH
  have h2 : Z * Zᴴ = 1 := mul_eq_one_comm.mp hZ
  have e2 : ∑ i, ‖Zᴴ.mulVec x i‖ ^ 2 = 1 := by rw [norm_sq_unitary hZ, hx]
  have e3 : v = ∑ i, w i * ‖Zᴴ.mulVec x i‖ ^ 2 := by
    have h1 : dotc x (H.mulVec x) = dotc (Zᴴ.mulVec x) (Zᴴ.mulVec (H.mulVec x)) := by
      conv_rhs => rw [dotc_mulVec, Matrix.conjTranspose_conjTranspose, Matrix.mulVec_mulVec, h2,
        Matrix.one_mulVec]
    have : ((v : ℝ) : K) = ((∑ i, w i * ‖Zᴴ.mulVec x i‖ ^ 2 : ℝ) : K) := by
      rw [← hv]
      show dotc x (H.mulVec x) = _
      rw [h1, RCLike.ofReal_sum]
      refine Finset.sum_congr rfl fun i _ => ?_
      rw [eig_coord hZ hHZ]
      have := RCLike.conj_mul (Zᴴ.mulVec x i)
      rw [RCLike.star_def]
      push_cast
      rw [← this]
      ring
    exact_mod_cast this
  have hlo : ∃ i, w i ≤ v := by
    by_contra hcon
    push Not at hcon
    have : ∑ i, v * ‖Zᴴ.mulVec x i‖ ^ 2 < ∑ i, w i * ‖Zᴴ.mulVec x i‖ ^ 2 := by
      refine Finset.sum_lt_sum (fun i _ => mul_le_mul_of_nonneg_right (hcon i).le (sq_nonneg _)) ?_
      by_contra hall
      push Not at hall
      have : ∀ i, ‖Zᴴ.mulVec x i‖ ^ 2 = 0 := fun i => by
        have h1 := hall i (Finset.mem_univ _)
        have h2 := hcon i
        have h3 := sq_nonneg ‖Zᴴ.mulVec x i‖
        nlinarith
      simp only [this, Finset.sum_const_zero] at e2
      exact zero_ne_one e2
    rw [← Finset.mul_sum, e2, mul_one, ← e3] at this
    exact lt_irrefl _ this
  have hhi : ∃ i, v ≤ w i := by
    by_contra hcon
    push Not at hcon
    have : ∑ i, w i * ‖Zᴴ.mulVec x i‖ ^ 2 < ∑ i, v * ‖Zᴴ.mulVec x i‖ ^ 2 := by
      refine Finset.sum_lt_sum (fun i _ => mul_le_mul_of_nonneg_right (hcon i).le (sq_nonneg _)) ?_
      by_contra hall
      push Not at hall
      have : ∀ i, ‖Zᴴ.mulVec x i‖ ^ 2 = 0 := fun i => by
        have h1 := hall i (Finset.mem_univ _)
        have h2 := hcon i
        have h3 := sq_nonneg ‖Zᴴ.mulVec x i‖
        nlinarith
      simp only [this, Finset.sum_const_zero] at e2
      exact zero_ne_one e2
    rw [← Finset.mul_sum, e2, mul_one, ← e3] at this
    exact lt_irrefl _ this
  obtain ⟨i, hi⟩ := hlo
  obtain ⟨j, hj⟩ := hhi
  exact ⟨w i, w j, eig_isEigenvalue hZ hHZ i, eig_isEigenvalue hZ hHZ j, hi, hj⟩

/-- Non-vacuity of C28: the swap matrix and the first unit vector have Rayleigh quotient 0 and
residual norm 1; the eigenvalues are 1 and -1. -/
example : (!![0, 1; 1, 0] : Matrix (Fin 2) (Fin 2) ℝ).IsHermitian ∧
    ∑ i, ‖(![1, 0] : Fin 2 → ℝ) i‖ ^ 2 = 1 ∧
    ∑ k, star ((![1, 0] : Fin 2 → ℝ) k) *
      (!![0, 1; 1, 0] : Matrix (Fin 2) (Fin 2) ℝ).mulVec ![1, 0] k = ((0 : ℝ) : ℝ) := by
  refine ⟨?_, ?_, ?_⟩
  · ext i j; fin_cases i <;> fin_cases j <;> simp
  · simp [Fin.sum_univ_two]
  · simp [Fin.sum_univ_two, Matrix.mulVec, dotProduct]

end Verif
