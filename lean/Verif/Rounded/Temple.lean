/-
Temple's inequality for vectors that are nearly of norm one and values that are nearly their Rayleigh quotients.
-/
import Verif.Rounded.VectorProps
import Verif.Rounded.Ritz

set_option linter.unusedSectionVars false

namespace Verif

section
variable {K : Type*} [RCLike K] {V : Type*} [NormedAddCommGroup V] [InnerProductSpace K V] {N : ℕ}
  {A : V →ₗ[K] V} {w : Fin N → ℝ} {b : OrthonormalBasis (Fin N) K V}

local notation "⟪" x ", " y "⟫" => inner K x y

/-- Temple's inequality for any vector and any value: `g` bounds the difference between `⟨x, A x⟩` and `θ ‖x‖²`. -/
theorem temple_near (hb : ∀ k, A (b k) = (w k : K) • b k) {x : V} {θ g : ℝ}
    (hθ : ‖⟪x, A x⟫ - ((θ * ‖x‖ ^ 2 : ℝ) : K)‖ ≤ g) {μ δ : ℝ} (hδ : 0 < δ) (hμ : |μ - θ| ≤ δ)
    (hone : ∀ k, |w k - θ| < δ → w k = μ) :
    ‖x‖ ^ 2 * |μ - θ| ≤ ‖A x - (θ : K) • x‖ ^ 2 / δ + g := by
  have e0 : ∑ k, ‖⟪b k, x⟫‖ ^ 2 = ‖x‖ ^ 2 := b.sum_sq_norm_inner_right x
  set s := ‖x‖ ^ 2 with hs
  set q := ∑ k, ‖⟪b k, x⟫‖ ^ 2 * w k with hq
  have hg : |q - θ * s| ≤ g := by
    rw [inner_map_eq_sum hb, ← RCLike.ofReal_sub, RCLike.norm_ofReal] at hθ
    exact hθ
  have e2 := residual_sq_eq_sum hb x θ
  have key : ∀ β : ℝ, ‖A x - (θ : K) • x‖ ^ 2 + (2 * θ - μ - β) * q + (μ * β - θ ^ 2) * s
      = ∑ k, ‖⟪b k, x⟫‖ ^ 2 * ((w k - μ) * (w k - β)) := by
    intro β
    have h : ∀ k, ‖⟪b k, x⟫‖ ^ 2 * ((w k - μ) * (w k - β)) = (w k - θ) ^ 2 * ‖⟪b k, x⟫‖ ^ 2
        + (2 * θ - μ - β) * (‖⟪b k, x⟫‖ ^ 2 * w k) + (μ * β - θ ^ 2) * ‖⟪b k, x⟫‖ ^ 2 := fun k => by ring
    simp only [h, Finset.sum_add_distrib, ← Finset.mul_sum]
    rw [← e2, e0]
  rw [abs_le] at hμ hg
  have up := key (θ - δ)
  have lo := key (θ + δ)
  have hup : 0 ≤ ∑ k, ‖⟪b k, x⟫‖ ^ 2 * ((w k - μ) * (w k - (θ - δ))) := by
    refine Finset.sum_nonneg fun k _ => mul_nonneg (sq_nonneg _) ?_
    by_cases h : |w k - θ| < δ
    · rw [hone k h, sub_self, zero_mul]
    · rw [not_lt, le_abs] at h
      rcases h with h | h
      · exact mul_nonneg (by linarith) (by linarith)
      · exact mul_nonneg_of_nonpos_of_nonpos (by linarith) (by linarith)
  have hlo : 0 ≤ ∑ k, ‖⟪b k, x⟫‖ ^ 2 * ((w k - μ) * (w k - (θ + δ))) := by
    refine Finset.sum_nonneg fun k _ => mul_nonneg (sq_nonneg _) ?_
    by_cases h : |w k - θ| < δ
    · rw [hone k h, sub_self, zero_mul]
    · rw [not_lt, le_abs] at h
      rcases h with h | h
      · exact mul_nonneg (by linarith) (by linarith)
      · exact mul_nonneg_of_nonpos_of_nonpos (by linarith) (by linarith)
  rw [← up] at hup
  rw [← lo] at hlo
  rw [← sub_le_iff_le_add, le_div_iff₀ hδ]
  obtain ⟨t, ht⟩ : ∃ t, q = θ * s + t := ⟨q - θ * s, by ring⟩
  rw [ht] at hup hlo hg
  have hg1 : -g ≤ t := by linarith [hg.1]
  have hg2 : t ≤ g := by linarith [hg.2]
  rcases abs_cases (μ - θ) with h | h <;> rw [h.1]
  · have h1 : (θ - μ + δ) * t ≤ δ * g := by nlinarith
    nlinarith
  · have h1 : (θ - μ - δ) * t ≤ δ * g := by nlinarith
    nlinarith

end

namespace Rounded

open Matrix Finset

variable {𝕜 : Type*} [RCLike 𝕜] {N : ℕ}

/-- If only one eigenvalue is nearer to `v` than `δ`, it is at most `r² / δ + ω` away, up to the factor `1 / t`. -/
def NearEigenvalueUpTo (H : Matrix (Fin N) (Fin N) 𝕜) (v r t ω : ℝ) : Prop :=
  ∀ δ μ, |μ - v| < δ → (∀ μ', IsEigenvalue H μ' → |μ' - v| < δ → μ' = μ) → |μ - v| ≤ (r ^ 2 / δ + ω) / t

/-- Without errors this is the claim in exact arithmetic. -/
theorem nearEigenvalueUpTo_exact (H : Matrix (Fin N) (Fin N) 𝕜) (v r : ℝ) :
    NearEigenvalueUpTo H v r 1 0 ↔ NearEigenvalue H v r := by
  unfold NearEigenvalueUpTo NearEigenvalue
  simp

/-- A vector of norm near one with a small residual, and a value that is nearly its Rayleigh quotient. -/
theorem nearEigenvalueUpTo_of {H : Matrix (Fin N) (Fin N) 𝕜} (hH : H.IsHermitian) {x τ B V r : ℝ} {v : Fin N → 𝕜}
    (hτ1 : τ < 1) (hn : |Verif.nrm2 v - 1| ≤ τ) (hB : ‖dotc v (H.mulVec v) - (x : 𝕜)‖ ≤ B) (hV : |x| ≤ V)
    (hr : Verif.nrm2 (H.mulVec v - (x : 𝕜) • v) ≤ r) :
    NearEigenvalueUpTo H x r ((1 - τ) ^ 2) (B + V * (τ * (2 + τ))) := by
  obtain ⟨w, hw, -⟩ := eigenvaluesOf_exists hH
  obtain ⟨b, hb⟩ := hw.basis hH
  intro δ μ hμ hone
  have hδ : 0 < δ := (abs_nonneg _).trans_lt hμ
  rw [nrm2_eq_norm] at hn
  set y : EuclideanSpace 𝕜 (Fin N) := WithLp.toLp 2 v with hy
  have hn' := abs_le.mp hn
  have hτ0 : 0 ≤ τ := (abs_nonneg _).trans hn
  have hlin : Matrix.toEuclideanLin H y = WithLp.toLp 2 (H.mulVec v) := by
    simp [hy, Matrix.toEuclideanLin]
  have hq : ‖(inner 𝕜 y (Matrix.toEuclideanLin H y) : 𝕜) - ((x * ‖y‖ ^ 2 : ℝ) : 𝕜)‖ ≤ B + V * (τ * (2 + τ)) := by
    rw [hlin, hy, ← dotc_inner, ← hy]
    have e : dotc v (H.mulVec v) - ((x * ‖y‖ ^ 2 : ℝ) : 𝕜) =
        (dotc v (H.mulVec v) - (x : 𝕜)) + ((x * (1 - ‖y‖ ^ 2) : ℝ) : 𝕜) := by
      push_cast
      ring
    rw [e]
    refine (norm_add_le _ _).trans (add_le_add hB ?_)
    rw [RCLike.norm_ofReal, abs_mul]
    refine mul_le_mul hV ?_ (abs_nonneg _) ((abs_nonneg _).trans hV)
    have hy0 := norm_nonneg y
    rw [abs_le]
    constructor <;> nlinarith
  have key := temple_near hb hq hδ hμ.le fun k hk => hone (w k) ⟨WithLp.ofLp (b k), ?_, ?_⟩ hk
  · have hres : ‖Matrix.toEuclideanLin H y - (x : 𝕜) • y‖ = Verif.nrm2 (H.mulVec v - (x : 𝕜) • v) := by
      rw [nrm2_eq_norm, hlin, hy]
      rfl
    rw [hres] at key
    have h0 : 0 ≤ Verif.nrm2 (H.mulVec v - (x : 𝕜) • v) := Real.sqrt_nonneg _
    have h1 : Verif.nrm2 (H.mulVec v - (x : 𝕜) • v) ^ 2 / δ ≤ r ^ 2 / δ := by gcongr
    have h2 : (1 - τ) ^ 2 ≤ ‖y‖ ^ 2 := pow_le_pow_left₀ (by linarith) (by linarith) 2
    have h3 : 0 < (1 - τ) ^ 2 := by have : 0 < 1 - τ := by linarith
                                    positivity
    rw [le_div_iff₀ h3]
    nlinarith [abs_nonneg (μ - x)]
  · intro h0
    have : b k = 0 := by
      rw [← WithLp.toLp_ofLp 2 (b k), h0]
      rfl
    exact b.orthonormal.ne_zero k this
  · have := congrArg WithLp.ofLp (hb k)
    simpa [Matrix.toEuclideanLin] using this

end Rounded
end Verif
