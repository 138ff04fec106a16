/-
The values of a Rayleigh-Ritz step in floating-point arithmetic: each is the Rayleigh quotient of the vector beside it
up to rounding errors; and sums of Rayleigh quotients of nearly orthonormal vectors.
-/
import Verif.Rounded.DistinctProps
import Verif.Backend.VariationalProps

set_option linter.unusedSectionVars false

namespace Verif
namespace Rounded

open Matrix Finset

/-! ### Specification -/

/-- The Hermitian matrix that `t_heevd` works on when called with `'L'` (seq 254): the lower triangle of `M`, and the
real parts of the diagonal. -/
noncomputable def lowerH {K 𝕜 : Type*} [RCLike 𝕜] (F : Fl K 𝕜) {b : ℕ} (M : Matrix (Fin b) (Fin b) K) :
    Matrix (Fin b) (Fin b) 𝕜 := fun i k =>
  if k < i then F.val (M i k) else if i < k then star (F.val (M k i)) else ((RCLike.re (F.val (M i i)) : ℝ) : 𝕜)

/-- The other kernels of the Rayleigh-Ritz step for at most `n` vectors: every entry of the projected matrix is an inner
product computed in some order of operations of depth at most `d`; the residuals of the eigenpairs of a small matrix
are at most `η` times its Frobenius norm. -/
structure RitzKernels {K 𝕜 R : Type*} [RCLike 𝕜] {N : ℕ} (F : Fl K 𝕜) (valR : R → ℝ) (A : Arith K R N) (n d : ℕ)
    (η : ℝ) : Prop where
  proj : ∀ {b : ℕ}, b ≤ n → ∀ (X Y : Matrix (Fin N) (Fin b) K) (i j : Fin b),
    ∃ d' ≤ d, Dot F (univ.val.map fun k => (F.conj (X k i), Y k j)) d' (A.gemmProj X Y i j)
  heevd : ∀ {b : ℕ}, b ≤ n → ∀ (M : Matrix (Fin b) (Fin b) K) (j : Fin b),
    Verif.nrm2 ((lowerH F M).mulVec (fun k => F.val ((A.heevd M).2 k j)) -
      (valR ((A.heevd M).1 j) : 𝕜) • fun k => F.val ((A.heevd M).2 k j)) ≤ η * frob (lowerH F M)

/-- The bound for the entries of the projected matrix: products with the matrix of depth `d1` and with the vectors of
depth `d2`, vectors of norm at most `1 + ε`, Frobenius norm `f` of the matrix handed in, drift `D` of its diagonal. -/
noncomputable def projB (u : ℝ) (d1 d2 : ℕ) (ε f D : ℝ) : ℝ :=
  (1 + ε) ^ 2 * (gam u d2 * ((1 + gam u d1) * (f + D)) + (gam u d1 * (f + D) + D))

/-- The bound for the difference between a value and the Rayleigh quotient of its vector, from the bound `ω` for the
entries of the projected matrix: at most `n` vectors, residuals of the small eigenproblem `η`, eigenvectors of the small
matrix within `δ` of unit vectors, product `γ`, bound `V` for the value. -/
noncomputable def ritzB (n : ℕ) (ε δ η γ f V ω : ℝ) : ℝ :=
  (1 + δ) * (η * (n * ((1 + ε) ^ 2 * f + ω))) + V * (δ * (2 + δ)) + ω * (n * (1 + δ) ^ 2) +
    f * (n * ((1 + ε) * (1 + δ)) ^ 2 * (γ * (2 + γ)))

/-- How far sums of weights are from those of orthonormal vectors: `n` vectors that are orthonormal up to `τ`. -/
noncomputable def kap (τ : ℝ) (n : ℕ) : ℝ := 2 * (1 + τ) ^ 2 - 2 * (1 + τ ^ 2) / highB τ n ^ 2

/-! ### Weights -/

/-- Weights between zero and `a` whose sum is near `m`, replaced by weights between zero and one with sum `m`. -/
theorem weights_near {N : ℕ} {c : Fin N → ℝ} {a : ℝ} (h0 : ∀ k, 0 ≤ c k) (ha1 : 1 ≤ a) (ha : ∀ k, c k ≤ a) {m : ℕ}
    (hm : m ≤ N) : ∃ e : Fin N → ℝ, (∀ k, 0 ≤ e k) ∧ (∀ k, e k ≤ 1) ∧ ∑ k, e k = m ∧
      ∑ k, |e k - c k| ≤ (∑ k, c k - (∑ k, c k) / a) + |(m : ℝ) - (∑ k, c k) / a| := by
  have ha0 : 0 < a := by linarith
  set s := ∑ k, c k with hs
  set σ := s / a with hσ
  set d : Fin N → ℝ := fun k => c k / a with hd
  have hd0 : ∀ k, 0 ≤ d k := fun k => div_nonneg (h0 k) ha0.le
  have hd1 : ∀ k, d k ≤ 1 := fun k => (div_le_one ha0).mpr (ha k)
  have hdc : ∀ k, d k ≤ c k := fun k => div_le_self (h0 k) ha1
  have hsum : ∑ k, d k = σ := by rw [hσ, hs, Finset.sum_div]
  have hσ0 : 0 ≤ σ := by rw [← hsum]; exact Finset.sum_nonneg fun k _ => hd0 k
  have hσN : σ ≤ N := by
    rw [← hsum]
    calc ∑ k, d k ≤ ∑ k : Fin N, (1 : ℝ) := Finset.sum_le_sum fun k _ => hd1 k
      _ = N := by simp
  have hmN : (m : ℝ) ≤ N := by exact_mod_cast hm
  rcases le_or_gt σ m with h | h
  · set t := ((m : ℝ) - σ) / (N - σ) with ht
    have ht0 : 0 ≤ t := div_nonneg (by linarith) (by linarith)
    have ht1 : t ≤ 1 := div_le_one_of_le₀ (by linarith) (by linarith)
    have htN : t * (N - σ) = m - σ := by
      rcases eq_or_ne ((N : ℝ) - σ) 0 with hz | hz
      · rw [hz, mul_zero]; linarith
      · exact div_mul_cancel₀ _ hz
    have hsub : ∑ k, (1 - d k) = N - σ := by rw [Finset.sum_sub_distrib, hsum]; simp
    refine ⟨fun k => d k + t * (1 - d k), fun k => ?_, fun k => ?_, ?_, ?_⟩
    · have := mul_nonneg ht0 (show 0 ≤ 1 - d k by linarith [hd1 k])
      linarith [hd0 k]
    · nlinarith [hd1 k, hd0 k]
    · rw [Finset.sum_add_distrib, ← Finset.mul_sum, hsub, htN, hsum]; ring
    · calc ∑ k, |d k + t * (1 - d k) - c k| ≤ ∑ k, ((c k - d k) + t * (1 - d k)) := by
            refine Finset.sum_le_sum fun k _ => ?_
            have h1 := mul_nonneg ht0 (show 0 ≤ 1 - d k by linarith [hd1 k])
            have h2 := hdc k
            rw [abs_le]
            constructor <;> linarith
        _ = (s - σ) + (m - σ) := by
            rw [Finset.sum_add_distrib, Finset.sum_sub_distrib, ← Finset.mul_sum, hsub, htN, hsum]
        _ ≤ _ := by rw [abs_of_nonneg (by linarith)]
  · have hpos : 0 < σ := lt_of_le_of_lt (Nat.cast_nonneg m) h
    have hr0 : 0 ≤ (m : ℝ) / σ := div_nonneg (Nat.cast_nonneg m) hpos.le
    have hr1 : (m : ℝ) / σ ≤ 1 := (div_le_one hpos).mpr h.le
    refine ⟨fun k => m / σ * d k, fun k => mul_nonneg hr0 (hd0 k), fun k => ?_, ?_, ?_⟩
    · nlinarith [hd0 k, hd1 k]
    · rw [← Finset.mul_sum, hsum, div_mul_cancel₀ _ hpos.ne']
    · calc ∑ k, |m / σ * d k - c k| = ∑ k, (c k - m / σ * d k) := by
            refine Finset.sum_congr rfl fun k _ => ?_
            rw [abs_of_nonpos, neg_sub]
            nlinarith [hd0 k, hdc k]
        _ = s - m := by rw [Finset.sum_sub_distrib, ← Finset.mul_sum, hsum, div_mul_cancel₀ _ hpos.ne']
        _ ≤ _ := by rw [abs_of_neg (by linarith)]; linarith

/-- Sums with weights between zero and `a` whose sum is near `m`. -/
theorem sums_near {N : ℕ} {w c : Fin N → ℝ} (hw : Monotone w) {a W κ : ℝ} (h0 : ∀ k, 0 ≤ c k) (ha1 : 1 ≤ a)
    (ha : ∀ k, c k ≤ a) {m : ℕ} (hm : m ≤ N) (hW0 : 0 ≤ W) (hW : ∀ k, |w k| ≤ W)
    (hκ : (∑ k, c k - (∑ k, c k) / a) + |(m : ℝ) - (∑ k, c k) / a| ≤ κ) :
    ∑ k with k.val < m, w k - W * κ ≤ ∑ k, c k * w k ∧
      ∑ k, c k * w k ≤ ∑ k with N ≤ k.val + m, w k + W * κ := by
  obtain ⟨e, e0, e1, es, ed⟩ := weights_near h0 ha1 ha hm
  have h1 := sum_smallest_le hw e0 e1 es
  have h2 := le_sum_largest hw e0 e1 es
  have h3 : |∑ k, e k * w k - ∑ k, c k * w k| ≤ W * κ := by
    rw [← Finset.sum_sub_distrib]
    refine (Finset.abs_sum_le_sum_abs _ _).trans ?_
    calc ∑ k, |e k * w k - c k * w k| ≤ ∑ k, W * |e k - c k| := by
          refine Finset.sum_le_sum fun k _ => ?_
          rw [← sub_mul, abs_mul, mul_comm]
          exact mul_le_mul_of_nonneg_right (hW k) (abs_nonneg _)
      _ = W * ∑ k, |e k - c k| := (Finset.mul_sum _ _ _).symm
      _ ≤ _ := mul_le_mul_of_nonneg_left (ed.trans hκ) hW0
  have h4 := abs_le.mp h3
  constructor <;> linarith

/-! ### Nearly orthonormal vectors -/

section
variable {𝕜 : Type*} [RCLike 𝕜] {N : ℕ}

theorem highB_sq {τ : ℝ} (hτ : 0 ≤ τ) (n : ℕ) : highB τ n ^ 2 = (1 + τ) ^ 2 + 2 * τ * (1 + τ) * n := by
  unfold highB
  rw [Real.sq_sqrt (by positivity)]

/-- Bessel's inequality for nearly orthonormal vectors. -/
theorem NearOrtho.bessel {τ : ℝ} {n : ℕ} {X : ℕ → Fin N → 𝕜} (h : NearOrtho τ n X) (hτ : 0 ≤ τ) (hτ1 : τ ≤ 1)
    {v : EuclideanSpace 𝕜 (Fin N)} (hv : ‖v‖ = 1) :
    ∑ i ∈ range n, ‖(inner 𝕜 v (WithLp.toLp 2 (X i)) : 𝕜)‖ ^ 2 ≤ highB τ n ^ 2 := by
  classical
  let c : EuclideanSpace 𝕜 (range n) := WithLp.toLp 2 fun i : range n => (inner 𝕜 (WithLp.toLp 2 (X i)) v : 𝕜)
  have hc : ∑ i ∈ range n, ‖(inner 𝕜 v (WithLp.toLp 2 (X i)) : 𝕜)‖ ^ 2 = ‖c‖ ^ 2 := by
    rw [EuclideanSpace.norm_sq_eq, ← Finset.sum_attach (range n), Finset.univ_eq_attach]
    refine Finset.sum_congr rfl fun i _ => ?_
    exact congrArg (· ^ 2) (norm_inner_symm (𝕜 := 𝕜) v (WithLp.toLp 2 (X i) : EuclideanSpace 𝕜 (Fin N)))
  have h1 := h.high hτ hτ1 c
  set g := ∑ i : range n, c i • (WithLp.toLp 2 (X i) : EuclideanSpace 𝕜 (Fin N)) with hg
  have h2 : (inner 𝕜 g v : 𝕜) = ((‖c‖ ^ 2 : ℝ) : 𝕜) := by
    rw [hg, sum_inner, EuclideanSpace.norm_sq_eq]
    push_cast
    refine Finset.sum_congr rfl fun i _ => ?_
    rw [inner_smul_left]
    exact RCLike.conj_mul _
  have h3 : ‖c‖ ^ 2 ≤ ‖g‖ := by
    have := norm_inner_le_norm (𝕜 := 𝕜) g v
    rw [h2, RCLike.norm_ofReal, hv, mul_one, abs_of_nonneg (sq_nonneg _)] at this
    exact this
  rw [hc]
  have h4 : ‖c‖ * ‖c‖ ≤ highB τ n * ‖c‖ := by nlinarith
  have h5 : ‖c‖ ≤ highB τ n := by
    rcases (norm_nonneg c).eq_or_lt with h | h
    · rw [← h]; exact Real.sqrt_nonneg _
    · exact le_of_mul_le_mul_right h4 h
  exact pow_le_pow_left₀ (norm_nonneg _) h5 2

theorem nrm2_mulVec_le {H : Matrix (Fin N) (Fin N) 𝕜} (hH : H.IsHermitian) (v : Fin N → 𝕜) :
    Verif.nrm2 (H.mulVec v) ≤ frob H * Verif.nrm2 v := by
  refine le_trans (nrm2_le fun i => ?_) (nrm2_abs_mul_le H v)
  rw [Real.norm_eq_abs, abs_of_nonneg (Finset.sum_nonneg fun _ _ => by positivity)]
  show ‖∑ k, H i k * v k‖ ≤ _
  refine (norm_sum_le _ _).trans (Finset.sum_le_sum fun k _ => ?_)
  rw [norm_mul, ← hH.apply i k, norm_star]

theorem dotc_le (x y : Fin N → 𝕜) : ‖dotc x y‖ ≤ Verif.nrm2 x * Verif.nrm2 y := by
  rw [dotc_inner, nrm2_eq_norm, nrm2_eq_norm]
  exact norm_inner_le_norm (𝕜 := 𝕜) _ _

/-- Sums of values near the Rayleigh quotients of nearly orthonormal vectors. -/
theorem variational_near {H : Matrix (Fin N) (Fin N) 𝕜} (hH : H.IsHermitian) {τ β : ℝ} {n : ℕ} (hn : n ≤ N)
    {X : ℕ → Fin N → 𝕜} {vals : ℕ → ℝ} (h : NearOrtho τ n X) (hτ : 0 ≤ τ) (hτ1 : τ ≤ 1)
    (hv : ∀ i, i < n → ‖dotc (X i) (H.mulVec (X i)) - (vals i : 𝕜)‖ ≤ β) {w : Fin N → ℝ} (hw : EigenvaluesOf H w)
    (hm : Monotone w) {T : Finset ℕ} (hT : T ⊆ range n) :
    ∑ k with k.val < T.card, w k - T.card * (β + frob H * kap τ n) ≤ ∑ i ∈ T, vals i ∧
      ∑ i ∈ T, vals i ≤ ∑ k with N ≤ k.val + T.card, w k + T.card * (β + frob H * kap τ n) := by
  classical
  obtain ⟨b, hb⟩ := hw.basis hH
  set c : Fin N → ℝ := fun k => ∑ i ∈ T, ‖(inner 𝕜 (b k) (WithLp.toLp 2 (X i)) : 𝕜)‖ ^ 2 with hc
  set a := highB τ n ^ 2 with ha
  have ha1 : 1 ≤ a := by rw [ha, highB_sq hτ]; nlinarith [mul_nonneg (mul_nonneg hτ (show 0 ≤ 1 + τ by linarith)) (Nat.cast_nonneg n (α := ℝ))]
  have hTn : T.card ≤ N := by
    have := Finset.card_le_card hT
    rw [card_range] at this
    omega
  have hsum : ∑ k, c k = ∑ i ∈ T, Verif.nrm2 (X i) ^ 2 := by
    rw [hc, Finset.sum_comm]
    refine Finset.sum_congr rfl fun i _ => ?_
    rw [b.sum_sq_norm_inner_right, nrm2_eq_norm]
  have hlow : T.card * (1 - τ) ^ 2 ≤ ∑ k, c k := by
    rw [hsum, ← nsmul_eq_mul]
    refine Finset.card_nsmul_le_sum T _ ((1 - τ) ^ 2) fun i hi => ?_
    have := (abs_le.mp (h.1 i (mem_range.mp (hT hi)))).1
    exact pow_le_pow_left₀ (by linarith) (by linarith) 2
  have hup : ∑ k, c k ≤ T.card * (1 + τ) ^ 2 := by
    rw [hsum, ← nsmul_eq_mul]
    refine Finset.sum_le_card_nsmul T _ ((1 + τ) ^ 2) fun i hi => ?_
    have := (abs_le.mp (h.1 i (mem_range.mp (hT hi)))).2
    exact pow_le_pow_left₀ (show 0 ≤ Verif.nrm2 (X i) from Real.sqrt_nonneg _) (by linarith) 2
  have hwf : ∀ k, |w k| ≤ frob H := by
    intro k
    have h1 := nrm2_mulVec_le hH (WithLp.ofLp (b k))
    have h2 : Verif.nrm2 (WithLp.ofLp (b k)) = 1 := by rw [nrm2_eq_norm]; exact b.orthonormal.1 k
    have h3 : H.mulVec (WithLp.ofLp (b k)) = (w k : 𝕜) • WithLp.ofLp (b k) := by
      have := congrArg WithLp.ofLp (hb k)
      simpa [Matrix.toEuclideanLin] using this
    rw [h3, nrm2_smul, h2, RCLike.norm_ofReal, mul_one, mul_one] at h1
    exact h1
  have hκ : (∑ k, c k - (∑ k, c k) / a) + |(T.card : ℝ) - (∑ k, c k) / a| ≤ T.card * kap τ n := by
    set s := ∑ k, c k with hs
    set m : ℝ := (T.card : ℝ) with hm
    have hm0 : 0 ≤ m := Nat.cast_nonneg _
    have ha0 : 0 < a := by linarith
    have e : m * kap τ n = 2 * (m * (1 + τ) ^ 2) - (m * (1 + τ) ^ 2 + m * (1 - τ) ^ 2) / a := by
      unfold kap
      rw [← ha]
      field_simp
      ring
    rw [e]
    have hl : m * (1 - τ) ^ 2 / a ≤ s / a := by gcongr
    have hl1 : m * (1 - τ) ^ 2 / a ≤ m := by
      refine (div_le_self (by positivity) ha1).trans ?_
      nlinarith [mul_nonneg hm0 hτ]
    have hh1 : m ≤ m * (1 + τ) ^ 2 := by nlinarith [mul_nonneg hm0 hτ]
    have hha : m * (1 + τ) ^ 2 / a ≤ m * (1 + τ) ^ 2 := div_le_self (by positivity) ha1
    have hinv : s - s / a ≤ m * (1 + τ) ^ 2 - m * (1 + τ) ^ 2 / a := by
      have h1 : s * (1 - 1 / a) ≤ m * (1 + τ) ^ 2 * (1 - 1 / a) := by
        refine mul_le_mul_of_nonneg_right hup ?_
        rw [sub_nonneg]
        exact (div_le_one ha0).mpr ha1
      have h2 : ∀ x : ℝ, x * (1 - 1 / a) = x - x / a := fun x => by ring
      rwa [h2, h2] at h1
    rw [add_div]
    rcases le_total ((m : ℝ) - s / a) 0 with h | h
    · rw [abs_of_nonpos h]
      linarith
    · rw [abs_of_nonneg h]
      linarith
  obtain ⟨k1, k2⟩ := sums_near hm (fun k => Finset.sum_nonneg fun i _ => sq_nonneg _) ha1
    (fun k => (Finset.sum_le_sum_of_subset_of_nonneg hT fun i _ _ => sq_nonneg _).trans
      (h.bessel hτ hτ1 (b.orthonormal.1 k))) hTn (frob_nonneg H) hwf hκ
  have e : ∑ k, c k * w k = ∑ i ∈ T, RCLike.re (dotc (X i) (H.mulVec (X i))) := by
    simp only [hc, Finset.sum_mul]
    rw [Finset.sum_comm]
    refine Finset.sum_congr rfl fun i _ => ?_
    have := inner_map_eq_sum hb (WithLp.toLp 2 (X i))
    have e2 : Matrix.toEuclideanLin H (WithLp.toLp 2 (X i)) = WithLp.toLp 2 (H.mulVec (X i)) := by
      simp [Matrix.toEuclideanLin]
    rw [e2, ← dotc_inner] at this
    rw [this, RCLike.ofReal_re]
  have hd : |∑ k, c k * w k - ∑ i ∈ T, vals i| ≤ T.card * β := by
    rw [e, ← Finset.sum_sub_distrib, ← nsmul_eq_mul]
    refine (Finset.abs_sum_le_sum_abs _ _).trans (Finset.sum_le_card_nsmul T _ β fun i hi => ?_)
    have h1 := hv i (mem_range.mp (hT hi))
    have h2 := RCLike.abs_re_le_norm (dotc (X i) (H.mulVec (X i)) - (vals i : 𝕜))
    rw [map_sub, RCLike.ofReal_re] at h2
    exact h2.trans h1
  have := abs_le.mp hd
  constructor <;> nlinarith

/-! ### One step -/

theorem frob_le {b n : ℕ} (hb : b ≤ n) {L : Matrix (Fin b) (Fin b) 𝕜} {x : ℝ} (hx : 0 ≤ x) (h : ∀ i k, ‖L i k‖ ≤ x) :
    frob L ≤ n * x := by
  have hbn : (b : ℝ) ≤ n := by exact_mod_cast hb
  unfold frob
  refine Real.sqrt_le_iff.mpr ⟨by positivity, ?_⟩
  calc ∑ i, ∑ k, ‖L i k‖ ^ 2 ≤ ∑ _i : Fin b, ∑ _k : Fin b, x ^ 2 :=
        Finset.sum_le_sum fun i _ => Finset.sum_le_sum fun k _ => pow_le_pow_left₀ (norm_nonneg _) (h i k) 2
    _ = b * (b * x ^ 2) := by simp
    _ ≤ n * (n * x ^ 2) := by gcongr
    _ = _ := by ring

/-- **A Rayleigh-Ritz value is a Rayleigh quotient**, up to the errors of the steps. -/
theorem ritz_value {b n : ℕ} (hb : b ≤ n) {H : Matrix (Fin N) (Fin N) 𝕜} (hH : H.IsHermitian) {ε δ η γ V ω θ : ℝ}
    (hε : 0 ≤ ε) (hδ : 0 ≤ δ) (hη : 0 ≤ η) (hγ : 0 ≤ γ) (hω : 0 ≤ ω) {c : Fin b → Fin N → 𝕜}
    (hc : ∀ k, Verif.nrm2 (c k) ≤ 1 + ε) {L : Matrix (Fin b) (Fin b) 𝕜}
    (hL : ∀ i k, ‖L i k - dotc (c i) (H.mulVec (c k))‖ ≤ ω) {z : Fin b → 𝕜} (hz : |Verif.nrm2 z - 1| ≤ δ)
    (hr : Verif.nrm2 (L.mulVec z - (θ : 𝕜) • z) ≤ η * frob L) (hV : |θ| ≤ V) {x : Fin N → 𝕜}
    (hx : Verif.nrm2 (x - ∑ k, z k • c k) ≤ γ * ∑ k, ‖z k‖ * Verif.nrm2 (c k)) :
    ‖dotc x (H.mulVec x) - (θ : 𝕜)‖ ≤ ritzB n ε δ η γ (frob H) V ω := by
  set f := frob H with hf
  have hf0 : 0 ≤ f := frob_nonneg H
  have hbn : (b : ℝ) ≤ n := by exact_mod_cast hb
  have hz1 : Verif.nrm2 z ≤ 1 + δ := by linarith [(abs_le.mp hz).2]
  have hz0 : 0 ≤ Verif.nrm2 z := Real.sqrt_nonneg _
  set y := ∑ k, z k • c k with hy
  have hs : ∑ k, ‖z k‖ ≤ Real.sqrt n * (1 + δ) := by
    refine (sum_norm_le z).trans (mul_le_mul (Real.sqrt_le_sqrt hbn) hz1 hz0 (Real.sqrt_nonneg _))
  have hs0 : 0 ≤ ∑ k, ‖z k‖ := Finset.sum_nonneg fun _ _ => norm_nonneg _
  have hsq : Real.sqrt n ^ 2 = n := Real.sq_sqrt (Nat.cast_nonneg n)
  -- the residual
  have hfL : frob L ≤ n * ((1 + ε) ^ 2 * f + ω) := by
    refine frob_le hb (by positivity) fun i k => ?_
    have h1 : ‖dotc (c i) (H.mulVec (c k))‖ ≤ (1 + ε) ^ 2 * f := by
      refine (dotc_le _ _).trans ?_
      have h2 := (nrm2_mulVec_le hH (c k)).trans (mul_le_mul_of_nonneg_left (hc k) hf0)
      have := mul_le_mul (hc i) h2 (Real.sqrt_nonneg _) (show 0 ≤ 1 + ε by linarith)
      nlinarith
    have h2 : L i k = dotc (c i) (H.mulVec (c k)) + (L i k - dotc (c i) (H.mulVec (c k))) := by ring
    rw [h2]
    exact (norm_add_le _ _).trans (add_le_add h1 (hL i k))
  have q1 : ‖dotc z (L.mulVec z) - (θ : 𝕜) * dotc z z‖ ≤ (1 + δ) * (η * (n * ((1 + ε) ^ 2 * f + ω))) := by
    have e : dotc z (L.mulVec z) - (θ : 𝕜) * dotc z z = dotc z (L.mulVec z - (θ : 𝕜) • z) := by
      simp only [dotc, Pi.sub_apply, Pi.smul_apply, smul_eq_mul, mul_sub, Finset.sum_sub_distrib, Finset.mul_sum]
      congr 1
      exact Finset.sum_congr rfl fun _ _ => by ring
    rw [e]
    refine (dotc_le _ _).trans (mul_le_mul hz1 (hr.trans ?_) (Real.sqrt_nonneg _) (by linarith))
    exact mul_le_mul_of_nonneg_left hfL hη
  -- the norm of the coefficients
  have q2 : ‖(θ : 𝕜) * dotc z z - (θ : 𝕜)‖ ≤ V * (δ * (2 + δ)) := by
    have e : dotc z z = ((Verif.nrm2 z ^ 2 : ℝ) : 𝕜) := by
      rw [dotc_inner, inner_self_eq_norm_sq_to_K, nrm2_eq_norm]
      push_cast
      rfl
    have e2 : (θ : 𝕜) * dotc z z - (θ : 𝕜) = ((θ * (Verif.nrm2 z ^ 2 - 1) : ℝ) : 𝕜) := by
      rw [e]; push_cast; ring
    rw [e2, RCLike.norm_ofReal, abs_mul]
    refine mul_le_mul hV ?_ (abs_nonneg _) ((abs_nonneg _).trans hV)
    have e3 : Verif.nrm2 z ^ 2 - 1 = (Verif.nrm2 z - 1) * (Verif.nrm2 z + 1) := by ring
    rw [e3, abs_mul, abs_of_nonneg (show 0 ≤ Verif.nrm2 z + 1 by linarith)]
    exact mul_le_mul hz (by linarith) (by linarith) hδ
  -- the projected matrix
  have q3 : ‖dotc y (H.mulVec y) - dotc z (L.mulVec z)‖ ≤ ω * (n * (1 + δ) ^ 2) := by
    have e1 : dotc y (H.mulVec y) = ∑ i, ∑ k, star (z i) * z k * dotc (c i) (H.mulVec (c k)) := by
      rw [dotc_inner, hy, Matrix.mulVec_sum, WithLp.toLp_sum, WithLp.toLp_sum, sum_inner]
      refine Finset.sum_congr rfl fun i _ => ?_
      rw [inner_sum]
      refine Finset.sum_congr rfl fun k _ => ?_
      rw [Matrix.mulVec_smul, WithLp.toLp_smul, WithLp.toLp_smul, inner_smul_left, inner_smul_right, dotc_inner, mul_assoc]
      rfl
    have e2 : dotc z (L.mulVec z) = ∑ i, ∑ k, star (z i) * z k * L i k := by
      simp only [dotc, dotProduct, Matrix.mulVec, Finset.mul_sum]
      exact Finset.sum_congr rfl fun i _ => Finset.sum_congr rfl fun k _ => by ring
    have e3 : dotc y (H.mulVec y) - dotc z (L.mulVec z) =
        ∑ i, ∑ k, star (z i) * z k * (dotc (c i) (H.mulVec (c k)) - L i k) := by
      rw [e1, e2, ← Finset.sum_sub_distrib]
      refine Finset.sum_congr rfl fun i _ => ?_
      rw [← Finset.sum_sub_distrib]
      exact Finset.sum_congr rfl fun k _ => by ring
    rw [e3]
    have h1 : ‖∑ i, ∑ k, star (z i) * z k * (dotc (c i) (H.mulVec (c k)) - L i k)‖ ≤ ∑ i, ∑ k, ω * (‖z i‖ * ‖z k‖) := by
      refine (norm_sum_le _ _).trans (Finset.sum_le_sum fun i _ => (norm_sum_le _ _).trans (Finset.sum_le_sum fun k _ => ?_))
      rw [norm_mul, norm_mul, norm_star, mul_comm ω]
      refine mul_le_mul_of_nonneg_left ?_ (by positivity)
      rw [norm_sub_rev]
      exact hL i k
    have h2 : ∑ i, ∑ k, ω * (‖z i‖ * ‖z k‖) = ω * (∑ k, ‖z k‖) ^ 2 := by
      rw [sq, Finset.sum_mul_sum, Finset.mul_sum]
      exact Finset.sum_congr rfl fun i _ => (Finset.mul_sum _ _ _).symm
    rw [h2] at h1
    refine h1.trans (mul_le_mul_of_nonneg_left ?_ hω)
    have := pow_le_pow_left₀ hs0 hs 2
    rwa [mul_pow, hsq] at this
  -- the product
  set Y := (1 + ε) * (1 + δ) * Real.sqrt n with hY
  have hY0 : 0 ≤ Y := by positivity
  have hsc : ∑ k, ‖z k‖ * Verif.nrm2 (c k) ≤ Y := by
    calc ∑ k, ‖z k‖ * Verif.nrm2 (c k) ≤ ∑ k, ‖z k‖ * (1 + ε) :=
          Finset.sum_le_sum fun k _ => mul_le_mul_of_nonneg_left (hc k) (norm_nonneg _)
      _ = (∑ k, ‖z k‖) * (1 + ε) := (Finset.sum_mul _ _ _).symm
      _ ≤ Real.sqrt n * (1 + δ) * (1 + ε) := mul_le_mul_of_nonneg_right hs (by linarith)
      _ = Y := by rw [hY]; ring
  have hyn : Verif.nrm2 y ≤ Y := by
    refine le_trans ?_ hsc
    rw [nrm2_eq_norm, hy, WithLp.toLp_sum]
    refine (norm_sum_le _ _).trans (Finset.sum_le_sum fun k _ => ?_)
    rw [WithLp.toLp_smul, norm_smul, nrm2_eq_norm]
  have hxy : Verif.nrm2 (x - y) ≤ γ * Y := hx.trans (mul_le_mul_of_nonneg_left hsc hγ)
  have hxn : Verif.nrm2 x ≤ Y + γ * Y := by
    have := nrm2_add_le y (x - y)
    rw [add_sub_cancel] at this
    linarith
  have q4 : ‖dotc x (H.mulVec x) - dotc y (H.mulVec y)‖ ≤ f * (n * ((1 + ε) * (1 + δ)) ^ 2 * (γ * (2 + γ))) := by
    have e : dotc x (H.mulVec x) - dotc y (H.mulVec y) = dotc (x - y) (H.mulVec x) + dotc y (H.mulVec (x - y)) := by
      rw [Matrix.mulVec_sub]
      simp only [dotc, Pi.sub_apply, star_sub, sub_mul, mul_sub, Finset.sum_sub_distrib]
      ring
    rw [e]
    have h1 : ‖dotc (x - y) (H.mulVec x)‖ ≤ γ * Y * (f * (Y + γ * Y)) :=
      (dotc_le _ _).trans (mul_le_mul hxy ((nrm2_mulVec_le hH x).trans (mul_le_mul_of_nonneg_left hxn hf0))
        (Real.sqrt_nonneg _) (by positivity))
    have h2 : ‖dotc y (H.mulVec (x - y))‖ ≤ Y * (f * (γ * Y)) :=
      (dotc_le _ _).trans (mul_le_mul hyn ((nrm2_mulVec_le hH _).trans (mul_le_mul_of_nonneg_left hxy hf0))
        (Real.sqrt_nonneg _) hY0)
    refine (norm_add_le _ _).trans ((add_le_add h1 h2).trans (le_of_eq ?_))
    have e5 : Y ^ 2 = n * ((1 + ε) * (1 + δ)) ^ 2 := by rw [hY, mul_pow, hsq]; ring
    rw [← e5]
    ring
  have e : dotc x (H.mulVec x) - (θ : 𝕜) = (dotc z (L.mulVec z) - (θ : 𝕜) * dotc z z) + ((θ : 𝕜) * dotc z z - (θ : 𝕜)) +
      (dotc y (H.mulVec y) - dotc z (L.mulVec z)) + (dotc x (H.mulVec x) - dotc y (H.mulVec y)) := by ring
  rw [e]
  unfold ritzB
  exact (norm_add_le _ _).trans (add_le_add ((norm_add_le _ _).trans (add_le_add ((norm_add_le _ _).trans
    (add_le_add q1 q2)) q3)) q4)

end
end Rounded
end Verif
