/-
Values with small residuals, together, stand for as many eigenvalues: the linear algebra and combinatorics behind C85.
-/
import Mathlib.Analysis.InnerProductSpace.PiL2
import Mathlib.Combinatorics.Hall.Basic
import Mathlib.LinearAlgebra.FiniteDimensional.Lemmas
import Mathlib.Analysis.MeanInequalities

namespace Verif
namespace Distinct

open Finset

/-- If every interval around some of the values contains, after widening by `ε`, at least as many of the `w`, the values
can be matched with different `w` at distance at most `ε`. -/
theorem exists_matching {ι κ : Type*} [Fintype κ] [DecidableEq κ] (θ : ι → ℝ) (w : κ → ℝ) (ε : ℝ)
    (h : ∀ (s : Finset ι) (lo hi : ℝ), (∀ i ∈ s, lo ≤ θ i ∧ θ i ≤ hi) → (∃ i ∈ s, θ i = lo) → (∃ i ∈ s, θ i = hi) →
      s.card ≤ (univ.filter fun k => lo - ε ≤ w k ∧ w k ≤ hi + ε).card) :
    ∃ f : ι → κ, Function.Injective f ∧ ∀ i, |w (f i) - θ i| ≤ ε := by
  classical
  have key := (Finset.all_card_le_biUnion_card_iff_exists_injective
    (t := fun i => univ.filter fun k => |w k - θ i| ≤ ε)).mp ?_
  · obtain ⟨f, h1, h2⟩ := key
    exact ⟨f, h1, fun i => (mem_filter.mp (h2 i)).2⟩
  intro s
  induction hn : s.card using Nat.strong_induction_on generalizing s with
  | _ n ih =>
    rcases s.eq_empty_or_nonempty with rfl | hne
    · simp at hn; omega
    obtain ⟨a, ha, hlo⟩ := s.exists_min_image θ hne
    obtain ⟨b, hb, hhi⟩ := s.exists_max_image θ hne
    by_cases hg : ∀ k, θ a - ε ≤ w k → w k ≤ θ b + ε → ∃ i ∈ s, |w k - θ i| ≤ ε
    · rw [← hn]
      refine (h s (θ a) (θ b) (fun i hi => ⟨hlo i hi, hhi i hi⟩) ⟨a, ha, rfl⟩ ⟨b, hb, rfl⟩).trans (card_le_card ?_)
      intro k hk
      obtain ⟨h1, h2⟩ := (mem_filter.mp hk).2
      obtain ⟨i, hi, h3⟩ := hg k h1 h2
      exact mem_biUnion.mpr ⟨i, hi, mem_filter.mpr ⟨mem_univ _, h3⟩⟩
    · push Not at hg
      obtain ⟨k, h1, h2, h3⟩ := hg
      have ha1 : θ a < w k := by
        by_contra hc
        have := h3 a ha
        rw [abs_of_nonpos (by linarith)] at this
        linarith
      have hb1 : w k < θ b := by
        by_contra hc
        have := h3 b hb
        rw [abs_of_nonneg (by linarith)] at this
        linarith
      set A := s.filter fun i => θ i < w k
      set B := s.filter fun i => ¬ θ i < w k
      have hcard : A.card + B.card = n := by rw [← hn]; exact card_filter_add_card_filter_not _
      have hA0 : 0 < A.card := card_pos.mpr ⟨a, mem_filter.mpr ⟨ha, ha1⟩⟩
      have hB0 : 0 < B.card := card_pos.mpr ⟨b, mem_filter.mpr ⟨hb, by linarith⟩⟩
      have hA := ih A.card (by omega) A rfl
      have hB := ih B.card (by omega) B rfl
      rw [← hcard]
      refine (Nat.add_le_add hA hB).trans ?_
      rw [← card_union_of_disjoint]
      · refine card_le_card (union_subset ?_ ?_)
        · exact biUnion_subset_biUnion_of_subset_left _ (filter_subset _ _)
        · exact biUnion_subset_biUnion_of_subset_left _ (filter_subset _ _)
      · rw [disjoint_left]
        intro j hj hj'
        obtain ⟨i, hi, h4⟩ := mem_biUnion.mp hj
        obtain ⟨i', hi', h5⟩ := mem_biUnion.mp hj'
        obtain ⟨hi1, hi2⟩ := mem_filter.mp hi
        obtain ⟨hi1', hi2'⟩ := mem_filter.mp hi'
        have h4 := abs_le.mp (mem_filter.mp h4).2
        have h5 := abs_le.mp (mem_filter.mp h5).2
        have h6 := h3 i hi1
        have h7 := h3 i' hi1'
        rw [abs_of_nonneg (by linarith)] at h6
        rw [abs_of_nonpos (by linarith)] at h7
        linarith

section
variable {K E ι κ : Type*} [RCLike K] [NormedAddCommGroup E] [InnerProductSpace K E] [Fintype ι] [Fintype κ]

/-- An interval around values with small residuals contains as many eigenvalues.  `q` are the vectors, whose
combinations have a norm between `a` and `b` times that of the coefficients. -/
theorem count {A : E →ₗ[K] E} {bas : OrthonormalBasis κ K E} {w : κ → ℝ} (hA : ∀ k, A (bas k) = (w k : K) • bas k)
    {q : ι → E} {θ : ι → ℝ} {m h ε a b ρ : ℝ} (hθ : ∀ i, |θ i - m| ≤ h)
    (hlo : ∀ c : EuclideanSpace K ι, a * ‖c‖ ≤ ‖∑ i, c i • q i‖)
    (hhi : ∀ c : EuclideanSpace K ι, ‖∑ i, c i • q i‖ ≤ b * ‖c‖)
    (hres : ∑ i, ‖A (q i) - (θ i : K) • q i‖ ^ 2 ≤ ρ ^ 2) (hρ : 0 ≤ ρ) (ha : 0 < a) (hb : 0 ≤ b) (hh : 0 ≤ h) (hε : 0 ≤ ε)
    (hbound : ρ + b * h ≤ (h + ε) * a) :
    Fintype.card ι ≤ (univ.filter fun k => |w k - m| ≤ h + ε).card := by
  classical
  by_contra hlt
  push Not at hlt
  set F := univ.filter fun k => |w k - m| ≤ h + ε with hF
  -- a combination that is orthogonal to all eigenvectors of the interval
  let L : (ι → K) →ₗ[K] (F → K) :=
    LinearMap.pi fun k => ∑ i, (inner K (bas k) (q i)) • LinearMap.proj i
  have hL : ∀ c k, L c k = inner K (bas k) (∑ i, c i • q i) := by
    intro c k
    simp only [L, LinearMap.pi_apply, LinearMap.sum_apply, LinearMap.smul_apply, LinearMap.proj_apply, smul_eq_mul,
      inner_sum, inner_smul_right]
    exact Finset.sum_congr rfl fun i _ => mul_comm _ _
  have hker : LinearMap.ker L ≠ ⊥ := by
    apply LinearMap.ker_ne_bot_of_finrank_lt
    simpa using hlt
  obtain ⟨c, hc, hc0⟩ := Submodule.exists_mem_ne_zero_of_ne_bot hker
  have hc' : ∀ k ∈ F, inner K (bas k) (∑ i, c i • q i) = 0 := by
    intro k hk
    rw [← hL c ⟨k, hk⟩, LinearMap.mem_ker.mp hc]
    rfl
  set x := ∑ i, c i • q i with hx
  set n := ‖(WithLp.toLp 2 c : EuclideanSpace K ι)‖ with hn
  have hn0 : 0 < n := by
    rw [hn, norm_pos_iff]
    intro h0
    exact hc0 (by simpa using h0)
  have hxlo : a * n ≤ ‖x‖ := hlo (WithLp.toLp 2 c)
  have hx0 : 0 < ‖x‖ := lt_of_lt_of_le (mul_pos ha hn0) hxlo
  -- the eigenvalues outside the interval enlarge it
  have hcoord : ∀ k, inner K (bas k) (A x - (m : K) • x) = ((w k - m : ℝ) : K) * inner K (bas k) x := by
    intro k
    have hxb : A x = ∑ j, inner K (bas j) x • ((w j : K) • bas j) := by
      conv_lhs => rw [← bas.sum_repr' x]
      rw [map_sum]
      exact Finset.sum_congr rfl fun j _ => by rw [map_smul, hA]
    rw [inner_sub_right, hxb, inner_sum, Finset.sum_eq_single k, inner_smul_right, inner_smul_right, inner_smul_right,
      inner_self_eq_norm_sq_to_K, bas.orthonormal.1 k]
    · push_cast
      ring
    · intro j _ hj
      rw [inner_smul_right, inner_smul_right, bas.orthonormal.2 hj.symm, mul_zero, mul_zero]
    · intro hk; exact absurd (mem_univ k) hk
  have hsq : ∀ y : E, ‖y‖ ^ 2 = ∑ k, ‖inner K (bas k) y‖ ^ 2 := fun y => (bas.sum_sq_norm_inner_right y).symm
  have hlarge : (h + ε) * ‖x‖ < ‖A x - (m : K) • x‖ := by
    have h1 : ((h + ε) * ‖x‖) ^ 2 < ‖A x - (m : K) • x‖ ^ 2 := by
      rw [mul_pow, hsq x, hsq (A x - (m : K) • x), Finset.mul_sum]
      have hle : ∀ k, (h + ε) ^ 2 * ‖inner K (bas k) x‖ ^ 2 ≤ ‖inner K (bas k) (A x - (m : K) • x)‖ ^ 2 := by
        intro k
        rw [hcoord, norm_mul, mul_pow, RCLike.norm_ofReal]
        by_cases hk : k ∈ F
        · rw [hc' k hk]; simp
        · have : h + ε < |w k - m| := by
            by_contra hcon
            exact hk (mem_filter.mpr ⟨mem_univ _, not_lt.mp hcon⟩)
          exact mul_le_mul_of_nonneg_right (pow_le_pow_left₀ (by linarith) this.le 2) (sq_nonneg _)
      refine Finset.sum_lt_sum (fun k _ => hle k) ?_
      by_contra hall
      push Not at hall
      have hz : ∀ k, ‖inner K (bas k) x‖ ^ 2 = 0 := by
        intro k
        by_cases hk : k ∈ F
        · rw [hc' k hk]; simp
        · have hlt' : h + ε < |w k - m| := by
            by_contra hcon
            exact hk (mem_filter.mpr ⟨mem_univ _, not_lt.mp hcon⟩)
          have h2 := hall k (mem_univ k)
          rw [hcoord, norm_mul, mul_pow, RCLike.norm_ofReal] at h2
          by_contra hne
          have hpos : 0 < ‖inner K (bas k) x‖ ^ 2 := lt_of_le_of_ne (sq_nonneg _) (Ne.symm hne)
          have h3 : (h + ε) ^ 2 < |w k - m| ^ 2 := pow_lt_pow_left₀ hlt' (by linarith) two_ne_zero
          have := mul_lt_mul_of_pos_right h3 hpos
          linarith
      have := hsq x
      simp only [hz, Finset.sum_const_zero] at this
      nlinarith
    exact lt_of_pow_lt_pow_left₀ 2 (norm_nonneg _) h1
  -- the residuals do not
  have hsmall : ‖A x - (m : K) • x‖ ≤ ρ * n + b * (h * n) := by
    have e : A x - (m : K) • x = ∑ i, c i • (A (q i) - (θ i : K) • q i) + ∑ i, (((θ i - m : ℝ) : K) * c i) • q i := by
      rw [hx, map_sum, Finset.smul_sum, ← Finset.sum_sub_distrib, ← Finset.sum_add_distrib]
      refine Finset.sum_congr rfl fun i _ => ?_
      rw [map_smul]
      push_cast
      module
    rw [e]
    refine (norm_add_le _ _).trans (add_le_add ?_ ?_)
    · refine (norm_sum_le _ _).trans ?_
      have hcs := Finset.sum_mul_sq_le_sq_mul_sq univ (fun i => ‖c i‖) fun i => ‖A (q i) - (θ i : K) • q i‖
      have hn2 : n ^ 2 = ∑ i, ‖c i‖ ^ 2 := by rw [hn, EuclideanSpace.norm_sq_eq]
      refine le_of_sq_le_sq ?_ (mul_nonneg hρ hn0.le)
      simp only [norm_smul]
      refine hcs.trans ?_
      rw [← hn2, mul_pow, mul_comm]
      exact mul_le_mul_of_nonneg_right hres (sq_nonneg _)
    · refine (hhi (WithLp.toLp 2 fun i => ((θ i - m : ℝ) : K) * c i)).trans (mul_le_mul_of_nonneg_left ?_ hb)
      refine le_of_sq_le_sq ?_ (mul_nonneg hh hn0.le)
      rw [EuclideanSpace.norm_sq_eq, mul_pow, hn, EuclideanSpace.norm_sq_eq, Finset.mul_sum]
      refine Finset.sum_le_sum fun i _ => ?_
      rw [norm_mul, mul_pow, RCLike.norm_ofReal]
      exact mul_le_mul_of_nonneg_right (pow_le_pow_left₀ (abs_nonneg _) (hθ i) 2) (sq_nonneg _)
  have h1 : (h + ε) * (a * n) ≤ (h + ε) * ‖x‖ := mul_le_mul_of_nonneg_left hxlo (by linarith)
  have h2 := mul_le_mul_of_nonneg_right hbound hn0.le
  nlinarith

/-- **Different eigenvalues for all values.**  `ρ` bounds the root of the sum of the squares of the residuals, `D` half of the
distances of the values. -/
theorem exists_eigenvalues [DecidableEq κ] {A : E →ₗ[K] E} {bas : OrthonormalBasis κ K E} {w : κ → ℝ}
    (hA : ∀ k, A (bas k) = (w k : K) • bas k) {q : ι → E} {θ : ι → ℝ} {D a b ρ : ℝ}
    (hlo : ∀ c : EuclideanSpace K ι, a * ‖c‖ ≤ ‖∑ i, c i • q i‖)
    (hhi : ∀ c : EuclideanSpace K ι, ‖∑ i, c i • q i‖ ≤ b * ‖c‖)
    (hres : ∑ i, ‖A (q i) - (θ i : K) • q i‖ ^ 2 ≤ ρ ^ 2) (hρ : 0 ≤ ρ) (ha : 0 < a) (hab : a ≤ b)
    (hD : ∀ i j, |θ i - θ j| ≤ 2 * D) :
    ∃ f : ι → κ, Function.Injective f ∧ ∀ i, |w (f i) - θ i| ≤ (ρ + (b - a) * D) / a := by
  classical
  refine exists_matching θ w _ fun s lo hi hs hlo' hhi' => ?_
  obtain ⟨i0, hi0, e0⟩ := hlo'
  obtain ⟨i1, hi1, e1⟩ := hhi'
  have hle : lo ≤ hi := e0 ▸ (hs i0 hi0).2
  have hhD : (hi - lo) / 2 ≤ D := by
    have := (abs_le.mp (hD i1 i0)).2
    rw [e0, e1] at this
    linarith
  have hD0 : 0 ≤ D := by linarith
  set ε := (ρ + (b - a) * D) / a with hεd
  have hεa : ε * a = ρ + (b - a) * D := by rw [hεd]; field_simp
  have hε : 0 ≤ ε := div_nonneg (add_nonneg hρ (mul_nonneg (by linarith) hD0)) ha.le
  have ext : ∀ c : EuclideanSpace K s, ∃ c' : EuclideanSpace K ι, ‖c'‖ = ‖c‖ ∧ ∑ i, c' i • q i = ∑ i : s, c i • q i := by
    intro c
    refine ⟨WithLp.toLp 2 fun i => if h : i ∈ s then c ⟨i, h⟩ else 0, ?_, ?_⟩
    · rw [EuclideanSpace.norm_eq, EuclideanSpace.norm_eq, ← Finset.sum_subset (Finset.subset_univ s), ← Finset.sum_attach s]
      · congr 1
        refine Finset.sum_congr rfl fun i _ => ?_
        simp only [dif_pos i.2]
      · intro i _ hi
        simp [hi]
    · rw [← Finset.sum_subset (Finset.subset_univ s), ← Finset.sum_attach s]
      · refine Finset.sum_congr rfl fun i _ => ?_
        simp only [dif_pos i.2]
      · intro i _ hi
        simp [hi]
  have key := count (ι := s) hA (q := fun i => q i) (θ := fun i => θ i) (m := (lo + hi) / 2) (h := (hi - lo) / 2) (ε := ε)
    (a := a) (b := b) (ρ := ρ) ?_ ?_ ?_ ?_ hρ ha (by linarith) (by linarith) hε ?_
  · rw [Fintype.card_coe] at key
    refine key.trans (card_le_card fun k hk => ?_)
    have := abs_le.mp (mem_filter.mp hk).2
    exact mem_filter.mpr ⟨mem_univ _, by linarith, by linarith⟩
  · intro i
    have := hs i i.2
    rw [abs_le]
    constructor <;> linarith
  · intro c
    obtain ⟨c', h1, h2⟩ := ext c
    rw [← h1, ← h2]
    exact hlo c'
  · intro c
    obtain ⟨c', h1, h2⟩ := ext c
    rw [← h1, ← h2]
    exact hhi c'
  · refine le_trans ?_ hres
    rw [Finset.univ_eq_attach, Finset.sum_attach s fun i => ‖A (q i) - (θ i : K) • q i‖ ^ 2]
    exact Finset.sum_le_sum_of_subset_of_nonneg (Finset.subset_univ s) fun _ _ _ => sq_nonneg _
  · have h1 : (b - a) * ((hi - lo) / 2) ≤ (b - a) * D := mul_le_mul_of_nonneg_left hhD (by linarith)
    rw [add_mul, hεa]
    linarith

end
end Distinct
end Verif
