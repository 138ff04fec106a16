/-
Linear algebra behind C64-C66: polynomials of a Hermitian matrix, invariant subspaces, and Rayleigh
quotients on a subspace with an orthonormal Ritz basis.
-/
import Verif.Backend.Spectral
import Verif.Backend.LanczosProof
import Verif.Backend.FilterProps

open Polynomial Matrix

namespace Verif

variable {K : Type*} [RCLike K] {N : ℕ} {H : Matrix (Fin N) (Fin N) K}

/-! ### Invariant subspaces -/

/-- On an invariant space the Ritz pairs are eigenpairs. -/
theorem eigen_of_invariant {n : ℕ} {Y : ℕ → Fin N → K} {θ : ℕ → ℝ} (ho : OrthoOn n Y)
    (hg : ∀ i j, i < n → j < n → dotc (Y i) (H.mulVec (Y j)) = if i = j then (θ i : K) else 0)
    (hinv : ∀ x ∈ prefixSpan n Y, H.mulVec x ∈ prefixSpan n Y) :
    ∀ j, j < n → H.mulVec (Y j) = (θ j : K) • Y j := by
  intro j hj
  set r := H.mulVec (Y j) - (θ j : K) • Y j with hr
  have hmem : r ∈ prefixSpan n Y :=
    Submodule.sub_mem _ (hinv _ (mem_prefixSpan hj)) (Submodule.smul_mem _ _ (mem_prefixSpan hj))
  have h0 : dotc r r = 0 := by
    refine dotc_of_mem_prefixSpan (fun i hi => ?_) hmem
    rw [hr, dotc_sub_right, hg i j hi hj, dotc_smul_right, ho i j hi hj]
    split_ifs with h
    · rw [h]; ring
    · ring
  have : r = 0 := by
    rw [dotc_self_nrm2] at h0
    have h1 : ((nrm2 r : ℝ) : K) = 0 := by simpa using h0
    exact nrm2_eq_zero.mp (by exact_mod_cast h1)
  exact sub_eq_zero.mp this

/-- A space spanned by eigenvectors is invariant. -/
theorem invariant_of_eigen {n : ℕ} {U : ℕ → Fin N → K} {μ : ℕ → ℝ}
    (hU : ∀ j, j < n → H.mulVec (U j) = (μ j : K) • U j) :
    ∀ x ∈ prefixSpan n U, H.mulVec x ∈ prefixSpan n U := by
  intro x hx
  unfold prefixSpan at hx
  induction hx using Submodule.span_induction with
  | mem y hy => obtain ⟨j, hj, rfl⟩ := hy; rw [hU j hj]; exact Submodule.smul_mem _ _ (mem_prefixSpan hj)
  | zero => rw [Matrix.mulVec_zero]; exact Submodule.zero_mem _
  | add y z _ _ h1 h2 => rw [Matrix.mulVec_add]; exact Submodule.add_mem _ h1 h2
  | smul c y _ h => rw [Matrix.mulVec_smul]; exact Submodule.smul_mem _ _ h

/-- A vector of a prefix span as a combination. -/
theorem mem_prefixSpan_iff {n : ℕ} {U : ℕ → Fin N → K} {x : Fin N → K} :
    x ∈ prefixSpan n U ↔ ∃ c : Fin n → K, x = ∑ j, c j • U j := by
  rw [prefixSpan_eq_range, Submodule.mem_span_range_iff_exists_fun]
  exact ⟨fun ⟨c, h⟩ => ⟨c, h.symm⟩, fun ⟨c, h⟩ => ⟨c, h.symm⟩⟩

/-- A polynomial without zeros at the values of independent eigenvectors is one to one on their span,
and maps it into itself. -/
theorem aeval_injOn {n : ℕ} {U : ℕ → Fin N → K} {μ : ℕ → ℝ}
    (hli : LinearIndependent K (fun j : Fin n => U j))
    (hU : ∀ j, j < n → H.mulVec (U j) = (μ j : K) • U j) {p : ℝ[X]}
    (hp : ∀ j, j < n → p.eval (μ j) ≠ 0) {x : Fin N → K} (hx : x ∈ prefixSpan n U) :
    (aeval H p).mulVec x ∈ prefixSpan n U ∧ ((aeval H p).mulVec x = 0 → x = 0) := by
  obtain ⟨c, rfl⟩ := mem_prefixSpan_iff.mp hx
  have e : (aeval H p).mulVec (∑ j, c j • U j) = ∑ j : Fin n, (c j * ((p.eval (μ j) : ℝ) : K)) • U j := by
    rw [Matrix.mulVec_sum]
    refine Finset.sum_congr rfl fun j _ => ?_
    rw [Matrix.mulVec_smul, aeval_mulVec_eigenvector H p (hU j j.2), smul_smul]
  rw [e]
  refine ⟨mem_prefixSpan_iff.mpr ⟨_, rfl⟩, fun h0 => ?_⟩
  have := Fintype.linearIndependent_iff.mp hli _ h0
  refine Finset.sum_eq_zero fun j _ => ?_
  have hj := this j
  rw [mul_eq_zero] at hj
  rcases hj with hj | hj
  · rw [hj, zero_smul]
  · exact absurd (by exact_mod_cast hj) (hp j j.2)

/-- A linear map that is one to one on the span of independent columns keeps them independent. -/
theorem linearIndependent_mulVec {n : ℕ} {V : ℕ → Fin N → K} {A : Matrix (Fin N) (Fin N) K}
    (hli : LinearIndependent K (fun j : Fin n => V j))
    (hA : ∀ x ∈ prefixSpan n V, A.mulVec x = 0 → x = 0) :
    LinearIndependent K (fun j : Fin n => A.mulVec (V j)) := by
  rw [Fintype.linearIndependent_iff] at hli ⊢
  intro g hg
  apply hli
  apply hA _ (mem_prefixSpan_iff.mpr ⟨g, rfl⟩)
  rw [Matrix.mulVec_sum, ← hg]
  exact Finset.sum_congr rfl fun j _ => Matrix.mulVec_smul _ _ _

/-- Two functions that take every value equally often differ by a permutation. -/
theorem exists_perm_of_card_eq {n : ℕ} {α : Type*} [DecidableEq α] (f g : Fin n → α)
    (h : ∀ x, Fintype.card {i // f i = x} = Fintype.card {i // g i = x}) :
    ∃ e : Equiv.Perm (Fin n), ∀ i, f i = g (e i) := by
  let e : Equiv.Perm (Fin n) := (Equiv.sigmaFiberEquiv f).symm.trans
    ((Equiv.sigmaCongrRight fun x => Fintype.equivOfCardEq (h x)).trans (Equiv.sigmaFiberEquiv g))
  refine ⟨e, fun i => ?_⟩
  exact ((Fintype.equivOfCardEq (h (f i))) ⟨i, rfl⟩).2.symm

/-- Eigenvalues of `H` on a subspace, counted with multiplicity, do not depend on the basis of
eigenvectors: at most as many in one basis as in the other. -/
theorem card_eigen_le {n : ℕ} {U Y : ℕ → Fin N → K} {μ θ : ℕ → ℝ} (hH : H.IsHermitian)
    (hli : LinearIndependent K (fun j : Fin n => U j)) (ho : OrthoOn n Y)
    (hspan : prefixSpan n U = prefixSpan n Y)
    (hU : ∀ j, j < n → H.mulVec (U j) = (μ j : K) • U j)
    (hY : ∀ j, j < n → H.mulVec (Y j) = (θ j : K) • Y j) (p : ℝ → Prop) [DecidablePred p] :
    Fintype.card {j : Fin n // p (μ j)} ≤ Fintype.card {j : Fin n // p (θ j)} := by
  have hmem : ∀ j : {j : Fin n // p (μ j)}, U j.1 ∈ Submodule.span K
      (Set.range fun i : {i : Fin n // p (θ i)} => Y i.1) := by
    rintro ⟨j, hj⟩
    have h1 : U j ∈ prefixSpan n Y := hspan ▸ mem_prefixSpan j.2
    obtain ⟨c, hc⟩ := mem_prefixSpan_iff.mp h1
    have hcoef : ∀ i : Fin n, c i = dotc (Y i) (U j) := by
      intro i
      rw [hc, dotc_sum_right]
      simp only [dotc_smul_right]
      rw [Finset.sum_eq_single i]
      · rw [ho i i i.2 i.2, if_pos rfl, mul_one]
      · intro b _ hb
        rw [ho i b i.2 b.2, if_neg (fun h => hb (Fin.ext h.symm)), mul_zero]
      · intro h; exact absurd (Finset.mem_univ _) h
    show U j ∈ _
    rw [hc]
    refine Submodule.sum_mem _ fun i _ => ?_
    by_cases hi : p (θ i)
    · exact Submodule.smul_mem _ _ (Submodule.subset_span ⟨⟨i, hi⟩, rfl⟩)
    · have hne : (θ i : K) ≠ (μ j : K) := fun h => hi (by
        have : θ i = μ j := by exact_mod_cast h
        rw [this]; exact hj)
      have h2 : dotc (Y i) (H.mulVec (U j)) = (μ j : K) * dotc (Y i) (U j) := by
        rw [hU j j.2, dotc_smul_right]
      have h3 : dotc (Y i) (H.mulVec (U j)) = (θ i : K) * dotc (Y i) (U j) := by
        rw [dotc_mulVec, hH.eq, hY i i.2, dotc_smul_left, RCLike.star_def, RCLike.conj_ofReal]
      have h4 : dotc (Y i) (U j) = 0 := by
        have : ((θ i : K) - (μ j : K)) * dotc (Y i) (U j) = 0 := by rw [sub_mul, ← h2, ← h3, sub_self]
        rcases mul_eq_zero.mp this with h | h
        · exact absurd (sub_eq_zero.mp h) hne
        · exact h
      rw [hcoef, h4, zero_smul]
      exact Submodule.zero_mem _
  have hli' : LinearIndependent K (fun j : {j : Fin n // p (μ j)} => U j.1) :=
    hli.comp _ Subtype.val_injective
  have h5 : Submodule.span K (Set.range fun j : {j : Fin n // p (μ j)} => U j.1) ≤
      Submodule.span K (Set.range fun i : {i : Fin n // p (θ i)} => Y i.1) := by
    rw [Submodule.span_le]
    rintro _ ⟨j, rfl⟩
    exact hmem j
  calc Fintype.card {j : Fin n // p (μ j)}
      = Module.finrank K (Submodule.span K (Set.range fun j : {j : Fin n // p (μ j)} => U j.1)) :=
        (finrank_span_eq_card hli').symm
    _ ≤ Module.finrank K (Submodule.span K (Set.range fun i : {i : Fin n // p (θ i)} => Y i.1)) :=
        Submodule.finrank_mono h5
    _ ≤ _ := finrank_range_le_card _

/-- Two bases of eigenvectors of the same space have the same values up to order. -/
theorem same_values {n : ℕ} {U Y : ℕ → Fin N → K} {μ θ : ℕ → ℝ} (hH : H.IsHermitian)
    (hli : LinearIndependent K (fun j : Fin n => U j)) (ho : OrthoOn n Y)
    (hspan : prefixSpan n U = prefixSpan n Y)
    (hU : ∀ j, j < n → H.mulVec (U j) = (μ j : K) • U j)
    (hY : ∀ j, j < n → H.mulVec (Y j) = (θ j : K) • Y j) :
    ∃ e : Equiv.Perm (Fin n), ∀ i : Fin n, θ i = μ (e i) := by
  classical
  refine exists_perm_of_card_eq (fun i : Fin n => θ i) (fun i : Fin n => μ i) fun x => ?_
  have h1 := card_eigen_le hH hli ho hspan hU hY (fun y => y = x)
  have h2 := card_eigen_le hH hli ho hspan hU hY (fun y => ¬ y = x)
  rw [Fintype.card_subtype_compl, Fintype.card_subtype_compl] at h2
  have h3 := Fintype.card_subtype_le (fun i : Fin n => μ i = x)
  have h4 := Fintype.card_subtype_le (fun i : Fin n => θ i = x)
  omega

/-! ### Parts of the spectrum -/

/-- The vector `e` has no component at eigenvalues outside `[a, b]`: it is orthogonal to every
eigenvector with such an eigenvalue. -/
def SupportedIn (H : Matrix (Fin N) (Fin N) K) (a b : ℝ) (e : Fin N → K) : Prop :=
  ∀ (μ : ℝ) (x : Fin N → K), H.mulVec x = (μ : K) • x → (μ < a ∨ b < μ) →
    ∑ k, star (x k) * e k = 0

theorem aeval_isHermitian (hH : H.IsHermitian) (p : ℝ[X]) : (aeval H p).IsHermitian := by
  induction p using Polynomial.induction_on' with
  | add p q hp hq => rw [map_add]; exact hp.add hq
  | monomial n a =>
    rw [aeval_monomial, ← Algebra.smul_def]
    have h1 : (H ^ n).IsHermitian := hH.pow n
    show (a • H ^ n)ᴴ = _
    rw [Matrix.conjTranspose_smul, h1.eq, star_trivial]

theorem SupportedIn.aeval (hH : H.IsHermitian) {a b : ℝ} {e : Fin N → K} (h : SupportedIn H a b e)
    (p : ℝ[X]) : SupportedIn H a b ((aeval H p).mulVec e) := by
  intro μ x hx hμ
  show dotc x _ = 0
  rw [dotc_mulVec, (aeval_isHermitian hH p).eq, aeval_mulVec_eigenvector H p hx, dotc_smul_left,
    show dotc x e = 0 from h μ x hx hμ, mul_zero]

theorem SupportedIn.smul {a b : ℝ} {e : Fin N → K} (h : SupportedIn H a b e) (c : K) :
    SupportedIn H a b (c • e) := by
  intro μ x hx hμ
  show dotc x _ = 0
  rw [dotc_smul_right, show dotc x e = 0 from h μ x hx hμ, mul_zero]

/-- Coordinates of a polynomial of `H` in a basis of eigenvectors. -/
theorem eig_coord_aeval {Z : Matrix (Fin N) (Fin N) K} {w : Fin N → ℝ} (hZ : Zᴴ * Z = 1)
    (hHZ : H * Z = Z * diagonal (fun i => (w i : K))) (hH : H.IsHermitian) (p : ℝ[X]) (x : Fin N → K)
    (i : Fin N) :
    Zᴴ.mulVec ((aeval H p).mulVec x) i = ((p.eval (w i) : ℝ) : K) * Zᴴ.mulVec x i := by
  have hz : H.mulVec (fun k => Z k i) = (w i : K) • fun k => Z k i := by
    funext k
    have := congrFun (congrFun hHZ k) i
    rw [Matrix.mul_apply, Matrix.mul_diagonal] at this
    simp only [Matrix.mulVec, dotProduct, Pi.smul_apply, smul_eq_mul]
    rw [this, mul_comm]
  have e : ∀ y : Fin N → K, Zᴴ.mulVec y i = dotc (fun k => Z k i) y := fun y => rfl
  rw [e, e, dotc_mulVec, (aeval_isHermitian hH p).eq, aeval_mulVec_eigenvector H p hz, dotc_smul_left,
    RCLike.star_def, RCLike.conj_ofReal]

/-- **Damping**: on vectors supported in `[a, b]` a polynomial bounded by `c` there grows no norm by more
than `c`. -/
theorem SupportedIn.norm_le (hH : H.IsHermitian) {a b c : ℝ} {e : Fin N → K} (h : SupportedIn H a b e)
    {p : ℝ[X]} (hp : ∀ x, a ≤ x → x ≤ b → |p.eval x| ≤ c) (hc : 0 ≤ c) :
    nrm2 ((Polynomial.aeval H p).mulVec e) ≤ c * nrm2 e := by
  obtain ⟨w, Z, hZ, hHZ, -⟩ := exists_eig H hH
  have hz : ∀ i, H.mulVec (fun k => Z k i) = (w i : K) • fun k => Z k i := by
    intro i
    funext k
    have := congrFun (congrFun hHZ k) i
    rw [Matrix.mul_apply, Matrix.mul_diagonal] at this
    simp only [Matrix.mulVec, dotProduct, Pi.smul_apply, smul_eq_mul]
    rw [this, mul_comm]
  refine le_of_sq_le_sq ?_ (mul_nonneg hc (nrm2_nonneg _))
  rw [mul_pow, nrm2_sq, nrm2_sq, ← norm_sq_unitary hZ, ← norm_sq_unitary hZ e, Finset.mul_sum]
  refine Finset.sum_le_sum fun i _ => ?_
  rw [eig_coord_aeval hZ hHZ hH, norm_mul, mul_pow, RCLike.norm_ofReal]
  by_cases hi : w i < a ∨ b < w i
  · have : Zᴴ.mulVec e i = 0 := h (w i) _ (hz i) hi
    rw [this]; simp
  · push Not at hi
    have := hp _ hi.1 hi.2
    have h0 := abs_nonneg (p.eval (w i))
    gcongr

/-- **Energy**: the quadratic form of a vector supported in `[a, b]` is at most `b` times its norm
squared. -/
theorem SupportedIn.energy_le (hH : H.IsHermitian) {a b : ℝ} {e : Fin N → K} (h : SupportedIn H a b e) :
    RCLike.re (dotc e (H.mulVec e)) ≤ b * nrm2 e ^ 2 := by
  obtain ⟨w, Z, hZ, hHZ, -⟩ := exists_eig H hH
  have hz : ∀ i, H.mulVec (fun k => Z k i) = (w i : K) • fun k => Z k i := by
    intro i
    funext k
    have := congrFun (congrFun hHZ k) i
    rw [Matrix.mul_apply, Matrix.mul_diagonal] at this
    simp only [Matrix.mulVec, dotProduct, Pi.smul_apply, smul_eq_mul]
    rw [this, mul_comm]
  have h2 : Z * Zᴴ = 1 := mul_eq_one_comm.mp hZ
  have h1 : dotc e (H.mulVec e) = dotc (Zᴴ.mulVec e) (Zᴴ.mulVec (H.mulVec e)) := by
    conv_rhs => rw [dotc_mulVec, Matrix.conjTranspose_conjTranspose, Matrix.mulVec_mulVec, h2,
      Matrix.one_mulVec]
  have e3 : dotc e (H.mulVec e) = ((∑ i, w i * ‖Zᴴ.mulVec e i‖ ^ 2 : ℝ) : K) := by
    rw [h1, RCLike.ofReal_sum]
    refine Finset.sum_congr rfl fun i _ => ?_
    rw [eig_coord hZ hHZ]
    have := RCLike.conj_mul (Zᴴ.mulVec e i)
    rw [RCLike.star_def]
    push_cast
    rw [← this]
    ring
  rw [e3, RCLike.ofReal_re, nrm2_sq, ← norm_sq_unitary hZ e, Finset.mul_sum]
  refine Finset.sum_le_sum fun i _ => ?_
  by_cases hi : w i < a ∨ b < w i
  · have : Zᴴ.mulVec e i = 0 := h (w i) _ (hz i) hi
    rw [this]; simp
  · push Not at hi
    exact mul_le_mul_of_nonneg_right hi.2 (sq_nonneg _)

/-- A polynomial without zeros at eigenvalues of `H` is one to one. -/
theorem aeval_inj (hH : H.IsHermitian) {p : ℝ[X]} (hp : ∀ μ, IsEigenvalue H μ → p.eval μ ≠ 0)
    {x : Fin N → K} (h : (aeval H p).mulVec x = 0) : x = 0 := by
  obtain ⟨w, Z, hZ, hHZ, -⟩ := exists_eig H hH
  have h0 : Zᴴ.mulVec x = 0 := by
    funext i
    have := eig_coord_aeval hZ hHZ hH p x i
    rw [h, Matrix.mulVec_zero] at this
    rcases mul_eq_zero.mp this.symm with h | h
    · exact absurd (by exact_mod_cast h) (hp _ (eig_isEigenvalue hZ hHZ i))
    · exact h
  have h2 : Z * Zᴴ = 1 := mul_eq_one_comm.mp hZ
  rw [← Matrix.one_mulVec x, ← h2, ← Matrix.mulVec_mulVec, h0, Matrix.mulVec_zero]

/-- **Minimum principle**: the smallest Ritz value of a space with an orthonormal Ritz basis is at most
the quotient of any of its vectors. -/
theorem ritz_min {n : ℕ} {Y : ℕ → Fin N → K} {θ : ℕ → ℝ} (ho : OrthoOn n Y)
    (hg : ∀ i j, i < n → j < n → dotc (Y i) (H.mulVec (Y j)) = if i = j then (θ i : K) else 0)
    {m : ℝ} (hm : ∀ i, i < n → m ≤ θ i) {x : Fin N → K} (hx : x ∈ prefixSpan n Y) :
    m * nrm2 x ^ 2 ≤ RCLike.re (dotc x (H.mulVec x)) := by
  obtain ⟨c, rfl⟩ := mem_prefixSpan_iff.mp hx
  have e1 : dotc (∑ j, c j • Y j) (H.mulVec (∑ j : Fin n, c j • Y j)) =
      ((∑ j : Fin n, θ j * ‖c j‖ ^ 2 : ℝ) : K) := by
    rw [Matrix.mulVec_sum, dotc_sum_left, RCLike.ofReal_sum]
    refine Finset.sum_congr rfl fun i _ => ?_
    rw [dotc_sum_right, Finset.sum_eq_single i]
    · rw [Matrix.mulVec_smul, dotc_smul_left, dotc_smul_right, hg i i i.2 i.2, if_pos rfl]
      have := RCLike.conj_mul (c i)
      rw [RCLike.star_def]
      push_cast
      rw [← this]
      ring
    · intro b _ hb
      rw [Matrix.mulVec_smul, dotc_smul_left, dotc_smul_right, hg i b i.2 b.2,
        if_neg (fun h => hb (Fin.ext h.symm)), mul_zero, mul_zero]
    · intro h; exact absurd (Finset.mem_univ _) h
  have e2 : nrm2 (∑ j : Fin n, c j • Y j) ^ 2 = ∑ j, ‖c j‖ ^ 2 := by
    have h1 : dotc (∑ j : Fin n, c j • Y j) (∑ j : Fin n, c j • Y j) = ((∑ j, ‖c j‖ ^ 2 : ℝ) : K) := by
      rw [dotc_sum_left, RCLike.ofReal_sum]
      refine Finset.sum_congr rfl fun i _ => ?_
      rw [dotc_sum_right, Finset.sum_eq_single i]
      · rw [dotc_smul_left, dotc_smul_right, ho i i i.2 i.2, if_pos rfl]
        have := RCLike.conj_mul (c i)
        rw [RCLike.star_def]
        push_cast
        rw [← this]
        ring
      · intro b _ hb
        rw [dotc_smul_left, dotc_smul_right, ho i b i.2 b.2,
          if_neg (fun h => hb (Fin.ext h.symm)), mul_zero, mul_zero]
      · intro h; exact absurd (Finset.mem_univ _) h
    rw [dotc_self_nrm2, ← RCLike.ofReal_pow] at h1
    exact_mod_cast h1
  rw [e1, e2, RCLike.ofReal_re, Finset.mul_sum]
  exact Finset.sum_le_sum fun i _ => mul_le_mul_of_nonneg_right (hm i i.2) (sq_nonneg _)

end Verif
