/-
The error of a computed residual and the drift of the matrix.
-/
import Verif.Rounded.Error

set_option linter.unusedSectionVars false

namespace Verif
namespace Rounded

open Matrix

variable {K 𝕜 R : Type*} [RCLike 𝕜] {N : ℕ} {F : Fl K 𝕜}

/-- The matrix of exact values. -/
def valM (F : Fl K 𝕜) (H : Matrix (Fin N) (Fin N) K) : Matrix (Fin N) (Fin N) 𝕜 := fun i j => F.val (H i j)

/-- The vector of exact values. -/
def valV (F : Fl K 𝕜) (v : Fin N → K) : Fin N → 𝕜 := fun i => F.val (v i)

/-- `(1 + u)^n - 1`, the relative error of `n` rounded operations. -/
def gam (u : ℝ) (n : ℕ) : ℝ := (1 + u) ^ n - 1

theorem gam_nonneg {u : ℝ} (hu : 0 ≤ u) (n : ℕ) : 0 ≤ gam u n := by
  unfold gam
  linarith [one_le_pow₀ (n := n) (a := 1 + u) (by linarith)]

theorem gam_mono {u : ℝ} (hu : 0 ≤ u) {m n : ℕ} (h : m ≤ n) : gam u m ≤ gam u n := by
  unfold gam
  linarith [pow_le_pow_right₀ (a := 1 + u) (by linarith) h]

/-- The difference between the computed and the exact residual vector, entry by entry. -/
theorem residual_entry [Neg R] {valR : R → ℝ} {A : Arith K R N} {d : ℕ} {ν : ℝ} (hA : Accurate F valR A d ν)
    {H0 H : Matrix (Fin N) (Fin N) K} {D : ℝ} (hoff : ∀ i j, i ≠ j → F.val (H i j) = F.val (H0 i j))
    (hdiag : ∀ i, ‖F.val (H i i) - F.val (H0 i i)‖ ≤ D) (x : R) {b : ℕ} (X Y : Matrix (Fin N) (Fin b) K) (j : Fin b)
    (i : Fin N) :
    ‖F.val (A.axpy (A.ofBase (-x)) (fun i => X i j) (fun i => A.gemm true H A.one A.zero X Y i j) i) -
      ((valM F H0)ᴴ.mulVec (fun i => F.val (X i j)) - (valR x : 𝕜) • fun i => F.val (X i j)) i‖ ≤
    gam F.u (d + 2) * (∑ k, ‖F.val (H0 k i)‖ * ‖F.val (X k j)‖) +
      (gam F.u (d + 2) * (D + |valR x|) + D) * ‖F.val (X i j)‖ := by
  set v : Fin N → 𝕜 := fun i => F.val (X i j) with hv
  set w := A.gemm true H A.one A.zero X Y i j with hw
  set r := A.axpy (A.ofBase (-x)) (fun i => X i j) (fun i => A.gemm true H A.one A.zero X Y i j) i with hr
  set S0 : ℝ := ∑ k, ‖F.val (H0 k i)‖ * ‖v k‖ with hS0
  set S : ℝ := ∑ k, ‖F.val (H k i)‖ * ‖v k‖ with hS
  set p : 𝕜 := ∑ k, star (F.val (H k i)) * v k with hp
  set p0 : 𝕜 := ∑ k, star (F.val (H0 k i)) * v k with hp0
  have hu := F.u_nonneg
  have hD : 0 ≤ D := (norm_nonneg _).trans (hdiag i)
  -- the product
  obtain ⟨d1, hd1, h1⟩ := hA.gemm H X Y i j
  have e1 := h1.error_le hd1
  have es1 : F.sum (Finset.univ.val.map fun k => (F.conj (H k i), X k j)) = p := by
    unfold Fl.sum
    rw [Multiset.map_map, hp, Finset.sum]
    simp only [Function.comp_def, F.val_conj, hv]
  have ea1 : F.abs (Finset.univ.val.map fun k => (F.conj (H k i), X k j)) = S := by
    unfold Fl.abs
    rw [Multiset.map_map, hS, Finset.sum]
    simp only [Function.comp_def, F.val_conj, hv, norm_star]
  rw [es1, ea1, ← hw] at e1
  -- the update
  obtain ⟨d2, hd2, h2⟩ := hA.axpy (A.ofBase (-x)) (fun i => X i j) (fun i => A.gemm true H A.one A.zero X Y i j) i
  have e2 := h2.error_le hd2
  have eneg : F.val (A.ofBase (-x)) = -(valR x : 𝕜) := by rw [hA.ofBase, hA.neg]; push_cast; rfl
  have es2 : F.sum {(A.ofBase (-x), X i j), (F.one, w)} = -(valR x : 𝕜) * v i + F.val w := by
    simp [Fl.sum, F.val_one, eneg, hv]
  have ea2 : F.abs {(A.ofBase (-x), X i j), (F.one, w)} = |valR x| * ‖v i‖ + ‖F.val w‖ := by
    simp [Fl.abs, F.val_one, eneg, hv]
  rw [← hr] at e2
  rw [es2, ea2] at e2
  -- the matrix
  have hpp : ‖p - p0‖ ≤ D * ‖v i‖ := by
    have : p - p0 = star (F.val (H i i) - F.val (H0 i i)) * v i := by
      rw [hp, hp0, ← Finset.sum_sub_distrib, Finset.sum_eq_single i]
      · rw [star_sub]; ring
      · intro k _ hk
        rw [hoff k i hk, sub_self]
      · intro h; exact absurd (Finset.mem_univ i) h
    rw [this, norm_mul, norm_star]
    exact mul_le_mul_of_nonneg_right (hdiag i) (norm_nonneg _)
  have hSS : S ≤ S0 + D * ‖v i‖ := by
    have : S - S0 = (‖F.val (H i i)‖ - ‖F.val (H0 i i)‖) * ‖v i‖ := by
      rw [hS, hS0, ← Finset.sum_sub_distrib, Finset.sum_eq_single i]
      · ring
      · intro k _ hk
        rw [hoff k i hk, sub_self]
      · intro h; exact absurd (Finset.mem_univ i) h
    have h3 : (‖F.val (H i i)‖ - ‖F.val (H0 i i)‖) * ‖v i‖ ≤ D * ‖v i‖ :=
      mul_le_mul_of_nonneg_right ((norm_sub_norm_le _ _).trans (hdiag i)) (norm_nonneg _)
    linarith
  have hpS : ‖p‖ ≤ S := by
    rw [hp, hS]
    refine (norm_sum_le _ _).trans (Finset.sum_le_sum fun k _ => ?_)
    rw [norm_mul, norm_star]
  have hwS : ‖F.val w‖ ≤ (1 + F.u) ^ d * S := by
    calc ‖F.val w‖ = ‖(F.val w - p) + p‖ := by congr 1; ring
      _ ≤ _ := (norm_add_le _ _).trans (add_le_add e1 hpS)
      _ = _ := by ring
  have hexact : ((valM F H0)ᴴ.mulVec v - (valR x : 𝕜) • v) i = p0 - (valR x : 𝕜) * v i := by
    rfl
  rw [hexact]
  have hS0n : 0 ≤ S := (norm_nonneg _).trans hpS
  have hv0 := norm_nonneg (v i)
  have g2 : 0 ≤ (1 + F.u) ^ 2 - 1 := gam_nonneg hu 2
  have tri : ‖F.val r - (p0 - (valR x : 𝕜) * v i)‖ ≤
      ((1 + F.u) ^ 2 - 1) * (|valR x| * ‖v i‖ + ‖F.val w‖) + ((1 + F.u) ^ d - 1) * S + D * ‖v i‖ := by
    calc ‖F.val r - (p0 - (valR x : 𝕜) * v i)‖
        = ‖(F.val r - (-(valR x : 𝕜) * v i + F.val w)) + (F.val w - p) + (p - p0)‖ := by congr 1; ring
      _ ≤ _ := (norm_add_le _ _).trans (add_le_add ((norm_add_le _ _).trans (add_le_add e2 e1)) hpp)
  have hg : gam F.u (d + 2) = (1 + F.u) ^ d * (1 + F.u) ^ 2 - 1 := by unfold gam; rw [pow_add]
  have hg2 : (1 + F.u) ^ 2 - 1 ≤ gam F.u (d + 2) := gam_mono hu (by omega)
  have t1 : ((1 + F.u) ^ 2 - 1) * ‖F.val w‖ ≤ ((1 + F.u) ^ 2 - 1) * ((1 + F.u) ^ d * S) :=
    mul_le_mul_of_nonneg_left hwS g2
  have t2 : ((1 + F.u) ^ 2 - 1) * (|valR x| * ‖v i‖) ≤ gam F.u (d + 2) * (|valR x| * ‖v i‖) :=
    mul_le_mul_of_nonneg_right hg2 (by positivity)
  have t3 : gam F.u (d + 2) * S ≤ gam F.u (d + 2) * (S0 + D * ‖v i‖) :=
    mul_le_mul_of_nonneg_left hSS (gam_nonneg hu _)
  have t4 : ((1 + F.u) ^ 2 - 1) * ((1 + F.u) ^ d * S) + ((1 + F.u) ^ d - 1) * S = gam F.u (d + 2) * S := by
    rw [hg]; ring
  nlinarith [tri, t1, t2, t3, t4]

/-- The bound for the difference of the computed and the exact residual vector, relative to the norm of the vector:
`F` is the Frobenius norm of the matrix, `D` bounds the difference of the matrices, `x` is the value. -/
def bound (u : ℝ) (d : ℕ) (F D x : ℝ) : ℝ := gam u (d + 2) * (F + D + |x|) + D

/-- **Error of a computed residual**, from the error of its norm. -/
theorem computed_error [Neg R] {valR : R → ℝ} {A : Arith K R N} {d : ℕ} {ν ν' : ℝ} (hA : Accurate F valR A d ν')
    (hν : 0 ≤ ν) {H0 H : Matrix (Fin N) (Fin N) K} {D : ℝ} (hD : 0 ≤ D)
    (hoff : ∀ i j, i ≠ j → F.val (H i j) = F.val (H0 i j))
    (hdiag : ∀ i, ‖F.val (H i i) - F.val (H0 i i)‖ ≤ D) {x ρ : R} {v : Fin N → K} {b : ℕ}
    (X Y : Matrix (Fin N) (Fin b) K) (j : Fin b) (hX : (fun i => X i j) = v)
    (hρ : |valR ρ - Verif.nrm2 (valV F (A.axpy (A.ofBase (-x)) v fun i => A.gemm true H A.one A.zero X Y i j))| ≤
      ν * Verif.nrm2 (valV F (A.axpy (A.ofBase (-x)) v fun i => A.gemm true H A.one A.zero X Y i j))) :
    |valR ρ - Verif.nrm2 ((valM F H0)ᴴ.mulVec (valV F v) - (valR x : 𝕜) • valV F v)| ≤
      ν * Verif.nrm2 ((valM F H0)ᴴ.mulVec (valV F v) - (valR x : 𝕜) • valV F v) +
      (1 + ν) * (bound F.u d (frob (valM F H0)) D (valR x) * Verif.nrm2 (valV F v)) := by
  subst hX
  set v := fun i => X i j with hv
  set w := A.axpy (A.ofBase (-x)) v (fun i => A.gemm true H A.one A.zero X Y i j) with hw
  set e := (valM F H0)ᴴ.mulVec (valV F v) - (valR x : 𝕜) • valV F v with he
  have hu := F.u_nonneg
  set g := gam F.u (d + 2) with hg
  set c := g * (D + |valR x|) + D with hc
  have hc0 : 0 ≤ c := by
    have := gam_nonneg hu (d + 2)
    have := abs_nonneg (valR x)
    positivity
  have hdiff : Verif.nrm2 (valV F w - e) ≤ bound F.u d (frob (valM F H0)) D (valR x) * Verif.nrm2 (valV F v) := by
    have h1 : Verif.nrm2 (valV F w - e) ≤
        Verif.nrm2 (((g : ℝ) • fun i => ∑ k, ‖valM F H0 k i‖ * ‖valV F v k‖) + (c : ℝ) • fun i => ‖valV F v i‖ :
          Fin N → ℝ) := by
      refine nrm2_le fun i => ?_
      refine (residual_entry hA hoff hdiag x X Y j i).trans (le_of_eq ?_)
      rw [Real.norm_eq_abs]
      refine (abs_of_nonneg (a := g * (∑ k, ‖valM F H0 k i‖ * ‖valV F v k‖) + c * ‖valV F v i‖) ?_).symm
      · refine add_nonneg (mul_nonneg (gam_nonneg hu _) (Finset.sum_nonneg fun _ _ => by positivity)) ?_
        exact mul_nonneg hc0 (norm_nonneg _)
    have h2 := h1.trans (nrm2_add_le _ _)
    rw [nrm2_smul, nrm2_smul, Real.norm_eq_abs, Real.norm_eq_abs, abs_of_nonneg (gam_nonneg hu _),
      abs_of_nonneg hc0] at h2
    have h3 : Verif.nrm2 (fun i => ‖valV F v i‖ : Fin N → ℝ) = Verif.nrm2 (valV F v) := by
      unfold Verif.nrm2; simp
    have h4 := mul_le_mul_of_nonneg_left (nrm2_abs_mul_le (valM F H0) (valV F v)) (gam_nonneg hu (d + 2))
    rw [h3] at h2
    refine h2.trans ((add_le_add_left h4 _).trans (le_of_eq ?_))
    unfold bound
    rw [hc, hg]
    ring
  have h6 : |Verif.nrm2 (valV F w) - Verif.nrm2 e| ≤ _ := (nrm2_sub_le _ _).trans hdiff
  set T := bound F.u d (frob (valM F H0)) D (valR x) * Verif.nrm2 (valV F v) with hT
  have h7 : Verif.nrm2 (valV F w) ≤ Verif.nrm2 e + T := by linarith [(abs_le.mp h6).2]
  calc |valR ρ - Verif.nrm2 e|
      = |(valR ρ - Verif.nrm2 (valV F w)) + (Verif.nrm2 (valV F w) - Verif.nrm2 e)| := by congr 1; ring
    _ ≤ ν * Verif.nrm2 (valV F w) + T := (abs_add_le _ _).trans (add_le_add hρ h6)
    _ ≤ ν * (Verif.nrm2 e + T) + T := by
        have := mul_le_mul_of_nonneg_left h7 hν
        linarith
    _ = _ := by ring

/-- **Error of a measured residual.** -/
theorem measured_error [Neg R] {valR : R → ℝ} {A : Arith K R N} {d : ℕ} {ν : ℝ} (hA : Accurate F valR A d ν)
    (hν : 0 ≤ ν) {H0 H : Matrix (Fin N) (Fin N) K} {D : ℝ} (hD : 0 ≤ D)
    (hoff : ∀ i j, i ≠ j → F.val (H i j) = F.val (H0 i j))
    (hdiag : ∀ i, ‖F.val (H i i) - F.val (H0 i i)‖ ≤ D) {x ρ : R} {v : Fin N → K} (hm : Measured A H x v ρ) :
    |valR ρ - Verif.nrm2 ((valM F H0)ᴴ.mulVec (valV F v) - (valR x : 𝕜) • valV F v)| ≤
      ν * Verif.nrm2 ((valM F H0)ᴴ.mulVec (valV F v) - (valR x : 𝕜) • valV F v) +
      (1 + ν) * (bound F.u d (frob (valM F H0)) D (valR x) * Verif.nrm2 (valV F v)) := by
  obtain ⟨b, X, Y, j, hX, rfl⟩ := hm
  exact computed_error hA hν hD hoff hdiag X Y j hX (hA.nrm2 _)

/-! ### Drift -/

/-- One pair of shifts of one entry. -/
theorem drift_pair {C : ℝ} {h x y : K} {c : 𝕜} (hx : F.val x = -c) (hy : F.val y = c) (hc : ‖c‖ ≤ C) :
    ‖F.val (F.add (F.add h x) y) - F.val h‖ ≤ gam F.u 2 * (‖F.val h‖ + C) := by
  have hu := F.u_nonneg
  set h1 := F.add h x with hh1
  have e1 := F.add_err h x
  have e2 := F.add_err h1 y
  rw [← hh1, hx] at e1
  rw [hy] at e2
  have a1 : ‖F.val h + -c‖ ≤ ‖F.val h‖ + C := (norm_add_le _ _).trans (by rw [norm_neg]; linarith)
  have a2 : ‖F.val h1 + c‖ ≤ ‖F.val h‖ + F.u * (‖F.val h‖ + C) := by
    calc ‖F.val h1 + c‖ = ‖F.val h + (F.val h1 - (F.val h + -c))‖ := by congr 1; ring
      _ ≤ _ := (norm_add_le _ _).trans (add_le_add_right (e1.trans (mul_le_mul_of_nonneg_left a1 hu)) _)
  have a3 : ‖F.val (F.add h1 y) - F.val h‖ ≤ F.u * ‖F.val h1 + c‖ + F.u * ‖F.val h + -c‖ := by
    calc ‖F.val (F.add h1 y) - F.val h‖
        = ‖(F.val (F.add h1 y) - (F.val h1 + c)) + (F.val h1 - (F.val h + -c))‖ := by congr 1; ring
      _ ≤ _ := (norm_add_le _ _).trans (add_le_add e2 e1)
  have b1 := mul_le_mul_of_nonneg_left a1 hu
  have b2 := mul_le_mul_of_nonneg_left a2 hu
  have hC : 0 ≤ C := (norm_nonneg _).trans hc
  unfold gam
  nlinarith [mul_nonneg hu hC]

/-- **Drift of the matrix.**  After `n` pairs of shifts by numbers of absolute value at most `C`. -/
theorem drift_of [Neg R] {valR : R → ℝ} {A : Arith K R N} (hbase : ∀ x, F.val (A.ofBase x) = (valR x : 𝕜))
    (hneg : ∀ x, valR (-x) = -valR x) (hadd : ∀ x y, A.add x y = F.add x y) {C : ℝ}
    (H : Matrix (Fin N) (Fin N) K) (xs : List R) (hxs : ∀ x ∈ pairsOf xs, |valR x| ≤ C) :
    (∀ i j, i ≠ j → afterShifts A H (pairsOf xs) i j = H i j) ∧
    ∀ i, ‖F.val (afterShifts A H (pairsOf xs) i i) - F.val (H i i)‖ ≤
      gam F.u (2 * xs.length) * (‖F.val (H i i)‖ + C) := by
  have hu := F.u_nonneg
  induction xs using List.reverseRecOn with
  | nil => exact ⟨fun _ _ _ => rfl, fun i => by
      show ‖F.val (H i i) - F.val (H i i)‖ ≤ _
      simp [gam]⟩
  | append_singleton xs x ih =>
    have hx : pairsOf (xs ++ [x]) = pairsOf xs ++ [-x] ++ [x] := by simp [pairsOf]
    obtain ⟨ih1, ih2⟩ := ih fun y hy => hxs y (by rw [hx]; simp [hy])
    have hxC : |valR x| ≤ C := hxs x (by rw [hx]; simp)
    set G := afterShifts A H (pairsOf xs) with hG
    have hstep : afterShifts A H (pairsOf (xs ++ [x])) = fun i j =>
        if i = j then F.add (F.add (G i j) (A.ofBase (-x))) (A.ofBase x) else G i j := by
      rw [hx, afterShifts_append, afterShifts_append, shiftH_eq, shiftH_eq]
      funext i j
      simp only [hadd]
      split_ifs <;> rfl
    refine ⟨fun i j hij => ?_, fun i => ?_⟩
    · rw [hstep]
      show (if i = j then _ else G i j) = _
      rw [if_neg hij, ih1 i j hij]
    · rw [hstep]
      show ‖F.val (if i = i then _ else _) - _‖ ≤ _
      rw [if_pos rfl]
      have h1 := drift_pair (F := F) (h := G i i) (x := A.ofBase (-x)) (y := A.ofBase x) (c := (valR x : 𝕜)) (C := C)
        (by rw [hbase, hneg]; push_cast; rfl) (hbase x) (by rw [RCLike.norm_ofReal]; exact hxC)
      have h2 := ih2 i
      set e := ‖F.val (G i i) - F.val (H i i)‖ with he
      have h3 : ‖F.val (G i i)‖ ≤ ‖F.val (H i i)‖ + e := by
        calc ‖F.val (G i i)‖ = ‖F.val (H i i) + (F.val (G i i) - F.val (H i i))‖ := by congr 1; ring
          _ ≤ _ := norm_add_le _ _
      have h4 : ‖F.val (F.add (F.add (G i i) (A.ofBase (-x))) (A.ofBase x)) - F.val (H i i)‖ ≤
          gam F.u 2 * (‖F.val (G i i)‖ + C) + e := by
        calc _ = ‖(F.val (F.add (F.add (G i i) (A.ofBase (-x))) (A.ofBase x)) - F.val (G i i)) +
              (F.val (G i i) - F.val (H i i))‖ := by congr 1; ring
          _ ≤ _ := (norm_add_le _ _).trans (add_le_add h1 le_rfl)
      have h5 := mul_le_mul_of_nonneg_left h3 (gam_nonneg hu 2)
      have hp : (1 + F.u) ^ (2 * (xs ++ [x]).length) = (1 + F.u) ^ (2 * xs.length) * (1 + F.u) ^ 2 := by
        rw [← pow_add]; congr 1; simp; ring
      have h6 : (1 + F.u) ^ 2 * (e + (‖F.val (H i i)‖ + C)) ≤
          (1 + F.u) ^ 2 * ((1 + F.u) ^ (2 * xs.length) * (‖F.val (H i i)‖ + C)) := by
        refine mul_le_mul_of_nonneg_left ?_ (by positivity)
        unfold gam at h2
        linarith
      unfold gam at *
      rw [hp]
      nlinarith

theorem drift [Neg R] {valR : R → ℝ} {A : Arith K R N} {d : ℕ} {ν : ℝ} (hA : Accurate F valR A d ν) {C : ℝ}
    (H : Matrix (Fin N) (Fin N) K) (xs : List R) (hxs : ∀ x ∈ pairsOf xs, |valR x| ≤ C) :
    (∀ i j, i ≠ j → afterShifts A H (pairsOf xs) i j = H i j) ∧
    ∀ i, ‖F.val (afterShifts A H (pairsOf xs) i i) - F.val (H i i)‖ ≤
      gam F.u (2 * xs.length) * (‖F.val (H i i)‖ + C) :=
  drift_of hA.ofBase hA.neg hA.add H xs hxs

end Rounded
end Verif
