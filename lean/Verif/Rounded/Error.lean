/-
Rounding errors of the residual computation and of the shifts, in the standard model of floating-point arithmetic:
every operation returns the exact result with a relative error of at most `u`.  Overflow and underflow are not
modelled.
-/
import Verif.Rounded.Run
import Verif.Backend.Spectral

namespace Verif
namespace Rounded

open Matrix

/-! ### Specification -/

/-- Floating-point elements `K` that stand for numbers of `𝕜`, with operations that round: each returns the exact result
with relative error at most `u`. -/
structure Fl (K 𝕜 : Type*) [RCLike 𝕜] where
  val : K → 𝕜
  u : ℝ
  one : K
  add : K → K → K
  mul : K → K → K
  fma : K → K → K → K
  conj : K → K
  zero : K
  u_nonneg : 0 ≤ u
  val_zero : val zero = 0
  val_one : val one = 1
  val_conj : ∀ x, val (conj x) = star (val x)
  add_err : ∀ x y, ‖val (add x y) - (val x + val y)‖ ≤ u * ‖val x + val y‖
  mul_err : ∀ x y, ‖val (mul x y) - val x * val y‖ ≤ u * ‖val x * val y‖
  fma_err : ∀ x y z, ‖val (fma x y z) - (val x * val y + val z)‖ ≤ u * ‖val x * val y + val z‖

/-- `Dot F s d x`: the element `x` is computed from the products of the pairs in `s` by rounded operations, in some
order, with at most `d` of them on the way from a product to the result.  A pair with first component `one` may be used
without a multiplication. -/
inductive Dot {K 𝕜 : Type*} [RCLike 𝕜] (F : Fl K 𝕜) : Multiset (K × K) → ℕ → K → Prop
  | zero : Dot F 0 0 F.zero
  | value (y) : Dot F {(F.one, y)} 0 y
  | prod (a b) : Dot F {(a, b)} 1 (F.mul a b)
  | add {s t d e x y} : Dot F s d x → Dot F t e y → Dot F (s + t) (max d e + 1) (F.add x y)
  | fma {s d x} (a b) : Dot F s d x → Dot F ({(a, b)} + s) (d + 1) (F.fma a b x)

/-- The kernels of the residual computation work in the arithmetic `F`: `shiftMatrix` adds once per entry; every entry
of the product is an inner product in some order of operations of depth at most `d` (any blocking, vectorisation or
fused operations); every entry of the update is a product and a sum; the norm has relative error at most `ν`. -/
structure Accurate {K 𝕜 R : Type*} [RCLike 𝕜] [Neg R] {N : ℕ} (F : Fl K 𝕜) (valR : R → ℝ) (A : Arith K R N) (d : ℕ)
    (ν : ℝ) : Prop where
  ofBase : ∀ x, F.val (A.ofBase x) = (valR x : 𝕜)
  neg : ∀ x, valR (-x) = -valR x
  add : ∀ x y, A.add x y = F.add x y
  gemm : ∀ {b : ℕ} (H : Matrix (Fin N) (Fin N) K) (X Y : Matrix (Fin N) (Fin b) K) (i : Fin N) (j : Fin b),
    ∃ d' ≤ d, Dot F (Finset.univ.val.map fun k => (F.conj (H k i), X k j)) d' (A.gemm true H A.one A.zero X Y i j)
  axpy : ∀ a x y i, ∃ d' ≤ 2, Dot F {(a, x i), (F.one, y i)} d' (A.axpy a x y i)
  nrm2 : ∀ w, |valR (A.nrm2 w) - Verif.nrm2 (fun i => F.val (w i))| ≤ ν * Verif.nrm2 (fun i => F.val (w i))

/-- Frobenius norm. -/
noncomputable def frob {𝕜 : Type*} [RCLike 𝕜] {N : ℕ} (H : Matrix (Fin N) (Fin N) 𝕜) : ℝ :=
  Real.sqrt (∑ i, ∑ j, ‖H i j‖ ^ 2)

/-! ### Inner products -/

section
variable {K 𝕜 R : Type*} [RCLike 𝕜] {N : ℕ} {F : Fl K 𝕜}

/-- the exact value of an inner product, and the sum of the absolute values -/
def Fl.sum (F : Fl K 𝕜) (s : Multiset (K × K)) : 𝕜 := (s.map fun p => F.val p.1 * F.val p.2).sum
def Fl.abs (F : Fl K 𝕜) (s : Multiset (K × K)) : ℝ := (s.map fun p => ‖F.val p.1‖ * ‖F.val p.2‖).sum

theorem Fl.norm_sum_le (F : Fl K 𝕜) (s : Multiset (K × K)) : ‖F.sum s‖ ≤ F.abs s := by
  induction s using Multiset.induction_on with
  | empty => simp [Fl.sum, Fl.abs]
  | cons p s ih =>
    unfold Fl.sum Fl.abs at *
    rw [Multiset.map_cons, Multiset.sum_cons, Multiset.map_cons, Multiset.sum_cons]
    refine (norm_add_le _ _).trans (add_le_add ?_ ih)
    rw [norm_mul]

theorem Fl.abs_nonneg (F : Fl K 𝕜) (s : Multiset (K × K)) : 0 ≤ F.abs s := (norm_nonneg _).trans (F.norm_sum_le s)

/-- one rounded operation on values with known errors -/
theorem round_step {u e S : ℝ} {x m z : 𝕜} {n : ℕ} (hu : 0 ≤ u) (hx : ‖z - x‖ ≤ u * ‖x‖) (hm : ‖m‖ ≤ S)
    (he : ‖x - m‖ ≤ e) (hS : e ≤ ((1 + u) ^ n - 1) * S) : ‖z - m‖ ≤ ((1 + u) ^ (n + 1) - 1) * S := by
  have h1 : ‖x‖ ≤ S + e := by
    calc ‖x‖ = ‖m + (x - m)‖ := by congr 1; ring
      _ ≤ _ := (norm_add_le _ _).trans (add_le_add hm he)
  have h2 : ‖z - m‖ ≤ u * ‖x‖ + e := by
    calc ‖z - m‖ = ‖(z - x) + (x - m)‖ := by congr 1; ring
      _ ≤ _ := (norm_add_le _ _).trans (add_le_add hx he)
  have h3 : u * ‖x‖ ≤ u * (S + e) := mul_le_mul_of_nonneg_left h1 hu
  have h4 : (1 + u) * (S + e) ≤ (1 + u) * ((1 + u) ^ n * S) :=
    mul_le_mul_of_nonneg_left (by linarith) (by linarith)
  rw [pow_succ]
  nlinarith

/-- **Error of an inner product**, for every order of the operations. -/
theorem Dot.error {s : Multiset (K × K)} {d : ℕ} {x : K} (h : Dot F s d x) :
    ‖F.val x - F.sum s‖ ≤ ((1 + F.u) ^ d - 1) * F.abs s := by
  have hu := F.u_nonneg
  induction h with
  | zero => simp [Fl.sum, Fl.abs, F.val_zero]
  | value y => simp [Fl.sum, Fl.abs, F.val_one]
  | prod a b =>
    have := F.mul_err a b
    rw [norm_mul] at this
    simpa [Fl.sum, Fl.abs] using this
  | @add s t d e x y _ _ ih1 ih2 =>
    have es : F.sum (s + t) = F.sum s + F.sum t := by simp [Fl.sum]
    have ea : F.abs (s + t) = F.abs s + F.abs t := by simp [Fl.abs]
    have mono : ∀ k, k ≤ max d e → (1 + F.u) ^ k ≤ (1 + F.u) ^ max d e := fun k hk =>
      pow_le_pow_right₀ (by linarith) hk
    refine round_step (n := max d e) hu (F.add_err x y) (F.norm_sum_le _)
      (e := ((1 + F.u) ^ d - 1) * F.abs s + ((1 + F.u) ^ e - 1) * F.abs t) ?_ ?_
    · rw [es]
      calc ‖F.val x + F.val y - (F.sum s + F.sum t)‖ = ‖(F.val x - F.sum s) + (F.val y - F.sum t)‖ := by
            congr 1; ring
        _ ≤ _ := (norm_add_le _ _).trans (add_le_add ih1 ih2)
    · rw [ea, mul_add]
      exact add_le_add
        (mul_le_mul_of_nonneg_right (by linarith [mono d (le_max_left _ _)]) (F.abs_nonneg _))
        (mul_le_mul_of_nonneg_right (by linarith [mono e (le_max_right _ _)]) (F.abs_nonneg _))
  | @fma s d x a b _ ih =>
    have es : F.sum ({(a, b)} + s) = F.val a * F.val b + F.sum s := by simp [Fl.sum]
    have ea : F.abs ({(a, b)} + s) = ‖F.val a‖ * ‖F.val b‖ + F.abs s := by simp [Fl.abs]
    refine round_step (n := d) hu (F.fma_err a b x) (F.norm_sum_le _) (e := ((1 + F.u) ^ d - 1) * F.abs s) ?_ ?_
    · rw [es]
      calc ‖F.val a * F.val b + F.val x - (F.val a * F.val b + F.sum s)‖ = ‖F.val x - F.sum s‖ := by
            congr 1; ring
        _ ≤ _ := ih
    · refine mul_le_mul_of_nonneg_left ?_ (by linarith [one_le_pow₀ (n := d) (a := 1 + F.u) (by linarith)])
      rw [ea]
      have : 0 ≤ ‖F.val a‖ * ‖F.val b‖ := by positivity
      linarith

theorem Dot.error_le {s : Multiset (K × K)} {d n : ℕ} {x : K} (h : Dot F s d x) (hd : d ≤ n) :
    ‖F.val x - F.sum s‖ ≤ ((1 + F.u) ^ n - 1) * F.abs s := by
  have hu := F.u_nonneg
  refine h.error.trans (mul_le_mul_of_nonneg_right ?_ (F.abs_nonneg _))
  linarith [pow_le_pow_right₀ (a := 1 + F.u) (by linarith) hd]

/-! ### Norms -/

theorem nrm2_eq_norm (x : Fin N → 𝕜) : Verif.nrm2 x = ‖WithLp.toLp 2 x‖ := by
  rw [EuclideanSpace.norm_eq]
  rfl

theorem nrm2_add_le (x y : Fin N → 𝕜) : Verif.nrm2 (x + y) ≤ Verif.nrm2 x + Verif.nrm2 y := by
  rw [nrm2_eq_norm, nrm2_eq_norm, nrm2_eq_norm, WithLp.toLp_add]
  exact norm_add_le _ _

theorem nrm2_sub_le (x y : Fin N → 𝕜) : |Verif.nrm2 x - Verif.nrm2 y| ≤ Verif.nrm2 (x - y) := by
  rw [nrm2_eq_norm, nrm2_eq_norm, nrm2_eq_norm, WithLp.toLp_sub]
  exact abs_norm_sub_norm_le _ _

theorem nrm2_smul (a : 𝕜) (x : Fin N → 𝕜) : Verif.nrm2 (a • x) = ‖a‖ * Verif.nrm2 x := by
  rw [nrm2_eq_norm, nrm2_eq_norm, WithLp.toLp_smul, norm_smul]

theorem nrm2_le {𝕜' : Type*} [RCLike 𝕜'] {x : Fin N → 𝕜} {y : Fin N → 𝕜'} (h : ∀ i, ‖x i‖ ≤ ‖y i‖) :
    Verif.nrm2 x ≤ Verif.nrm2 y := by
  unfold Verif.nrm2
  refine Real.sqrt_le_sqrt (Finset.sum_le_sum fun i _ => ?_)
  have := h i
  have := norm_nonneg (x i)
  nlinarith

theorem frob_nonneg (H : Matrix (Fin N) (Fin N) 𝕜) : 0 ≤ frob H := Real.sqrt_nonneg _

theorem norm_le_frob (H : Matrix (Fin N) (Fin N) 𝕜) (i j : Fin N) : ‖H i j‖ ≤ frob H := by
  unfold frob
  rw [← Real.sqrt_sq (norm_nonneg (H i j))]
  refine Real.sqrt_le_sqrt ?_
  calc ‖H i j‖ ^ 2 ≤ ∑ j, ‖H i j‖ ^ 2 :=
        Finset.single_le_sum (f := fun j => ‖H i j‖ ^ 2) (fun _ _ => sq_nonneg _) (Finset.mem_univ j)
    _ ≤ _ := Finset.single_le_sum (f := fun i => ∑ j, ‖H i j‖ ^ 2)
        (fun _ _ => Finset.sum_nonneg fun _ _ => sq_nonneg _) (Finset.mem_univ i)

/-- the product of the absolute values -/
theorem nrm2_abs_mul_le (H : Matrix (Fin N) (Fin N) 𝕜) (v : Fin N → 𝕜) :
    Verif.nrm2 (fun i => ∑ k, ‖H k i‖ * ‖v k‖ : Fin N → ℝ) ≤ frob H * Verif.nrm2 v := by
  have h : (∑ i, ‖∑ k, ‖H k i‖ * ‖v k‖‖ ^ 2 : ℝ) ≤ (∑ i, ∑ j, ‖H i j‖ ^ 2) * ∑ k, ‖v k‖ ^ 2 := by
    rw [Finset.sum_comm, Finset.sum_mul]
    refine Finset.sum_le_sum fun i _ => ?_
    rw [Real.norm_eq_abs, sq_abs]
    exact Finset.sum_mul_sq_le_sq_mul_sq ..
  unfold Verif.nrm2 frob
  rw [← Real.sqrt_mul (Finset.sum_nonneg fun _ _ => Finset.sum_nonneg fun _ _ => sq_nonneg _)]
  exact Real.sqrt_le_sqrt h

end
end Rounded
end Verif
