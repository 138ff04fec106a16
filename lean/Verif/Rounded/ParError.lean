/-
Rounding errors of the distributed backend: kernels on the parts and reductions in any order of the additions make up
an arithmetic for global vectors that is accurate in the sense of Rounded/Error.
-/
import Verif.Rounded.ParRun
import Verif.Rounded.Residual

namespace Verif
namespace Rounded

open Matrix

/-! ### Specification -/

/-- `Sum F y s e x`: the element `x` is computed from the elements `y i`, `i` in `s`, by rounded additions in some order,
with at most `e` of them on the way from a summand to the result. -/
inductive Sum {K 𝕜 : Type*} [RCLike 𝕜] (F : Fl K 𝕜) {ι : Type*} (y : ι → K) : Multiset ι → ℕ → K → Prop
  | zero : Sum F y 0 0 F.zero
  | value (i) : Sum F y {i} 0 (y i)
  | add {s t d e a b} : Sum F y s d a → Sum F y t e b → Sum F y (s + t) (max d e + 1) (F.add a b)

namespace Par
open Mpi (Layout GSt assemble)

/-- The kernels of the residual computation work in the arithmetics `F` for elements and `FR` for reals.
`shiftMatrix` adds once per entry; every entry of a product of the parts is an inner product in some order of operations
of depth at most `d`; every entry of an update is a product and a sum; a reduction adds the contributions in some order
of depth at most `e`, which may be another for every entry; the sum of squares of a part has relative error at most `μ`;
the square root is rounded. -/
structure AccuratePar {K R 𝕜 : Type} [RCLike 𝕜] [Neg R] {N : ℕ} {r c : Layout N} (F : Fl K 𝕜) (FR : Fl R ℝ)
    (T : Red1 K R r c) (E : DEnv K R) (d e : ℕ) (μ : ℝ) : Prop where
  ofBase : ∀ x, F.val (E.kern.ofBase x) = (FR.val x : 𝕜)
  neg : ∀ x, FR.val (-x) = -FR.val x
  add : ∀ x y, E.kern.add x y = F.add x y
  gemmAdj : ∀ {b : ℕ} (p : Fin r.procs) (q : Fin c.procs) (H : Matrix (Fin (r.size p)) (Fin (c.size q)) K)
    (X : Matrix (Fin (r.size p)) (Fin b) K) (Y : Matrix (Fin (c.size q)) (Fin b) K) (i : Fin (c.size q)) (j : Fin b),
    ∃ d' ≤ d, Dot F (Finset.univ.val.map fun k => (F.conj (H k i), X k j)) d'
      (E.kern.gemmAdj H E.kern.one E.kern.zero X Y i j)
  axpy : ∀ {n : ℕ} (a : K) (x y : Fin n → K) (i : Fin n), ∃ d' ≤ 2, Dot F {(a, x i), (F.one, y i)} d' (E.kern.axpy a x y i)
  colK : ∀ {ι : Type} (x : Fin r.procs → ι → K) (t : ι), ∃ e' ≤ e,
    Sum F (fun i => x i t) Finset.univ.val e' (T.colK x t)
  rowR : ∀ {ι : Type} (x : Fin c.procs → ι → R) (t : ι), ∃ e' ≤ e,
    Sum FR (fun j => x j t) Finset.univ.val e' (T.rowR x t)
  normp2 : ∀ (q : Fin c.procs) (w : Fin (c.size q) → K), |FR.val (E.kern.normp2 w) - ∑ i, ‖F.val (w i)‖ ^ 2| ≤ μ * ∑ i, ‖F.val (w i)‖ ^ 2
  sqrt : ∀ x, 0 ≤ FR.val x → |FR.val (E.kern.sqrt x) - Real.sqrt (FR.val x)| ≤ FR.u * Real.sqrt (FR.val x)
  /-- no more than the result may be lost -/
  small : μ ≤ 1 ∧ FR.u ≤ 1

/-- The relative error of a norm. -/
def nu (u μ : ℝ) (e : ℕ) : ℝ := (1 + μ) * (1 + u) ^ (e + 1) - 1

/-! ### Sums -/

section
variable {K 𝕜 : Type*} [RCLike 𝕜] {F : Fl K 𝕜}

/-- A sum of inner products is an inner product. -/
theorem _root_.Verif.Rounded.Sum.dot {ι : Type*} {y : ι → K} {m : ι → Multiset (K × K)} {d : ℕ}
    (hy : ∀ i, ∃ d' ≤ d, Dot F (m i) d' (y i)) {s : Multiset ι} {e : ℕ} {x : K} (h : Sum F y s e x) :
    ∃ d' ≤ d + e, Dot F (s.map m).sum d' x := by
  induction h with
  | zero => exact ⟨0, by omega, by simpa using Dot.zero⟩
  | value i =>
    obtain ⟨d', h1, h2⟩ := hy i
    exact ⟨d', by omega, by simpa using h2⟩
  | add _ _ ih1 ih2 =>
    obtain ⟨d1, h1, g1⟩ := ih1
    obtain ⟨d2, h2, g2⟩ := ih2
    refine ⟨max d1 d2 + 1, by omega, ?_⟩
    rw [Multiset.map_add, Multiset.sum_add]
    exact g1.add g2

/-- **Error of a sum**, for every order of the additions. -/
theorem _root_.Verif.Rounded.Sum.error {ι : Type*} [Fintype ι] {y : ι → K} {e n : ℕ} {x : K}
    (h : Sum F y Finset.univ.val e x) (he : e ≤ n) :
    ‖F.val x - ∑ i, F.val (y i)‖ ≤ gam F.u n * ∑ i, ‖F.val (y i)‖ := by
  obtain ⟨d', h1, h2⟩ := h.dot (m := fun i => {(F.one, y i)}) (d := 0) fun i => ⟨0, le_rfl, .value _⟩
  have key := h2.error_le (n := n) (by omega)
  have hm : ((Finset.univ.val : Multiset ι).map fun i => ({(F.one, y i)} : Multiset (K × K))).sum =
      Finset.univ.val.map fun i => (F.one, y i) := by
    have := Multiset.sum_map_singleton ((Finset.univ.val : Multiset ι).map fun i => (F.one, y i))
    rw [Multiset.map_map] at this
    exact this
  rw [hm] at key
  have es : F.sum (Finset.univ.val.map fun i => (F.one, y i)) = ∑ i, F.val (y i) := by
    unfold Fl.sum
    rw [Multiset.map_map, Finset.sum]
    simp [Function.comp_def, F.val_one]
  have ea : F.abs (Finset.univ.val.map fun i => (F.one, y i)) = ∑ i, ‖F.val (y i)‖ := by
    unfold Fl.abs
    rw [Multiset.map_map, Finset.sum]
    simp [Function.comp_def, F.val_one]
  rw [es, ea] at key
  exact key

/-- A sum of numbers that are not negative is not negative. -/
theorem _root_.Verif.Rounded.Sum.nonneg {R : Type*} {FR : Fl R ℝ} (hu : FR.u ≤ 1) {ι : Type*} {y : ι → R}
    (hy : ∀ i, 0 ≤ FR.val (y i)) {s : Multiset ι} {e : ℕ} {x : R} (h : Sum FR y s e x) : 0 ≤ FR.val x := by
  induction h with
  | zero => exact FR.val_zero.ge
  | value i => exact hy i
  | @add _ _ _ _ a b _ _ ih1 ih2 =>
    have h1 := FR.add_err a b
    rw [Real.norm_eq_abs, Real.norm_eq_abs, abs_of_nonneg (add_nonneg ih1 ih2)] at h1
    have h2 := (abs_le.mp h1).1
    nlinarith

end

/-- The square root halves relative errors, at least it does not enlarge them. -/
theorem sqrt_error {X S η : ℝ} (hX : 0 ≤ X) (hS : 0 ≤ S) (hη : 0 ≤ η) (h : |X - S| ≤ η * S) :
    |Real.sqrt X - Real.sqrt S| ≤ η * Real.sqrt S := by
  have a := Real.sqrt_nonneg X
  have b := Real.sqrt_nonneg S
  have e1 := Real.mul_self_sqrt hX
  have e2 := Real.mul_self_sqrt hS
  have hp : |Real.sqrt X - Real.sqrt S| * (Real.sqrt X + Real.sqrt S) ≤ η * Real.sqrt S * (Real.sqrt X + Real.sqrt S) := by
    have : |Real.sqrt X - Real.sqrt S| * (Real.sqrt X + Real.sqrt S) = |X - S| := by
      have h1 : Real.sqrt X + Real.sqrt S = |Real.sqrt X + Real.sqrt S| := (abs_of_nonneg (add_nonneg a b)).symm
      rw [h1, ← abs_mul]
      congr 1
      nlinarith
    rw [this]
    have : η * Real.sqrt S * Real.sqrt X ≥ 0 := by positivity
    nlinarith
  rcases (add_nonneg a b).lt_or_eq with h0 | h0
  · exact le_of_mul_le_mul_right hp h0
  · have h1 : Real.sqrt X = 0 := by linarith
    have h2 : Real.sqrt S = 0 := by linarith
    rw [h1, h2]
    simp

section
variable {K R 𝕜 : Type} [RCLike 𝕜] [Neg R] {N : ℕ} {r c : Layout N} {F : Fl K 𝕜} {FR : Fl R ℝ}
  {T : Red1 K R r c} {E : DEnv K R} {d e : ℕ} {μ : ℝ}

/-- The multiset of a function is put together from the parts of a layout. -/
theorem parts_map (L : Layout N) {X : Type*} (f : Fin N → X) :
    ((Finset.univ.val : Multiset (Fin L.procs)).map fun p => (Finset.univ.val.map fun a => f (L.glob p a))).sum =
      Finset.univ.val.map f := by
  have hs : ∀ {ι : Type} [Fintype ι] (g : ι → X), Finset.univ.val.map g = ∑ i, ({g i} : Multiset X) := by
    intro ι _ g
    rw [Finset.sum]
    have := Multiset.sum_map_singleton ((Finset.univ.val : Multiset ι).map g)
    rw [Multiset.map_map] at this
    exact this.symm
  rw [hs f, ← L.sum_glob, Finset.sum]
  congr 1
  refine Multiset.map_congr rfl fun p _ => hs _

/-- **Error of the norms**: the norms of several distributed vectors, reduced together. -/
theorem norms_error (hA : AccuratePar F FR T E d e μ) (hμ : 0 ≤ μ) {b : ℕ} (w : Fin b → Fin N → K) (t : Fin b) :
    |FR.val (E.kern.sqrt (T.rowR (fun q t => E.kern.normp2 (cutV c q (w t))) t)) - Verif.nrm2 (valV F (w t))| ≤
      nu FR.u μ e * Verif.nrm2 (valV F (w t)) := by
  have hu := FR.u_nonneg
  set S : ℝ := ∑ i, ‖F.val (w t i)‖ ^ 2 with hS
  set Sq : Fin c.procs → ℝ := fun q => ∑ a, ‖F.val (cutV c q (w t) a)‖ ^ 2 with hSq
  have hSum : ∑ q, Sq q = S := c.sum_glob fun n => ‖F.val (w t n)‖ ^ 2
  have hSq0 : ∀ q, 0 ≤ Sq q := fun q => Finset.sum_nonneg fun _ _ => sq_nonneg _
  have hS0 : 0 ≤ S := Finset.sum_nonneg fun _ _ => sq_nonneg _
  set y : Fin c.procs → R := fun q => E.kern.normp2 (cutV c q (w t)) with hy
  have hyS : ∀ q, |FR.val (y q) - Sq q| ≤ μ * Sq q := fun q => hA.normp2 q _
  have hy0 : ∀ q, 0 ≤ FR.val (y q) := by
    intro q
    have h1 := (abs_le.mp (hyS q)).1
    have h2 := hA.small.1
    nlinarith [hSq0 q]
  set ρ := T.rowR (fun q t => E.kern.normp2 (cutV c q (w t))) t with hρ
  obtain ⟨e', he', hsum⟩ := hA.rowR (fun q t => E.kern.normp2 (cutV c q (w t))) t
  have hX0 : 0 ≤ FR.val ρ := hsum.nonneg hA.small.2 hy0
  have h1 := hsum.error he'
  rw [Real.norm_eq_abs] at h1
  have h2 : |∑ q, FR.val (y q) - S| ≤ μ * S := by
    rw [← hSum, ← Finset.sum_sub_distrib, Finset.mul_sum]
    exact (Finset.abs_sum_le_sum_abs _ _).trans (Finset.sum_le_sum fun q _ => hyS q)
  have h3 : ∑ q, ‖FR.val (y q)‖ ≤ (1 + μ) * S := by
    rw [← hSum, Finset.mul_sum]
    refine Finset.sum_le_sum fun q _ => ?_
    rw [Real.norm_eq_abs, abs_of_nonneg (hy0 q)]
    linarith [(abs_le.mp (hyS q)).2]
  set η : ℝ := (1 + μ) * (1 + FR.u) ^ e - 1 with hη
  have hp : 1 ≤ (1 + FR.u) ^ e := one_le_pow₀ (by linarith)
  have hη0 : 0 ≤ η := by nlinarith
  have h4 : |FR.val ρ - S| ≤ η * S := by
    calc |FR.val ρ - S| = |(FR.val ρ - ∑ q, FR.val (y q)) + (∑ q, FR.val (y q) - S)| := by congr 1; ring
      _ ≤ gam FR.u e * ((1 + μ) * S) + μ * S :=
          (abs_add_le _ _).trans (add_le_add (h1.trans (mul_le_mul_of_nonneg_left h3 (gam_nonneg hu e))) h2)
      _ = η * S := by unfold gam; rw [hη]; ring
  have h5 := sqrt_error hX0 hS0 hη0 h4
  have h6 := hA.sqrt ρ hX0
  have hn : Verif.nrm2 (valV F (w t)) = Real.sqrt S := rfl
  rw [hn]
  have h7 : Real.sqrt (FR.val ρ) ≤ (1 + η) * Real.sqrt S := by linarith [(abs_le.mp h5).2]
  calc |FR.val (E.kern.sqrt ρ) - Real.sqrt S|
      = |(FR.val (E.kern.sqrt ρ) - Real.sqrt (FR.val ρ)) + (Real.sqrt (FR.val ρ) - Real.sqrt S)| := by congr 1; ring
    _ ≤ FR.u * Real.sqrt (FR.val ρ) + η * Real.sqrt S := (abs_add_le _ _).trans (add_le_add h6 h5)
    _ ≤ FR.u * ((1 + η) * Real.sqrt S) + η * Real.sqrt S := by
        have := mul_le_mul_of_nonneg_left h7 hu
        linarith
    _ = nu FR.u μ e * Real.sqrt S := by unfold nu; rw [hη, pow_succ]; ring

variable [Zero R] in
/-- **The processes together compute accurately**: products have the depth of the local products plus that of the
reduction. -/
theorem accurate (hA : AccuratePar F FR T E d e μ) (hμ : 0 ≤ μ) :
    Accurate F FR.val (distArith T E) (d + e) (nu FR.u μ e) where
  ofBase := hA.ofBase
  neg := hA.neg
  add := hA.add
  gemm := by
    intro b H X Y n k
    obtain ⟨j, a, rfl⟩ := c.exists_glob n
    have e1 : (distArith T E).gemm true H (distArith T E).one (distArith T E).zero X Y (c.glob j a) k =
        T.colK (fun i => flat (E.kern.gemmAdj (cutH r c i j H) E.kern.one E.kern.zero (cutM r i X) (cutM c j Y))) (a, k) := by
      show mulAdj T E H E.kern.one E.kern.zero X Y (c.glob j a) k = _
      unfold mulAdj joinM
      rw [Mpi.assemble_apply]
      simp only [ite_self]
      rfl
    rw [e1]
    obtain ⟨e', he', hsum⟩ := hA.colK
      (fun i => flat (E.kern.gemmAdj (cutH r c i j H) E.kern.one E.kern.zero (cutM r i X) (cutM c j Y))) (a, k)
    obtain ⟨d', h1, h2⟩ := hsum.dot (m := fun i => Finset.univ.val.map fun q =>
        (F.conj (H (r.glob i q) (c.glob j a)), X (r.glob i q) k)) (d := d)
      fun i => hA.gemmAdj i j (cutH r c i j H) (cutM r i X) (cutM c j Y) a k
    rw [parts_map r fun n => (F.conj (H n (c.glob j a)), X n k)] at h2
    exact ⟨d', by omega, h2⟩
  axpy := by
    intro α x y n
    obtain ⟨j, a, rfl⟩ := c.exists_glob n
    have e1 : (distArith T E).axpy α x y (c.glob j a) = E.kern.axpy α (cutV c j x) (cutV c j y) a :=
      Mpi.assemble_apply c (fun j => E.kern.axpy α (cutV c j x) (cutV c j y)) j a
    rw [e1]
    exact hA.axpy α (cutV c j x) (cutV c j y) a
  nrm2 := fun w => norms_error hA hμ (fun _ : Fin 1 => w) 0

end
end Par
end Rounded
end Verif
