/-
Rounding errors of a filter call.
-/
import Verif.Rounded.Cheb
import Verif.Backend.FilterProps

set_option linter.unusedSectionVars false

namespace Verif
namespace Rounded

open Matrix Polynomial
open Seq (NextOp)

/-! ### Specification -/

/-- `H` or its adjoint. -/
def opM {𝕜 : Type*} [RCLike 𝕜] {N : ℕ} (adj : Bool) (H : Matrix (Fin N) (Fin N) 𝕜) : Matrix (Fin N) (Fin N) 𝕜 :=
  if adj then Hᴴ else H

/-- The operations of `Base<T>` have relative error at most `u`; `0`, `1`, `2` and the sign are exact. -/
structure RealAccurate {R : Type*} [Add R] [Sub R] [Mul R] [Div R] [Neg R] [Zero R] [One R] [NatCast R] (valR : R → ℝ)
    (u : ℝ) : Prop where
  neg : ∀ x, valR (-x) = -valR x
  zero : valR 0 = 0
  one : valR 1 = 1
  two : valR 2 = 2
  add : ∀ x y, |valR (x + y) - (valR x + valR y)| ≤ u * |valR x + valR y|
  sub : ∀ x y, |valR (x - y) - (valR x - valR y)| ≤ u * |valR x - valR y|
  mul : ∀ x y, |valR (x * y) - valR x * valR y| ≤ u * |valR x * valR y|
  div : ∀ x y, valR y ≠ 0 → |valR (x / y) - valR x / valR y| ≤ u * |valR x / valR y|

/-- The operations of a filter call work in the arithmetic `F`, the reals behind it with at least the same accuracy:
`shiftMatrix` adds once per entry; an entry of `α H X + β Y` or of `α H^* X + β Y` differs from the exact one by at most
`g (|α| ∑ |h| |x| + |β| |y|)`, which is so for the usual orders of rounded operations (`gemm_late`, `gemm_early`). -/
structure FilterAccurate {K 𝕜 R : Type*} [RCLike 𝕜] [Add R] [Sub R] [Mul R] [Div R] [Neg R] [Zero R] [One R] [NatCast R]
    {N : ℕ} (F : Fl K 𝕜) (valR : R → ℝ) (A : Arith K R N) (g : ℝ) : Prop where
  real : RealAccurate valR F.u
  ofBase : ∀ x, F.val (A.ofBase x) = (valR x : 𝕜)
  add : ∀ x y, A.add x y = F.add x y
  g_nonneg : 0 ≤ g
  gemm : ∀ {b : ℕ} (adj : Bool) (H : Matrix (Fin N) (Fin N) K) (α β : K) (X Y : Matrix (Fin N) (Fin b) K) (i : Fin N)
    (j : Fin b),
    ‖F.val (A.gemm adj H α β X Y i j) -
      (F.val α * ∑ k, opM adj (valM F H) i k * F.val (X k j) + F.val β * F.val (Y i j))‖ ≤
    g * (‖F.val α‖ * ∑ k, ‖opM adj (valM F H) i k‖ * ‖F.val (X k j)‖ + ‖F.val β‖ * ‖F.val (Y i j)‖)

/-- The same with less said on the products: each may be one with the matrix or with its adjoint, whichever was asked
for. -/
structure FilterKernels {K 𝕜 R : Type*} [RCLike 𝕜] [Add R] [Sub R] [Mul R] [Div R] [Neg R] [Zero R] [One R] [NatCast R]
    {N : ℕ} (F : Fl K 𝕜) (valR : R → ℝ) (A : Arith K R N) (g : ℝ) : Prop where
  real : RealAccurate valR F.u
  ofBase : ∀ x, F.val (A.ofBase x) = (valR x : 𝕜)
  add : ∀ x y, A.add x y = F.add x y
  g_nonneg : 0 ≤ g
  gemm : ∀ {b : ℕ} (adj : Bool) (H : Matrix (Fin N) (Fin N) K) (α β : K) (X Y : Matrix (Fin N) (Fin b) K),
    ∃ adj' : Bool, ∀ (i : Fin N) (j : Fin b),
    ‖F.val (A.gemm adj H α β X Y i j) -
      (F.val α * ∑ k, opM adj' (valM F H) i k * F.val (X k j) + F.val β * F.val (Y i j))‖ ≤
    g * (‖F.val α‖ * ∑ k, ‖opM adj' (valM F H) i k‖ * ‖F.val (X k j)‖ + ‖F.val β‖ * ‖F.val (Y i j)‖)

theorem FilterAccurate.kernels {K 𝕜 R : Type*} [RCLike 𝕜] [Add R] [Sub R] [Mul R] [Div R] [Neg R] [Zero R] [One R]
    [NatCast R] {N : ℕ} {F : Fl K 𝕜} {valR : R → ℝ} {A : Arith K R N} {g : ℝ} (h : FilterAccurate F valR A g) :
    FilterKernels F valR A g where
  real := h.real
  ofBase := h.ofBase
  add := h.add
  g_nonneg := h.g_nonneg
  gemm := fun adj H α β X Y => ⟨adj, fun i j => h.gemm adj H α β X Y i j⟩

section
variable {K 𝕜 : Type*} [RCLike 𝕜] {F : Fl K 𝕜} {N : ℕ}

/-- An inner product of depth `d`, multiplied by `α`. -/
theorem gemm_scaled {d d' : ℕ} (hd : d' ≤ d) {h x : Fin N → K} {α t : K}
    (ht : Dot F (Finset.univ.val.map fun k => (h k, x k)) d' t) :
    ‖F.val (F.mul α t) - F.val α * ∑ k, F.val (h k) * F.val (x k)‖ ≤
      gam F.u (d + 1) * (‖F.val α‖ * ∑ k, ‖F.val (h k)‖ * ‖F.val (x k)‖) := by
  have hu := F.u_nonneg
  have e1 : F.sum (Finset.univ.val.map fun k => (h k, x k)) = ∑ k, F.val (h k) * F.val (x k) := by
    simp [Fl.sum, Finset.sum]
    rfl
  have e2 : F.abs (Finset.univ.val.map fun k => (h k, x k)) = ∑ k, ‖F.val (h k)‖ * ‖F.val (x k)‖ := by
    simp [Fl.abs, Finset.sum]
    rfl
  have h1 := ht.error_le hd
  have h2 := F.norm_sum_le (Finset.univ.val.map fun k => (h k, x k))
  rw [e1, e2] at h1 h2
  refine round_step hu (F.mul_err α t) ?_
    (e := ‖F.val α‖ * (((1 + F.u) ^ d - 1) * ∑ k, ‖F.val (h k)‖ * ‖F.val (x k)‖)) ?_ (by rw [mul_left_comm])
  · rw [norm_mul]; gcongr
  · rw [← mul_sub, norm_mul]; gcongr

/-- The bound on an entry of a product holds if `α` and `β` are multiplied last, with inner products of depth `d` … -/
theorem gemm_late {d d' : ℕ} (hd : d' ≤ d) {h x : Fin N → K} {α β y t z : K}
    (ht : Dot F (Finset.univ.val.map fun k => (h k, x k)) d' t) (hz : z = F.add (F.mul α t) (F.mul β y)) :
    ‖F.val z - (F.val α * ∑ k, F.val (h k) * F.val (x k) + F.val β * F.val y)‖ ≤
      gam F.u (d + 2) * (‖F.val α‖ * ∑ k, ‖F.val (h k)‖ * ‖F.val (x k)‖ + ‖F.val β‖ * ‖F.val y‖) := by
  subst hz
  have hu := F.u_nonneg
  have h3 := gemm_scaled hd ht (α := α)
  have h2 : ‖∑ k, F.val (h k) * F.val (x k)‖ ≤ ∑ k, ‖F.val (h k)‖ * ‖F.val (x k)‖ :=
    (norm_sum_le _ _).trans (Finset.sum_le_sum fun k _ => norm_mul_le _ _)
  unfold gam at h3
  set S := ∑ k, F.val (h k) * F.val (x k) with hS
  set B := ∑ k, ‖F.val (h k)‖ * ‖F.val (x k)‖ with hB
  have h4 : ‖F.val (F.mul β y) - F.val β * F.val y‖ ≤ ((1 + F.u) ^ (d + 1) - 1) * (‖F.val β‖ * ‖F.val y‖) := by
    refine (F.mul_err β y).trans ?_
    rw [norm_mul]
    refine mul_le_mul_of_nonneg_right ?_ (by positivity)
    have := gam_mono hu (show 1 ≤ d + 1 by omega)
    unfold gam at this
    linarith [pow_one (1 + F.u)]
  refine round_step (n := d + 1) hu (F.add_err (F.mul α t) (F.mul β y)) ?_
    (e := ((1 + F.u) ^ (d + 1) - 1) * (‖F.val α‖ * B) + ((1 + F.u) ^ (d + 1) - 1) * (‖F.val β‖ * ‖F.val y‖)) ?_
    (by rw [mul_add])
  · refine (norm_add_le _ _).trans (add_le_add ?_ (norm_mul_le _ _))
    rw [norm_mul]; gcongr
  · calc _ = ‖(F.val (F.mul α t) - F.val α * S) + (F.val (F.mul β y) - F.val β * F.val y)‖ := by congr 1; ring
      _ ≤ _ := (norm_add_le _ _).trans (add_le_add h3 h4)

/-- … and if the vector is multiplied by `α` first and `β y` is one of the terms of the inner product. -/
theorem gemm_early {d d' : ℕ} (hd : d' ≤ d) {h x : Fin N → K} {α β y z : K}
    (hz : Dot F ((Finset.univ.val.map fun k => (h k, F.mul α (x k))) + {(β, y)}) d' z) :
    ‖F.val z - (F.val α * ∑ k, F.val (h k) * F.val (x k) + F.val β * F.val y)‖ ≤
      gam F.u (d + 1) * (‖F.val α‖ * ∑ k, ‖F.val (h k)‖ * ‖F.val (x k)‖ + ‖F.val β‖ * ‖F.val y‖) := by
  have hu := F.u_nonneg
  have h1 := hz.error_le hd
  have e1 : F.sum ((Finset.univ.val.map fun k => (h k, F.mul α (x k))) + {(β, y)}) =
      ∑ k, F.val (h k) * F.val (F.mul α (x k)) + F.val β * F.val y := by
    simp [Fl.sum, Finset.sum]
    rfl
  have e2 : F.abs ((Finset.univ.val.map fun k => (h k, F.mul α (x k))) + {(β, y)}) =
      ∑ k, ‖F.val (h k)‖ * ‖F.val (F.mul α (x k))‖ + ‖F.val β‖ * ‖F.val y‖ := by
    simp [Fl.abs, Finset.sum]
    rfl
  rw [e1, e2] at h1
  set B := ∑ k, ‖F.val (h k)‖ * ‖F.val (x k)‖ with hB
  have hm : ∀ k, ‖F.val (F.mul α (x k))‖ ≤ (1 + F.u) * (‖F.val α‖ * ‖F.val (x k)‖) := by
    intro k
    calc ‖F.val (F.mul α (x k))‖ = ‖F.val α * F.val (x k) + (F.val (F.mul α (x k)) - F.val α * F.val (x k))‖ := by
          congr 1; ring
      _ ≤ ‖F.val α * F.val (x k)‖ + F.u * ‖F.val α * F.val (x k)‖ :=
          (norm_add_le _ _).trans (by linarith [F.mul_err α (x k)])
      _ = _ := by rw [norm_mul]; ring
  have h2 : ∑ k, ‖F.val (h k)‖ * ‖F.val (F.mul α (x k))‖ ≤ (1 + F.u) * (‖F.val α‖ * B) := by
    rw [hB, Finset.mul_sum, Finset.mul_sum]
    refine Finset.sum_le_sum fun k _ => ?_
    calc ‖F.val (h k)‖ * ‖F.val (F.mul α (x k))‖ ≤ ‖F.val (h k)‖ * ((1 + F.u) * (‖F.val α‖ * ‖F.val (x k)‖)) :=
          mul_le_mul_of_nonneg_left (hm k) (norm_nonneg _)
      _ = _ := by ring
  have h3 : ‖∑ k, F.val (h k) * F.val (F.mul α (x k)) - F.val α * ∑ k, F.val (h k) * F.val (x k)‖ ≤
      F.u * (‖F.val α‖ * B) := by
    rw [hB, Finset.mul_sum, Finset.mul_sum, Finset.mul_sum, ← Finset.sum_sub_distrib]
    refine (norm_sum_le _ _).trans (Finset.sum_le_sum fun k _ => ?_)
    have : F.val (h k) * F.val (F.mul α (x k)) - F.val α * (F.val (h k) * F.val (x k)) =
        F.val (h k) * (F.val (F.mul α (x k)) - F.val α * F.val (x k)) := by ring
    rw [this, norm_mul]
    calc _ ≤ ‖F.val (h k)‖ * (F.u * ‖F.val α * F.val (x k)‖) :=
          mul_le_mul_of_nonneg_left (F.mul_err _ _) (norm_nonneg _)
      _ = _ := by rw [norm_mul]; ring
  have hg : 0 ≤ (1 + F.u) ^ d - 1 := gam_nonneg hu d
  have hB0 : 0 ≤ ‖F.val α‖ * B := mul_nonneg (norm_nonneg _) (Finset.sum_nonneg fun k _ => by positivity)
  have hy0 : 0 ≤ ‖F.val β‖ * ‖F.val y‖ := by positivity
  calc _ = ‖(F.val z - (∑ k, F.val (h k) * F.val (F.mul α (x k)) + F.val β * F.val y)) +
        (∑ k, F.val (h k) * F.val (F.mul α (x k)) - F.val α * ∑ k, F.val (h k) * F.val (x k))‖ := by congr 1; ring
    _ ≤ ((1 + F.u) ^ d - 1) * ((1 + F.u) * (‖F.val α‖ * B) + ‖F.val β‖ * ‖F.val y‖) + F.u * (‖F.val α‖ * B) := by
        refine (norm_add_le _ _).trans (add_le_add (h1.trans ?_) h3)
        exact mul_le_mul_of_nonneg_left (by linarith) hg
    _ ≤ _ := by
        unfold gam
        rw [pow_succ]
        nlinarith [mul_nonneg (mul_nonneg (show (0 : ℝ) ≤ (1 + F.u) ^ d by positivity) hu) hy0]

end

/-- The backend `ops` does its shifts and products with the kernels `A`; `st` are its data. -/
structure UsesKernels {K R S : Type*} {N : ℕ} (A : Arith K R N) (ops : Chase R S) (st : S → Seq.St K N)
    (good : S → Prop) : Prop where
  shift : ∀ x b s, good s → st (ops.shift x b s) = { st s with H := shiftH A (A.ofBase x) (st s).H }
  shiftC : ∀ x b s, (st (ops.shift x b s)).C = (st s).C
  hemm : ∀ b α β off s, st (ops.hemm b α β off s) = apply A (A.ofBase α) (A.ofBase β) off b (st s).locked (st s)

theorem seq_usesKernels {K R : Type*} {N : ℕ} [Neg R] [Zero R] (A : Arith K R N) (E : Params) :
    UsesKernels A (ops A E) id (fun _ => True) where
  shift := fun _ _ _ _ => rfl
  shiftC := fun _ _ _ => rfl
  hemm := fun _ _ _ _ _ => rfl

/-! ### The vectors of a filter call -/

section Columns
variable {K R S : Type*} {N : ℕ} {A : Arith K R N} {ops : Chase R S} {st : S → Seq.St K N} {good : S → Prop}
variable [Add R] [Sub R] [Mul R] [Div R] [Neg R] [Zero R] [One R] [NatCast R]

/-- Column `j` in the buffer written last after `k` products: `C` for even `k`, `B` for odd `k`. -/
def latest (t : Seq.St K N) (k j : ℕ) : Fin N → K := if k % 2 = 0 then t.C j else t.B j

/-- Column `j` after `k` products. -/
def colAfter (st : S → Seq.St K N) (ops : Chase R S) (d : ℕ → ℕ) (u : ℕ) (sigma1 e : R) (s : S) (j k : ℕ) : Fin N → K :=
  latest (st (mults ops d u sigma1 e (k + 1) s)) k j

/-- The next product is with the adjoint exactly after an even number of products. -/
def nextAfter (k : ℕ) : NextOp := if k % 2 = 0 then .bAc else .cAb

theorem apply_latest (α β : K) (off b l : ℕ) (t : Seq.St K N) {k : ℕ} (hn : t.next = nextAfter k) (j : ℕ) :
    (apply A α β off b l t).next = nextAfter (k + 1) ∧ (apply A α β off b l t).H = t.H ∧
    (apply A α β off b l t).locked = t.locked ∧
    latest (apply A α β off b l t) k j = latest t k j ∧
    latest (apply A α β off b l t) (k + 1) j =
      if h : l + off ≤ j ∧ j < l + off + b then
        fun i => A.gemm (decide (k % 2 = 0)) t.H α β (fun i (q : Fin b) => latest t k (l + off + q) i)
          (fun i (q : Fin b) => latest t (k + 1) (l + off + q) i) i ⟨j - (l + off), by omega⟩
      else latest t (k + 1) j := by
  unfold apply nextAfter at *
  rcases Nat.mod_two_eq_zero_or_one k with hk | hk
  · have hk' : (k + 1) % 2 = 1 := by omega
    rw [if_pos hk] at hn
    rw [hn]
    refine ⟨by simp [hk'], rfl, rfl, by simp [latest, hk], ?_⟩
    simp only [latest, hk, hk', if_true, one_ne_zero, if_false, setBlk, decide_true]
    rfl
  · have hk' : (k + 1) % 2 = 0 := by omega
    rw [if_neg (by omega)] at hn
    rw [hn]
    refine ⟨by simp [hk'], rfl, rfl, by simp [latest, hk], ?_⟩
    simp only [latest, hk, hk', if_true, one_ne_zero, if_false, setBlk, decide_false]
    rfl

/-- The data during the products. -/
theorem mults_frame (hU : UsesKernels A ops st good) (d : ℕ → ℕ) (u : ℕ) (sigma1 e : R) (s : S)
    (hn : (st s).next = .bAc) (k : ℕ) :
    (st (mults ops d u sigma1 e (k + 1) s)).next = nextAfter k ∧
    (st (mults ops d u sigma1 e (k + 1) s)).H = (st s).H ∧
    (st (mults ops d u sigma1 e (k + 1) s)).locked = (st s).locked := by
  induction k with
  | zero => simpa [mults, forRange_self, nextAfter] using hn
  | succ k ih =>
    obtain ⟨i1, i2, i3⟩ := ih
    have hm : mults ops d u sigma1 e (k + 1 + 1) s = ops.hemm (u - cut d u (k + 1)) (alphaSeq sigma1 e (k + 1))
        (betaSeq sigma1 (k + 1)) (cut d u (k + 1)) (mults ops d u sigma1 e (k + 1) s) := by
      unfold mults
      rw [forRange_succ (by omega)]
    rw [hm, hU.hemm]
    obtain ⟨a1, a2, a3, -⟩ := apply_latest (A := A) (A.ofBase (alphaSeq sigma1 e (k + 1))) (A.ofBase (betaSeq sigma1 (k + 1)))
      (cut d u (k + 1)) (u - cut d u (k + 1)) (st (mults ops d u sigma1 e (k + 1) s)).locked
      (st (mults ops d u sigma1 e (k + 1) s)) i1 0
    exact ⟨a1, a2.trans i2, a3.trans i3⟩

/-- One product: a column is multiplied up to its degree, and stays as it was two products ago from then on. -/
theorem colAfter_succ (hU : UsesKernels A ops st good) {d : ℕ → ℕ} {u : ℕ} (hd : SortedOn 0 u d) (sigma1 e : R) (s : S)
    (hn : (st s).next = .bAc) {j : ℕ} (hj : j < u) (k : ℕ) :
    (k + 1 ≤ max 1 (d j) → ∃ (b : ℕ) (X Y : Matrix (Fin N) (Fin b) K) (q : Fin b),
      (fun i => X i q) = colAfter st ops d u sigma1 e s ((st s).locked + j) k ∧
      (1 ≤ k → (fun i => Y i q) = colAfter st ops d u sigma1 e s ((st s).locked + j) (k - 1)) ∧
      colAfter st ops d u sigma1 e s ((st s).locked + j) (k + 1) =
        fun i => A.gemm (decide (k % 2 = 0)) (st s).H (A.ofBase (alphaSeq sigma1 e (k + 1)))
          (A.ofBase (betaSeq sigma1 (k + 1))) X Y i q) ∧
    (max 1 (d j) < k + 1 → colAfter st ops d u sigma1 e s ((st s).locked + j) (k + 1) =
      colAfter st ops d u sigma1 e s ((st s).locked + j) (k - 1)) := by
  have step : ∀ k, mults ops d u sigma1 e (k + 1 + 1) s = ops.hemm (u - cut d u (k + 1)) (alphaSeq sigma1 e (k + 1))
      (betaSeq sigma1 (k + 1)) (cut d u (k + 1)) (mults ops d u sigma1 e (k + 1) s) := by
    intro k
    unfold mults
    rw [forRange_succ (by omega)]
  -- the other buffer holds the column before the last product
  have old : 1 ≤ k → latest (st (mults ops d u sigma1 e (k + 1) s)) (k + 1) ((st s).locked + j) =
      colAfter st ops d u sigma1 e s ((st s).locked + j) (k - 1) := by
    intro hk
    obtain ⟨m, rfl⟩ : ∃ m, k = m + 1 := ⟨k - 1, by omega⟩
    rw [step m, hU.hemm]
    obtain ⟨f1, -, -⟩ := mults_frame hU d u sigma1 e s hn m
    have := (apply_latest (A := A) (A.ofBase (alphaSeq sigma1 e (m + 1))) (A.ofBase (betaSeq sigma1 (m + 1)))
      (cut d u (m + 1)) (u - cut d u (m + 1)) (st (mults ops d u sigma1 e (m + 1) s)).locked
      (st (mults ops d u sigma1 e (m + 1) s)) f1 ((st s).locked + j)).2.2.2.1
    rw [Nat.add_sub_cancel, ← show latest (st (mults ops d u sigma1 e (m + 1) s)) m ((st s).locked + j) =
      colAfter st ops d u sigma1 e s ((st s).locked + j) m from rfl, ← this]
    unfold latest
    rw [show (m + 1 + 1) % 2 = m % 2 by omega]
  obtain ⟨f1, f2, f3⟩ := mults_frame hU d u sigma1 e s hn k
  have key := (apply_latest (A := A) (A.ofBase (alphaSeq sigma1 e (k + 1))) (A.ofBase (betaSeq sigma1 (k + 1)))
    (cut d u (k + 1)) (u - cut d u (k + 1)) (st (mults ops d u sigma1 e (k + 1) s)).locked
    (st (mults ops d u sigma1 e (k + 1) s)) f1 ((st s).locked + j)).2.2.2.2
  rw [← hU.hemm, ← step k, f2] at key
  have hcut := lt_cut_iff (i := k + 1) hd hj
  have hcle := cut_le d u (k + 1)
  constructor
  · intro hk
    rw [dif_pos (by rw [f3]; omega)] at key
    have hidx : (st (mults ops d u sigma1 e (k + 1) s)).locked + cut d u (k + 1) +
        ((st s).locked + j - ((st (mults ops d u sigma1 e (k + 1) s)).locked + cut d u (k + 1))) = (st s).locked + j := by
      rw [f3]; omega
    refine ⟨_, _, _, _, ?_, ?_, key⟩
    · funext i
      exact congrFun (congrArg (latest (st (mults ops d u sigma1 e (k + 1) s)) k) hidx) i
    · intro h1
      rw [← old h1]
      funext i
      exact congrFun (congrArg (latest (st (mults ops d u sigma1 e (k + 1) s)) (k + 1)) hidx) i
  · intro hk
    rw [dif_neg (by rw [f3]; omega)] at key
    exact key.trans (old (by omega))

/-- From its degree on, a column stays as it was, every second time. -/
theorem colAfter_end (hU : UsesKernels A ops st good) {d : ℕ → ℕ} {u : ℕ} (hd : SortedOn 0 u d) (sigma1 e : R) (s : S)
    (hn : (st s).next = .bAc) {j : ℕ} (hj : j < u) (he : Even (d j)) {deg : ℕ} (hdeg : Even deg) (h : d j ≤ deg)
    (h2 : 1 ≤ d j) :
    colAfter st ops d u sigma1 e s ((st s).locked + j) deg = colAfter st ops d u sigma1 e s ((st s).locked + j) (d j) := by
  obtain ⟨m, rfl⟩ : ∃ m, deg = d j + 2 * m := by
    obtain ⟨a, ha⟩ := he
    obtain ⟨b, hb⟩ := hdeg
    exact ⟨b - a, by omega⟩
  clear h hdeg
  induction m with
  | zero => rfl
  | succ m ih =>
    rw [show d j + 2 * (m + 1) = (d j + 2 * m + 1) + 1 by omega,
      (colAfter_succ hU hd sigma1 e s hn hj (d j + 2 * m + 1)).2 (by omega)]
    exact ih

end Columns

/-! ### One product -/

section Local
variable {K 𝕜 R : Type*} [RCLike 𝕜] {N : ℕ} {F : Fl K 𝕜} {valR : R → ℝ} {A : Arith K R N} {g : ℝ}
variable [Add R] [Sub R] [Mul R] [Div R] [Neg R] [Zero R] [One R] [NatCast R]

/-- The relative error of a product with the shifted matrix, the coefficients being rounded too. -/
def filterEps (u g : ℝ) : ℝ := (1 + g) * (1 + u) ^ 3 - 1

theorem filterEps_nonneg {u g : ℝ} (hu : 0 ≤ u) (hg : 0 ≤ g) : 0 ≤ filterEps u g := by
  unfold filterEps
  have := one_le_pow₀ (n := 3) (a := 1 + u) (by linarith)
  nlinarith

theorem nrm2_opM_mul_le {H : Matrix (Fin N) (Fin N) 𝕜} (hH : H.IsHermitian) (x : Fin N → 𝕜) :
    Verif.nrm2 (fun i => ∑ k, ‖H i k‖ * ‖x k‖ : Fin N → ℝ) ≤ frob H * Verif.nrm2 x := by
  have e : (fun i => ∑ k, ‖H i k‖ * ‖x k‖ : Fin N → ℝ) = fun i => ∑ k, ‖H k i‖ * ‖x k‖ := by
    funext i
    refine Finset.sum_congr rfl fun k _ => ?_
    rw [← hH.apply i k, norm_star]
  rw [e]
  exact nrm2_abs_mul_le H x

/-- **Error of one product**: the coefficients `α`, `β` are rounded, the matrix is `H` up to `D` on the diagonal and has
been shifted by `c`. -/
theorem product_error (hA : FilterKernels F valR A g) {H0 H : Matrix (Fin N) (Fin N) K} {D : ℝ} (hD : 0 ≤ D)
    (hH0 : (valM F H0).IsHermitian) (hoff : ∀ i j, i ≠ j → F.val (H i j) = F.val (H0 i j))
    (hdiag : ∀ i, ‖F.val (H i i) - F.val (H0 i i)‖ ≤ D) (adj : Bool) (c a' b' : R) {a b : ℝ}
    (ha : |valR a' - a| ≤ ((1 + F.u) ^ 2 - 1) * |a|) (hb : |valR b' - b| ≤ F.u * |b|)
    {n : ℕ} (X Y : Matrix (Fin N) (Fin n) K) (q : Fin n) :
    let Hc : Matrix (Fin N) (Fin N) 𝕜 := valM F H0 - (valR c : 𝕜) • 1
    let x : Fin N → 𝕜 := fun i => F.val (X i q)
    let y : Fin N → 𝕜 := fun i => F.val (Y i q)
    let ε := filterEps F.u g
    nrm2 ((fun i => F.val (A.gemm adj (shiftH A (A.ofBase (-c)) H) (A.ofBase a') (A.ofBase b') X Y i q)) -
      (a • Hc.mulVec x + b • y)) ≤ |a| * ((ε * frob Hc + (1 + ε) * D) * nrm2 x) + |b| * (ε * nrm2 y) := by
  intro Hc x y ε
  have hu := F.u_nonneg
  have hg := hA.g_nonneg
  have hε : 0 ≤ ε := filterEps_nonneg hu hg
  have hcoe : star (valR c : 𝕜) = (valR c : 𝕜) := by rw [RCLike.star_def, RCLike.conj_ofReal]
  have hHc : Hc.IsHermitian := by
    refine hH0.sub ?_
    show ((valR c : 𝕜) • (1 : Matrix (Fin N) (Fin N) 𝕜))ᴴ = _
    rw [Matrix.conjTranspose_smul, Matrix.conjTranspose_one, hcoe]
  obtain ⟨adj', hgemm⟩ := hA.gemm adj (shiftH A (A.ofBase (-c)) H) (A.ofBase a') (A.ofBase b') X Y
  set Hs : Matrix (Fin N) (Fin N) 𝕜 := opM adj' (valM F (shiftH A (A.ofBase (-c)) H)) with hHs
  -- the shifted matrix
  have hbase : ∀ i k, valM F (shiftH A (A.ofBase (-c)) H) i k =
      if i = k then F.val (F.add (H i i) (A.ofBase (-c))) else F.val (H i k) := by
    intro i k
    unfold valM
    rw [shiftH_eq]
    beta_reduce
    by_cases hik : i = k
    · subst hik; rw [if_pos rfl, if_pos rfl, hA.add]
    · rw [if_neg hik, if_neg hik]
  have hd1 : ∀ i, ‖F.val (F.add (H i i) (A.ofBase (-c))) - Hc i i‖ ≤ F.u * ‖Hc i i‖ + (1 + F.u) * D := by
    intro i
    have e1 := F.add_err (H i i) (A.ofBase (-c))
    have e2 : F.val (A.ofBase (-c)) = -(valR c : 𝕜) := by rw [hA.ofBase, hA.real.neg]; push_cast; rfl
    rw [e2] at e1
    have e3 : Hc i i = F.val (H0 i i) - (valR c : 𝕜) := by
      show F.val (H0 i i) - ((valR c : 𝕜) • (1 : Matrix (Fin N) (Fin N) 𝕜)) i i = _
      rw [Matrix.smul_apply, Matrix.one_apply_eq, smul_eq_mul, mul_one]
    have e4 : ‖F.val (H i i) + -(valR c : 𝕜) - Hc i i‖ ≤ D := by
      rw [e3]
      refine le_trans (le_of_eq ?_) (hdiag i)
      congr 1; ring
    have e5 : ‖F.val (H i i) + -(valR c : 𝕜)‖ ≤ ‖Hc i i‖ + D := by
      calc ‖F.val (H i i) + -(valR c : 𝕜)‖ = ‖Hc i i + (F.val (H i i) + -(valR c : 𝕜) - Hc i i)‖ := by congr 1; ring
        _ ≤ _ := (norm_add_le _ _).trans (by linarith)
    calc ‖F.val (F.add (H i i) (A.ofBase (-c))) - Hc i i‖
        = ‖(F.val (F.add (H i i) (A.ofBase (-c))) - (F.val (H i i) + -(valR c : 𝕜))) +
          (F.val (H i i) + -(valR c : 𝕜) - Hc i i)‖ := by congr 1; ring
      _ ≤ F.u * (‖Hc i i‖ + D) + D := (norm_add_le _ _).trans
          (add_le_add (e1.trans (mul_le_mul_of_nonneg_left e5 hu)) e4)
      _ = _ := by ring
  have hHi : ∀ i k, ‖Hs i k - Hc i k‖ ≤ if i = k then F.u * ‖Hc i i‖ + (1 + F.u) * D else 0 := by
    intro i k
    have hstar : star (Hc k i) = Hc i k := hHc.apply i k
    by_cases hik : i = k
    · subst hik
      rw [if_pos rfl]
      cases hadj : adj' with
      | true =>
        have : Hs i i = star (F.val (F.add (H i i) (A.ofBase (-c)))) := by
          rw [hHs, hadj]
          show star (valM F _ i i) = _
          rw [hbase, if_pos rfl]
        rw [this, ← hstar, ← star_sub, norm_star]
        rw [norm_star] at *
        exact hd1 i
      | false =>
        have : Hs i i = F.val (F.add (H i i) (A.ofBase (-c))) := by
          rw [hHs, hadj]
          show valM F _ i i = _
          rw [hbase, if_pos rfl]
        rw [this]
        exact hd1 i
    · rw [if_neg hik]
      have h0 : ∀ i k, i ≠ k → valM F (shiftH A (A.ofBase (-c)) H) i k = Hc i k := by
        intro i k hik
        rw [hbase, if_neg hik, hoff i k hik]
        simp [Hc, valM, Matrix.sub_apply, Matrix.smul_apply, Matrix.one_apply_ne hik]
      cases hadj : adj' with
      | true =>
        have : Hs i k = star (Hc k i) := by
          rw [hHs, hadj]
          show star (valM F _ k i) = _
          rw [h0 k i (Ne.symm hik)]
        rw [this, hstar, sub_self, norm_zero]
      | false =>
        have : Hs i k = Hc i k := by
          rw [hHs, hadj]
          exact h0 i k hik
        rw [this, sub_self, norm_zero]
  -- entry by entry
  have hentry : ∀ i, ‖((fun i => F.val (A.gemm adj (shiftH A (A.ofBase (-c)) H) (A.ofBase a') (A.ofBase b') X Y i q)) -
      (a • Hc.mulVec x + b • y)) i‖ ≤
      ε * |a| * (∑ k, ‖Hc i k‖ * ‖x k‖) + ((1 + ε) * |a| * D * ‖x i‖ + ε * |b| * ‖y i‖) := by
    intro i
    set z := F.val (A.gemm adj (shiftH A (A.ofBase (-c)) H) (A.ofBase a') (A.ofBase b') X Y i q) with hz
    set S : ℝ := ∑ k, ‖Hc i k‖ * ‖x k‖ with hS
    set S' : ℝ := ∑ k, ‖Hs i k‖ * ‖x k‖ with hS'
    set p : 𝕜 := ∑ k, Hc i k * x k with hp
    set p' : 𝕜 := ∑ k, Hs i k * x k with hp'
    have hS0 : 0 ≤ S := Finset.sum_nonneg fun _ _ => mul_nonneg (norm_nonneg _) (norm_nonneg _)
    have hxi := norm_nonneg (x i)
    have hyi := norm_nonneg (y i)
    have eg : ‖z - ((valR a' : 𝕜) * p' + (valR b' : 𝕜) * y i)‖ ≤ g * (|valR a'| * S' + |valR b'| * ‖y i‖) := by
      have := hgemm i q
      rw [hA.ofBase, hA.ofBase, RCLike.norm_ofReal, RCLike.norm_ofReal] at this
      exact this
    have single : ∑ k, (if i = k then F.u * ‖Hc i i‖ + (1 + F.u) * D else 0) * ‖x k‖ =
        (F.u * ‖Hc i i‖ + (1 + F.u) * D) * ‖x i‖ := by
      rw [Finset.sum_eq_single i]
      · rw [if_pos rfl]
      · intro k _ hk
        rw [if_neg (Ne.symm hk), zero_mul]
      · intro h; exact absurd (Finset.mem_univ i) h
    have hii : ‖Hc i i‖ * ‖x i‖ ≤ S :=
      Finset.single_le_sum (f := fun k => ‖Hc i k‖ * ‖x k‖)
        (fun _ _ => mul_nonneg (norm_nonneg _) (norm_nonneg _)) (Finset.mem_univ i)
    have hpp : ‖p' - p‖ ≤ F.u * S + (1 + F.u) * D * ‖x i‖ := by
      rw [hp, hp', ← Finset.sum_sub_distrib]
      calc ‖∑ k, (Hs i k * x k - Hc i k * x k)‖
          ≤ ∑ k, (if i = k then F.u * ‖Hc i i‖ + (1 + F.u) * D else 0) * ‖x k‖ := by
            refine (norm_sum_le _ _).trans (Finset.sum_le_sum fun k _ => ?_)
            rw [← sub_mul, norm_mul]
            exact mul_le_mul_of_nonneg_right (hHi i k) (norm_nonneg _)
        _ = (F.u * ‖Hc i i‖ + (1 + F.u) * D) * ‖x i‖ := single
        _ ≤ _ := by
            have := mul_le_mul_of_nonneg_left hii hu
            linarith
    have hSS : S' ≤ (1 + F.u) * (S + D * ‖x i‖) := by
      calc S' ≤ ∑ k, (‖Hc i k‖ * ‖x k‖ + (if i = k then F.u * ‖Hc i i‖ + (1 + F.u) * D else 0) * ‖x k‖) := by
            refine Finset.sum_le_sum fun k _ => ?_
            rw [← add_mul]
            refine mul_le_mul_of_nonneg_right ?_ (norm_nonneg _)
            calc ‖Hs i k‖ = ‖Hc i k + (Hs i k - Hc i k)‖ := by congr 1; ring
              _ ≤ _ := (norm_add_le _ _).trans (by linarith [hHi i k])
        _ = S + (F.u * ‖Hc i i‖ + (1 + F.u) * D) * ‖x i‖ := by rw [Finset.sum_add_distrib, single]
        _ ≤ _ := by
            have := mul_le_mul_of_nonneg_left hii hu
            linarith
    have hpS : ‖p'‖ ≤ S' := by
      refine (norm_sum_le _ _).trans (Finset.sum_le_sum fun k _ => ?_)
      rw [norm_mul]
    have hS'0 : 0 ≤ S' := (norm_nonneg _).trans hpS
    have ha2 : |valR a'| ≤ (1 + F.u) ^ 2 * |a| := by
      calc |valR a'| = |a + (valR a' - a)| := by congr 1; ring
        _ ≤ |a| + ((1 + F.u) ^ 2 - 1) * |a| := (abs_add_le _ _).trans (by linarith)
        _ = _ := by ring
    have hb2 : |valR b'| ≤ (1 + F.u) * |b| := by
      calc |valR b'| = |b + (valR b' - b)| := by congr 1; ring
        _ ≤ |b| + F.u * |b| := (abs_add_le _ _).trans (by linarith)
        _ = _ := by ring
    have hgoal : ((fun i => F.val (A.gemm adj (shiftH A (A.ofBase (-c)) H) (A.ofBase a') (A.ofBase b') X Y i q)) -
        (a • Hc.mulVec x + b • y)) i = z - ((a : 𝕜) * p + (b : 𝕜) * y i) := by
      simp only [Pi.sub_apply, Pi.add_apply, Pi.smul_apply, RCLike.real_smul_eq_coe_mul]
      rfl
    rw [hgoal]
    set w1 : ℝ := (1 + F.u) * (S + D * ‖x i‖) with hw1
    have hw0 : 0 ≤ w1 := by positivity
    have t1 : ‖((valR a' - a : ℝ) : 𝕜) * p'‖ ≤ ((1 + F.u) ^ 2 - 1) * |a| * w1 := by
      rw [norm_mul, RCLike.norm_ofReal]
      exact mul_le_mul ha (hpS.trans hSS) (norm_nonneg _) ((abs_nonneg _).trans ha)
    have t2 : ‖(a : 𝕜) * (p' - p)‖ ≤ |a| * (F.u * S + (1 + F.u) * D * ‖x i‖) := by
      rw [norm_mul, RCLike.norm_ofReal]
      exact mul_le_mul_of_nonneg_left hpp (abs_nonneg _)
    have t3 : ‖((valR b' - b : ℝ) : 𝕜) * y i‖ ≤ F.u * |b| * ‖y i‖ := by
      rw [norm_mul, RCLike.norm_ofReal]
      exact mul_le_mul_of_nonneg_right hb hyi
    have t4 : g * (|valR a'| * S' + |valR b'| * ‖y i‖) ≤ g * ((1 + F.u) ^ 2 * |a| * w1 + (1 + F.u) * |b| * ‖y i‖) := by
      refine mul_le_mul_of_nonneg_left (add_le_add ?_ ?_) hg
      · exact mul_le_mul ha2 hSS hS'0 (by positivity)
      · exact mul_le_mul_of_nonneg_right hb2 hyi
    have tri : ‖z - ((a : 𝕜) * p + (b : 𝕜) * y i)‖ ≤ g * ((1 + F.u) ^ 2 * |a| * w1 + (1 + F.u) * |b| * ‖y i‖) +
        ((1 + F.u) ^ 2 - 1) * |a| * w1 + |a| * (F.u * S + (1 + F.u) * D * ‖x i‖) + F.u * |b| * ‖y i‖ := by
      calc ‖z - ((a : 𝕜) * p + (b : 𝕜) * y i)‖
          = ‖(z - ((valR a' : 𝕜) * p' + (valR b' : 𝕜) * y i)) + ((valR a' - a : ℝ) : 𝕜) * p' + (a : 𝕜) * (p' - p) +
            ((valR b' - b : ℝ) : 𝕜) * y i‖ := by
            congr 1
            push_cast
            ring
        _ ≤ _ := (norm_add_le _ _).trans (add_le_add ((norm_add_le _ _).trans (add_le_add
            ((norm_add_le _ _).trans (add_le_add (eg.trans t4) t1)) t2)) t3)
    refine tri.trans ?_
    have ca : g * ((1 + F.u) ^ 2 * |a| * w1) + ((1 + F.u) ^ 2 - 1) * |a| * w1 +
        |a| * (F.u * S + (1 + F.u) * D * ‖x i‖) = ε * |a| * S + (1 + ε) * |a| * D * ‖x i‖ := by
      rw [hw1]
      show _ = filterEps F.u g * |a| * S + (1 + filterEps F.u g) * |a| * D * ‖x i‖
      unfold filterEps
      ring
    have cb : g * ((1 + F.u) * |b| * ‖y i‖) + F.u * |b| * ‖y i‖ ≤ ε * |b| * ‖y i‖ := by
      have h1 : g * (1 + F.u) + F.u ≤ ε := by
        show _ ≤ filterEps F.u g
        unfold filterEps
        have h3 : 1 + F.u ≤ (1 + F.u) ^ 3 := by
          have := pow_le_pow_right₀ (a := 1 + F.u) (by linarith) (show 1 ≤ 3 by omega)
          rwa [pow_one] at this
        nlinarith
      have h2 : 0 ≤ |b| * ‖y i‖ := mul_nonneg (abs_nonneg _) hyi
      calc _ = (g * (1 + F.u) + F.u) * (|b| * ‖y i‖) := by ring
        _ ≤ ε * (|b| * ‖y i‖) := mul_le_mul_of_nonneg_right h1 h2
        _ = _ := by ring
    linarith
  -- the norm
  set V1 : Fin N → ℝ := fun i => ∑ k, ‖Hc i k‖ * ‖x k‖ with hV1
  set V2 : Fin N → ℝ := fun i => ‖x i‖ with hV2
  set V3 : Fin N → ℝ := fun i => ‖y i‖ with hV3
  have hV1n : nrm2 V1 ≤ frob Hc * nrm2 x := nrm2_opM_mul_le hHc x
  have hV2n : nrm2 V2 = nrm2 x := by simp [nrm2, hV2]
  have hV3n : nrm2 V3 = nrm2 y := by simp [nrm2, hV3]
  have h1 := nrm2_le (x := (fun i => F.val (A.gemm adj (shiftH A (A.ofBase (-c)) H) (A.ofBase a') (A.ofBase b') X Y i q)) -
      (a • Hc.mulVec x + b • y)) (y := (ε * |a|) • V1 + (((1 + ε) * |a| * D) • V2 + (ε * |b|) • V3)) (by
    intro i
    refine (hentry i).trans (le_of_eq ?_)
    have hn : 0 ≤ ε * |a| * (∑ k, ‖Hc i k‖ * ‖x k‖) + ((1 + ε) * |a| * D * ‖x i‖ + ε * |b| * ‖y i‖) :=
      (norm_nonneg _).trans (hentry i)
    simp only [Pi.add_apply, Pi.smul_apply, smul_eq_mul, hV1, hV2, hV3]
    rw [Real.norm_eq_abs, abs_of_nonneg hn])
  refine h1.trans ((nrm2_add_le _ _).trans (add_le_add_right (nrm2_add_le _ _) _) |>.trans ?_)
  rw [nrm2_smul_real, nrm2_smul_real, nrm2_smul_real, hV2n, hV3n,
    abs_of_nonneg (show 0 ≤ ε * |a| by positivity), abs_of_nonneg (show 0 ≤ (1 + ε) * |a| * D by positivity),
    abs_of_nonneg (show 0 ≤ ε * |b| by positivity)]
  have h2 : ε * |a| * nrm2 V1 ≤ ε * |a| * (frob Hc * nrm2 x) := mul_le_mul_of_nonneg_left hV1n (by positivity)
  have h3 : |a| * ((ε * frob Hc + (1 + ε) * D) * nrm2 x) + |b| * (ε * nrm2 y) =
      ε * |a| * (frob Hc * nrm2 x) + ((1 + ε) * |a| * D * nrm2 x + ε * |b| * nrm2 y) := by ring
  rw [h3]
  linarith

end Local

/-! ### Coefficients -/

section Coefficients
variable {R : Type*} {valR : R → ℝ} {u : ℝ}
variable [Add R] [Sub R] [Mul R] [Div R] [Neg R] [Zero R] [One R] [NatCast R]

theorem alpha_one_error (hR : RealAccurate valR u) (hu : 0 ≤ u) (sigma1 e : R) (he : valR e ≠ 0) :
    |valR (alphaSeq sigma1 e 1) - valR sigma1 / valR e| ≤ ((1 + u) ^ 2 - 1) * |valR sigma1 / valR e| := by
  rw [alphaSeq, if_pos le_rfl]
  refine (hR.div _ _ he).trans (mul_le_mul_of_nonneg_right ?_ (abs_nonneg _))
  nlinarith

theorem alpha_error (hR : RealAccurate valR u) (hu : 0 ≤ u) (sigma1 e : R) (he : valR e ≠ 0) {k : ℕ} (hk : 2 ≤ k) :
    |valR (alphaSeq sigma1 e k) - 2 * valR (sigmaSeq sigma1 k) / valR e| ≤
      ((1 + u) ^ 2 - 1) * |2 * valR (sigmaSeq sigma1 k) / valR e| := by
  rw [alphaSeq, if_neg (by omega)]
  set s := sigmaSeq sigma1 k
  have h1 := hR.mul 2 s
  rw [hR.two] at h1
  have h2 := hR.div (2 * s) e he
  have h3 : |valR (2 * s) / valR e - 2 * valR s / valR e| ≤ u * |2 * valR s / valR e| := by
    rw [← sub_div, abs_div, abs_div, ← mul_div_assoc]
    exact div_le_div_of_nonneg_right h1 (abs_nonneg _)
  have h4 : |valR (2 * s) / valR e| ≤ (1 + u) * |2 * valR s / valR e| := by
    calc |valR (2 * s) / valR e| = |2 * valR s / valR e + (valR (2 * s) / valR e - 2 * valR s / valR e)| := by
          congr 1; ring
      _ ≤ _ := (abs_add_le _ _).trans (by linarith)
  calc |valR (2 * s / e) - 2 * valR s / valR e|
      = |(valR (2 * s / e) - valR (2 * s) / valR e) + (valR (2 * s) / valR e - 2 * valR s / valR e)| := by congr 1; ring
    _ ≤ u * ((1 + u) * |2 * valR s / valR e|) + u * |2 * valR s / valR e| :=
        (abs_add_le _ _).trans (add_le_add (h2.trans (mul_le_mul_of_nonneg_left h4 hu)) h3)
    _ = _ := by ring

theorem beta_error (hR : RealAccurate valR u) (sigma1 : R) {k : ℕ} (hk : 2 ≤ k) :
    |valR (betaSeq sigma1 k) - -(valR (sigmaSeq sigma1 (k - 1)) * valR (sigmaSeq sigma1 k))| ≤
      u * |-(valR (sigmaSeq sigma1 (k - 1)) * valR (sigmaSeq sigma1 k))| := by
  rw [betaSeq, if_neg (by omega)]
  have := hR.mul (-sigmaSeq sigma1 (k - 1)) (sigmaSeq sigma1 k)
  rw [hR.neg, neg_mul] at this
  exact this

/-- One step of the recursion for `sigma`: `h` is the relative error so far. -/
theorem sigma_step {u h δ2 δ3 ω : ℝ} (hu : 0 ≤ u) (hu1 : 128 * u ≤ 1) (hh : 0 ≤ h) (hh1 : 16 * h ≤ 1) (hh2 : h ^ 2 ≤ u)
    (hω : |ω| ≤ 2 * u + h) (h2 : |δ2| ≤ u) (h3 : |δ3| ≤ u) :
    |(1 + δ3) / ((1 + ω) * (1 + δ2)) - 1| ≤ h + 8 * u := by
  obtain ⟨a1, a2⟩ := abs_le.mp hω
  obtain ⟨b1, b2⟩ := abs_le.mp h2
  obtain ⟨c1, c2⟩ := abs_le.mp h3
  have hx : 0 < 1 + ω := by linarith
  have hy : 0 < 1 + δ2 := by linarith
  have hxy : 0 < (1 + ω) * (1 + δ2) := mul_pos hx hy
  rw [div_sub_one hxy.ne', abs_div, abs_of_pos hxy, div_le_iff₀ hxy]
  have hp : |ω * δ2| ≤ (2 * u + h) * u := by
    rw [abs_mul]
    exact mul_le_mul hω h2 (abs_nonneg _) (by linarith)
  have hnum : |1 + δ3 - (1 + ω) * (1 + δ2)| ≤ h + 4 * u + (2 * u + h) * u := by
    have e : 1 + δ3 - (1 + ω) * (1 + δ2) = δ3 - ω - δ2 - ω * δ2 := by ring
    rw [e, abs_le]
    obtain ⟨p1, p2⟩ := abs_le.mp hp
    constructor <;> linarith
  have hden : 1 - 3 * u - h ≤ (1 + ω) * (1 + δ2) := by
    have h1 : (1 - (2 * u + h)) * (1 - u) ≤ (1 + ω) * (1 + δ2) :=
      mul_le_mul (by linarith) (by linarith) (by linarith) hx.le
    nlinarith [mul_nonneg (show 0 ≤ 2 * u + h by linarith) hu]
  have hfin : h + 4 * u + (2 * u + h) * u ≤ (h + 8 * u) * (1 - 3 * u - h) := by
    nlinarith [mul_nonneg hu hh, mul_nonneg hu (show 0 ≤ 1 - 16 * h by linarith),
      mul_nonneg hu (show 0 ≤ 1 - 128 * u by linarith)]
  calc _ ≤ h + 4 * u + (2 * u + h) * u := hnum
    _ ≤ (h + 8 * u) * (1 - 3 * u - h) := hfin
    _ ≤ _ := mul_le_mul_of_nonneg_left hden (by linarith)

theorem abs_T_eq (t : ℝ) (k : ℕ) (ht : 1 ≤ |t|) : |(Chebyshev.T ℝ k).eval t| = chebT k |t| := by
  have h1 := one_le_chebT ht k
  rcases abs_choice t with h | h
  · have h2 : (Chebyshev.T ℝ k).eval t = chebT k |t| := by rw [h]; rfl
    rw [h2, abs_of_nonneg (show 0 ≤ chebT k |t| by linarith)]
  · have : (Chebyshev.T ℝ k).eval t = (k : ℤ).negOnePow * chebT k |t| := by
      unfold chebT
      rw [h, ← Chebyshev.T_eval_neg, neg_neg]
    rw [this, abs_mul, Int.cast_negOnePow, abs_zpow, abs_of_nonneg (show 0 ≤ chebT k |t| by linarith)]
    simp

/-- **The normalisation**: the numbers `sigma` that are computed multiply up to `1 / T_d(t)`, where `t = 1 / sigma_1`. -/
theorem scale_error (hR : RealAccurate valR u) (hu : 0 ≤ u) (sigma1 : R) {t : ℝ} (ht : 1 ≤ |t|)
    (hs : valR sigma1 = 1 / t) {d : ℕ} (hd : 64 * (d * (d + 1)) * u ≤ 1) :
    |scale (fun k => valR (sigmaSeq sigma1 k)) 0 d * (Chebyshev.T ℝ d).eval t - 1| ≤ 8 * (d * (d - 1)) * u := by
  have ht0 : t ≠ 0 := by intro h; rw [h] at ht; norm_num at ht
  set τ : ℕ → ℝ := fun k => (Chebyshev.T ℝ k).eval t with hτ
  have hτabs : ∀ k, |τ k| = chebT k |t| := fun k => abs_T_eq t k ht
  have hτ0 : ∀ k, τ k ≠ 0 := by
    intro k h0
    have h1 := one_le_chebT ht k
    rw [← hτabs, h0, abs_zero] at h1
    norm_num at h1
  have hτz : τ 0 = 1 := by simp [hτ]
  have hτ1 : τ 1 = t := by simp [hτ]
  have hτr : ∀ k, τ (k + 2) = 2 * t * τ (k + 1) - τ k := by
    intro k
    simp only [hτ]
    push_cast
    rw [Chebyshev.T_add_two]
    simp
  have hmono : ∀ k, |τ k| ≤ |τ (k + 1)| := fun k => by rw [hτabs, hτabs]; exact chebT_mono ht (by omega)
  have hgrow : ∀ k, |t| * |τ k| ≤ |τ (k + 1)| := by
    intro k
    rw [hτabs, hτabs]
    have := chebT_mul ht 1 k
    rw [add_comm 1 k] at this
    simpa [chebT] using this
  have small : ∀ k, k + 1 ≤ d → 128 * u ≤ 1 ∧ 16 * (8 * (k : ℝ) * u) ≤ 1 ∧ (8 * (k : ℝ) * u) ^ 2 ≤ u := by
    intro k hk
    have hk' : (k : ℝ) + 1 ≤ d := by exact_mod_cast hk
    have hk0 : (0 : ℝ) ≤ k := Nat.cast_nonneg k
    have e1 : ((k : ℝ) + 1) * (k + 2) ≤ d * (d + 1) := by nlinarith
    have e2 : 64 * (((k : ℝ) + 1) * (k + 2)) * u ≤ 1 := by
      refine le_trans ?_ hd
      gcongr
    have e3 : 0 ≤ (k : ℝ) * u := by positivity
    have e4 : 0 ≤ (k : ℝ) * ((k : ℝ) * u) := by positivity
    refine ⟨by nlinarith, by nlinarith, ?_⟩
    have e5 : 64 * ((k : ℝ) * ((k : ℝ) * u)) ≤ 1 := by nlinarith
    calc (8 * (k : ℝ) * u) ^ 2 = (64 * ((k : ℝ) * ((k : ℝ) * u))) * u := by ring
      _ ≤ 1 * u := mul_le_mul_of_nonneg_right e5 hu
      _ = u := one_mul u
  -- the relative error of each sigma
  have hsig : ∀ k, k + 1 ≤ d → ∃ η : ℝ, |η| ≤ 8 * (k : ℝ) * u ∧
      valR (sigmaSeq sigma1 (k + 1)) = τ k / τ (k + 1) * (1 + η) := by
    intro k
    induction k with
    | zero =>
      intro _
      refine ⟨0, by simp, ?_⟩
      rw [hτz, hτ1]
      show valR sigma1 = _
      rw [hs]; ring
    | succ k ih =>
      intro hk
      obtain ⟨η, hη, hσ⟩ := ih (by omega)
      obtain ⟨sm1, sm2, sm3⟩ := small k (by omega)
      -- the operations
      have rel : ∀ {x y : ℝ}, |x - y| ≤ u * |y| → ∃ δ : ℝ, |δ| ≤ u ∧ x = y * (1 + δ) := by
        intro x y h
        rcases eq_or_ne y 0 with rfl | hy
        · refine ⟨0, by simpa using hu, ?_⟩
          rw [abs_zero, mul_zero] at h
          have := abs_nonpos_iff.mp h
          linarith
        · refine ⟨(x - y) / y, ?_, by field_simp; ring⟩
          rw [abs_div, div_le_iff₀ (abs_pos.mpr hy)]
          exact h
      have hσ10 : valR sigma1 ≠ 0 := by rw [hs]; exact one_div_ne_zero ht0
      obtain ⟨δ1, hδ1, hq⟩ := rel (hR.div 2 sigma1 hσ10)
      obtain ⟨δ2, hδ2, hr⟩ := rel (hR.sub (2 / sigma1) (sigmaSeq sigma1 (k + 1)))
      rw [hq, hσ, hR.two, hs, div_div_eq_mul_div, div_one] at hr
      have h0 := hτ0 k
      have h1 := hτ0 (k + 1)
      have h2 := hτ0 (k + 2)
      set ω : ℝ := τ (k + 1) / τ (k + 2) * (2 * t * δ1 - τ k / τ (k + 1) * η) with hωdef
      have hω : |ω| ≤ 2 * u + 8 * (k : ℝ) * u := by
        have p1 : |τ (k + 1) / τ (k + 2) * (2 * t * δ1)| ≤ 2 * u := by
          have hg := hgrow (k + 1)
          rw [abs_mul, abs_div, abs_mul, abs_mul, Nat.abs_ofNat, div_mul_eq_mul_div, div_le_iff₀ (abs_pos.mpr h2)]
          calc |τ (k + 1)| * (2 * |t| * |δ1|) = 2 * |δ1| * (|t| * |τ (k + 1)|) := by ring
            _ ≤ 2 * u * |τ (k + 2)| := mul_le_mul (by linarith) hg (by positivity) (by linarith)
        have p2 : |τ (k + 1) / τ (k + 2) * (τ k / τ (k + 1) * η)| ≤ 8 * (k : ℝ) * u := by
          have e : τ (k + 1) / τ (k + 2) * (τ k / τ (k + 1) * η) = τ k / τ (k + 2) * η := by field_simp
          rw [e, abs_mul, abs_div]
          have : |τ k| / |τ (k + 2)| ≤ 1 := (div_le_one (abs_pos.mpr h2)).mpr ((hmono k).trans (hmono (k + 1)))
          calc |τ k| / |τ (k + 2)| * |η| ≤ 1 * |η| := mul_le_mul_of_nonneg_right this (abs_nonneg _)
            _ ≤ _ := by linarith
        rw [hωdef, mul_sub]
        refine (abs_sub _ _).trans (by linarith)
      have hr2 : valR (2 / sigma1 - sigmaSeq sigma1 (k + 1)) = τ (k + 2) / τ (k + 1) * ((1 + ω) * (1 + δ2)) := by
        rw [hr, hωdef, hτr k]
        rw [hτr k] at h2
        field_simp
        ring
      have hω1 : 0 < 1 + ω := by have := (abs_le.mp hω).1; linarith
      have hδ21 : 0 < 1 + δ2 := by have := (abs_le.mp hδ2).1; linarith
      have hr0 : valR (2 / sigma1 - sigmaSeq sigma1 (k + 1)) ≠ 0 := by
        rw [hr2]
        exact mul_ne_zero (div_ne_zero h2 h1) (mul_pos hω1 hδ21).ne'
      obtain ⟨δ3, hδ3, hz⟩ := rel (hR.div 1 _ hr0)
      rw [hR.one, hr2] at hz
      refine ⟨(1 + δ3) / ((1 + ω) * (1 + δ2)) - 1, ?_, ?_⟩
      · have := sigma_step hu sm1 (by positivity) sm2 sm3 hω hδ2 hδ3
        push_cast
        linarith
      · show valR (1 / (2 / sigma1 - sigmaSeq sigma1 (k + 1))) = _
        rw [hz]
        have := hω1.ne'
        have := hδ21.ne'
        field_simp
        ring
  -- their product
  have hprod : ∀ k, k ≤ d → |scale (fun k => valR (sigmaSeq sigma1 k)) 0 k * τ k - 1| ≤ 8 * (k * (k - 1)) * u := by
    intro k
    induction k with
    | zero => intro _; simp [scale_self, hτz]
    | succ k ih =>
      intro hk
      have ih := ih (by omega)
      obtain ⟨η, hη, hσ⟩ := hsig k hk
      rw [scale_succ _ (Nat.zero_le k), hσ]
      set P := scale (fun k => valR (sigmaSeq sigma1 k)) 0 k * τ k with hP
      have e : scale (fun k => valR (sigmaSeq sigma1 k)) 0 k * (τ k / τ (k + 1) * (1 + η)) * τ (k + 1) - 1 =
          (P - 1) + P * η := by
        rw [hP]
        have := hτ0 (k + 1)
        field_simp
        ring
      rw [e]
      have hk0 : (0 : ℝ) ≤ k := Nat.cast_nonneg k
      have hk' : (k : ℝ) + 1 ≤ d := by exact_mod_cast hk
      have hsmall : 8 * ((k : ℝ) * (k - 1)) * u ≤ 1 := by
        refine le_trans ?_ hd
        have : (k : ℝ) * (k - 1) ≤ d * (d + 1) := by nlinarith
        have : 8 * ((k : ℝ) * (k - 1)) ≤ 64 * ((d : ℝ) * (d + 1)) := by nlinarith
        exact mul_le_mul_of_nonneg_right this hu
      have hP2 : |P| ≤ 2 := by
        have : |P| = |1 + (P - 1)| := by congr 1; ring
        rw [this]
        refine (abs_add_le _ _).trans ?_
        rw [abs_one]
        linarith
      have : |P * η| ≤ 2 * (8 * (k : ℝ) * u) := by
        rw [abs_mul]
        exact mul_le_mul hP2 hη (abs_nonneg _) (by norm_num)
      refine (abs_add_le _ _).trans ?_
      push_cast
      nlinarith
  exact hprod d le_rfl

end Coefficients

/-! ### The call -/

section Call
variable {K 𝕜 R S : Type*} [RCLike 𝕜] {N : ℕ} {F : Fl K 𝕜} {valR : R → ℝ} {A : Arith K R N} {g : ℝ}
variable [Add R] [Sub R] [Mul R] [Div R] [Neg R] [Zero R] [One R] [NatCast R]
variable {ops : Chase R S} {st : S → Seq.St K N} {good : S → Prop}

/-- The Chebyshev polynomial of degree `d` for the interval with centre `c` and half width `e`. -/
noncomputable def chebAt (c e : ℝ) (d : ℕ) : ℝ[X] := (Chebyshev.T ℝ d).comp (C (1 / e) * (X - C c))

/-- The relative error of one step of the recurrence: `frobc` is the Frobenius norm of the shifted matrix, `D` bounds the
difference of the matrix to the one considered, `e` is the half width of the interval and `θ e` the distance of its
centre to the farthest eigenvalue. -/
noncomputable def filterEta (u g frobc D e θ : ℝ) : ℝ :=
  2 * ((filterEps u g * frobc + (1 + filterEps u g) * D) / e) / θ + filterEps u g

/-- **Rounding errors of a filter call**, up to the scaling. -/
theorem filter_error (hU : UsesKernels A ops st good) (hA : FilterKernels F valR A g) {H0 : Matrix (Fin N) (Fin N) K}
    {D : ℝ} (hD : 0 ≤ D) (hH0 : (valM F H0).IsHermitian) {s : S} (hg : good s) (hn : (st s).next = .bAc)
    (hoff : ∀ i j, i ≠ j → F.val ((st s).H i j) = F.val (H0 i j))
    (hdiag : ∀ i, ‖F.val ((st s).H i i) - F.val (H0 i i)‖ ≤ D) {n nevex deg : ℕ} {degrees : ℕ → ℕ}
    (lambda1 lower upper : R) (hn0 : n ≠ 0) (hd : GoodDegrees (st s).locked nevex deg degrees) {c e : ℝ}
    (hc : valR ((upper + lower) / 2) = c) (he : valR ((upper - lower) / 2) = e) (he0 : 0 < e) {θ : ℝ} (hθ : 1 ≤ θ)
    (hspec : ∀ μ, IsEigenvalue (valM F H0) μ → |μ - c| ≤ θ * e) :
    ∃ av s', filter ops n (nevex - (st s).locked) deg degrees nevex (st s).locked lambda1 lower upper s = .ok (av, s') ∧
      ∀ j, (st s).locked ≤ j → j < nevex →
        let ρ := scale (fun k => valR (sigmaSeq ((upper - lower) / 2 / (lambda1 - (upper + lower) / 2)) k)) 0 (degrees j)
        let η := filterEta F.u g (frob (valM F H0 - (c : 𝕜) • 1)) D e θ
        let d : ℝ := degrees j
        d * (d + 1) * η ≤ 1 →
        nrm2 (valV F ((st s').C j) - ρ • (aeval (valM F H0) (chebAt c e (degrees j))).mulVec (valV F ((st s).C j))) ≤
          d * (d + 1) * η * (|ρ| * chebT (degrees j) θ * nrm2 (valV F ((st s).C j))) := by
  have hlt := hd.some
  have hsum : (st s).locked + (nevex - (st s).locked) = nevex := by omega
  refine ⟨_, _, filter_eq ops lambda1 lower upper s hn0 (by omega) (by omega)
    (by rw [hsum]; exact hd.sorted) (fun j hj => (hd.each _ (by omega) (by omega)).2.2)
    (hd.each _ (by omega) (by omega)).2.1, ?_⟩
  set l := (st s).locked with hl
  set cR := (upper + lower) / 2 with hcR
  set eR := (upper - lower) / 2 with heR
  set sigma1 := eR / (lambda1 - cR) with hsigma
  set dd : ℕ → ℕ := fun j => degrees (l + j) with hdd
  set uu := nevex - l with huu
  set s1 := ops.shift (-cR) false s with hs1
  have hst1 : st s1 = { st s with H := shiftH A (A.ofBase (-cR)) (st s).H } := hU.shift _ _ _ hg
  have hn1 : (st s1).next = .bAc := by rw [hst1]; exact hn
  have hl1 : (st s1).locked = l := by rw [hst1]
  have hsort : SortedOn 0 uu dd := fun a b _ hab hb => hd.sorted (l + a) (l + b) (by omega) (by omega) (by omega)
  intro j hj1 hj2 ρ η d hsmall
  obtain ⟨q, rfl⟩ : ∃ q, j = l + q := ⟨j - l, by omega⟩
  have hq : q < uu := by omega
  obtain ⟨dev, d2, dle⟩ := hd.each (l + q) hj1 hj2
  -- the vectors
  set w : ℕ → Fin N → K := fun k => colAfter st ops dd uu sigma1 eR s1 (l + q) k with hw
  have hw0 : w 0 = (st s).C (l + q) := by
    simp only [hw, colAfter, latest, mults, forRange_self, hst1, zero_add]
    rfl
  have hwd : (st (ops.shift cR true (mults ops dd uu sigma1 eR (deg + 1) s1))).C (l + q) = w (dd q) := by
    have h1 := colAfter_end hU hsort sigma1 eR s1 hn1 hq dev hd.even dle
      (show 1 ≤ degrees (l + q) by omega)
    rw [hl1] at h1
    rw [hU.shiftC, hw]
    simp only
    rw [← h1]
    unfold colAfter latest
    rw [if_pos (Nat.even_iff.mp hd.even)]
  rw [hwd, ← hw0]
  -- the operator
  set Hc : Matrix (Fin N) (Fin N) 𝕜 := valM F H0 - (c : 𝕜) • 1 with hHc
  set M : Matrix (Fin N) (Fin N) 𝕜 := aeval (valM F H0) (C (1 / e) * (X - C c) : ℝ[X]) with hM
  have hMv : ∀ v, M.mulVec v = (1 / e) • Hc.mulVec v := by
    intro v
    have : M = (1 / e : ℝ) • Hc := by
      rw [hM, map_mul, aeval_C, map_sub, aeval_X, aeval_C, ← Algebra.smul_def, Algebra.algebraMap_eq_smul_one, hHc]
      congr 2
      ext i j
      simp [Matrix.smul_apply, RCLike.real_smul_eq_coe_mul]
    rw [this, Matrix.smul_mulVec]
  have hcomp : ∀ p : ℝ[X], aeval M p = aeval (valM F H0) (p.comp (C (1 / e) * (X - C c))) := by
    intro p
    rw [aeval_comp]
  have hpt : ∀ μ, IsEigenvalue (valM F H0) μ → |1 / e * (μ - c)| ≤ θ := by
    intro μ hμ
    rw [abs_mul, abs_of_pos (one_div_pos.mpr he0), one_div, inv_mul_le_iff₀ he0, mul_comm]
    exact hspec μ hμ
  have hT : ∀ k v, nrm2 ((matT M k).mulVec v) ≤ chebT k θ * nrm2 v := by
    intro k v
    unfold matT
    rw [hcomp]
    refine nrm2_aeval_le hH0 (by linarith [one_le_chebT hθ k]) (fun μ hμ => ?_) v
    rw [eval_comp]
    simp only [eval_mul, eval_C, eval_sub, eval_X]
    exact abs_chebT_le hθ (hpt μ hμ) k
  have hUU : ∀ k v, nrm2 ((matU M k).mulVec v) ≤ (k + 1) * chebT k θ * nrm2 v := by
    intro k v
    unfold matU
    rw [hcomp]
    refine nrm2_aeval_le hH0 (mul_nonneg (by positivity) (by linarith [one_le_chebT hθ k])) (fun μ hμ => ?_) v
    rw [eval_comp]
    simp only [eval_mul, eval_C, eval_sub, eval_X]
    exact abs_chebU_le hθ (hpt μ hμ) k
  have hu := F.u_nonneg
  have hε := filterEps_nonneg hu hA.g_nonneg
  set ε := filterEps F.u g with hεdef
  set a := (ε * frob Hc + (1 + ε) * D) / e with ha
  have ha0 : 0 ≤ a := div_nonneg (add_nonneg (mul_nonneg hε (frob_nonneg _)) (mul_nonneg (by linarith) hD)) he0.le
  have hη : η = 2 * a / θ + ε := rfl
  set σ : ℕ → ℝ := fun k => valR (sigmaSeq sigma1 k) with hσ
  -- the local errors
  have heR0 : valR eR ≠ 0 := by rw [he]; exact he0.ne'
  have hloc1 : 1 ≤ dd q → nrm2 (localErr M σ (fun k => valV F (w k)) 1) ≤ |σ 1| * (a * nrm2 (valV F (w 0))) := by
    intro _
    obtain ⟨b, X, Y, t, hX, -, hz⟩ := (colAfter_succ hU hsort sigma1 eR s1 hn1 hq 0).1 (by omega)
    rw [hl1] at hX hz
    have hH1 : (st s1).H = shiftH A (A.ofBase (-cR)) (st s).H := by rw [hst1]
    rw [hH1] at hz
    have key := product_error hA hD hH0 hoff hdiag (decide (0 % 2 = 0)) cR (alphaSeq sigma1 eR 1) (betaSeq sigma1 1)
      (alpha_one_error hA.real hu sigma1 eR heR0) (b := 0)
      (by rw [betaSeq, if_pos le_rfl, hA.real.zero]; simp) X Y t
    dsimp only at key
    have hx : (fun i => F.val (X i t)) = valV F (w 0) := by
      funext i
      exact congrArg F.val (congrFun hX i)
    have hz' : (fun i => F.val (A.gemm (decide (0 % 2 = 0)) (shiftH A (A.ofBase (-cR)) (st s).H)
        (A.ofBase (alphaSeq sigma1 eR 1)) (A.ofBase (betaSeq sigma1 1)) X Y i t)) = valV F (w 1) := by
      funext i
      exact congrArg F.val (congrFun hz i).symm
    rw [hx, hz', hc, he, zero_smul, add_zero, abs_zero, zero_mul, add_zero] at key
    have e1 : localErr M σ (fun k => valV F (w k)) 1 =
        valV F (w 1) - (valR sigma1 / e) • (valM F H0 - (c : 𝕜) • 1).mulVec (valV F (w 0)) := by
      show valV F (w 1) - σ 1 • M.mulVec (valV F (w 0)) = _
      rw [hMv, smul_smul, mul_one_div]
      rfl
    rw [e1]
    refine key.trans (le_of_eq ?_)
    rw [abs_div, abs_of_pos he0, ha]
    show |valR sigma1| / e * ((ε * frob Hc + (1 + ε) * D) * _) = |valR sigma1| * _
    field_simp
  have hloc2 : ∀ k, k + 2 ≤ dd q → nrm2 (localErr M σ (fun k => valV F (w k)) (k + 2)) ≤
      |σ (k + 2)| * (2 * a * nrm2 (valV F (w (k + 1))) + |σ (k + 1)| * (ε * nrm2 (valV F (w k)))) := by
    intro k hk
    obtain ⟨b, X, Y, t, hX, hY, hz⟩ := (colAfter_succ hU hsort sigma1 eR s1 hn1 hq (k + 1)).1 (by omega)
    have hY := hY (by omega)
    rw [hl1] at hX hY hz
    have hH1 : (st s1).H = shiftH A (A.ofBase (-cR)) (st s).H := by rw [hst1]
    rw [hH1] at hz
    have key := product_error hA hD hH0 hoff hdiag (decide ((k + 1) % 2 = 0)) cR (alphaSeq sigma1 eR (k + 2))
      (betaSeq sigma1 (k + 2)) (alpha_error hA.real hu sigma1 eR heR0 (by omega)) (beta_error hA.real sigma1 (by omega)) X Y t
    dsimp only at key
    have hx : (fun i => F.val (X i t)) = valV F (w (k + 1)) := by
      funext i
      exact congrArg F.val (congrFun hX i)
    have hy : (fun i => F.val (Y i t)) = valV F (w k) := by
      funext i
      exact congrArg F.val (congrFun hY i)
    have hz' : (fun i => F.val (A.gemm (decide ((k + 1) % 2 = 0)) (shiftH A (A.ofBase (-cR)) (st s).H)
        (A.ofBase (alphaSeq sigma1 eR (k + 2))) (A.ofBase (betaSeq sigma1 (k + 2))) X Y i t)) = valV F (w (k + 2)) := by
      funext i
      exact congrArg F.val (congrFun hz i).symm
    rw [hx, hy, hz', hc, he, show k + 2 - 1 = k + 1 from rfl] at key
    have e1 : localErr M σ (fun k => valV F (w k)) (k + 2) = valV F (w (k + 2)) -
        ((2 * valR (sigmaSeq sigma1 (k + 2)) / e) • (valM F H0 - (c : 𝕜) • 1).mulVec (valV F (w (k + 1))) +
        -(valR (sigmaSeq sigma1 (k + 1)) * valR (sigmaSeq sigma1 (k + 2))) • valV F (w k)) := by
      show valV F (w (k + 2)) - ((2 * σ (k + 2)) • M.mulVec (valV F (w (k + 1))) -
        (σ (k + 1) * σ (k + 2)) • valV F (w k)) = _
      rw [hMv, smul_smul, mul_one_div, neg_smul, ← sub_eq_add_neg]
    rw [e1]
    refine key.trans (le_of_eq ?_)
    rw [abs_div, abs_of_pos he0, abs_neg, abs_mul, abs_mul, Nat.abs_ofNat, ha]
    show 2 * |σ (k + 2)| / e * _ + |σ (k + 1)| * |σ (k + 2)| * _ = _
    field_simp
    ring
  have main := recurrence_bound (M := M) (s := σ) (w := fun k => valV F (w k)) (d := dd q) hθ ha0 hε hT hUU hloc1 hloc2
    (by rw [← hη]; exact hsmall)
  have hpoly : aeval (valM F H0) (chebAt c e (degrees (l + q))) = matT M (dd q) := by
    unfold matT chebAt
    rw [hcomp]
  rw [hpoly]
  exact main

end Call
end Rounded
end Verif
