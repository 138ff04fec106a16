/-
Binary floating-point numbers with `p` bits and unbounded exponent, operations rounded to nearest (ties to even): for
`p = 53` the arithmetic of `double` as long as nothing overflows or underflows, for `p = 24` that of `float`.
-/
import Verif.Rounded.Residual
import Verif.Solver.ToyProof
import Mathlib.Data.Rat.Floor
import Mathlib.Analysis.RCLike.Basic

namespace Verif
namespace Rounded

/-- `2^e` -/
def pow2 : ℤ → ℚ
  | .ofNat n => ((2 ^ n : ℕ) : ℚ)
  | .negSucc n => 1 / ((2 ^ (n + 1) : ℕ) : ℚ)

theorem pow2_eq (e : ℤ) : pow2 e = (2 : ℚ) ^ e := by
  cases e with
  | ofNat n => simp [pow2]
  | negSucc n => simp [pow2, zpow_negSucc]

/-- the exponent `e` with `2^e ≤ |x| < 2^(e+1)` -/
def expo (x : ℚ) : ℤ :=
  let e : ℤ := (x.num.natAbs.log2 : ℤ) - (x.den.log2 : ℤ)
  if pow2 e ≤ |x| then e else e - 1

/-- the nearest integer, the even one of two -/
def nearest (y : ℚ) : ℤ :=
  let f := y.floor
  if y - f < 1 / 2 then f else if 1 / 2 < y - f then f + 1 else if f % 2 = 0 then f else f + 1

/-- the nearest number with `p` bits -/
def rnd (p : ℕ) (x : ℚ) : ℚ :=
  if x = 0 then 0 else nearest (x / pow2 (expo x + 1 - p)) * pow2 (expo x + 1 - p)

theorem expo_le {x : ℚ} (hx : x ≠ 0) : (2 : ℚ) ^ expo x ≤ |x| := by
  unfold expo
  dsimp only
  split_ifs with h
  · rwa [← pow2_eq]
  · have hn : x.num.natAbs ≠ 0 := by simpa using hx
    have h1 : 2 ^ x.num.natAbs.log2 ≤ x.num.natAbs := Nat.log2_self_le hn
    have h2 : x.den < 2 ^ (x.den.log2 + 1) := Nat.lt_log2_self
    have hd : (0 : ℚ) < x.den := by exact_mod_cast x.den_pos
    have hx' : |x| = (x.num.natAbs : ℚ) / x.den := by
      conv_lhs => rw [← Rat.num_div_den x]
      rw [abs_div, abs_of_pos hd]
      congr 1
      rw [Nat.cast_natAbs]
      push_cast
      rfl
    rw [hx', le_div_iff₀ hd, zpow_sub_one₀ (by norm_num), zpow_sub₀ (by norm_num), zpow_natCast, zpow_natCast]
    have h1' : (2 : ℚ) ^ x.num.natAbs.log2 ≤ x.num.natAbs := by exact_mod_cast h1
    have h2' : (x.den : ℚ) ≤ 2 ^ x.den.log2 * 2 := by rw [← pow_succ]; exact_mod_cast h2.le
    have hp : (0 : ℚ) < 2 ^ x.den.log2 := by positivity
    have hq : (0 : ℚ) < 2 ^ x.num.natAbs.log2 := by positivity
    refine le_trans ?_ h1'
    rw [div_mul_eq_mul_div, div_mul_eq_mul_div, div_le_iff₀ hp]
    nlinarith

theorem nearest_err (y : ℚ) : |(nearest y : ℚ) - y| ≤ 1 / 2 := by
  have h1 : ((y.floor : ℤ) : ℚ) ≤ y := Rat.floor_le y
  have h2 : y < (y.floor : ℤ) + 1 := by exact_mod_cast Rat.lt_floor_add_one y
  unfold nearest
  dsimp only
  rw [abs_le]
  split_ifs <;> push_cast <;> constructor <;> linarith

/-- **Relative error of rounding.** -/
theorem rnd_err (p : ℕ) (x : ℚ) : |rnd p x - x| ≤ (1 / 2) ^ p * |x| := by
  unfold rnd
  split_ifs with hx
  · simp [hx]
  · set q := pow2 (expo x + 1 - p) with hq
    have hq' : q = 2 ^ expo x * (2 * (1 / 2) ^ p) := by
      rw [hq, pow2_eq, zpow_sub₀ (by norm_num), zpow_add₀ (by norm_num), zpow_natCast]
      field_simp
      simp
    have hq0 : 0 < q := by rw [hq']; positivity
    have h := nearest_err (x / q)
    have e : (nearest (x / q) : ℚ) * q - x = ((nearest (x / q) : ℚ) - x / q) * q := by field_simp
    rw [e, abs_mul, abs_of_pos hq0]
    calc |(nearest (x / q) : ℚ) - x / q| * q ≤ 1 / 2 * q := mul_le_mul_of_nonneg_right h hq0.le
      _ = (1 / 2) ^ p * 2 ^ expo x := by rw [hq']; ring
      _ ≤ _ := mul_le_mul_of_nonneg_left (expo_le hx) (by positivity)

/-- Floating-point numbers with `p` bits. -/
structure Fp (p : ℕ) where
  val : ℚ
  deriving DecidableEq

namespace Fp
variable {p : ℕ}

instance : Add (Fp p) := ⟨fun a b => ⟨rnd p (a.val + b.val)⟩⟩
instance : Sub (Fp p) := ⟨fun a b => ⟨rnd p (a.val - b.val)⟩⟩
instance : Mul (Fp p) := ⟨fun a b => ⟨rnd p (a.val * b.val)⟩⟩
instance : Div (Fp p) := ⟨fun a b => ⟨rnd p (a.val / b.val)⟩⟩
instance : Neg (Fp p) := ⟨fun a => ⟨-a.val⟩⟩
instance : Zero (Fp p) := ⟨⟨0⟩⟩
instance : One (Fp p) := ⟨⟨1⟩⟩
instance : NatCast (Fp p) := ⟨fun n => ⟨rnd p n⟩⟩
instance : LT (Fp p) := ⟨fun a b => a.val < b.val⟩
instance : DecidableLT (Fp p) := fun a b => inferInstanceAs (Decidable (a.val < b.val))

/-- the real number a floating-point number stands for -/
noncomputable def toReal (x : Fp p) : ℝ := (x.val : ℝ)

theorem err_real (x : ℚ) : |((rnd p x : ℚ) : ℝ) - (x : ℝ)| ≤ (1 / 2) ^ p * |(x : ℝ)| := by
  have h : ((|rnd p x - x| : ℚ) : ℝ) ≤ (((1 / 2) ^ p * |x| : ℚ) : ℝ) := Rat.cast_le.mpr (rnd_err p x)
  push_cast at h
  exact h

/-- The arithmetic of `Fp p` obeys the standard model with `u = 2^-p`. -/
noncomputable def fl (p : ℕ) : Fl (Fp p) ℝ where
  val := toReal
  u := (1 / 2) ^ p
  one := 1
  zero := 0
  add := (· + ·)
  mul := (· * ·)
  fma := fun a b c => ⟨rnd p (a.val * b.val + c.val)⟩
  conj := id
  u_nonneg := by positivity
  val_zero := by show ((0 : ℚ) : ℝ) = 0; simp
  val_one := by show ((1 : ℚ) : ℝ) = 1; simp
  val_conj := fun x => by simp
  add_err := fun x y => by
    rw [Real.norm_eq_abs, Real.norm_eq_abs]
    have := err_real (p := p) (x.val + y.val)
    push_cast at this
    exact this
  mul_err := fun x y => by
    rw [Real.norm_eq_abs, Real.norm_eq_abs]
    have := err_real (p := p) (x.val * y.val)
    push_cast at this
    exact this
  fma_err := fun x y z => by
    rw [Real.norm_eq_abs, Real.norm_eq_abs]
    have := err_real (p := p) (x.val * y.val + z.val)
    push_cast at this
    exact this

end Fp

/-! ### Kernels for matrices of dimension two -/

namespace Two
variable {p : ℕ}

/-- Kernels in `p`-bit arithmetic.  The product and the update are computed in the obvious order.  The norm is the sum
of the absolute values, which is within a factor of `√2`.  Orthogonalisation returns the unit vectors, the dense
eigensolver the diagonal: enough for diagonal matrices.  The Lanczos drivers return `ub`. -/
def arith (p : ℕ) (ub : Fp p) : Arith (Fp p) (Fp p) 2 where
  ofBase := id
  zero := 0
  one := 1
  add := (· + ·)
  randn := fun j i => if j = i then 1 else 0
  symCheck := fun _ => true
  gemm := fun adj H α β X Y i j =>
    let s := (if adj then H 0 i else H i 0) * X 0 j + (if adj then H 1 i else H i 1) * X 1 j
    if α = 1 ∧ β = 0 then s else α * s + β * Y i j
  gemmProj := fun X Y i j => X 0 i * Y 0 j + X 1 i * Y 1 j
  gemmBack := fun {b _} X Z i j => (List.finRange b).foldl (fun s k => s + X i k * Z k j) 0
  heevd := fun M => (fun i => M i i, fun i j => if i = j then 1 else 0)
  axpy := fun a x y i => a * x i + y i
  nrm2 := fun w => ⟨|(w 0).val| + |(w 1).val|⟩
  hhQR := fun _ j i => if j = i then 1 else 0
  cholQR1 := fun C => (1, C)
  cholQR2 := fun C => (1, C)
  shiftedcholQR2 := fun C => (1, C)
  lanczos1 := fun _ _ _ => ub
  lanczosN := fun _ _ _ C => (⟨ub, fun _ => 0, fun _ => 0, fun _ => 0⟩, C)
  above := fun _ => false
  below := fun _ => false

/-- The kernels are accurate in the sense of the specification. -/
theorem accurate (p : ℕ) (ub : Fp p) : Accurate (Fp.fl p) Fp.toReal (arith p ub) 2 (1 / 2) where
  ofBase := fun x => rfl
  neg := fun x => by show ((-x.val : ℚ) : ℝ) = -(x.val : ℝ); push_cast; rfl
  add := fun _ _ => rfl
  gemm := by
    intro b H X Y i j
    refine ⟨2, le_rfl, ?_⟩
    have h := Dot.add (F := Fp.fl p) (.prod (H 0 i) (X 0 j)) (.prod (H 1 i) (X 1 j))
    have e : (Finset.univ.val.map fun k : Fin 2 => ((Fp.fl p).conj (H k i), X k j)) =
        ({(H 0 i, X 0 j)} + {(H 1 i, X 1 j)} : Multiset (Fp p × Fp p)) := rfl
    rw [e]
    exact h
  axpy := by
    intro a x y i
    exact ⟨2, le_rfl, Dot.add (F := Fp.fl p) (.prod a (x i)) (.value (y i))⟩
  nrm2 := by
    intro w
    set a : ℝ := ((w 0).val : ℝ) with ha
    set b : ℝ := ((w 1).val : ℝ) with hb
    have e1 : Fp.toReal ((arith p ub).nrm2 w) = |a| + |b| := by
      show ((|(w 0).val| + |(w 1).val| : ℚ) : ℝ) = _
      push_cast
      rfl
    have e2 : Verif.nrm2 (fun i => (Fp.fl p).val (w i)) = Real.sqrt (a ^ 2 + b ^ 2) := by
      unfold Verif.nrm2
      rw [Fin.sum_univ_two]
      simp only [Real.norm_eq_abs, sq_abs]
      rfl
    rw [e1, e2]
    set s := Real.sqrt (a ^ 2 + b ^ 2) with hs
    have hs0 : 0 ≤ s := Real.sqrt_nonneg _
    have hs2 : s ^ 2 = |a| ^ 2 + |b| ^ 2 := by
      rw [sq_abs, sq_abs]; exact Real.sq_sqrt (by positivity)
    have h0 := abs_nonneg a
    have h1 := abs_nonneg b
    rw [abs_le]
    constructor
    · nlinarith
    · nlinarith [sq_nonneg (|a| - |b|), sq_nonneg (|a| + |b|)]

end Two
end Rounded
end Verif
