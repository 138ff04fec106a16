/-
C10, C11, C13, C14: what a filter call computes, on the sequential and the pointer-swapping backends.
-/
import Verif.Backend.InPlaceProof
import Mathlib.Analysis.SpecialFunctions.Trigonometric.Chebyshev.RootsExtrema

namespace Verif

open Matrix Polynomial

variable {K : Type*} [RCLike K] {N : ℕ}

/-- The degrees of the columns `[l, nevex)` as the solver hands them to the filter: ascending, even, at
least 2, at most `deg`, `deg` even. -/
structure GoodDegrees (l nevex deg : ℕ) (degrees : ℕ → ℕ) : Prop where
  some : l < nevex
  sorted : SortedOn l nevex degrees
  each : ∀ j, l ≤ j → j < nevex → Even (degrees j) ∧ 2 ≤ degrees j ∧ degrees j ≤ deg
  even : Even deg

/-- The point at which the filter polynomial is normalised, in units of the damped interval. -/
noncomputable def normPoint (lambda1 lower upper : ℝ) : ℝ :=
  (lambda1 - centre lower upper) / halfWidth lower upper

theorem filter_succeeds {S : Type*} (ops : Chase ℝ S) {n nevex deg l : ℕ} {degrees : ℕ → ℕ}
    (lambda1 lower upper : ℝ) (s : S) (hn : n ≠ 0) (hd : GoodDegrees l nevex deg degrees) :
    ∃ av s', filter ops n (nevex - l) deg degrees nevex l lambda1 lower upper s = .ok (av, s') := by
  have h := hd.some
  have e : l + (nevex - l) = nevex := by omega
  exact ⟨_, _, filter_eq ops lambda1 lower upper s hn (by omega) (by omega)
    (by rw [e]; exact hd.sorted) (fun j hj => (hd.each _ (by omega) (by omega)).2.2)
    (hd.each _ (by omega) (by omega)).2.1⟩

/-- Outside of the damped interval the Chebyshev values do not vanish. -/
theorem tau_ne_zero {lambda1 lower upper : ℝ} (h : 1 ≤ |normPoint lambda1 lower upper|) (i : ℕ) :
    tau lambda1 lower upper i ≠ 0 := by
  have := Chebyshev.one_le_abs_eval_T_real (i : ℤ) h
  intro h0
  have h0' : (Chebyshev.T ℝ i).eval (normPoint lambda1 lower upper) = 0 := h0
  rw [h0'] at this
  norm_num at this

theorem normPoint_of_lt {lambda1 lower upper : ℝ} (h : lower < upper) (h1 : lambda1 < lower) :
    normPoint lambda1 lower upper < -1 := by
  unfold normPoint centre halfWidth
  rw [div_lt_iff₀ (by linarith)]
  linarith

/-! ### C10 -/

/-- **C10** On the sequential backend a filter call succeeds and afterwards every column `j` of the
search space holds `p_d(H)` times its former content, `d = degrees[j]`, where
`p_d(x) = T_d((x-c)/e) / T_d((lambda_1-c)/e)` (`filterPoly`), in the buffer `C_` the next step reads
(`next = bAc`); all other columns are as before.  The normalisation `T_i((lambda_1-c)/e)` must not
vanish for the degrees passed through; `C10_outside` shows that this is so for every `lambda_1`
outside of the interval. -/
theorem C10_filter_is_chebyshev (E : Env K) (s : Seq.St K N) (hH : s.H.IsHermitian)
    (hnext : s.next = .bAc) {n nevex deg : ℕ} {degrees : ℕ → ℕ} (lambda1 lower upper : ℝ)
    (hn : n ≠ 0) (hd : GoodDegrees s.locked nevex deg degrees)
    (ht : ∀ i, i ≤ deg → (Chebyshev.T ℝ i).eval (normPoint lambda1 lower upper) ≠ 0) :
    ∃ av s', filter (Seq.ops E) n (nevex - s.locked) deg degrees nevex s.locked lambda1 lower upper s
        = .ok (av, s') ∧ s'.next = .bAc ∧
      (∀ j, s.locked ≤ j → j < nevex →
        s'.C j = (aeval s.H (filterPoly lambda1 lower upper (degrees j))).mulVec (s.C j)) ∧
      (∀ j, j < s.locked ∨ nevex ≤ j → s'.C j = s.C j) := by
  obtain ⟨av, s', h⟩ := filter_succeeds (Seq.ops E) lambda1 lower upper s hn hd
  obtain ⟨-, -, a3, a4, a5⟩ := Seq.filter_spec hH hnext hd.sorted
    (fun j h1 h2 => ⟨(hd.each j h1 h2).1, (hd.each j h1 h2).2.2⟩) hd.even h
  exact ⟨av, s', h, a3, a4 ht, a5⟩

/-- The hypothesis of C10 on `lambda_1` holds outside of (and at the ends of) the damped interval. -/
theorem C10_outside (lambda1 lower upper : ℝ) (h : lower < upper)
    (h1 : lambda1 ≤ lower ∨ upper ≤ lambda1) (i : ℕ) :
    (Chebyshev.T ℝ i).eval (normPoint lambda1 lower upper) ≠ 0 := by
  refine tau_ne_zero ?_ i
  unfold normPoint centre halfWidth
  rw [le_abs]
  rcases h1 with h1 | h1
  · right
    rw [← neg_div, le_div_iff₀ (by linarith)]
    linarith
  · left
    rw [le_div_iff₀ (by linarith)]
    linarith

/-- Non-vacuity: degrees 2, 4, 4, 6 in the columns 1..4; a Hermitian matrix with locked column 0. -/
example : GoodDegrees 1 5 6 (fun i => if i = 1 then 2 else if i = 4 then 6 else 4) ∧
    ∃ s : Seq.St ℂ 3, s.H.IsHermitian ∧ s.H ≠ 0 ∧ s.next = .bAc ∧ s.locked = 1 := by
  refine ⟨⟨by omega, ?_, ?_, by decide⟩, ⟨1, fun _ => 0, fun _ => 0, fun _ => 0, fun _ => 0, .bAc, 1, true⟩,
    Matrix.isHermitian_one, one_ne_zero, rfl, rfl⟩
  · intro a b h1 h2 h3
    dsimp only
    split_ifs <;> omega
  · intro j h1 h2
    split_ifs
    · exact ⟨by decide, by omega, by omega⟩
    · exact ⟨by decide, by omega, by omega⟩
    · exact ⟨by decide, by omega, by omega⟩

/-! ### C11 -/

/-- **C11** The in-place CPU backend and the single-GPU backend: a filter call succeeds, the filtered
columns are in the buffer the next step reads (`V1`), and which of the two arrays that is has not
changed. -/
theorem C11_inplace_filter (E : Env K) (k : InPlace.Kind) (s : InPlace.St K N)
    {n nevex deg : ℕ} {degrees : ℕ → ℕ} (lambda1 lower upper : ℝ)
    (hn : n ≠ 0) (hd : GoodDegrees s.locked nevex deg degrees)
    (ht : ∀ i, i ≤ deg → (Chebyshev.T ℝ i).eval (normPoint lambda1 lower upper) ≠ 0) :
    ∃ av s', filter (InPlace.ops E k) n (nevex - s.locked) deg degrees nevex s.locked lambda1 lower
        upper s = .ok (av, s') ∧ s'.flipped = s.flipped ∧
      (∀ j, s.locked ≤ j → j < nevex →
        s'.V1 j = (aeval s.H (filterPoly lambda1 lower upper (degrees j))).mulVec (s.V1 j)) ∧
      (∀ j, j < s.locked ∨ nevex ≤ j → s'.V1 j = s.V1 j ∧ s'.V2 j = s.V2 j) := by
  obtain ⟨av, s', h⟩ := filter_succeeds (InPlace.ops E k) lambda1 lower upper s hn hd
  obtain ⟨-, -, -, a3, a4, a5⟩ := InPlace.filter_spec hd.sorted
    (fun j h1 h2 => ⟨(hd.each j h1 h2).1, (hd.each j h1 h2).2.2⟩) hd.even h
  exact ⟨av, s', h, a3, a4 ht, a5⟩

/-- **C11** For the same Hermitian matrix, columns, degrees and interval the pointer-swapping backends
and the two-buffer backend deliver the same columns. -/
theorem C11_same_as_two_buffer (E E' : Env K) (k : InPlace.Kind) (s : InPlace.St K N) (t : Seq.St K N)
    (hH : t.H.IsHermitian) (hnext : t.next = .bAc) (h1 : s.H = t.H) (h2 : s.locked = t.locked)
    (h3 : s.V1 = t.C) {n nevex deg : ℕ} {degrees : ℕ → ℕ} (lambda1 lower upper : ℝ)
    (hn : n ≠ 0) (hd : GoodDegrees t.locked nevex deg degrees)
    (ht : ∀ i, i ≤ deg → (Chebyshev.T ℝ i).eval (normPoint lambda1 lower upper) ≠ 0) :
    ∃ av s' av' t',
      filter (InPlace.ops E k) n (nevex - s.locked) deg degrees nevex s.locked lambda1 lower upper s
        = .ok (av, s') ∧
      filter (Seq.ops E') n (nevex - t.locked) deg degrees nevex t.locked lambda1 lower upper t
        = .ok (av', t') ∧ s'.V1 = t'.C := by
  obtain ⟨av, s', a1, -, a3, a4⟩ := C11_inplace_filter E k s lambda1 lower upper hn (h2 ▸ hd) ht
  obtain ⟨av', t', b1, -, b3, b4⟩ := C10_filter_is_chebyshev E' t hH hnext lambda1 lower upper hn hd ht
  refine ⟨av, s', av', t', a1, b1, ?_⟩
  funext j
  by_cases hj : t.locked ≤ j ∧ j < nevex
  · rw [a3 j (by omega) hj.2, b3 j hj.1 hj.2, h1, h3]
  · rw [(a4 j (by omega)).1, b4 j (by omega), h3]

/-- Non-vacuity: two such states. -/
example : ∃ (s : InPlace.St ℂ 3) (t : Seq.St ℂ 3), t.H.IsHermitian ∧ t.next = .bAc ∧ s.H = t.H ∧
    s.locked = t.locked ∧ s.V1 = t.C ∧ s.V2 ≠ t.B :=
  ⟨⟨1, 1, fun j _ => j, fun _ _ => 1, fun _ => 0, false, fun _ => 0, 1, true⟩,
    ⟨1, fun j _ => j, fun _ _ => 0, fun _ => 0, fun _ => 0, .bAc, 1, true⟩,
    Matrix.isHermitian_one, rfl, rfl, rfl, rfl,
    fun h => by simpa using congrFun (congrFun h 0) 0⟩

/-! ### C13 -/

/-- **C13** (sequential backend) Every successful filter call leaves `H` as it found it. -/
theorem C13_matrix_restored_seq (E : Env K) (s s' : Seq.St K N) (hH : s.H.IsHermitian)
    (hnext : s.next = .bAc) {n nevex deg av : ℕ} {degrees : ℕ → ℕ} (lambda1 lower upper : ℝ)
    (hd : GoodDegrees s.locked nevex deg degrees)
    (h : filter (Seq.ops E) n (nevex - s.locked) deg degrees nevex s.locked lambda1 lower upper s
      = .ok (av, s')) : s'.H = s.H :=
  (Seq.filter_spec hH hnext hd.sorted
    (fun j h1 h2 => ⟨(hd.each j h1 h2).1, (hd.each j h1 h2).2.2⟩) hd.even h).1

/-- **C13** (in-place CPU and single-GPU backend) Every successful filter call leaves the matrix used in
products, and the user's matrix, as it found it. -/
theorem C13_matrix_restored_inplace (E : Env K) (k : InPlace.Kind) (s s' : InPlace.St K N)
    {n nevex deg av : ℕ} {degrees : ℕ → ℕ} (lambda1 lower upper : ℝ)
    (hd : GoodDegrees s.locked nevex deg degrees)
    (h : filter (InPlace.ops E k) n (nevex - s.locked) deg degrees nevex s.locked lambda1 lower upper s
      = .ok (av, s')) : s'.H = s.H ∧ s'.userH k = s.userH k := by
  have := InPlace.filter_spec hd.sorted
    (fun j h1 h2 => ⟨(hd.each j h1 h2).1, (hd.each j h1 h2).2.2⟩) hd.even h
  exact ⟨this.1, InPlace.userH_eq this.1 this.2.1⟩

/-! ### C14 -/

/-- A polynomial in a matrix scales an eigenvector by its value at the eigenvalue. -/
theorem aeval_mulVec_eigenvector (H : Matrix (Fin N) (Fin N) K) (p : ℝ[X]) {x : Fin N → K} {μ : ℝ}
    (hx : H.mulVec x = (μ : K) • x) : (aeval H p).mulVec x = ((p.eval μ : ℝ) : K) • x := by
  induction p using Polynomial.induction_on' with
  | add p q hp hq => rw [map_add, Matrix.add_mulVec, hp, hq, eval_add, RCLike.ofReal_add, add_smul]
  | monomial n a =>
    have hp : ∀ n, (H ^ n).mulVec x = ((μ : K) ^ n) • x := by
      intro n
      induction n with
      | zero => simp
      | succ n ih =>
        rw [pow_succ, ← Matrix.mulVec_mulVec, hx, Matrix.mulVec_smul, ih, smul_smul]
        congr 1
        ring
    rw [aeval_monomial, eval_monomial, ← Algebra.smul_def, Matrix.smul_mulVec, hp]
    ext i
    simp only [Pi.smul_apply, RCLike.real_smul_eq_coe_mul, smul_eq_mul, RCLike.ofReal_mul,
      RCLike.ofReal_pow]
    ring

theorem filterPoly_eval (lambda1 lower upper : ℝ) (d : ℕ) (μ : ℝ) :
    (filterPoly lambda1 lower upper d).eval μ =
      (Chebyshev.T ℝ d).eval (normPoint μ lower upper) /
      (Chebyshev.T ℝ d).eval (normPoint lambda1 lower upper) := by
  unfold filterPoly normPoint
  simp only [eval_mul, eval_C, eval_comp, eval_sub, eval_X]
  rw [show 1 / halfWidth lower upper * (μ - centre lower upper) =
    (μ - centre lower upper) / halfWidth lower upper by ring]
  ring

/-- **C14** For `lambda_1 < lower < upper`, a column `j` that is an eigenvector of `H` is scaled by the
filter call by a factor `r`, where, with `d = degrees[j]` and `t = (lambda_1 - c)/e`,
* `r = 1` if the eigenvalue is `lambda_1`;
* `|r| ≤ 1/|T_d(t)| < 1` if the eigenvalue lies in the damped interval `[lower, upper]`;
* `1/|T_d(t)| < |r|` if the eigenvalue lies below the interval. -/
theorem C14_keeps_wanted_damps_interval (E : Env K) (s : Seq.St K N) (hH : s.H.IsHermitian)
    (hnext : s.next = .bAc) {n nevex deg : ℕ} {degrees : ℕ → ℕ} (lambda1 lower upper : ℝ)
    (hn : n ≠ 0) (hd : GoodDegrees s.locked nevex deg degrees)
    (h1 : lambda1 < lower) (h2 : lower < upper) :
    ∃ av s', filter (Seq.ops E) n (nevex - s.locked) deg degrees nevex s.locked lambda1 lower upper s
        = .ok (av, s') ∧
      ∀ j, s.locked ≤ j → j < nevex → ∀ μ : ℝ, s.H.mulVec (s.C j) = (μ : K) • s.C j →
        ∃ r : ℝ, s'.C j = (r : K) • s.C j ∧
          (μ = lambda1 → r = 1) ∧
          1 / |(Chebyshev.T ℝ (degrees j)).eval (normPoint lambda1 lower upper)| < 1 ∧
          (lower ≤ μ → μ ≤ upper →
            |r| ≤ 1 / |(Chebyshev.T ℝ (degrees j)).eval (normPoint lambda1 lower upper)|) ∧
          (μ < lower →
            1 / |(Chebyshev.T ℝ (degrees j)).eval (normPoint lambda1 lower upper)| < |r|) := by
  obtain ⟨av, s', h, -, a4, -⟩ := C10_filter_is_chebyshev E s hH hnext lambda1 lower upper hn hd
    (fun i _ => C10_outside lambda1 lower upper h2 (Or.inl h1.le) i)
  refine ⟨av, s', h, fun j hj1 hj2 μ hμ => ?_⟩
  have hd0 : ((degrees j : ℕ) : ℤ) ≠ 0 := by
    have := (hd.each j hj1 hj2).2.1
    omega
  set t := normPoint lambda1 lower upper with ht
  have hpt : 1 < |(Chebyshev.T ℝ (degrees j)).eval t| := by
    apply Chebyshev.one_lt_abs_eval_T_real hd0
    have := normPoint_of_lt h2 h1
    rw [lt_abs]; right; linarith
  refine ⟨(filterPoly lambda1 lower upper (degrees j)).eval μ, ?_, ?_, ?_, ?_, ?_⟩
  · rw [a4 j hj1 hj2, aeval_mulVec_eigenvector s.H _ hμ]
  · rintro rfl
    rw [filterPoly_eval, ← ht]
    exact div_self (fun h => by rw [h] at hpt; norm_num at hpt)
  · rw [div_lt_one (by linarith)]; exact hpt
  · intro hl hu
    rw [filterPoly_eval, ← ht, abs_div]
    gcongr
    apply Chebyshev.abs_eval_T_real_le_one
    unfold normPoint centre halfWidth
    rw [abs_le]
    constructor
    · rw [le_div_iff₀ (by linarith)]; linarith
    · rw [div_le_iff₀ (by linarith)]; linarith
  · intro hl
    rw [filterPoly_eval, ← ht, abs_div]
    gcongr
    apply Chebyshev.one_lt_abs_eval_T_real hd0
    have := normPoint_of_lt h2 hl
    rw [lt_abs]; right; linarith

/-- Non-vacuity: the identity has every column as an eigenvector; with `lambda_1 = 1` outside of
`[2, 3]` it is kept, with `[1, 3]` and `lambda_1 = 0` it is damped. -/
example : ∃ s : Seq.St ℝ 2, s.H.IsHermitian ∧ s.next = .bAc ∧ s.C 1 ≠ 0 ∧
    s.H.mulVec (s.C 1) = ((1 : ℝ) : ℝ) • s.C 1 :=
  ⟨⟨1, fun j _ => j, fun _ => 0, fun _ => 0, fun _ => 0, .bAc, 1, true⟩, Matrix.isHermitian_one, rfl,
    fun h => by simpa using congrFun h 0, by simp⟩

end Verif
