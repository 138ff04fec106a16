/-
Proof that a filter call on a two-buffer backend applies the filter polynomials.
-/
import Verif.Filter.Spec
import Verif.Solver.FilterProps
import Mathlib.Analysis.SpecialFunctions.Trigonometric.Chebyshev.RootsExtrema
import Mathlib.Tactic.Ring
import Mathlib.Tactic.FieldSimp
import Mathlib.Tactic.LinearCombination
import Mathlib.Tactic.Module

set_option linter.unusedSectionVars false

namespace Verif

open Polynomial

section Scalar

variable {lambda1 lower upper : ℝ}

/-- `T_i` at the image of `lambda_1`. -/
noncomputable def tau (lambda1 lower upper : ℝ) (i : ℕ) : ℝ :=
  (Chebyshev.T ℝ i).eval ((lambda1 - centre lower upper) / halfWidth lower upper)

theorem tau_zero : tau lambda1 lower upper 0 = 1 := by simp [tau]

theorem tau_one : tau lambda1 lower upper 1 =
    (lambda1 - centre lower upper) / halfWidth lower upper := by simp [tau]

theorem tau_succ (i : ℕ) : tau lambda1 lower upper (i + 2) =
    2 * ((lambda1 - centre lower upper) / halfWidth lower upper) * tau lambda1 lower upper (i + 1)
      - tau lambda1 lower upper i := by
  unfold tau
  push_cast
  rw [Chebyshev.T_add_two]
  simp

/-- The numbers `sigma` of the filter are quotients of Chebyshev values. -/
theorem sigmaSeq_eq {n : ℕ} (h : ∀ i, i ≤ n → tau lambda1 lower upper i ≠ 0) :
    ∀ i, i + 1 ≤ n → sigmaSeq (halfWidth lower upper / (lambda1 - centre lower upper)) (i + 1) =
      tau lambda1 lower upper i / tau lambda1 lower upper (i + 1) := by
  intro i
  induction i with
  | zero =>
    intro _
    rw [tau_zero, tau_one, one_div, inv_div]
    rfl
  | succ i ih =>
    intro hi
    have e1 := h (i + 1) (by omega)
    have e2 := h (i + 2) hi
    have e3 := h 1 (by omega)
    have e4 : 2 / (halfWidth lower upper / (lambda1 - centre lower upper)) =
        2 * tau lambda1 lower upper 1 := by
      rw [tau_one, div_div_eq_mul_div, mul_div_assoc]
    show 1 / (2 / _ - sigmaSeq _ (i + 1)) = _
    rw [ih (by omega), e4]
    have e5 : 2 * tau lambda1 lower upper 1 -
        tau lambda1 lower upper i / tau lambda1 lower upper (i + 1) =
        tau lambda1 lower upper (i + 2) / tau lambda1 lower upper (i + 1) := by
      rw [tau_succ, tau_one]; field_simp
    rw [e5, one_div, inv_div]

theorem filterPoly_zero : filterPoly lambda1 lower upper 0 = 1 := by
  simp [filterPoly]

theorem filterPoly_one : filterPoly lambda1 lower upper 1 =
    C (alphaSeq (halfWidth lower upper / (lambda1 - centre lower upper)) (halfWidth lower upper) 1) *
      (X - C (centre lower upper)) := by
  have : filterPoly lambda1 lower upper 1 =
      C (1 / ((lambda1 - centre lower upper) / halfWidth lower upper)) *
      (C (1 / halfWidth lower upper) * (X - C (centre lower upper))) := by
    simp [filterPoly]
  rw [this, alphaSeq, if_pos le_rfl, ← mul_assoc, ← C_mul, one_div, inv_div, mul_one_div]

theorem filterPoly_rec {n : ℕ} (h : ∀ i, i ≤ n → tau lambda1 lower upper i ≠ 0) {i : ℕ}
    (hi : i + 2 ≤ n) : filterPoly lambda1 lower upper (i + 2) =
    C (alphaSeq (halfWidth lower upper / (lambda1 - centre lower upper)) (halfWidth lower upper)
        (i + 2)) * ((X - C (centre lower upper)) * filterPoly lambda1 lower upper (i + 1)) +
    C (betaSeq (halfWidth lower upper / (lambda1 - centre lower upper)) (i + 2)) *
      filterPoly lambda1 lower upper i := by
  set e := halfWidth lower upper with he
  set c := centre lower upper with hc
  have h0 := h i (by omega)
  have h1 := h (i + 1) (by omega)
  have h2 := h (i + 2) hi
  set q := C (1 / e) * (X - C c) with hq
  have hp : ∀ k, filterPoly lambda1 lower upper k =
      C (1 / tau lambda1 lower upper k) * (Chebyshev.T ℝ k).comp q := fun k => rfl
  have hT : (Chebyshev.T ℝ (i + 2 : ℕ)).comp q =
      2 * q * (Chebyshev.T ℝ (i + 1 : ℕ)).comp q - (Chebyshev.T ℝ i).comp q := by
    push_cast
    rw [Chebyshev.T_add_two]
    simp
  rw [hp, hp, hp, hT]
  rw [alphaSeq, betaSeq, if_neg (by omega), if_neg (by omega),
    show i + 2 - 1 = i + 1 from rfl, sigmaSeq_eq h i (by omega),
    show i + 2 = (i + 1) + 1 from rfl, sigmaSeq_eq h (i + 1) hi]
  show C (1 / tau lambda1 lower upper (i + 2)) * _ = C _ * _ + _
  have e1 : C (1 / tau lambda1 lower upper (i + 2)) * (2 * C (1 / e)) =
      C (2 * (tau lambda1 lower upper (i + 1) / tau lambda1 lower upper (i + 2)) / e) *
        C (1 / tau lambda1 lower upper (i + 1)) := by
    rw [← C_mul, show (2 : ℝ[X]) = C 2 from rfl, ← C_mul, ← C_mul]
    congr 1
    field_simp
  have e2 : C (-(tau lambda1 lower upper i / tau lambda1 lower upper (i + 1)) *
      (tau lambda1 lower upper (i + 1) / tau lambda1 lower upper (i + 2))) *
        C (1 / tau lambda1 lower upper i) = - C (1 / tau lambda1 lower upper (i + 2)) := by
    rw [← C_mul, ← C_neg]
    congr 1
    field_simp
  rw [hq]
  linear_combination ((X - C c) * (Chebyshev.T ℝ (i + 1 : ℕ)).comp (C (1 / e) * (X - C c))) * e1 -
    (Chebyshev.T ℝ i).comp (C (1 / e) * (X - C c)) * e2

end Scalar

section Buffers

variable {S K : Type*} [RCLike K] {N : ℕ} {ops : Chase ℝ S}
  {mat : S → Matrix (Fin N) (Fin N) K} {x y : S → ℕ → Fin N → K} {nl : S → ℕ} {good : S → Prop}

/-- The polynomial degree held by a column after `i` multiplications, if its own degree is `D ≥ 1`. -/
def held (D i : ℕ) : ℕ := if i ≤ D then i else if (i - D) % 2 = 0 then D else D - 1

theorem held_step {D i : ℕ} (hD : 1 ≤ D) (hi : D ≤ i) : held D (i + 1) = held D (i - 1) := by
  unfold held; split_ifs <;> omega

theorem held_even {d deg : ℕ} (hd : Even d) (hdeg : Even deg) (h : d ≤ deg) (h2 : 2 ≤ deg) :
    held (max 1 d) deg = d := by
  rw [Nat.even_iff] at *
  unfold held; split_ifs <;> omega

/-- State after the multiplications below `upto` on the shifted matrix. -/
theorem mults_two_buffer (hb : TwoBuffer ops mat x y nl good) {lambda1 lower upper : ℝ}
    {deg u : ℕ} {d : ℕ → ℕ} (hd : SortedOn 0 u d) (A : Matrix (Fin N) (Fin N) K) (s : S)
    (hg : good s) (hA : mat s = A + (-centre lower upper) • (1 : Matrix (Fin N) (Fin N) K)) :
    ∀ i, i ≤ deg →
      let s' := mults ops d u (halfWidth lower upper / (lambda1 - centre lower upper))
        (halfWidth lower upper) (i + 1) s
      good s' ∧ mat s' = mat s ∧ nl s' = nl s ∧
      ((∀ i, i ≤ deg → tau lambda1 lower upper i ≠ 0) → ∀ j, j < u → x s' (nl s + j) =
        (aeval A (filterPoly lambda1 lower upper (held (max 1 (d j)) i))).mulVec (x s (nl s + j))) ∧
      ((∀ i, i ≤ deg → tau lambda1 lower upper i ≠ 0) → 1 ≤ i → ∀ j, j < u → y s' (nl s + j) =
        (aeval A (filterPoly lambda1 lower upper (held (max 1 (d j)) (i - 1)))).mulVec
          (x s (nl s + j))) ∧
      (∀ j, j < nl s ∨ nl s + u ≤ j → (x s' j, y s' j) =
        if i % 2 = 0 then (x s j, y s j) else (y s j, x s j)) := by
  set e := halfWidth lower upper with he
  set c := centre lower upper with hc
  set sigma1 := e / (lambda1 - c) with hsig
  have hshift : ∀ v : Fin N → K, (mat s).mulVec v = (aeval A (X - C c : ℝ[X])).mulVec v := by
    intro v
    rw [hA]
    congr 1
    simp [Algebra.algebraMap_eq_smul_one, sub_eq_add_neg]
  intro i
  induction i with
  | zero =>
    intro _
    have : mults ops d u sigma1 e (0 + 1) s = s := forRange_self _ _ _
    rw [this]
    refine ⟨hg, rfl, rfl, ?_, by omega, ?_⟩
    · intro _ j hj
      rw [held, if_pos (Nat.zero_le _), filterPoly_zero]
      simp
    · intro j hj; simp
  | succ i ih =>
    intro hi
    obtain ⟨g1, g2, g3, g4, g5, g6⟩ := ih (by omega)
    have hm : mults ops d u sigma1 e (i + 1 + 1) s =
        ops.hemm (u - cut d u (i + 1)) (alphaSeq sigma1 e (i + 1)) (betaSeq sigma1 (i + 1))
          (cut d u (i + 1)) (mults ops d u sigma1 e (i + 1) s) := by
      unfold mults
      rw [forRange_succ (by omega)]
    dsimp only
    rw [hm]
    generalize mults ops d u sigma1 e (i + 1) s = s1 at g1 g2 g3 g4 g5 g6
    obtain ⟨k1, k2, k3, k4, k5⟩ := hb.hemm (u - cut d u (i + 1)) (alphaSeq sigma1 e (i + 1))
      (betaSeq sigma1 (i + 1)) (cut d u (i + 1)) s1 g1
    have hcle := cut_le d u (i + 1)
    refine ⟨k1, k2.trans g2, k3.trans g3, ?_, ?_, ?_⟩
    · intro htau j hj
      replace g4 := g4 htau
      replace g5 := g5 htau
      rw [k5, g3]
      have hcut := lt_cut_iff (i := i + 1) hd hj
      by_cases hact : i + 1 ≤ max 1 (d j)
      · rw [if_pos (by omega), g4 j hj, g2, hshift]
        rw [held, held, if_pos (by omega), if_pos hact]
        rcases Nat.eq_zero_or_pos i with rfl | hpos
        · rw [betaSeq, if_pos (by omega), zero_smul, add_zero, filterPoly_zero, zero_add,
            filterPoly_one]
          rw [map_one, Matrix.one_mulVec, map_mul, aeval_C, ← Matrix.mulVec_mulVec]
          rw [Algebra.algebraMap_eq_smul_one, Matrix.smul_mulVec, Matrix.one_mulVec]
        · obtain ⟨k, rfl⟩ : ∃ k, i = k + 1 := ⟨i - 1, by omega⟩
          rw [g5 (by omega) j hj, held, if_pos (by omega), filterPoly_rec htau hi]
          simp only [map_add, map_mul, aeval_C, Matrix.add_mulVec, ← Matrix.mulVec_mulVec,
            Algebra.algebraMap_eq_smul_one, Matrix.smul_mulVec, Matrix.one_mulVec,
            Nat.add_sub_cancel]
          rfl
      · rw [if_neg (by omega), g5 (by omega) j hj, held_step (by omega) (by omega)]
    · intro htau _ j hj
      rw [k4, g4 htau j hj]
      rfl
    · intro j hj
      have hnot : ¬ (nl s + cut d u (i + 1) ≤ j ∧
          j < nl s + cut d u (i + 1) + (u - cut d u (i + 1))) := by omega
      rw [k5, k4, g3, if_neg hnot]
      have := g6 j hj
      rw [Prod.mk.injEq] at *
      by_cases hpar : i % 2 = 0
      · rw [if_pos hpar] at this
        rw [if_neg (by omega)]
        simp only [Prod.mk.injEq] at this ⊢
        exact ⟨this.2, this.1⟩
      · rw [if_neg hpar] at this
        rw [if_pos (by omega)]
        simp only [Prod.mk.injEq] at this ⊢
        exact ⟨this.2, this.1⟩

/-- A filter call on a two-buffer backend. -/
theorem filter_two_buffer (hb : TwoBuffer ops mat x y nl good) {lambda1 lower upper : ℝ}
    {n u deg dsize : ℕ} {degrees : ℕ → ℕ} {s s' : S} {av : ℕ}
    (hg : good s) (hn : n ≠ 0) (hu : 0 < u) (hsz : nl s + u ≤ dsize)
    (hs : SortedOn (nl s) (nl s + u) degrees)
    (hd : ∀ j, j < u → Even (degrees (nl s + j)) ∧ degrees (nl s + j) ≤ deg) (hdeg : Even deg)
    (hlast : 2 ≤ degrees (nl s + (u - 1)))
    (h : filter ops n u deg degrees dsize (nl s) lambda1 lower upper s = .ok (av, s')) :
    good s' ∧ mat s' = mat s ∧ nl s' = nl s ∧
    ((∀ i, i ≤ deg → tau lambda1 lower upper i ≠ 0) → ∀ j, j < u → x s' (nl s + j) =
      (aeval (mat s) (filterPoly lambda1 lower upper (degrees (nl s + j)))).mulVec
        (x s (nl s + j))) ∧
    (∀ j, j < nl s ∨ nl s + u ≤ j → x s' j = x s j ∧ y s' j = y s j) := by
  rw [filter_eq ops lambda1 lower upper s hn hu hsz hs (fun j hj => (hd j hj).2) hlast] at h
  have hs2 : s' = ops.shift (centre lower upper) true (mults ops (fun j => degrees (nl s + j)) u
      (halfWidth lower upper / (lambda1 - centre lower upper)) (halfWidth lower upper) (deg + 1)
      (ops.shift (-centre lower upper) false s)) := by
    cases h; rfl
  clear h
  obtain ⟨a1, a2, a3, a4, a5⟩ := hb.shift (-centre lower upper) false s hg
  have hs' : SortedOn 0 u (fun j => degrees (nl s + j)) :=
    fun a b _ hab hb => hs (nl s + a) (nl s + b) (by omega) (by omega) (by omega)
  have hdeg2 : 2 ≤ deg := by have := (hd (u - 1) (by omega)).2; omega
  obtain ⟨g1, g2, g3, g4, g5, g6⟩ := mults_two_buffer hb hs' (mat s) _ a1 a2 deg le_rfl
  generalize mults ops (fun j => degrees (nl s + j)) u
    (halfWidth lower upper / (lambda1 - centre lower upper)) (halfWidth lower upper) (deg + 1)
    (ops.shift (-centre lower upper) false s) = s1 at g1 g2 g3 g4 g5 g6 hs2
  subst hs2
  obtain ⟨b1, b2, b3, b4, b5⟩ := hb.shift (centre lower upper) true s1 g1
  rw [a5] at g3 g4 g6
  refine ⟨b1, ?_, b5.trans g3, ?_, ?_⟩
  · rw [b2, g2, a2, add_assoc, ← add_smul, neg_add_cancel, zero_smul, add_zero]
  · intro htau j hj
    rw [b3, g4 htau j hj, a3, held_even (hd j hj).1 hdeg (hd j hj).2 hdeg2]
  · intro j hj
    rw [b3, b4]
    have := g6 j hj
    rw [if_pos (Nat.even_iff.mp hdeg), Prod.mk.injEq, a3, a4] at this
    exact this

/-- A filter call that succeeds on ascending degrees had something to do. -/
theorem filter_success {R S : Type*} [Add R] [Sub R] [Mul R] [Div R] [Neg R] [Zero R] [One R] [NatCast R] [LT R] [DecidableLT R] (ops : Chase R S)
    {n u deg dsize p0 : ℕ} {degrees : ℕ → ℕ} {lambda1 lower upper : R} {s : S} {r : ℕ × S}
    (hs : SortedOn p0 dsize degrees)
    (h : filter ops n u deg degrees dsize p0 lambda1 lower upper s = .ok r) :
    n ≠ 0 ∧ p0 < dsize ∧ 2 ≤ degrees (dsize - 1) := by
  have hn : n ≠ 0 := by
    rintro rfl
    unfold filter at h
    rw [if_pos rfl] at h
    cases h
  refine ⟨hn, ?_⟩
  by_contra hc
  have : ∀ j, p0 ≤ j → j < dsize → degrees j ≤ 1 := by
    intro j h1 h2
    have := hs j (dsize - 1) h1 (by omega) (by omega)
    by_contra h3
    exact hc ⟨by omega, by omega⟩
  rcases C15_small_degrees_fail ops (u := u) (deg := deg) lambda1 lower upper s hn this with g | g <;>
    rw [g] at h <;> cases h

/-- A bit that every multiplication flips and every shift keeps has its old value after a filter
call, the degree being even. -/
theorem filter_toggle {R S : Type*} [Add R] [Sub R] [Mul R] [Div R] [Neg R] [Zero R] [One R] [NatCast R] [LT R] [DecidableLT R] {ops : Chase R S} {p : S → Bool}
    (hs : ∀ c b s, p (ops.shift c b s) = p s) (hh : ∀ n α β off s, p (ops.hemm n α β off s) = !p s)
    {n deg nevex l : ℕ} {degrees : ℕ → ℕ} {lambda1 lower upper : R} {s : S} {av : ℕ} {s' : S}
    (hsort : SortedOn l nevex degrees) (hd : ∀ j, l ≤ j → j < nevex → degrees j ≤ deg)
    (hdeg : Even deg)
    (h : filter ops n (nevex - l) deg degrees nevex l lambda1 lower upper s = .ok (av, s')) :
    p s' = p s := by
  obtain ⟨hn, hl, h2⟩ := filter_success ops hsort h
  rw [filter_eq ops lambda1 lower upper s hn (by omega) (by omega)
    (by rw [show l + (nevex - l) = nevex by omega]; exact hsort)
    (fun j hj => hd _ (by omega) (by omega))
    (by rw [show l + (nevex - l - 1) = nevex - 1 by omega]; exact h2)] at h
  have hm : ∀ (d : ℕ → ℕ) (u : ℕ) (sg e : R) (s : S) (i : ℕ),
      p (mults ops d u sg e (i + 1) s) = (p s ^^ decide (i % 2 = 1)) := by
    intro d u sg e s i
    induction i with
    | zero => simp [mults, forRange_self]
    | succ i ih =>
      have : mults ops d u sg e (i + 1 + 1) s = ops.hemm (u - cut d u (i + 1)) (alphaSeq sg e (i + 1))
          (betaSeq sg (i + 1)) (cut d u (i + 1)) (mults ops d u sg e (i + 1) s) := by
        unfold mults
        rw [forRange_succ (by omega)]
      rw [this, hh, ih]
      rcases Nat.mod_two_eq_zero_or_one i with hi | hi
      · have : (i + 1) % 2 = 1 := by omega
        simp [hi, this]
      · have : (i + 1) % 2 = 0 := by omega
        simp [hi, this]
  cases h
  rw [hs, hm, hs]
  rw [Nat.even_iff] at hdeg
  simp [hdeg]

/-- What holds before a filter call and is kept by shifts and multiplications holds afterwards. -/
theorem filter_frame {R S : Type*} [Add R] [Sub R] [Mul R] [Div R] [Neg R] [Zero R] [One R] [NatCast R] [LT R] [DecidableLT R] {ops : Chase R S} {P : S → Prop}
    (hsh : ∀ c b s, P s → P (ops.shift c b s))
    (hh : ∀ n α β off s, P s → P (ops.hemm n α β off s))
    {n deg nevex l : ℕ} {degrees : ℕ → ℕ} {lambda1 lower upper : R} {s : S} {av : ℕ} {s' : S}
    (hs : SortedOn l nevex degrees) (hd : ∀ j, l ≤ j → j < nevex → degrees j ≤ deg)
    (h : filter ops n (nevex - l) deg degrees nevex l lambda1 lower upper s = .ok (av, s'))
    (hP : P s) : P s' := by
  obtain ⟨hn, hl, h2⟩ := filter_success ops hs h
  rw [filter_eq ops lambda1 lower upper s hn (by omega) (by omega)
    (by rw [show l + (nevex - l) = nevex by omega]; exact hs)
    (fun j hj => hd _ (by omega) (by omega))
    (by rw [show l + (nevex - l - 1) = nevex - 1 by omega]; exact h2)] at h
  cases h
  refine hsh _ _ _ ?_
  exact forRange_pres _ P (hsh _ _ _ hP) fun i s _ _ hs => hh _ _ _ _ _ hs

/-- A filter call on a two-buffer backend, on all columns that are not locked. -/
theorem filter_two_buffer_all (hb : TwoBuffer ops mat x y nl good) {lambda1 lower upper : ℝ}
    {n nevex deg : ℕ} {degrees : ℕ → ℕ} {s s' : S} {av : ℕ} (hg : good s)
    (hs : SortedOn (nl s) nevex degrees)
    (hd : ∀ j, nl s ≤ j → j < nevex → Even (degrees j) ∧ degrees j ≤ deg) (hdeg : Even deg)
    (h : filter ops n (nevex - nl s) deg degrees nevex (nl s) lambda1 lower upper s
      = .ok (av, s')) :
    good s' ∧ mat s' = mat s ∧ nl s' = nl s ∧
    ((∀ i, i ≤ deg → tau lambda1 lower upper i ≠ 0) → ∀ j, nl s ≤ j → j < nevex → x s' j =
      (aeval (mat s) (filterPoly lambda1 lower upper (degrees j))).mulVec (x s j)) ∧
    (∀ j, j < nl s ∨ nevex ≤ j → x s' j = x s j ∧ y s' j = y s j) := by
  obtain ⟨hn, hl, h2⟩ := filter_success ops hs h
  have e : nl s + (nevex - nl s) = nevex := by omega
  obtain ⟨a, b, c, d, f⟩ := filter_two_buffer hb hg hn (by omega) (by omega) (by rw [e]; exact hs)
    (fun j hj => hd _ (by omega) (by omega)) hdeg
    (by rw [show nl s + (nevex - nl s - 1) = nevex - 1 by omega]; exact h2) h
  refine ⟨a, b, c, ?_, ?_⟩
  · intro ht j h1 h2
    have := d ht (j - nl s) (by omega)
    rwa [show nl s + (j - nl s) = j by omega] at this
  · intro j hj
    exact f j (by omega)

end Buffers

end Verif
