/-
C09, C45: symmetry check and symmetrisation of the single-process backends.
-/
import Verif.Backend.Common
import Verif.Backend.DenseProof
import Verif.Backend.LapackExists

namespace Verif

open Matrix

variable {K : Type*} [RCLike K] {N : ℕ}

/-! ### C09 -/

/-- **C09** (single process, exact arithmetic) The check answers yes iff the skew part of `H` vanishes
on the probe vector. -/
theorem C09_check_iff (L : Lapack K) (H : Matrix (Fin N) (Fin N) K) :
    symCheck L H = true ↔ (H - Hᴴ).mulVec (fun i => L.probe i) = 0 := by
  have h := forRange_inv (Nat.zero_le N)
    (fun k ok => if h : k < N then (ok && (open Classical in decide
      (H.mulVec (fun i : Fin N => L.probe i) ⟨k, h⟩ = Hᴴ.mulVec (fun i : Fin N => L.probe i) ⟨k, h⟩)))
      else ok)
    (fun m ok => ok = true ↔ ∀ i : Fin N, i.val < m →
      H.mulVec (fun i : Fin N => L.probe i) i = Hᴴ.mulVec (fun i : Fin N => L.probe i) i)
    (s := true) (by simp) ?_
  · refine Iff.trans h ?_
    rw [Matrix.sub_mulVec, sub_eq_zero]
    exact ⟨fun h => funext fun i => h i i.2, fun h i _ => congrFun h i⟩
  · intro m ok _ hm ih
    show (if h : m < N then _ else ok) = true ↔ _
    rw [dif_pos hm, Bool.and_eq_true, ih, decide_eq_true_iff]
    constructor
    · rintro ⟨h1, h2⟩ i hi
      rcases Nat.lt_or_ge i.val m with h | h
      · exact h1 i h
      · have e : i = ⟨m, hm⟩ := Fin.ext (show i.val = m by omega)
        rw [e]; exact h2
    · intro h
      exact ⟨fun i hi => h i (by omega), h ⟨m, hm⟩ (by exact Nat.lt_succ_self m)⟩

/-- **C09** A Hermitian matrix is never rejected. -/
theorem C09_hermitian_accepted (L : Lapack K) (H : Matrix (Fin N) (Fin N) K) (hH : H.IsHermitian) :
    symCheck L H = true := by
  rw [C09_check_iff, hH.eq, sub_self, Matrix.zero_mulVec]

/-- **C09** A matrix whose skew part is seen by the probe vector is rejected. -/
theorem C09_skew_rejected (L : Lapack K) (H : Matrix (Fin N) (Fin N) K)
    (h : (H - Hᴴ).mulVec (fun i => L.probe i) ≠ 0) : symCheck L H = false := by
  rw [← Bool.not_eq_true, C09_check_iff]; exact h

/-- Non-vacuity: a probe with nonzero entries sees the skew part of an upper triangular matrix. -/
example (L : Lapack ℝ) (h : L.probe 1 ≠ 0) :
    symCheck L (!![0, 1; 0, 0] : Matrix (Fin 2) (Fin 2) ℝ) = false := by
  apply C09_skew_rejected
  intro h0
  have := congrFun h0 0
  simp [Matrix.mulVec, dotProduct, Fin.sum_univ_two] at this
  exact h this

/-! ### C45 -/

omit [RCLike K] in
theorem setEntry_apply (H : Matrix (Fin N) (Fin N) K) (a b : ℕ) (x : K) (i j : Fin N) :
    setEntry H a b x i j = if i.val = a ∧ j.val = b then x else H i j := rfl

/-- The matrix after symmetrisation from the upper triangle. -/
theorem symmetrise_upper (H : Matrix (Fin N) (Fin N) K) (p q : Fin N) :
    symmetrise true H p q = if q < p then star (H q p) else H p q := by
  have h := forRange_inv (Nat.zero_le N)
    (fun j (A : Matrix (Fin N) (Fin N) K) =>
      forRange 0 j (fun i A => setEntry A j i (star (ent A i j))) A)
    (fun m A => ∀ p q : Fin N, A p q = if q < p ∧ p.val < m then star (H q p) else H p q)
    (s := H) (by intro p q; simp) ?_
  · have := h p q
    simp only [p.2, and_true] at this
    exact this
  · intro m A _ hm ih p q
    have h2 := forRange_inv (Nat.zero_le m)
      (fun i (A : Matrix (Fin N) (Fin N) K) => setEntry A m i (star (ent A i m)))
      (fun k B => ∀ p q : Fin N, B p q =
        if q < p ∧ (p.val < m ∨ (p.val = m ∧ q.val < k)) then star (H q p) else H p q)
      (s := A) (by intro p q; rw [ih]; simp) ?_
    · have := h2 p q
      show forRange 0 m _ A p q = _
      rw [this]
      refine if_congr ⟨fun ⟨h1, h2⟩ => ⟨h1, by omega⟩, fun ⟨h1, h2⟩ => ⟨h1, ?_⟩⟩ rfl rfl
      have : q.val < p.val := h1
      omega
    · intro k B _ hk ihB p q
      rw [setEntry_apply]
      have hent : ent B k m = H ⟨k, by omega⟩ ⟨m, hm⟩ := by
        rw [ent, dif_pos ⟨by omega, hm⟩, ihB, if_neg]
        rintro ⟨h1, -⟩
        have : m < k := h1
        omega
      rw [hent, ihB]
      by_cases hc : p.val = m ∧ q.val = k
      · rw [if_pos hc, if_pos ⟨show q.val < p.val by omega, by omega⟩]
        have e1 : p = ⟨m, hm⟩ := Fin.ext hc.1
        have e2 : q = ⟨k, by omega⟩ := Fin.ext hc.2
        rw [e1, e2]
      · rw [if_neg hc]
        refine if_congr ⟨fun ⟨h1, h2⟩ => ⟨h1, by omega⟩, fun ⟨h1, h2⟩ => ⟨h1, by omega⟩⟩ rfl rfl

/-- The matrix after symmetrisation from the lower triangle. -/
theorem symmetrise_lower (H : Matrix (Fin N) (Fin N) K) (p q : Fin N) :
    symmetrise false H p q = if p < q then star (H q p) else H p q := by
  have h := forRange_inv (Nat.zero_le N)
    (fun i (A : Matrix (Fin N) (Fin N) K) =>
      forRange 0 i (fun j A => setEntry A j i (star (ent A i j))) A)
    (fun m A => ∀ p q : Fin N, A p q = if p < q ∧ q.val < m then star (H q p) else H p q)
    (s := H) (by intro p q; simp) ?_
  · have := h p q
    simp only [q.2, and_true] at this
    exact this
  · intro m A _ hm ih p q
    have h2 := forRange_inv (Nat.zero_le m)
      (fun j (A : Matrix (Fin N) (Fin N) K) => setEntry A j m (star (ent A m j)))
      (fun k B => ∀ p q : Fin N, B p q =
        if p < q ∧ (q.val < m ∨ (q.val = m ∧ p.val < k)) then star (H q p) else H p q)
      (s := A) (by intro p q; rw [ih]; simp) ?_
    · have := h2 p q
      show forRange 0 m _ A p q = _
      rw [this]
      refine if_congr ⟨fun ⟨h1, h2⟩ => ⟨h1, by omega⟩, fun ⟨h1, h2⟩ => ⟨h1, ?_⟩⟩ rfl rfl
      have : p.val < q.val := h1
      omega
    · intro k B _ hk ihB p q
      rw [setEntry_apply]
      have hent : ent B m k = H ⟨m, hm⟩ ⟨k, by omega⟩ := by
        rw [ent, dif_pos ⟨hm, by omega⟩, ihB, if_neg]
        rintro ⟨h1, -⟩
        have : m < k := h1
        omega
      rw [hent, ihB]
      by_cases hc : p.val = k ∧ q.val = m
      · rw [if_pos hc, if_pos ⟨show p.val < q.val by omega, by omega⟩]
        have e1 : q = ⟨m, hm⟩ := Fin.ext hc.2
        have e2 : p = ⟨k, by omega⟩ := Fin.ext hc.1
        rw [e1, e2]
      · rw [if_neg hc]
        refine if_congr ⟨fun ⟨h1, h2⟩ => ⟨h1, by omega⟩, fun ⟨h1, h2⟩ => ⟨h1, by omega⟩⟩ rfl rfl

/-- **C45** (partial: the result is Hermitian if the diagonal is real; single-process backends) The
chosen triangle, diagonal included, is untouched. For a complex matrix with a non-real diagonal entry
the claim is false, see `C45_symmetrise_refuted`. -/
theorem C45_symmetrise_partial (upper : Bool) (H : Matrix (Fin N) (Fin N) K) :
    (∀ p q : Fin N, (if upper then p ≤ q else q ≤ p) → symmetrise upper H p q = H p q) ∧
    ((∀ p, star (H p p) = H p p) → (symmetrise upper H).IsHermitian) := by
  cases upper
  · refine ⟨fun p q h => ?_, fun hd => ?_⟩
    · rw [symmetrise_lower, if_neg (by simpa using h)]
    · ext p q
      rw [Matrix.conjTranspose_apply, symmetrise_lower, symmetrise_lower]
      rcases lt_trichotomy p q with h | h | h
      · rw [if_neg (not_lt.mpr h.le), if_pos h]
      · subst h
        rw [if_neg (lt_irrefl p), hd]
      · rw [if_pos h, if_neg (not_lt.mpr h.le), star_star]
  · refine ⟨fun p q h => ?_, fun hd => ?_⟩
    · rw [symmetrise_upper, if_neg (by simpa using h)]
    · ext p q
      rw [Matrix.conjTranspose_apply, symmetrise_upper, symmetrise_upper]
      rcases lt_trichotomy p q with h | h | h
      · rw [if_pos h, if_neg (not_lt.mpr h.le), star_star]
      · subst h
        rw [if_neg (lt_irrefl p), hd]
      · rw [if_neg (not_lt.mpr h.le), if_pos h]

/-- **C45** for real matrices, without restriction. -/
theorem C45_symmetrise_real (upper : Bool) (H : Matrix (Fin N) (Fin N) ℝ) :
    (symmetrise upper H).IsHermitian :=
  (C45_symmetrise_partial upper H).2 fun _ => star_trivial _

/-- **C45 is false as stated** for complex matrices: the diagonal is left as it is, so that a matrix with
an imaginary diagonal entry does not become Hermitian, whichever triangle is chosen. -/
theorem C45_symmetrise_refuted (upper : Bool) :
    ∃ H : Matrix (Fin 2) (Fin 2) ℂ, ¬ (symmetrise upper H).IsHermitian := by
  refine ⟨!![Complex.I, 0; 0, 0], fun h => ?_⟩
  have h0 := congrFun (congrFun h 0) 0
  rw [Matrix.conjTranspose_apply, (C45_symmetrise_partial upper _).1 0 0 (by cases upper <;> simp)] at h0
  simp at h0
  have := congrArg Complex.im h0
  simp at this
  norm_num at this

/-- **C45** and **C09** together: after symmetrising a real matrix the symmetry check passes. -/
theorem C45_then_check_passes (L : Lapack ℝ) (upper : Bool) (H : Matrix (Fin N) (Fin N) ℝ) :
    symCheck L (symmetrise upper H) = true :=
  C09_hermitian_accepted L _ (C45_symmetrise_real upper H)

/-- Non-vacuity: a complex upper triangular matrix with real diagonal. -/
example : (∀ p, star ((!![1, Complex.I; 0, 2] : Matrix (Fin 2) (Fin 2) ℂ) p p) =
      (!![1, Complex.I; 0, 2] : Matrix (Fin 2) (Fin 2) ℂ) p p) ∧
    symmetrise true (!![1, Complex.I; 0, 2] : Matrix (Fin 2) (Fin 2) ℂ) 1 0 = -Complex.I := by
  constructor
  · intro p; fin_cases p <;> simp
  · rw [symmetrise_upper]; simp

end Verif
