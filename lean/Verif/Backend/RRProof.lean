/-
Rayleigh-Ritz and residuals on columns, common to the single-process backends.
-/
import Verif.Backend.DenseProof
import Mathlib.Analysis.Matrix.Spectrum
import Mathlib.LinearAlgebra.Matrix.Hermitian
import Mathlib.Tactic.NoncommRing

namespace Verif

open Matrix
open scoped ComplexOrder

variable {K : Type*} [RCLike K] {N : ℕ}

/-- Rotating the columns `[l, l+b)` by a unitary matrix keeps orthonormality. -/
theorem rotate_ortho {l b : ℕ} {X : ℕ → Fin N → K} {Z : Matrix (Fin b) (Fin b) K}
    (hX : OrthoOn (l + b) X) (hZ : Zᴴ * Z = 1) :
    OrthoOn (l + b) (setBlk l (getBlk l b X * Z) X) := by
  set V := getBlk l b X with hV
  have hVV : Vᴴ * V = 1 := by
    ext i j
    rw [hV, gram_apply, hX _ _ (by omega) (by omega), Matrix.one_apply]
    simp [Fin.ext_iff]
  have hcol : ∀ j : Fin b, setBlk l (V * Z) X (l + j) = fun i => (V * Z) i j := by
    intro j
    rw [setBlk_mem (by omega) (by omega)]
    simp
  have hcross : ∀ i, i < l → ∀ j : Fin b, dotc (X i) (fun a => (V * Z) a j) = 0 := by
    intro i hi j
    have : (fun a => (V * Z) a j) = ∑ k : Fin b, Z k j • X (l + k) := by
      funext a
      rw [Matrix.mul_apply, Finset.sum_apply]
      exact Finset.sum_congr rfl fun k _ => by simp [hV, getBlk, mul_comm]
    rw [this, dotc_sum_right]
    refine Finset.sum_eq_zero fun k _ => ?_
    rw [dotc_smul_right, hX _ _ (by omega) (by omega), if_neg (by omega), mul_zero]
  have hblk : ∀ i j : Fin b, dotc (fun a => (V * Z) a i) (fun a => (V * Z) a j) =
      if i = j then 1 else 0 := by
    intro i j
    have h1 : (V * Z)ᴴ * (V * Z) = 1 := by
      rw [Matrix.conjTranspose_mul, Matrix.mul_assoc, ← Matrix.mul_assoc Vᴴ, hVV, Matrix.one_mul, hZ]
    have := congrFun (congrFun h1 i) j
    rw [Matrix.mul_apply, Matrix.one_apply] at this
    rw [← this]
    rfl
  intro i j hi hj
  rcases Nat.lt_or_ge i l with hi' | hi' <;> rcases Nat.lt_or_ge j l with hj' | hj'
  · rw [setBlk_not_mem (by omega), setBlk_not_mem (by omega)]
    exact hX i j hi hj
  · obtain ⟨j', rfl⟩ : ∃ j' : Fin b, j = l + j' := ⟨⟨j - l, by omega⟩, by simp; omega⟩
    rw [setBlk_not_mem (by omega), hcol, hcross i hi', if_neg (by omega)]
  · obtain ⟨i', rfl⟩ : ∃ i' : Fin b, i = l + i' := ⟨⟨i - l, by omega⟩, by simp; omega⟩
    rw [setBlk_not_mem (j := j) (by omega), hcol, ← dotc_star, hcross j hj', star_zero,
      if_neg (by omega)]
  · obtain ⟨i', rfl⟩ : ∃ i' : Fin b, i = l + i' := ⟨⟨i - l, by omega⟩, by simp; omega⟩
    obtain ⟨j', rfl⟩ : ∃ j' : Fin b, j = l + j' := ⟨⟨j - l, by omega⟩, by simp; omega⟩
    rw [hcol, hcol, hblk]
    simp [Fin.ext_iff]

theorem mulVec_col {n m : ℕ} (A : Matrix (Fin N) (Fin n) K) (B : Matrix (Fin n) (Fin m) K) (j : Fin m) :
    (fun a => (A * B) a j) = A.mulVec (fun a => B a j) := by
  funext a; simp [Matrix.mul_apply, Matrix.mulVec, dotProduct]

/-- **Galerkin condition**: with `(w, Z)` an eigen-decomposition of the projection of `H` to the
columns, the rotated columns diagonalise the projection. -/
theorem rotate_galerkin {l b : ℕ} {X : ℕ → Fin N → K} {H : Matrix (Fin N) (Fin N) K}
    {Z : Matrix (Fin b) (Fin b) K} {w : Fin b → ℝ} (hZ : Zᴴ * Z = 1)
    (hA : ((getBlk l b X)ᴴ * (H * getBlk l b X)) * Z = Z * diagonal (fun i => (w i : K))) (i j : Fin b) :
    dotc (setBlk l (getBlk l b X * Z) X (l + i))
      (H.mulVec (setBlk l (getBlk l b X * Z) X (l + j))) = if i = j then (w i : K) else 0 := by
  set V := getBlk l b X with hV
  have hcol : ∀ j : Fin b, setBlk l (V * Z) X (l + j) = fun i => (V * Z) i j := by
    intro j
    rw [setBlk_mem (by omega) (by omega)]
    simp
  have h1 : (V * Z)ᴴ * (H * (V * Z)) = diagonal (fun i => (w i : K)) := by
    have := congrArg (fun M => Zᴴ * M) hA
    simp only [← Matrix.mul_assoc] at this
    rw [hZ, Matrix.one_mul] at this
    rw [← this, Matrix.conjTranspose_mul]
    simp only [Matrix.mul_assoc]
  have := congrFun (congrFun h1 i) j
  rw [hcol, hcol, ← mulVec_col, dotc]
  rw [Matrix.mul_apply, Matrix.diagonal_apply] at this
  rw [← this]
  rfl

/-- The rotated columns span what the columns spanned. -/
theorem rotate_span {l b : ℕ} {X : ℕ → Fin N → K} {Z : Matrix (Fin b) (Fin b) K}
    (hX : OrthoOn (l + b) X) (hZ : Zᴴ * Z = 1) :
    prefixSpan (l + b) (setBlk l (getBlk l b X * Z) X) = prefixSpan (l + b) X := by
  have hle : prefixSpan (l + b) (setBlk l (getBlk l b X * Z) X) ≤ prefixSpan (l + b) X := by
    refine prefixSpan_le fun j hj => ?_
    rcases Nat.lt_or_ge j l with h | h
    · rw [setBlk_not_mem (by omega)]; exact mem_prefixSpan hj
    · rw [setBlk_mem h hj]
      have : (fun i => (getBlk l b X * Z) i ⟨j - l, by omega⟩) =
          ∑ k : Fin b, Z k ⟨j - l, by omega⟩ • X (l + k) := by
        funext a
        rw [Matrix.mul_apply, Finset.sum_apply]
        exact Finset.sum_congr rfl fun k _ => by simp [getBlk, mul_comm]
      rw [this]
      exact Submodule.sum_mem _ fun k _ => Submodule.smul_mem _ _ (mem_prefixSpan (by omega))
  apply Submodule.eq_of_le_of_finrank_le hle
  have := linearIndependent_iff_card_eq_finrank_span.mp (rotate_ortho hX hZ).linearIndependent
  rw [prefixSpan_eq_range (X := setBlk l _ X)]
  rw [Set.finrank] at this
  rw [← this, prefixSpan_eq_range]
  exact finrank_range_le_card _

theorem projection_isHermitian {b : ℕ} {H : Matrix (Fin N) (Fin N) K} (hH : H.IsHermitian)
    (V : Matrix (Fin N) (Fin b) K) : (Vᴴ * (H * V)).IsHermitian := by
  rw [← Matrix.mul_assoc]
  exact Matrix.isHermitian_conjTranspose_mul_mul V hH

end Verif
