/-
Why C99 needs an assumption on LAPACK: the contract leaves the phases of the orthonormal columns of a complex QR open.
-/
import Verif.Backend.ComplexifyExists

namespace Verif

open Matrix

variable {N : ℕ}

/-- LAPACK with a Householder QR whose columns are turned by `i`. -/
noncomputable def Lapack.turned (L : Lapack ℂ) : Lapack ℂ := { L with hhqr := fun V => Complex.I • L.hhqr V }

theorem Lapack.Ok.turned {L : Lapack ℂ} (h : L.Ok) : L.turned.Ok where
  potrf := h.potrf
  heevd := h.heevd
  stemr := h.stemr
  hhqr := by
    intro m n V hmn
    obtain ⟨h1, R, h2⟩ := h.hhqr V hmn
    refine ⟨?_, -Complex.I • R, ?_⟩
    · show (Complex.I • L.hhqr V)ᴴ * (Complex.I • L.hhqr V) = 1
      rw [Matrix.conjTranspose_smul, Matrix.smul_mul, Matrix.mul_smul, smul_smul, h1]
      simp
    · have ht : triu (-Complex.I • R) = -Complex.I • triu R := by
        funext i j
        show (if i ≤ j then -Complex.I * R i j else 0) = -Complex.I * (if i ≤ j then R i j else 0)
        split_ifs <;> simp
      show (Complex.I • L.hhqr V) * triu (-Complex.I • R) = V
      rw [ht, Matrix.smul_mul, Matrix.mul_smul, smul_smul, h2]
      simp

namespace Seq

/-- **C99 cannot be had for every LAPACK**: every real LAPACK that meets its contract goes with a complex one that
meets its contract and agrees with it on real matrices up to the phases in Householder QR, such that `QR` of the
complex version turns real vectors into vectors that are not real. -/
theorem C99_lapack_refuted (L : Lapack ℝ) (hL : L.Ok) : ∃ L' : Lapack ℂ, L'.Ok ∧
    (∀ {n : ℕ} (A : Matrix (Fin n) (Fin n) ℝ), L'.potrf (cM ℂ A) = ((L.potrf A).1, cM ℂ (L.potrf A).2)) ∧
    (∀ {n : ℕ} (A : Matrix (Fin n) (Fin n) ℝ), L'.heevd (cM ℂ A) = ((L.heevd A).1, cM ℂ (L.heevd A).2)) ∧
    L'.stemr = L.stemr ∧
    ∀ (E' : Env ℂ), E'.lapack = L' → cholDisable E'.doCholQR E'.envDisable = 1 → 0 < E'.nevex → E'.nevex ≤ N →
    ∀ (s : St ℝ N), s.locked = 0 → ∀ (m : ℕ) (x : ℝ), ∃ i : Fin N, (((ops E').qr m x (s.c ℂ)).C 0 i).im ≠ 0 := by
  let L0 := (Lapack.ideal ℂ (fun _ _ => 0) (fun _ => 0) 0).over L
  have hx : L0.Extends L := Lapack.over_extends _ _
  have h0 : L0.Ok := (Lapack.ideal_ok _ _ _).over hL
  refine ⟨L0.turned, h0.turned, hx.potrf, hx.heevd, hx.stemr, ?_⟩
  intro E hE hdis hpos hN s hl m x
  have hq : ((ops E).qr m x (s.c ℂ)).C 0 =
      fun i => Complex.I * (L.hhqr (getBlk 0 E.nevex s.C) i ⟨0, hpos⟩ : ℂ) := by
    show (qrSelect _ _ _ _ _ (s.c ℂ)).C 0 = _
    unfold qrSelect
    rw [if_pos hdis]
    show copyCols 0 s.locked _ (hhQRc E.lapack E.nevex (cV ℂ s.C)) 0 = _
    rw [hl, copyCols_apply, if_neg (by omega), hE]
    unfold hhQRc
    rw [setBlk_mem le_rfl (by omega), getBlk_c]
    show (fun i => Complex.I * L0.hhqr (cM ℂ (getBlk 0 E.nevex s.C)) i ⟨0, _⟩) = _
    rw [hx.hhqr]
    rfl
  rw [hq]
  by_contra hno
  push Not at hno
  have hz : ∀ i, L.hhqr (getBlk 0 E.nevex s.C) i ⟨0, hpos⟩ = 0 := by
    intro i
    have := hno i
    simpa using this
  have h1 := congrFun (congrFun (hL.hhqr (getBlk 0 E.nevex s.C) hN).1 ⟨0, hpos⟩) ⟨0, hpos⟩
  rw [Matrix.mul_apply, Matrix.one_apply_eq] at h1
  simp [hz] at h1

/-- `C99_lapack_refuted`: there are such an environment and such a state. -/
example : ∃ (E' : Env ℂ) (s : St ℝ 7) (i : Fin 7), E'.lapack.Ok ∧ s.H = exMat ℝ ∧
    (((ops E').qr 4 1 (s.c ℂ)).C 0 i).im ≠ 0 := by
  obtain ⟨L', hL', -, -, -, h⟩ := C99_lapack_refuted (N := 7) (exEnv ℝ).lapack (Lapack.ideal_ok _ _ _)
  let s : St ℝ 7 := ⟨exMat ℝ, fun j _ => (j : ℕ), fun _ _ => 0, fun _ _ => 0, fun _ _ => 0, .bAc, 0, true⟩
  obtain ⟨i, hi⟩ := h { exEnv ℂ with lapack := L' } rfl rfl (by show 0 < 3 + 2; omega) (by show 3 + 2 ≤ 7; omega)
    s rfl 4 1
  exact ⟨{ exEnv ℂ with lapack := L' }, s, i, hL', rfl, hi⟩

end Seq
end Verif
