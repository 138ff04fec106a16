/-
The assumption of C99 can be met: every LAPACK for real matrices that keeps its contract belongs to one for complex
matrices that keeps its contract.
-/
import Verif.Backend.ComplexifyProps

namespace Verif

open Matrix
open scoped ComplexOrder

variable {K : Type*} [RCLike K] {N : ℕ}

open Classical in
/-- A LAPACK over `K` that does with real matrices what `L` does and with other matrices what `L0` does. -/
noncomputable def Lapack.over (L0 : Lapack K) (L : Lapack ℝ) : Lapack K :=
  { L0 with
    potrf := fun {n} A => if h : ∃ B : Matrix (Fin n) (Fin n) ℝ, cM K B = A then
        ((L.potrf h.choose).1, cM K (L.potrf h.choose).2) else L0.potrf A
    hhqr := fun {m n} V => if h : ∃ B : Matrix (Fin m) (Fin n) ℝ, cM K B = V then cM K (L.hhqr h.choose) else L0.hhqr V
    heevd := fun {n} A => if h : ∃ B : Matrix (Fin n) (Fin n) ℝ, cM K B = A then
        ((L.heevd h.choose).1, cM K (L.heevd h.choose).2) else L0.heevd A
    stemr := L.stemr
    eps := L.eps }

theorem Lapack.over_extends (L0 : Lapack K) (L : Lapack ℝ) : (L0.over L).Extends L where
  potrf := by
    intro n A
    have h : ∃ B : Matrix (Fin n) (Fin n) ℝ, cM K B = cM K A := ⟨A, rfl⟩
    have e : (L0.over L).potrf (cM K A) = ((L.potrf h.choose).1, cM K (L.potrf h.choose).2) := dif_pos h
    rw [e, cM_injective h.choose_spec]
  hhqr := by
    intro m n V
    have h : ∃ B : Matrix (Fin m) (Fin n) ℝ, cM K B = cM K V := ⟨V, rfl⟩
    have e : (L0.over L).hhqr (cM K V) = cM K (L.hhqr h.choose) := dif_pos h
    rw [e, cM_injective h.choose_spec]
  heevd := by
    intro n A
    have h : ∃ B : Matrix (Fin n) (Fin n) ℝ, cM K B = cM K A := ⟨A, rfl⟩
    have e : (L0.over L).heevd (cM K A) = ((L.heevd h.choose).1, cM K (L.heevd h.choose).2) := dif_pos h
    rw [e, cM_injective h.choose_spec]
  stemr := rfl
  eps := rfl

theorem isHermitian_of_c {n : ℕ} {B : Matrix (Fin n) (Fin n) ℝ} (h : (cM K B).IsHermitian) : B.IsHermitian :=
  cM_injective (K := K) (by rw [cM_conj]; exact h)

theorem posDef_of_c {n : ℕ} {B : Matrix (Fin n) (Fin n) ℝ} (h : (cM K B).PosDef) : B.PosDef := by
  refine Matrix.PosDef.of_dotProduct_mulVec_pos (isHermitian_of_c h.isHermitian) fun x hx => ?_
  have h0 : (fun i => (x i : K)) ≠ 0 := fun g => hx (funext fun i => RCLike.ofReal_injective (K := K) (by
    have := congrFun g i
    simpa using this))
  have h1 := h.dotProduct_mulVec_pos h0
  rw [cM_mulVec] at h1
  have e : star (fun i => (x i : K)) ⬝ᵥ (fun i => (((B *ᵥ x) i : ℝ) : K)) = ((star x ⬝ᵥ (B *ᵥ x) : ℝ) : K) := by
    simp [dotProduct]
  rw [e] at h1
  exact RCLike.ofReal_pos.1 h1

theorem Lapack.Ok.over {L0 : Lapack K} {L : Lapack ℝ} (h0 : L0.Ok) (h : L.Ok) : (L0.over L).Ok where
  potrf := by
    intro n A hA
    by_cases g : ∃ B : Matrix (Fin n) (Fin n) ℝ, cM K B = A
    · obtain ⟨B, rfl⟩ := g
      rw [(Lapack.over_extends L0 L).potrf]
      rcases h.potrf B (isHermitian_of_c hA) with ⟨h1, h2, h3⟩ | ⟨k, hk, h1, h2, h3⟩
      · refine Or.inl ⟨h1, ?_, fun i => ?_⟩
        · rw [← cM_triu, ← cM_conj, ← cM_mul, h2]
        · exact fun g => h3 i (RCLike.ofReal_eq_zero.1 g)
      · refine Or.inr ⟨k, hk, h1, fun i hi => fun g => h2 i hi (RCLike.ofReal_eq_zero.1 g), fun g => h3 ?_⟩
        exact posDef_of_c (K := K) g
    · have e : (L0.over L).potrf A = L0.potrf A := dif_neg g
      rw [e]
      exact h0.potrf A hA
  hhqr := by
    intro m n V hmn
    by_cases g : ∃ B : Matrix (Fin m) (Fin n) ℝ, cM K B = V
    · obtain ⟨B, rfl⟩ := g
      rw [(Lapack.over_extends L0 L).hhqr]
      obtain ⟨h1, R, h2⟩ := h.hhqr B hmn
      refine ⟨by rw [← cM_conj, ← cM_mul, h1, cM_one], cM K R, ?_⟩
      rw [← cM_triu, ← cM_mul, h2]
    · have e : (L0.over L).hhqr V = L0.hhqr V := dif_neg g
      rw [e]
      exact h0.hhqr V hmn
  heevd := by
    intro n A hA
    by_cases g : ∃ B : Matrix (Fin n) (Fin n) ℝ, cM K B = A
    · obtain ⟨B, rfl⟩ := g
      rw [(Lapack.over_extends L0 L).heevd]
      obtain ⟨h1, h2, h3⟩ := h.heevd B (isHermitian_of_c hA)
      refine ⟨by rw [← cM_conj, ← cM_mul, h1, cM_one], ?_, h3⟩
      rw [← cM_diagonal, ← cM_mul, ← cM_mul, h2]
      rfl
    · have e : (L0.over L).heevd A = L0.heevd A := dif_neg g
      rw [e]
      exact h0.heevd A hA
  stemr := h.stemr

namespace Seq

/-- `C99_seq_partial`: a real and a complex version with LAPACK as in the assumption, with random numbers that are
not real in the complex version, and a solve of a matrix that is not diagonal that does something. -/
example : ∃ (E' : Env ℂ) (E : Env ℝ) (s : St ℝ 7) (s' : St ℂ 7) (a : Outcome ℝ (St ℝ 7)) (b : Outcome ℝ (St ℂ 7)),
    E'.Extends E ∧ E'.lapack.Ok ∧ E.lapack.Ok ∧ E'.lapack.probe 0 = Complex.I ∧ s.H = exMat ℝ ∧
    solve exPlat (ops E) (exCfg 4) (fun _ => 0) (fun _ => 0) s = .ok a ∧
    solve exPlat (ops E') (exCfg 4) (fun _ => 0) (fun _ => 0) s' = .ok b ∧ 0 < a.iterations ∧
    a.ritzv = b.ritzv ∧ ∀ k i, b.be.C k i = (a.be.C k i : ℂ) := by
  let L' := (Lapack.ideal ℂ (fun _ _ => Complex.I) (fun _ => Complex.I) 0).over (exEnv ℝ).lapack
  let E' : Env ℂ := { exEnv ℂ with lapack := L' }
  let s : St ℝ 7 := ⟨exMat ℝ, fun j _ => (j : ℕ), fun _ _ => 0, fun _ _ => 0, fun _ _ => 0, .bAc, 0, true⟩
  have hE : E'.Extends (exEnv ℝ) := ⟨Lapack.over_extends _ _, rfl, rfl, rfl, rfl, rfl, rfl⟩
  have hH : s.H.IsHermitian := exMat_hermitian
  obtain ⟨a, ha, hpos⟩ := C51_approx_solve_defined exPlat (ops (exEnv ℝ)) (exCfg 4) rfl
    (by decide) (by decide) (by decide) (by decide) (by decide) (by decide) (by decide)
    (fun h => absurd h (by decide)) (fun _ => 0) (fun _ => 0) s
  have hp := hpos (fun _ => C09_hermitian_accepted (exEnv ℝ).lapack _ hH) (by decide)
  have h := C99_seq_partial exPlat hE (exCfg 4) rfl rfl (by decide) rfl (fun _ => 0) (fun _ => 0) s (s.c ℂ)
    (fun _ => (conjTranspose_eq_transpose_of_trivial s.H).symm.trans hH) (fun _ _ => rfl) (fun _ _ => rfl) (fun _ _ _ => rfl)
  rw [ha] at h
  revert h
  generalize hy : solve exPlat (ops E') (exCfg 4) (fun _ => 0) (fun _ => 0) (s.c ℂ) = y
  intro h
  cases h with
  | ok h => exact ⟨E', exEnv ℝ, s, s.c ℂ, a, _, hE, (Lapack.ideal_ok _ _ _).over (Lapack.ideal_ok _ _ _),
      Lapack.ideal_ok _ _ _, rfl, rfl, ha, hy, hp, h.1, h.2.2.2.2.2 hp⟩

end Seq
end Verif
