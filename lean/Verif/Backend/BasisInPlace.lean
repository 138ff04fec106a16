/-
C98 for the in-place CPU backend and the single-GPU backend.
-/
import Verif.Backend.BasisMpi

set_option linter.unusedSectionVars false

namespace Verif
namespace InPlace

open Matrix

variable {K : Type*} [RCLike K] {N : ℕ}

/-- The state in another basis. -/
def St.rot (Q : Matrix (Fin N) (Fin N) K) (s : St K N) : St K N :=
  { s with H := rotM Q s.H, hostH := rotM Q s.hostH, V1 := rotV Q s.V1, V2 := rotV Q s.V2, user := rotV Q s.user }

section
variable {Q : Matrix (Fin N) (Fin N) K} (hQ : Qᴴ * Q = 1)
include hQ

theorem rot_back (s : St K N) : (s.rot Q).rot Qᴴ = s := by
  unfold St.rot
  simp only [rotM_back hQ, rotV_back hQ]

theorem apply_rot (α β : K) (offset block locked : ℕ) (s : St K N) :
    apply α β offset block locked (s.rot Q) = (apply α β offset block locked s).rot Q := by
  have e : ∀ (X Y : Matrix (Fin N) (Fin block) K), α • (Q * X) + β • (Q * Y) = Q * (α • X + β • Y) := by
    intro X Y
    rw [Matrix.mul_add, Matrix.mul_smul, Matrix.mul_smul]
  unfold apply
  rw [show (s.rot Q).H = rotM Q s.H from rfl, show (s.rot Q).V1 = rotV Q s.V1 from rfl,
    show (s.rot Q).V2 = rotV Q s.V2 from rfl, getBlk_rot, getBlk_rot, rotM_mul hQ, e, setBlk_rot]
  rfl

theorem rr_rot (E : Env K) (block locked : ℕ) (s : St K N) :
    rr E block locked (s.rot Q) = ((rr E block locked s).1, (rr E block locked s).2.rot Q) := by
  unfold rr
  rw [show (s.rot Q).H = rotM Q s.H from rfl, show (s.rot Q).V1 = rotV Q s.V1 from rfl,
    show (s.rot Q).V2 = rotV Q s.V2 from rfl]
  dsimp only
  rw [getBlk_rot, rotM_conj_mul hQ, setBlk_rot, getBlk_rot, gram_mul hQ, Matrix.mul_assoc, setBlk_rot]
  rfl

theorem resd_rot (k : Kind) (ritzv : ℕ → ℝ) (locked unconverged : ℕ) (s : St K N) :
    resd k ritzv locked unconverged (s.rot Q) =
      ((resd k ritzv locked unconverged s).1, (resd k ritzv locked unconverged s).2.rot Q) := by
  unfold resd
  have e0 : ({ s.rot Q with V2 := setBlk locked ((s.rot Q).Hᴴ * getBlk locked unconverged (s.rot Q).V1) (s.rot Q).V2 } :
      St K N) = St.rot Q { s with V2 := setBlk locked (s.Hᴴ * getBlk locked unconverged s.V1) s.V2 } := by
    rw [show (s.rot Q).H = rotM Q s.H from rfl, show (s.rot Q).V1 = rotV Q s.V1 from rfl,
      show (s.rot Q).V2 = rotV Q s.V2 from rfl, getBlk_rot, rotM_conj_mul hQ, setBlk_rot]
    rfl
  dsimp only
  rw [e0, show (s.rot Q).dRitz = s.dRitz from rfl]
  generalize ({ s with V2 := setBlk locked (s.Hᴴ * getBlk locked unconverged s.V1) s.V2 } : St K N) = t
  have e : ∀ (v : ℝ) (i : ℕ) (p : St K N), Function.update (p.rot Q).V2 (locked + i)
      ((-(v : K)) • (p.rot Q).V1 (locked + i) + (p.rot Q).V2 (locked + i)) =
      rotV Q (Function.update p.V2 (locked + i) ((-(v : K)) • p.V1 (locked + i) + p.V2 (locked + i))) := by
    intro v i p
    rw [← update_rot, mulVec_add, mulVec_smul]
    rfl
  cases k
  all_goals
    refine forRange_eq (fun p : (ℕ → ℝ) × St K N => (p.1, p.2.rot Q)) _ _ (fun i p _ _ => ?_) (fun _ => 0, t)
    dsimp only
    rw [e]
    congr 1
    congr 1
    exact nrm2_rot hQ _

omit hQ in
theorem saveLocked_rot (locked : ℕ) (s : St K N) : saveLocked locked (s.rot Q) = (saveLocked locked s).rot Q := by
  unfold saveLocked
  rw [show (s.rot Q).V1 = rotV Q s.V1 from rfl, show (s.rot Q).V2 = rotV Q s.V2 from rfl, copyCols_rot]
  rfl

omit hQ in
theorem lockVectorCopy_rot (locked : ℕ) (s : St K N) :
    lockVectorCopy locked (s.rot Q) = (lockVectorCopy locked s).rot Q := by
  unfold lockVectorCopy
  rw [show (s.rot Q).V1 = rotV Q s.V1 from rfl, show (s.rot Q).V2 = rotV Q s.V2 from rfl, copyCols_rot]
  rfl

omit hQ in
theorem swap_rot (i j : ℕ) (s : St K N) : swap i j (s.rot Q) = (swap i j s).rot Q := by
  unfold swap
  rw [show (s.rot Q).V1 = rotV Q s.V1 from rfl, swapAt_rot]
  rfl

omit hQ in
theorem lanczosDos_rot (idx m : ℕ) (z : ℕ → ℝ) (s : St K N) :
    lanczosDos idx m z (s.rot Q) = (lanczosDos idx m z s).rot Q := by
  have h : ∀ Z : Matrix (Fin m) (Fin idx) K,
      ({ s.rot Q with
        V2 := setBlk 0 (getBlk 0 m (s.rot Q).V1 * Z) (s.rot Q).V2
        V1 := copyCols 0 m (setBlk 0 (getBlk 0 m (s.rot Q).V1 * Z) (s.rot Q).V2) (s.rot Q).V1 } : St K N) =
      St.rot Q { s with
        V2 := setBlk 0 (getBlk 0 m s.V1 * Z) s.V2
        V1 := copyCols 0 m (setBlk 0 (getBlk 0 m s.V1 * Z) s.V2) s.V1 } := by
    intro Z
    rw [show (s.rot Q).V1 = rotV Q s.V1 from rfl, show (s.rot Q).V2 = rotV Q s.V2 from rfl, getBlk_rot,
      Matrix.mul_assoc, setBlk_rot, copyCols_rot]
    rfl
  exact h _

omit hQ in
theorem initVecs_rot (E : Env K) (k : Kind) (s : St K N) :
    initVecs (E.rot Q) k (s.rot Q) = (initVecs E k s).rot Q := by
  have e : ({ s.rot Q with V2 := copyCols 0 E.nevex (rotV Q s.V1) (rotV Q s.V2) } : St K N) =
      St.rot Q { s with V2 := copyCols 0 E.nevex s.V1 s.V2 } := by
    rw [copyCols_rot]
    rfl
  cases k
  · exact e
  · exact congrArg (fun t : St K N => { t with H := t.hostH }) e

omit hQ in
theorem finish_rot (E : Env K) (k : Kind) (s : St K N) :
    finish (E.rot Q) k (s.rot Q) = (finish E k s).rot Q := by
  cases k
  · rfl
  · show ({ s.rot Q with user := copyCols 0 E.nevex (rotV Q s.V1) (rotV Q s.user) } : St K N) = _
    rw [copyCols_rot]
    rfl

end

/-- The backend in the new basis runs like the one in the old basis. -/
theorem sim_rot {Q : Matrix (Fin N) (Fin N) K} (hQ : Qᴴ * Q = 1) (E : Env K) (k : Kind) :
    Sim (ops E k) (ops (E.rot Q) k) (fun s t : St K N => t = s.rot Q) where
  checkSymmetryEasy := by
    rintro s _ rfl
    have eu : (s.rot Q).userH k = rotM Q (s.userH k) := by cases k <;> rfl
    have e : symCheck (E.rot Q).lapack ((s.rot Q).userH k) = symCheck E.lapack (s.userH k) := by
      rw [Bool.eq_iff_iff, symCheck_iff, symCheck_iff, eu]
      have ep : (fun i : Fin N => (E.rot Q).lapack.probe i) = Q *ᵥ fun i : Fin N => E.lapack.probe i := by
        funext i
        show (if h : i.val < N then (Q *ᵥ fun a => E.lapack.probe a) ⟨i, h⟩ else _) = _
        rw [dif_pos i.2]
      rw [ep, rotM_mulVec hQ, rotM_conj_mulVec hQ]
      exact (mulVec_injective hQ).eq_iff
    show symCheck E.lapack (s.userH k) = symCheck (E.rot Q).lapack ((s.rot Q).userH k) ∧
      ({ s.rot Q with isSym := symCheck (E.rot Q).lapack ((s.rot Q).userH k) } : St K N) =
        St.rot Q { s with isSym := symCheck E.lapack (s.userH k) }
    rw [e]
    exact ⟨rfl, rfl⟩
  start := by rintro s _ rfl; rfl
  finish := by rintro s _ rfl; exact finish_rot E k s
  initVecs := by
    rintro b s _ rfl
    have e' : initRndVecs (E.rot Q) (s.rot Q) = (initRndVecs E s).rot Q := by
      have ep : (fun (j : ℕ) (i : Fin N) => (E.rot Q).lapack.randn j i) =
          rotV Q (fun (j : ℕ) (i : Fin N) => E.lapack.randn j i) := by
        funext j i
        show (if h : i.val < N then (Q *ᵥ fun a => E.lapack.randn j a) ⟨i, h⟩ else _) = _
        rw [dif_pos i.2]
        rfl
      have ew := writeAt_rot Q 0 E.nevex s.V1 (fun (j : ℕ) (i : Fin N) => E.lapack.randn j i)
      rw [← ep] at ew
      exact congrArg (fun C => ({ s.rot Q with V1 := C } : St K N)) ew
    cases b
    · exact initVecs_rot E k s
    · show initVecs (E.rot Q) k (initRndVecs (E.rot Q) (s.rot Q)) = _
      rw [e', initVecs_rot]
      rfl
  qr := by
    rintro n c s _ rfl
    have es : ∀ t : St K N, saveLocked s.locked (t.rot Q) = (saveLocked s.locked t).rot Q := saveLocked_rot s.locked
    refine qrSelect_rot (St.rot Q) _ _ (fun t => ?_) (fun t => ?_) (fun t => ?_) (fun t => ?_) (fun b t => ?_) _ _ _ _ s
    · show ({ saveLocked s.locked (t.rot Q) with
        V1 := hhQRc (E.lapack.rot Q) E.nevex (saveLocked s.locked (t.rot Q)).V1 } : St K N) = _
      rw [es]
      show ({ (saveLocked s.locked t).rot Q with
        V1 := hhQRc (E.lapack.rot Q) E.nevex (rotV Q (saveLocked s.locked t).V1) } : St K N) = _
      rw [hhQRc_rot hQ]
      rfl
    · show ((cholQR1c E.lapack E.nevex (saveLocked s.locked (t.rot Q)).V1).1,
        ({ saveLocked s.locked (t.rot Q) with
          V1 := (cholQR1c E.lapack E.nevex (saveLocked s.locked (t.rot Q)).V1).2 } : St K N)) = _
      rw [es, show ((saveLocked s.locked t).rot Q).V1 = rotV Q (saveLocked s.locked t).V1 from rfl, cholQR1c_rot hQ]
      rfl
    · show ((cholQR2c E.lapack E.nevex k.chol (saveLocked s.locked (t.rot Q)).V1).1,
        ({ saveLocked s.locked (t.rot Q) with
          V1 := (cholQR2c E.lapack E.nevex k.chol (saveLocked s.locked (t.rot Q)).V1).2 } : St K N)) = _
      rw [es, show ((saveLocked s.locked t).rot Q).V1 = rotV Q (saveLocked s.locked t).V1 from rfl, cholQR2c_rot hQ]
      rfl
    · show ((shiftedcholQR2c E.lapack E.nevex k.chol (saveLocked s.locked (t.rot Q)).V1).1,
        ({ saveLocked s.locked (t.rot Q) with
          V1 := (shiftedcholQR2c E.lapack E.nevex k.chol (saveLocked s.locked (t.rot Q)).V1).2 } : St K N)) = _
      rw [es, show ((saveLocked s.locked t).rot Q).V1 = rotV Q (saveLocked s.locked t).V1 from rfl,
        shiftedcholQR2c_rot hQ]
      rfl
    · exact lockVectorCopy_rot _ t
  lanczos1 := by
    rintro m s _ rfl
    exact ⟨(lanczosBound_rot hQ k.axpy E.lapack s.H m s.V1).symm, rfl⟩
  lanczosN := by
    rintro m n s _ rfl
    have e := lanczosMulti_rot hQ k.axpy E.lapack s.H m n s.V1
    refine ⟨(congrArg Prod.fst e).symm, ?_⟩
    show ({ s.rot Q with V1 := (lanczosMulti k.axpy E.lapack (rotM Q s.H) m n (rotV Q s.V1)).2 } : St K N) = _
    rw [e]
    rfl
  lanczosDos := by rintro i m z s _ rfl; exact lanczosDos_rot i m z s
  shift := by
    rintro c b s _ rfl
    show ({ s.rot Q with H := shiftH (c : K) (rotM Q s.H) } : St K N) = _
    rw [shiftH_rot hQ]
    rfl
  hemm := by rintro n a b o s _ rfl; exact apply_rot hQ _ _ _ _ _ s
  rr := by
    rintro b s _ rfl
    have e := rr_rot hQ E b s.locked s
    exact ⟨(congrArg Prod.fst e).symm, congrArg Prod.snd e⟩
  resd := by
    rintro f n s _ rfl
    have e := resd_rot hQ k f s.locked (E.nevex - n) s
    exact ⟨(congrArg Prod.fst e).symm, congrArg Prod.snd e⟩
  lock := by rintro n s _ rfl; rfl
  swap := by rintro i j s _ rfl; exact swap_rot i j s

theorem userH_rot (Q : Matrix (Fin N) (Fin N) K) (k : Kind) (s : St K N) :
    (s.rot Q).userH k = rotM Q (s.userH k) := by cases k <;> rfl

theorem userV_rot (Q : Matrix (Fin N) (Fin N) K) (k : Kind) (s : St K N) :
    (s.rot Q).userV k = rotV Q (s.userV k) := by
  cases k
  · unfold St.userV St.rot
    cases s.flipped <;> rfl
  · rfl

/-- `QR` of the in-place backends ends in Householder QR for these columns: the variable `CHASE_DISABLE_CHOLQR`
or the option asks for it, or the Cholesky variant that the condition estimate selects reports a failure
(chase_mpi.hpp 351-427 and chase_mpidla_blaslapack_seq_inplace.hpp 275-414, chase_mpidla_cuda_seq.hpp 521-777, modelled by `qrSelect` and `qrRoutines`). -/
def Householder (E : Env K) (k : Kind) (cond : ℝ) (C : ℕ → Fin N → K) : Prop :=
  cholDisable E.doCholQR E.envDisable = 1 ∨
    (cond > E.condUpper ∧ (shiftedcholQR2c E.lapack E.nevex k.chol C).1 ≠ 0) ∨
    (¬ cond > E.condUpper ∧ cond < E.condLower ∧ (cholQR1c E.lapack E.nevex C).1 ≠ 0) ∨
    (¬ cond > E.condUpper ∧ ¬ cond < E.condLower ∧ (cholQR2c E.lapack E.nevex k.chol C).1 ≠ 0)

/-- A Cholesky QR that succeeds does in the new basis what it does in the old one. -/
theorem qr_rot {Q : Matrix (Fin N) (Fin N) K} (hQ : Qᴴ * Q = 1) (E : Env K) (k : Kind) (m : ℕ) (c : ℝ) (s : St K N)
    (h : ¬ Householder E k c s.V1) : (ops E k).qr m c (s.rot Q) = ((ops E k).qr m c s).rot Q := by
  have h0 : ¬ cholDisable E.doCholQR E.envDisable = 1 := fun g => h (Or.inl g)
  have e1 := cholQR1c_rot hQ E.lapack E.nevex s.V1
  have e2 := cholQR2c_rot hQ E.lapack E.nevex k.chol s.V1
  have e3 := shiftedcholQR2c_rot hQ E.lapack E.nevex k.chol s.V1
  show qrSelect _ _ _ _ _ _ = St.rot Q (qrSelect _ _ _ _ _ _)
  unfold qrSelect
  rw [if_neg h0, if_neg h0]
  simp only [decide_eq_true_eq]
  by_cases hu : c > E.condUpper
  · have h3 : (shiftedcholQR2c E.lapack E.nevex k.chol s.V1).1 = 0 := by
      by_contra g; exact h (Or.inr (Or.inl ⟨hu, g⟩))
    rw [if_pos hu, if_pos hu]
    dsimp only [qrRoutines]
    show (if (shiftedcholQR2c E.lapack E.nevex k.chol (rotV Q s.V1)).1 ≠ 0 then _ else
      lockVectorCopy s.locked { saveLocked s.locked (s.rot Q) with V1 := (shiftedcholQR2c E.lapack E.nevex k.chol (rotV Q s.V1)).2 }) = _
    rw [e3, if_neg (not_not.2 h3)]
    rw [saveLocked_rot]
    exact (lockVectorCopy_rot s.locked { saveLocked s.locked s with V1 := (shiftedcholQR2c E.lapack E.nevex k.chol s.V1).2 }).trans (congrArg (St.rot Q) (if_neg (not_not.2 h3)).symm)
  · rw [if_neg hu, if_neg hu]
    by_cases hl : c < E.condLower
    · have h3 : (cholQR1c E.lapack E.nevex s.V1).1 = 0 := by
        by_contra g; exact h (Or.inr (Or.inr (Or.inl ⟨hu, hl, g⟩)))
      rw [if_pos hl, if_pos hl]
      dsimp only [qrRoutines]
      show (if (cholQR1c E.lapack E.nevex (rotV Q s.V1)).1 ≠ 0 then _ else
        lockVectorCopy s.locked { saveLocked s.locked (s.rot Q) with V1 := (cholQR1c E.lapack E.nevex (rotV Q s.V1)).2 }) = _
      rw [e1, if_neg (not_not.2 h3)]
      rw [saveLocked_rot]
      exact (lockVectorCopy_rot s.locked { saveLocked s.locked s with V1 := (cholQR1c E.lapack E.nevex s.V1).2 }).trans (congrArg (St.rot Q) (if_neg (not_not.2 h3)).symm)
    · have h3 : (cholQR2c E.lapack E.nevex k.chol s.V1).1 = 0 := by
        by_contra g; exact h (Or.inr (Or.inr (Or.inr ⟨hu, hl, g⟩)))
      rw [if_neg hl, if_neg hl]
      dsimp only [qrRoutines]
      show (if (cholQR2c E.lapack E.nevex k.chol (rotV Q s.V1)).1 ≠ 0 then _ else
        lockVectorCopy s.locked { saveLocked s.locked (s.rot Q) with V1 := (cholQR2c E.lapack E.nevex k.chol (rotV Q s.V1)).2 }) = _
      rw [e2, if_neg (not_not.2 h3)]
      rw [saveLocked_rot]
      exact (lockVectorCopy_rot s.locked { saveLocked s.locked s with V1 := (cholQR2c E.lapack E.nevex k.chol s.V1).2 }).trans (congrArg (St.rot Q) (if_neg (not_not.2 h3)).symm)

/-- **C98** The basis does not matter: with random numbers and a Householder QR taken along, a solve of the matrix
written in another orthonormal basis has the same values, residuals, iterations and locked vectors, and leaves in
the user's array the vectors written in that basis. -/
theorem C98_inplace_basis {Q : Matrix (Fin N) (Fin N) K} (hQ : Qᴴ * Q = 1) (P : Plat ℝ) (E : Env K) (k : Kind)
    (cfg : Config ℝ) (ritzv0 resid0 : ℕ → ℝ) (s : St K N) :
    RelE (fun a b => a.ritzv = b.ritzv ∧ a.resid = b.resid ∧ a.iterations = b.iterations ∧ a.locked = b.locked ∧
        b.be.userH k = Q * a.be.userH k * Qᴴ ∧ ∀ j, b.be.userV k j = Q *ᵥ a.be.userV k j)
      (solve P (ops E k) cfg ritzv0 resid0 s) (solve P (ops (E.rot Q) k) cfg ritzv0 resid0 (s.rot Q)) := by
  have h := solve_sim (sim_rot hQ E k) P cfg ritzv0 resid0 (be := s) (be' := s.rot Q) rfl
  revert h
  generalize solve P (ops E k) cfg ritzv0 resid0 s = x
  generalize solve P (ops (E.rot Q) k) cfg ritzv0 resid0 (s.rot Q) = y
  intro h
  cases h with
  | error e => exact RelE.error e
  | ok h => exact RelE.ok ⟨h.ritzv, h.resid, h.iterations, h.locked, by rw [h.be, userH_rot]; rfl,
      fun j => by rw [h.be, userV_rot]; rfl⟩

/-- **C98** (one LAPACK for both) In approximation mode, where no random numbers enter, and as long as the solve
in the first basis does without Householder QR, nothing has to be taken along: the same program run on the matrix
and the start vectors written in another orthonormal basis returns the same values and residuals after the same
rounds, and leaves in the user's array the vectors written in that basis.
Missing: runs with Householder QR, whose signs depend on the basis. -/
theorem C98_inplace_partial {Q : Matrix (Fin N) (Fin N) K} (hQ : Qᴴ * Q = 1) (P : Plat ℝ) (E : Env K) (k : Kind)
    (cfg : Config ℝ) (hnev : E.nev = cfg.nev) (hnex : E.nex = cfg.nex) (happ : cfg.approx = true)
    (ritzv0 resid0 : ℕ → ℝ) (s s' : St K N) (hherm : cfg.symCheck = true → (s.userH k).IsHermitian)
    (hH : s'.userH k = Q * s.userH k * Qᴴ) (hV : ∀ j, s'.V1 j = Q *ᵥ s.V1 j)
    (hV2 : ∀ j, cfg.nev + cfg.nex ≤ j → s'.V2 j = Q *ᵥ s.V2 j) (hf : s'.flipped = s.flipped)
    (ha : QrAvoids P (ops E k) cfg ritzv0 resid0 s fun _ c t => Householder E k c t.V1)
    {a : Outcome ℝ (St K N)} (h : solve P (ops E k) cfg ritzv0 resid0 s = .ok a) :
    ∃ b, solve P (ops E k) cfg ritzv0 resid0 s' = .ok b ∧ a.ritzv = b.ritzv ∧ a.resid = b.resid ∧
      a.iterations = b.iterations ∧ a.locked = b.locked ∧ b.be.userH k = Q * a.be.userH k * Qᴴ ∧
      (0 < a.iterations → ∀ j, j < cfg.nev + cfg.nex → b.be.userV k j = Q *ᵥ a.be.userV k j) := by
  have hb : ∀ p : St K N, (p.rot Qᴴ).rot Q = p := fun p => by
    have := rot_back (unitary_star hQ) p
    rwa [Matrix.conjTranspose_conjTranspose] at this
  have hπ : Sim (ops (E.rot Q) k) (ops E k) (fun (p : St K N) (t : St K N) => p.rot Qᴴ = t) := by
    have e : (fun (p : St K N) (t : St K N) => p.rot Qᴴ = t) = fun p t => p = t.rot Q := by
      funext p t
      refine propext ⟨fun g => by rw [← g, hb], fun g => by rw [g, rot_back hQ]⟩
    rw [e]
    exact (sim_rot hQ E k).flip
  have ha' : QrAvoids P (ops (E.rot Q) k) cfg ritzv0 resid0 (s.rot Q)
      fun _ c t => Householder E k c (t.rot Qᴴ).V1 :=
    QrAvoids.of_sim hπ (bad := fun _ c (t : St K N) => Householder E k c t.V1) (by rw [rot_back hQ]; exact ha)
  have h1 := C98_inplace_basis hQ P E k cfg ritzv0 resid0 s
  rw [h] at h1
  cases hx : solve P (ops (E.rot Q) k) cfg ritzv0 resid0 (s.rot Q) with
  | error e => rw [hx] at h1; cases h1
  | ok b0 =>
    rw [hx] at h1
    cases h1 with
    | ok h1 =>
      have h2 := solve_withQr (q := (ops E k).qr) hx ha' fun m c t ht => by
        have g := qr_rot hQ E k m c (t.rot Qᴴ) ht
        have g' := (sim_rot hQ E k).qr m c (t.rot Qᴴ) _ rfl
        rw [hb] at g g'
        rw [g, g']
      have h3 : solve P (ops E k) cfg ritzv0 resid0 (s.rot Q) = .ok b0 := by
        rw [← h2]
        refine (Mpi.solve_congr_start P cfg (ops E k) (ops (E.rot Q) k).initVecs (ops (E.rot Q) k).checkSymmetryEasy
          ritzv0 resid0 (s.rot Q) (by rw [happ]; rfl) fun hsym => ?_).symm
        have hr : ((s.rot Q).userH k).IsHermitian := by
          rw [userH_rot]
          show (Q * s.userH k * Qᴴ)ᴴ = _
          rw [Matrix.conjTranspose_mul, Matrix.conjTranspose_mul, (hherm hsym).eq,
            Matrix.conjTranspose_conjTranspose]
          exact (Matrix.mul_assoc _ _ _).symm
        show (symCheck _ _, ({ s.rot Q with isSym := symCheck _ _ } : St K N)) =
          (symCheck _ _, ({ s.rot Q with isSym := symCheck _ _ } : St K N))
        rw [C09_hermitian_accepted _ _ hr, C09_hermitian_accepted _ _ hr]
      have h4 := history P E k cfg hnev hnex ritzv0 resid0 (s.rot Q) s' (by rw [userH_rot]; exact hH.symm)
        (fun _ j _ => (hV j).symm) fun j hj => ⟨(hV j).symm, (hV2 j hj).symm⟩
      rw [h3] at h4
      cases hy : solve P (ops E k) cfg ritzv0 resid0 s' with
      | error e => rw [hy] at h4; cases h4
      | ok b =>
        rw [hy] at h4
        cases h4 with
        | ok h4 =>
          obtain ⟨a1, a2, a3, a4, a5, a6⟩ := h1
          obtain ⟨b1, b2, b3, b4, b5, b6, b7⟩ := h4
          refine ⟨b, rfl, a1.trans b1, a2.trans b2, a3.trans b3, a4.trans b4, b5.symm.trans a5, fun hp j hj => ?_⟩
          obtain ⟨c1, c2, c3⟩ := b7 (a3 ▸ hp)
          rw [← a6 j]
          have hfl : b0.be.flipped = b.be.flipped := by
            rw [show (s.rot Q).flipped = s.flipped from rfl, hf, Bool.xor_self] at b6
            revert b6
            cases b0.be.flipped <;> cases b.be.flipped <;> simp
          cases k
          · show (if b.be.flipped then b.be.V2 else b.be.V1) j = (if b0.be.flipped then b0.be.V2 else b0.be.V1) j
            rw [hfl, c1, c2]
          · exact (c3 rfl j hj).symm

/-- Runs without Householder QR: one round from independent eigenvectors of a negative eigenvalue that the caller
passes as the approximation of all values. -/
theorem avoids_eigen (P : Plat ℝ) (E : Env K) (k : Kind) (hL : E.lapack.Ok) (cfg : Config ℝ) (hnev : E.nev = cfg.nev)
    (hnex : E.nex = cfg.nex) (happ : cfg.approx = true) (hopt : cfg.optimization = false) (hit : cfg.maxIter = 1)
    (hmax : Even cfg.maxDeg) (hdeg : 1 ≤ cfg.deg) (hmax2 : 2 ≤ cfg.maxDeg) (hpos : 0 < cfg.nev + cfg.nex)
    (hdis : cholDisable E.doCholQR E.envDisable ≠ 1)
    (hε : 0 ≤ E.lapack.eps)
    {μ : ℝ} (hμ : μ < 0) (resid0 : ℕ → ℝ) (s : St K N) 
    (hC : ∀ j, j < cfg.nev + cfg.nex → s.userH k *ᵥ s.V1 j = (μ : K) • s.V1 j)
    (hli : LinearIndependent K fun j : Fin (cfg.nev + cfg.nex) => s.V1 j) :
    QrAvoids P (ops E k) cfg (fun _ => μ) resid0 s fun _ c t => Householder E k c t.V1 := by
  refine QrAvoids.of_one happ hit ?_
  intro be' hbe st s1 av t hi ho hf m a b c d m n
  have hE : E.nevex = cfg.nev + cfg.nex := by unfold Env.nevex; rw [hnev, hnex]
  have hb1 : be'.userH k = s.userH k ∧ be'.V1 = s.V1 := by
    rcases hbe with rfl | rfl
    · exact ⟨rfl, rfl⟩
    · exact ⟨by cases k <;> rfl, rfl⟩
  have hmin : minElem (fun _ : ℕ => μ) 0 (cfg.nev + cfg.nex) = μ := by
    obtain ⟨⟨i, _, h⟩, _⟩ := minElem_spec (fun _ : ℕ => μ) 0 _ hpos
    exact h.symm
  have hmaxe : maxElem (fun _ : ℕ => μ) 0 (cfg.nev + cfg.nex) = μ := by
    obtain ⟨⟨i, _, h⟩, _⟩ := maxElem_spec (fun _ : ℕ => μ) 0 _ hpos
    exact h.symm
  unfold initState at hi
  rw [happ] at hi
  unfold lanczos at hi
  by_cases hm : min (cfg.nev + cfg.nex) (min (cfg.N / 2) cfg.lanczosIter) = 0
  · simp only [if_pos hm] at hi
    cases hi
  simp only [if_neg hm, Bool.not_true, if_true, Bool.false_eq_true, if_false] at hi
  rw [if_neg (by omega)] at hi
  injection hi with hi
  subst hi
  unfold optimise at ho
  rw [if_neg (by rw [hopt]; simp)] at ho
  injection ho with ho
  subst ho
  set b0 : St K N := initVecs E k { be' with locked := 0 } with hb0
  have hb2 : b0.H = s.userH k ∧ b0.V1 = s.V1 ∧ b0.locked = 0 := by
    rw [← hb1.1, ← hb1.2]
    cases k
    · exact ⟨rfl, rfl, rfl⟩
    · exact ⟨rfl, rfl, rfl⟩
  set ub := lanczosBound k.axpy E.lapack b0.H (min (cfg.nev + cfg.nex) (min (cfg.N / 2) cfg.lanczosIter)) b0.V1 with hub
  have hub0 : 0 ≤ ub := add_nonneg (le_max_of_le_left (abs_nonneg _)) (abs_nonneg _)
  set dg := min (cfg.deg + cfg.deg % 2) cfg.maxDeg with hdg
  have hdge : Even dg := by
    rw [hdg]
    rcases min_choice (cfg.deg + cfg.deg % 2) cfg.maxDeg with h | h
    · rw [h, Nat.even_iff]; omega
    · rw [h]; exact hmax
  have hdg2 : 2 ≤ dg := by rw [hdg]; exact le_min (by omega) hmax2
  have hf' : filter (ops E k) cfg.N (cfg.nev + cfg.nex - b0.locked) dg (fun _ => dg) (cfg.nev + cfg.nex) b0.locked μ μ ub b0
      = .ok (av, t) := by
    rw [← hf, hb2.2.2]
    have e1 : ¬ (cfg.nev + cfg.nex < cfg.nev + cfg.nex) := lt_irrefl _
    have e2 : ¬ (maxElem (fun _ : ℕ => μ) 0 (cfg.nev + cfg.nex) > ub) := by rw [hmaxe]; linarith
    unfold updateBounds
    simp only [e1, false_and, if_false, hmin]
    have e3 : ¬ (maxElem (fun _ : ℕ => μ) 0 (cfg.nev + cfg.nex) > ((ops E k).lanczos1
        (min (cfg.nev + cfg.nex) (min (cfg.N / 2) cfg.lanczosIter)) ((ops E k).initVecs false ((ops E k).start be'))).1) := e2
    rw [if_neg e3, hmaxe]
    rfl
  have ht : ∀ i : ℕ, (Polynomial.Chebyshev.T ℝ i).eval (normPoint μ μ ub) ≠ 0 :=
    C10_outside μ μ ub (by linarith) (Or.inl le_rfl)
  obtain ⟨-, -, -, -, h4, -⟩ := filter_spec (s := b0) (fun _ _ _ _ _ => le_rfl)
    (fun _ _ _ => ⟨hdge, le_rfl⟩) hdge hf'
  have hCt : ∀ j, j < cfg.nev + cfg.nex → t.V1 j = s.V1 j := by
    intro j hj
    rw [h4 (fun i _ => ht i) j (by rw [hb2.2.2]; exact Nat.zero_le _) hj, hb2.1, hb2.2.1,
      aeval_mulVec_eigenvector (s.userH k) _ (hC j hj), filterPoly_eval, div_self (ht _)]
    simp
  have hli' : LinearIndependent K fun j : Fin E.nevex => t.V1 j := by
    rw [hE]
    have e : (fun j : Fin (cfg.nev + cfg.nex) => t.V1 j) = fun j : Fin (cfg.nev + cfg.nex) => s.V1 j :=
      funext fun j => hCt j j.2
    rw [e]
    exact hli
  rintro (h | ⟨_, h⟩ | ⟨_, _, h⟩ | ⟨_, _, h⟩)
  · exact hdis h
  · exact h (shiftedcholQR2c_info hL hε _ hli')
  · exact h (cholQR1c_info hL hli')
  · exact h (cholQR2c_info hL _ hli')

/-- `C98_inplace_partial`: hypotheses met, on both backends, by a round with Cholesky QR on a matrix that changes
with the basis. -/
example (k : Kind) : ∃ (Q : Matrix (Fin 7) (Fin 7) K) (s s' : St K 7) (a b : Outcome ℝ (St K 7)), Qᴴ * Q = 1 ∧
    s'.userH k ≠ s.userH k ∧
    solve (realPlat 1 id) (ops (exEnvChol K) k) (exCfg 1) (fun _ => -1) (fun _ => 0) s = .ok a ∧ 0 < a.iterations ∧
    solve (realPlat 1 id) (ops (exEnvChol K) k) (exCfg 1) (fun _ => -1) (fun _ => 0) s' = .ok b ∧
    a.ritzv = b.ritzv ∧ a.resid = b.resid ∧ ∀ j, j < 5 → b.be.userV k j = Q *ᵥ a.be.userV k j := by
  obtain ⟨Q, H, X, hQ, hH, hne, heig, hli⟩ := Seq.exBasis (K := K)
  let s : St K 7 := ⟨H, H, X, fun _ _ => 0, X, false, fun _ => 0, 0, false⟩
  have hu : s.userH k = H := by cases k <;> rfl
  have hL : (exEnvChol K).lapack.Ok := Lapack.ideal_ok _ _ _
  obtain ⟨a, ha, hpos⟩ := C51_approx_solve_defined (realPlat 1 id) (ops (exEnvChol K) k) (exCfg 1) rfl
    (by decide) (by decide) (by decide) (by decide) (by decide) (by decide) (by decide)
    (fun h => absurd h (by decide)) (fun _ => -1) (fun _ => 0) s
  have hp := hpos (fun _ => C09_hermitian_accepted (exEnvChol K).lapack _ (hu.symm ▸ hH)) (by decide)
  have hav := avoids_eigen (realPlat 1 id) (exEnvChol K) k hL (exCfg 1) rfl rfl rfl rfl rfl (by decide) (by decide)
    (by decide) (by decide) (by simp [cholDisable, exEnvChol, exEnv]) le_rfl (μ := -1) (by norm_num) (fun _ => 0) s
    (by rw [hu]; exact heig) hli
  obtain ⟨b, hb, h1, h2, -, -, -, h6⟩ := C98_inplace_partial hQ (realPlat 1 id) (exEnvChol K) k (exCfg 1) rfl rfl
    rfl (fun _ => -1) (fun _ => 0) s (s.rot Q) (fun _ => hu.symm ▸ hH) (userH_rot Q k s) (fun _ => rfl) (fun _ _ => rfl)
    rfl hav ha
  refine ⟨Q, s, s.rot Q, a, b, hQ, ?_, ha, hp, hb, h1, h2, h6 hp⟩
  rw [userH_rot, hu]
  exact hne

end InPlace
end Verif
