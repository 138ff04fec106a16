/-
C98: the basis in which a problem is written does not matter.
-/
import Verif.Backend.Basis
import Verif.Backend.HistoryProps
import Verif.Backend.SymProps
import Verif.Backend.MpiProps
import Verif.Solver.Still
import Verif.Solver.WatchOne
import Verif.Solver.IntervalProps
import Verif.Backend.FilterProps
import Verif.Backend.CholProof
import Verif.Backend.UserArray

namespace Verif

open Matrix

variable {K : Type*} [RCLike K] {N : ℕ}

/-- LAPACK with the random numbers of the new basis and with a Householder QR that does in the new basis what
the given one does in the old basis. -/
noncomputable def Lapack.rot (Q : Matrix (Fin N) (Fin N) K) (L : Lapack K) : Lapack K :=
  { L with
    randn := fun j i => if h : i < N then (Q *ᵥ fun a => L.randn j a) ⟨i, h⟩ else L.randn j i
    probe := fun i => if h : i < N then (Q *ᵥ fun a => L.probe a) ⟨i, h⟩ else L.probe i
    hhqr := fun {m n} V => if h : m = N then
        Q.submatrix (Fin.cast h) (Fin.cast h) * L.hhqr ((Q.submatrix (Fin.cast h) (Fin.cast h))ᴴ * V)
      else L.hhqr V }

/-- The same for all parameters of a backend. -/
noncomputable def Env.rot (Q : Matrix (Fin N) (Fin N) K) (E : Env K) : Env K := { E with lapack := E.lapack.rot Q }

theorem hhqr_rot {Q : Matrix (Fin N) (Fin N) K} (hQ : Qᴴ * Q = 1) (L : Lapack K) {n : ℕ}
    (V : Matrix (Fin N) (Fin n) K) : (L.rot Q).hhqr (Q * V) = Q * L.hhqr V := by
  unfold Lapack.rot
  dsimp only
  rw [dif_pos rfl]
  show Q * L.hhqr (Qᴴ * (Q * V)) = _
  rw [← Matrix.mul_assoc, hQ, Matrix.one_mul]

/-- The LAPACK of the new basis is as exact as the given one. -/
theorem Lapack.Ok.rot {Q : Matrix (Fin N) (Fin N) K} (hQ : Qᴴ * Q = 1) {L : Lapack K} (h : L.Ok) : (L.rot Q).Ok where
  potrf := h.potrf
  heevd := h.heevd
  stemr := h.stemr
  hhqr := by
    intro m n V hmn
    by_cases hm : m = N
    · subst hm
      obtain ⟨h1, R, h2⟩ := h.hhqr (Qᴴ * V) hmn
      have e : (L.rot Q).hhqr V = Q * L.hhqr (Qᴴ * V) := by
        have := hhqr_rot hQ L (Qᴴ * V)
        rwa [← Matrix.mul_assoc, unitary_right hQ, Matrix.one_mul] at this
      rw [e]
      refine ⟨by rw [gram_mul hQ, h1], R, ?_⟩
      rw [Matrix.mul_assoc, h2, ← Matrix.mul_assoc, unitary_right hQ, Matrix.one_mul]
    · have e : (L.rot Q).hhqr V = L.hhqr V := by
        unfold Lapack.rot
        dsimp only
        rw [dif_neg hm]
      rw [e]
      exact h.hhqr V hmn

theorem hhQRc_rot {Q : Matrix (Fin N) (Fin N) K} (hQ : Qᴴ * Q = 1) (L : Lapack K) (n : ℕ) (C : ℕ → Fin N → K) :
    hhQRc (L.rot Q) n (rotV Q C) = rotV Q (hhQRc L n C) := by
  unfold hhQRc
  rw [getBlk_rot, hhqr_rot hQ, setBlk_rot]

theorem qrSelect_rot {S S' : Type*} (f : S → S') (r : QrRoutines S) (r' : QrRoutines S')
    (h1 : ∀ s, r'.hhQR (f s) = f (r.hhQR s)) (h2 : ∀ s, r'.cholQR1 (f s) = ((r.cholQR1 s).1, f (r.cholQR1 s).2))
    (h3 : ∀ s, r'.cholQR2 (f s) = ((r.cholQR2 s).1, f (r.cholQR2 s).2))
    (h4 : ∀ s, r'.shiftedcholQR2 (f s) = ((r.shiftedcholQR2 s).1, f (r.shiftedcholQR2 s).2))
    (h5 : ∀ b s, r'.lockCopy b (f s) = f (r.lockCopy b s)) (d : Bool) (e : Option ℤ) (a b : Bool) (s : S) :
    qrSelect r' d e a b (f s) = f (qrSelect r d e a b s) := by
  unfold qrSelect
  by_cases hd : cholDisable d e = 1
  · rw [if_pos hd, if_pos hd, h1, h5]
  · rw [if_neg hd, if_neg hd]
    have e' : (if a = true then r'.shiftedcholQR2 (f s) else if b = true then r'.cholQR1 (f s) else r'.cholQR2 (f s)) =
        ((if a = true then r.shiftedcholQR2 s else if b = true then r.cholQR1 s else r.cholQR2 s).1,
          f (if a = true then r.shiftedcholQR2 s else if b = true then r.cholQR1 s else r.cholQR2 s).2) := by
      split_ifs
      · exact h4 s
      · exact h2 s
      · exact h3 s
    rw [e']
    generalize (if a = true then r.shiftedcholQR2 s else if b = true then r.cholQR1 s else r.cholQR2 s) = x
    obtain ⟨i, t⟩ := x
    dsimp only
    split_ifs
    · rw [h1, h5]
    · rw [h5]

theorem symCheck_iff (L : Lapack K) (H : Matrix (Fin N) (Fin N) K) :
    symCheck L H = true ↔ H.mulVec (fun i => L.probe i) = Hᴴ.mulVec (fun i => L.probe i) := by
  rw [C09_check_iff, Matrix.sub_mulVec, sub_eq_zero]

/-- Exchanging the sides of a simulation. -/
theorem Sim.flip {R S S' : Type*} {ops : Chase R S} {ops' : Chase R S'} {r : S → S' → Prop} (hs : Sim ops ops' r) :
    Sim ops' ops fun a b => r b a where
  checkSymmetryEasy := fun _ _ h => ⟨(hs.checkSymmetryEasy _ _ h).1.symm, (hs.checkSymmetryEasy _ _ h).2⟩
  start := fun _ _ h => hs.start _ _ h
  finish := fun _ _ h => hs.finish _ _ h
  initVecs := fun b _ _ h => hs.initVecs b _ _ h
  qr := fun k c _ _ h => hs.qr k c _ _ h
  lanczos1 := fun m _ _ h => ⟨(hs.lanczos1 m _ _ h).1.symm, (hs.lanczos1 m _ _ h).2⟩
  lanczosN := fun m k _ _ h => ⟨(hs.lanczosN m k _ _ h).1.symm, (hs.lanczosN m k _ _ h).2⟩
  lanczosDos := fun i m z _ _ h => hs.lanczosDos i m z _ _ h
  shift := fun c b _ _ h => hs.shift c b _ _ h
  hemm := fun n a b o _ _ h => hs.hemm n a b o _ _ h
  rr := fun b _ _ h => ⟨(hs.rr b _ _ h).1.symm, (hs.rr b _ _ h).2⟩
  resd := fun f k _ _ h => ⟨(hs.resd f k _ _ h).1.symm, (hs.resd f k _ _ h).2⟩
  lock := fun k _ _ h => hs.lock k _ _ h
  swap := fun i j _ _ h => hs.swap i j _ _ h

namespace Seq

/-- The sequential backend in the new basis runs like the one in the old basis. -/
theorem sim_rot {Q : Matrix (Fin N) (Fin N) K} (hQ : Qᴴ * Q = 1) (E : Env K) :
    Sim (ops E) (ops (E.rot Q)) (fun s t : St K N => t = s.rot Q) where
  checkSymmetryEasy := by
    rintro s _ rfl
    have e : symCheck (E.rot Q).lapack (s.rot Q).H = symCheck E.lapack s.H := by
      rw [Bool.eq_iff_iff, symCheck_iff, symCheck_iff]
      have ep : (fun i : Fin N => (E.rot Q).lapack.probe i) = Q *ᵥ fun i : Fin N => E.lapack.probe i := by
        funext i
        show (if h : i.val < N then (Q *ᵥ fun a => E.lapack.probe a) ⟨i, h⟩ else _) = _
        rw [dif_pos i.2]
      rw [ep]
      show rotM Q s.H *ᵥ _ = (rotM Q s.H)ᴴ *ᵥ _ ↔ _
      rw [rotM_mulVec hQ, rotM_conj_mulVec hQ]
      exact (mulVec_injective hQ).eq_iff
    show symCheck E.lapack s.H = symCheck (E.rot Q).lapack (s.rot Q).H ∧
      ({ s.rot Q with isSym := symCheck (E.rot Q).lapack (s.rot Q).H } : St K N) =
        St.rot Q { s with isSym := symCheck E.lapack s.H }
    rw [e]
    exact ⟨rfl, rfl⟩
  start := by rintro s _ rfl; rfl
  finish := by rintro s _ rfl; rfl
  initVecs := by
    rintro b s _ rfl
    have e : ∀ t : St K N, initVecs (E.rot Q) (t.rot Q) = (initVecs E t).rot Q := by
      intro t
      show ({ t.rot Q with next := .bAc, C2 := copyCols 0 E.nevex (rotV Q t.C) (rotV Q t.C2) } : St K N) = _
      rw [copyCols_rot]
      rfl
    have e' : initRndVecs (E.rot Q) (s.rot Q) = (initRndVecs E s).rot Q := by
      have ep : (fun (j : ℕ) (i : Fin N) => (E.rot Q).lapack.randn j i) =
          rotV Q (fun (j : ℕ) (i : Fin N) => E.lapack.randn j i) := by
        funext j i
        show (if h : i.val < N then (Q *ᵥ fun a => E.lapack.randn j a) ⟨i, h⟩ else _) = _
        rw [dif_pos i.2]
        rfl
      have ew := writeAt_rot Q 0 E.nevex s.C (fun (j : ℕ) (i : Fin N) => E.lapack.randn j i)
      rw [← ep] at ew
      exact congrArg (fun C => ({ s.rot Q with C := C } : St K N)) ew
    cases b
    · exact e s
    · show initVecs (E.rot Q) (initRndVecs (E.rot Q) (s.rot Q)) = _
      rw [e', e]
      rfl
  qr := by
    rintro k c s _ rfl
    refine qrSelect_rot (St.rot Q) _ _ (fun t => ?_) (fun t => ?_) (fun t => ?_) (fun t => ?_) (fun b t => ?_) _ _ _ _ s
    · show ({ t.rot Q with C := hhQRc (E.lapack.rot Q) E.nevex (rotV Q t.C) } : St K N) = _
      rw [hhQRc_rot hQ]
      rfl
    · show ((cholQR1c E.lapack E.nevex (rotV Q t.C)).1,
        ({ t.rot Q with C := (cholQR1c E.lapack E.nevex (rotV Q t.C)).2 } : St K N)) = _
      rw [cholQR1c_rot hQ]
      rfl
    · show ((cholQR2c E.lapack E.nevex .seq (rotV Q t.C)).1,
        ({ t.rot Q with C := (cholQR2c E.lapack E.nevex .seq (rotV Q t.C)).2 } : St K N)) = _
      rw [cholQR2c_rot hQ]
      rfl
    · show ((shiftedcholQR2c E.lapack E.nevex .seq (rotV Q t.C)).1,
        ({ t.rot Q with C := (shiftedcholQR2c E.lapack E.nevex .seq (rotV Q t.C)).2 } : St K N)) = _
      rw [shiftedcholQR2c_rot hQ]
      rfl
    · exact lockVectorCopy_rot E _ t
  lanczos1 := by
    rintro m s _ rfl
    exact ⟨(lanczosBound_rot hQ axpyOwn E.lapack s.H m s.C).symm, rfl⟩
  lanczosN := by
    rintro m k s _ rfl
    have e := lanczosMulti_rot hQ axpyOwn E.lapack s.H m k s.C
    refine ⟨(congrArg Prod.fst e).symm, ?_⟩
    show ({ s.rot Q with C := (lanczosMulti axpyOwn E.lapack (rotM Q s.H) m k (rotV Q s.C)).2 } : St K N) = _
    rw [e]
    rfl
  lanczosDos := by rintro i m z s _ rfl; exact lanczosDos_rot i m z s
  shift := by
    rintro c b s _ rfl
    show ({ s.rot Q with H := shiftH (c : K) (rotM Q s.H) } : St K N) = _
    rw [shiftH_rot hQ]
    rfl
  hemm := by rintro n a b o s _ rfl; exact apply_rot hQ _ _ _ _ _ s
  rr := by
    rintro b s _ rfl
    have e := rr_rot hQ E b s.locked s
    exact ⟨(congrArg Prod.fst e).symm, congrArg Prod.snd e⟩
  resd := by
    rintro f k s _ rfl
    have e := resd_rot hQ f s.locked (E.nevex - k) s
    exact ⟨(congrArg Prod.fst e).symm, congrArg Prod.snd e⟩
  lock := by rintro k s _ rfl; rfl
  swap := by rintro i j s _ rfl; exact swap_rot i j s

/-- `QR` of the sequential backend ends in Householder QR for these columns: the variable `CHASE_DISABLE_CHOLQR`
or the option asks for it, or the Cholesky variant that the condition estimate selects reports a failure
(chase_mpi.hpp 351-427 and chase_mpidla_blaslapack_seq.hpp 304-399, modelled by `qrSelect` and `qrRoutines`). -/
def Householder (E : Env K) (cond : ℝ) (C : ℕ → Fin N → K) : Prop :=
  cholDisable E.doCholQR E.envDisable = 1 ∨
    (cond > E.condUpper ∧ (shiftedcholQR2c E.lapack E.nevex .seq C).1 ≠ 0) ∨
    (¬ cond > E.condUpper ∧ cond < E.condLower ∧ (cholQR1c E.lapack E.nevex C).1 ≠ 0) ∨
    (¬ cond > E.condUpper ∧ ¬ cond < E.condLower ∧ (cholQR2c E.lapack E.nevex .seq C).1 ≠ 0)

/-- A Cholesky QR that succeeds does in the new basis what it does in the old one. -/
theorem qr_rot {Q : Matrix (Fin N) (Fin N) K} (hQ : Qᴴ * Q = 1) (E : Env K) (k : ℕ) (c : ℝ) (s : St K N)
    (h : ¬ Householder E c s.C) : (ops E).qr k c (s.rot Q) = ((ops E).qr k c s).rot Q := by
  have h0 : ¬ cholDisable E.doCholQR E.envDisable = 1 := fun g => h (Or.inl g)
  have e1 := cholQR1c_rot hQ E.lapack E.nevex s.C
  have e2 := cholQR2c_rot hQ E.lapack E.nevex .seq s.C
  have e3 := shiftedcholQR2c_rot hQ E.lapack E.nevex .seq s.C
  show qrSelect _ _ _ _ _ _ = St.rot Q (qrSelect _ _ _ _ _ _)
  unfold qrSelect
  rw [if_neg h0, if_neg h0]
  simp only [decide_eq_true_eq]
  by_cases hu : c > E.condUpper
  · have h3 : (shiftedcholQR2c E.lapack E.nevex .seq s.C).1 = 0 := by
      by_contra g; exact h (Or.inr (Or.inl ⟨hu, g⟩))
    rw [if_pos hu, if_pos hu]
    dsimp only [qrRoutines]
    show (if (shiftedcholQR2c E.lapack E.nevex .seq (rotV Q s.C)).1 ≠ 0 then _ else
      lockVectorCopy E s.locked { s.rot Q with C := (shiftedcholQR2c E.lapack E.nevex .seq (rotV Q s.C)).2 }) = _
    rw [e3, if_neg (not_not.2 h3)]
    exact (lockVectorCopy_rot E s.locked { s with C := (shiftedcholQR2c E.lapack E.nevex .seq s.C).2 }).trans (congrArg (St.rot Q) (if_neg (not_not.2 h3)).symm)
  · rw [if_neg hu, if_neg hu]
    by_cases hl : c < E.condLower
    · have h3 : (cholQR1c E.lapack E.nevex s.C).1 = 0 := by
        by_contra g; exact h (Or.inr (Or.inr (Or.inl ⟨hu, hl, g⟩)))
      rw [if_pos hl, if_pos hl]
      dsimp only [qrRoutines]
      show (if (cholQR1c E.lapack E.nevex (rotV Q s.C)).1 ≠ 0 then _ else
        lockVectorCopy E s.locked { s.rot Q with C := (cholQR1c E.lapack E.nevex (rotV Q s.C)).2 }) = _
      rw [e1, if_neg (not_not.2 h3)]
      exact (lockVectorCopy_rot E s.locked { s with C := (cholQR1c E.lapack E.nevex s.C).2 }).trans (congrArg (St.rot Q) (if_neg (not_not.2 h3)).symm)
    · have h3 : (cholQR2c E.lapack E.nevex .seq s.C).1 = 0 := by
        by_contra g; exact h (Or.inr (Or.inr (Or.inr ⟨hu, hl, g⟩)))
      rw [if_neg hl, if_neg hl]
      dsimp only [qrRoutines]
      show (if (cholQR2c E.lapack E.nevex .seq (rotV Q s.C)).1 ≠ 0 then _ else
        lockVectorCopy E s.locked { s.rot Q with C := (cholQR2c E.lapack E.nevex .seq (rotV Q s.C)).2 }) = _
      rw [e2, if_neg (not_not.2 h3)]
      exact (lockVectorCopy_rot E s.locked { s with C := (cholQR2c E.lapack E.nevex .seq s.C).2 }).trans (congrArg (St.rot Q) (if_neg (not_not.2 h3)).symm)

/-- **C98** The basis does not matter: with random numbers and a Householder QR taken along, a solve of the matrix
written in another orthonormal basis has the same values, residuals, iterations and locked vectors, and vectors
written in that basis. -/
theorem C98_seq_basis {Q : Matrix (Fin N) (Fin N) K} (hQ : Qᴴ * Q = 1) (P : Plat ℝ) (E : Env K) (cfg : Config ℝ)
    (ritzv0 resid0 : ℕ → ℝ) (s : St K N) :
    RelE (fun a b => a.ritzv = b.ritzv ∧ a.resid = b.resid ∧ a.iterations = b.iterations ∧ a.locked = b.locked ∧
        b.be.H = Q * a.be.H * Qᴴ ∧ ∀ k, b.be.C k = Q *ᵥ a.be.C k)
      (solve P (ops E) cfg ritzv0 resid0 s) (solve P (ops (E.rot Q)) cfg ritzv0 resid0 (s.rot Q)) := by
  have h := solve_sim (sim_rot hQ E) P cfg ritzv0 resid0 (be := s) (be' := s.rot Q) rfl
  revert h
  generalize solve P (ops E) cfg ritzv0 resid0 s = x
  generalize solve P (ops (E.rot Q)) cfg ritzv0 resid0 (s.rot Q) = y
  intro h
  cases h with
  | error e => exact RelE.error e
  | ok h => exact RelE.ok ⟨h.ritzv, h.resid, h.iterations, h.locked, by rw [h.be]; rfl, fun k => by rw [h.be]; rfl⟩

/-- **C98** (one LAPACK for both) In approximation mode, where no random numbers enter, and as long as the solve
in the first basis does without Householder QR, nothing has to be taken along: the same program run on the matrix
and the start vectors written in another orthonormal basis returns the same values and residuals after the same
rounds, and the vectors written in that basis.
Missing: runs with Householder QR, whose signs depend on the basis. -/
theorem C98_seq_partial {Q : Matrix (Fin N) (Fin N) K} (hQ : Qᴴ * Q = 1) (P : Plat ℝ) (E : Env K) (cfg : Config ℝ)
    (hnev : E.nev = cfg.nev) (hnex : E.nex = cfg.nex) (hmax : Even cfg.maxDeg) (happ : cfg.approx = true)
    (ritzv0 resid0 : ℕ → ℝ) (s s' : St K N) (hherm : cfg.symCheck = true → s.H.IsHermitian)
    (hH : s'.H = Q * s.H * Qᴴ) (hC : ∀ k, s'.C k = Q *ᵥ s.C k)
    (hC2 : ∀ k, cfg.nev + cfg.nex ≤ k → s'.C2 k = Q *ᵥ s.C2 k)
    (ha : QrAvoids P (ops E) cfg ritzv0 resid0 s fun _ c t => Householder E c t.C)
    {a : Outcome ℝ (St K N)} (h : solve P (ops E) cfg ritzv0 resid0 s = .ok a) :
    ∃ b, solve P (ops E) cfg ritzv0 resid0 s' = .ok b ∧ a.ritzv = b.ritzv ∧ a.resid = b.resid ∧
      a.iterations = b.iterations ∧ a.locked = b.locked ∧ b.be.H = Q * a.be.H * Qᴴ ∧
      (0 < a.iterations → ∀ k, b.be.C k = Q *ᵥ a.be.C k) := by
  have hb : ∀ p : St K N, (p.rot Qᴴ).rot Q = p := fun p => by
    have := rot_back (unitary_star hQ) p
    rwa [Matrix.conjTranspose_conjTranspose] at this
  have hπ : Sim (ops (E.rot Q)) (ops E) (fun (p : St K N) (t : St K N) => p.rot Qᴴ = t) := by
    have e : (fun (p : St K N) (t : St K N) => p.rot Qᴴ = t) = fun p t => p = t.rot Q := by
      funext p t
      refine propext ⟨fun g => by rw [← g, hb], fun g => by rw [g, rot_back hQ]⟩
    rw [e]
    exact (sim_rot hQ E).flip
  have ha' : QrAvoids P (ops (E.rot Q)) cfg ritzv0 resid0 (s.rot Q) fun _ c t => Householder E c (t.rot Qᴴ).C :=
    QrAvoids.of_sim hπ (bad := fun _ c (t : St K N) => Householder E c t.C) (by rw [rot_back hQ]; exact ha)
  have h1 := C98_seq_basis hQ P E cfg ritzv0 resid0 s
  rw [h] at h1
  cases hx : solve P (ops (E.rot Q)) cfg ritzv0 resid0 (s.rot Q) with
  | error e => rw [hx] at h1; cases h1
  | ok b0 =>
    rw [hx] at h1
    cases h1 with
    | ok h1 =>
      have h2 := solve_withQr (q := (ops E).qr) hx ha' fun k c t ht => by
        have g := qr_rot hQ E k c (t.rot Qᴴ) ht
        have g' := (sim_rot hQ E).qr k c (t.rot Qᴴ) _ rfl
        rw [hb] at g g'
        rw [g, g']
      have h3 : solve P (ops E) cfg ritzv0 resid0 (s.rot Q) = .ok b0 := by
        rw [← h2]
        refine (Mpi.solve_congr_start P cfg (ops E) (ops (E.rot Q)).initVecs (ops (E.rot Q)).checkSymmetryEasy
          ritzv0 resid0 (s.rot Q) (by rw [happ]; rfl) fun hsym => ?_).symm
        have hr : (s.rot Q).H.IsHermitian := by
          show (Q * s.H * Qᴴ)ᴴ = _
          rw [Matrix.conjTranspose_mul, Matrix.conjTranspose_mul, (hherm hsym).eq,
            Matrix.conjTranspose_conjTranspose]
          exact (Matrix.mul_assoc _ _ _).symm
        show (symCheck _ _, ({ s.rot Q with isSym := symCheck _ _ } : St K N)) =
          (symCheck _ _, ({ s.rot Q with isSym := symCheck _ _ } : St K N))
        rw [C09_hermitian_accepted _ _ hr, C09_hermitian_accepted _ _ hr]
      have h4 := C62_seq P E cfg hnev hnex hmax ritzv0 resid0 (s.rot Q) s' hH.symm (fun _ k _ => (hC k).symm)
        fun k hk => ⟨(hC k).symm, (hC2 k hk).symm⟩
      rw [h3] at h4
      cases hy : solve P (ops E) cfg ritzv0 resid0 s' with
      | error e => rw [hy] at h4; cases h4
      | ok b =>
        rw [hy] at h4
        cases h4 with
        | ok h4 =>
          obtain ⟨a1, a2, a3, a4, a5, a6⟩ := h1
          obtain ⟨b1, b2, b3, b4, b5, b6⟩ := h4
          exact ⟨b, rfl, a1.trans b1, a2.trans b2, a3.trans b3, a4.trans b4, b5.symm.trans a5,
            fun hp k => (congrFun (b6 (a3 ▸ hp)) k).symm.trans (a6 k)⟩

/-- Runs without Householder QR: one round from independent eigenvectors of a negative eigenvalue that the caller
passes as the approximation of all values. -/
theorem avoids_eigen (P : Plat ℝ) (E : Env K) (hL : E.lapack.Ok) (cfg : Config ℝ) (hnev : E.nev = cfg.nev)
    (hnex : E.nex = cfg.nex) (happ : cfg.approx = true) (hopt : cfg.optimization = false) (hit : cfg.maxIter = 1)
    (hmax : Even cfg.maxDeg) (hdeg : 1 ≤ cfg.deg) (hmax2 : 2 ≤ cfg.maxDeg) (hpos : 0 < cfg.nev + cfg.nex)
    (hdis : cholDisable E.doCholQR E.envDisable ≠ 1)
    (hε : 0 ≤ E.lapack.eps)
    {μ : ℝ} (hμ : μ < 0) (resid0 : ℕ → ℝ) (s : St K N) (hH : s.H.IsHermitian)
    (hC : ∀ k, k < cfg.nev + cfg.nex → s.H *ᵥ s.C k = (μ : K) • s.C k)
    (hli : LinearIndependent K fun j : Fin (cfg.nev + cfg.nex) => s.C j) :
    QrAvoids P (ops E) cfg (fun _ => μ) resid0 s fun _ c t => Householder E c t.C := by
  refine QrAvoids.of_one happ hit ?_
  intro be' hbe st s1 av t hi ho hf k a b c d m n
  have hE : E.nevex = cfg.nev + cfg.nex := by unfold Env.nevex; rw [hnev, hnex]
  have hb1 : be'.H = s.H ∧ be'.C = s.C := by
    rcases hbe with rfl | rfl
    · exact ⟨rfl, rfl⟩
    · exact ⟨rfl, rfl⟩
  have hmin : minElem (fun _ : ℕ => μ) 0 (cfg.nev + cfg.nex) = μ := by
    obtain ⟨⟨i, _, h⟩, _⟩ := minElem_spec (fun _ : ℕ => μ) 0 _ hpos
    exact h.symm
  have hmaxe : maxElem (fun _ : ℕ => μ) 0 (cfg.nev + cfg.nex) = μ := by
    obtain ⟨⟨i, _, h⟩, _⟩ := maxElem_spec (fun _ : ℕ => μ) 0 _ hpos
    exact h.symm
  unfold initState at hi
  rw [happ] at hi
  unfold lanczos at hi
  by_cases hm : min (cfg.nev + cfg.nex) (min (cfg.N / 2) cfg.lanczosIter) = 0
  · simp only [if_pos hm] at hi
    cases hi
  simp only [if_neg hm, Bool.not_true, if_true, Bool.false_eq_true, if_false] at hi
  rw [if_neg (by omega)] at hi
  injection hi with hi
  subst hi
  unfold optimise at ho
  rw [if_neg (by rw [hopt]; simp)] at ho
  injection ho with ho
  subst ho
  set ub := lanczosBound axpyOwn E.lapack be'.H (min (cfg.nev + cfg.nex) (min (cfg.N / 2) cfg.lanczosIter)) be'.C with hub
  have hub0 : 0 ≤ ub := add_nonneg (le_max_of_le_left (abs_nonneg _)) (abs_nonneg _)
  set dg := min (cfg.deg + cfg.deg % 2) cfg.maxDeg with hdg
  have hdge : Even dg := by
    rw [hdg]
    rcases min_choice (cfg.deg + cfg.deg % 2) cfg.maxDeg with h | h
    · rw [h, Nat.even_iff]; omega
    · rw [h]; exact hmax
  have hdg2 : 2 ≤ dg := by rw [hdg]; exact le_min (by omega) hmax2
  set b0 : St K N := initVecs E { be' with locked := 0 } with hb0
  have hf' : filter (ops E) cfg.N (cfg.nev + cfg.nex - b0.locked) dg (fun _ => dg) (cfg.nev + cfg.nex) b0.locked μ μ ub b0
      = .ok (av, t) := by
    rw [← hf]
    have e1 : ¬ (cfg.nev + cfg.nex < cfg.nev + cfg.nex) := lt_irrefl _
    have e2 : ¬ (maxElem (fun _ : ℕ => μ) 0 (cfg.nev + cfg.nex) > ub) := by rw [hmaxe]; linarith
    unfold updateBounds
    simp only [e1, false_and, if_false, hmin]
    have e3 : ¬ (maxElem (fun _ : ℕ => μ) 0 (cfg.nev + cfg.nex) > ((ops E).lanczos1
        (min (cfg.nev + cfg.nex) (min (cfg.N / 2) cfg.lanczosIter)) ((ops E).initVecs false ((ops E).start be'))).1) := e2
    rw [if_neg e3, hmaxe]
    rfl
  have ht : ∀ i : ℕ, (Polynomial.Chebyshev.T ℝ i).eval (normPoint μ μ ub) ≠ 0 :=
    C10_outside μ μ ub (by linarith) (Or.inl le_rfl)
  obtain ⟨-, -, -, h4, -⟩ := filter_spec (E := E) (s := b0) (by rw [← hb1.1] at hH; exact hH) rfl
    (fun _ _ _ _ _ => le_rfl) (fun _ _ _ => ⟨hdge, le_rfl⟩) hdge hf'
  have hCt : ∀ j, j < cfg.nev + cfg.nex → t.C j = s.C j := by
    intro j hj
    rw [h4 (fun i _ => ht i) j (Nat.zero_le _) hj]
    show (Polynomial.aeval be'.H _).mulVec (be'.C j) = _
    rw [hb1.1, hb1.2, aeval_mulVec_eigenvector s.H _ (hC j hj), filterPoly_eval, div_self (ht _)]
    simp
  have hli' : LinearIndependent K fun j : Fin E.nevex => t.C j := by
    rw [hE]
    have e : (fun j : Fin (cfg.nev + cfg.nex) => t.C j) = fun j : Fin (cfg.nev + cfg.nex) => s.C j :=
      funext fun j => hCt j j.2
    rw [e]
    exact hli
  rintro (h | ⟨_, h⟩ | ⟨_, _, h⟩ | ⟨_, _, h⟩)
  · exact hdis h
  · exact h (shiftedcholQR2c_info hL hε _ hli')
  · exact h (cholQR1c_info hL hli')
  · exact h (cholQR2c_info hL _ hli')

/-- A matrix that changes with the basis, and independent eigenvectors. -/
theorem exBasis : ∃ (Q H : Matrix (Fin 7) (Fin 7) K) (X : ℕ → Fin 7 → K), Qᴴ * Q = 1 ∧ H.IsHermitian ∧
    Q * H * Qᴴ ≠ H ∧ (∀ k, k < 5 → H *ᵥ X k = ((-1 : ℝ) : K) • X k) ∧
    LinearIndependent K fun j : Fin 5 => X j := by
  let d : Fin 7 → K := fun i => if i.val < 5 then -1 else 1
  let X : ℕ → Fin 7 → K := fun k => if h : k < 7 then Pi.single ⟨k, h⟩ 1 else 0
  let σ : Equiv.Perm (Fin 7) := Equiv.swap 0 6
  let Q : Matrix (Fin 7) (Fin 7) K := (1 : Matrix (Fin 7) (Fin 7) K).submatrix σ id
  refine ⟨Q, Matrix.diagonal d, X, ?_, ?_, fun h => ?_, fun k hk => ?_, ?_⟩
  · show ((1 : Matrix (Fin 7) (Fin 7) K).submatrix σ id)ᴴ * (1 : Matrix (Fin 7) (Fin 7) K).submatrix σ id = 1
    rw [Matrix.conjTranspose_submatrix, Matrix.submatrix_mul_equiv]
    simp
  · apply Matrix.isHermitian_diagonal_of_self_adjoint
    funext i
    show star (if i.val < 5 then (-1 : K) else 1) = if i.val < 5 then -1 else 1
    split_ifs <;> simp
  · have h00 : (Q * Matrix.diagonal d * Qᴴ) 0 0 = Matrix.diagonal d 0 0 := congrFun (congrFun h 0) 0
    have e : (Q * Matrix.diagonal d * Qᴴ) 0 0 = 1 := by
      show ((1 : Matrix (Fin 7) (Fin 7) K).submatrix σ id * Matrix.diagonal d *
        ((1 : Matrix (Fin 7) (Fin 7) K).submatrix σ id)ᴴ) 0 0 = 1
      rw [Matrix.conjTranspose_submatrix, Matrix.mul_apply, Finset.sum_eq_single 6]
      · rw [Matrix.mul_diagonal]
        have h6 : σ 0 = 6 := Equiv.swap_apply_left 0 6
        have m1 : (1 : Matrix (Fin 7) (Fin 7) K).submatrix σ id 0 6 = 1 := by
          show (1 : Matrix (Fin 7) (Fin 7) K) (σ 0) 6 = 1
          rw [h6, Matrix.one_apply_eq]
        have m2 : ((1 : Matrix (Fin 7) (Fin 7) K)ᴴ).submatrix id σ 6 0 = 1 := by
          show (1 : Matrix (Fin 7) (Fin 7) K)ᴴ 6 (σ 0) = 1
          rw [h6, Matrix.conjTranspose_one, Matrix.one_apply_eq]
        rw [m1, m2]
        simp [d]
      · intro j _ hj
        rw [Matrix.mul_diagonal]
        simp [σ, Matrix.one_apply, hj.symm]
      · simp
    rw [e, Matrix.diagonal_apply_eq] at h00
    have : (1 : K) = -1 := h00
    norm_num at this
  · funext i
    rw [Matrix.mulVec_diagonal]
    show (if i.val < 5 then (-1 : K) else 1) * (if h : k < 7 then Pi.single ⟨k, h⟩ 1 else 0 : Fin 7 → K) i =
      ((-1 : ℝ) : K) * (if h : k < 7 then Pi.single ⟨k, h⟩ 1 else 0 : Fin 7 → K) i
    rw [dif_pos (by omega)]
    by_cases hi : i = ⟨k, by omega⟩
    · subst hi
      simp [hk]
    · rw [Pi.single_eq_of_ne hi]
      simp
  · have e : (fun j : Fin 5 => X j) = (Pi.basisFun K (Fin 7)) ∘ Fin.castLE (show 5 ≤ 7 by decide) := by
      funext j
      have hj : j.val < 7 := lt_of_lt_of_le j.2 (by decide)
      show (if h : j.val < 7 then Pi.single ⟨j, h⟩ 1 else 0 : Fin 7 → K) = _
      rw [dif_pos hj]
      simp only [Function.comp_apply, Pi.basisFun_apply]
      rfl
    rw [e]
    exact (Pi.basisFun K (Fin 7)).linearIndependent.comp _ (Fin.castLE_injective _)

/-- `C98_seq_partial`: hypotheses met by a round with Cholesky QR on a matrix that changes with the basis. -/
example : ∃ (Q : Matrix (Fin 7) (Fin 7) K) (s s' : St K 7) (a b : Outcome ℝ (St K 7)), Qᴴ * Q = 1 ∧ s'.H ≠ s.H ∧
    solve (realPlat 1 id) (ops (exEnvChol K)) (exCfg 1) (fun _ => -1) (fun _ => 0) s = .ok a ∧ 0 < a.iterations ∧
    solve (realPlat 1 id) (ops (exEnvChol K)) (exCfg 1) (fun _ => -1) (fun _ => 0) s' = .ok b ∧ a.ritzv = b.ritzv ∧
    a.resid = b.resid ∧ ∀ k, b.be.C k = Q *ᵥ a.be.C k := by
  obtain ⟨Q, H, X, hQ, hH, hne, heig, hli⟩ := exBasis (K := K)
  let s : St K 7 := ⟨H, X, fun _ _ => 0, X, fun _ _ => 0, .bAc, 0, false⟩
  have hL : (exEnvChol K).lapack.Ok := Lapack.ideal_ok _ _ _
  obtain ⟨a, ha, hpos⟩ := C51_approx_solve_defined (realPlat 1 id) (ops (exEnvChol K)) (exCfg 1) rfl
    (by decide) (by decide) (by decide) (by decide) (by decide) (by decide) (by decide)
    (fun h => absurd h (by decide)) (fun _ => -1) (fun _ => 0) s
  have hp := hpos (fun _ => C09_hermitian_accepted (exEnvChol K).lapack _ hH) (by decide)
  have hav := avoids_eigen (realPlat 1 id) (exEnvChol K) hL (exCfg 1) rfl rfl rfl rfl rfl (by decide) (by decide)
    (by decide) (by decide) (by simp [cholDisable, exEnvChol, exEnv]) le_rfl (μ := -1) (by norm_num) (fun _ => 0) s hH
    heig hli
  obtain ⟨b, hb, h1, h2, -, -, -, h6⟩ := C98_seq_partial hQ (realPlat 1 id) (exEnvChol K) (exCfg 1) rfl rfl (by decide)
    rfl (fun _ => -1) (fun _ => 0) s (s.rot Q) (fun _ => hH) rfl (fun _ => rfl) (fun _ _ => rfl) hav ha
  exact ⟨Q, s, s.rot Q, a, b, hQ, hne, ha, hp, hb, h1, h2, h6 hp⟩

/-- `C98_seq_basis`: the LAPACK of the new basis keeps the contracts of the given one. -/
example {Q : Matrix (Fin 7) (Fin 7) K} (hQ : Qᴴ * Q = 1) : ((exEnv K).rot Q).lapack.Ok :=
  (Lapack.ideal_ok _ _ _ : (exEnv K).lapack.Ok).rot hQ

end Seq
end Verif
