/-
C98 for the distributed CPU backend: neither the basis nor the grid matters.
-/
import Verif.Backend.BasisProps
import Verif.Backend.FilterDistProps

set_option linter.unusedSectionVars false

namespace Verif

open Matrix

section
variable {R S S' : Type*} [Add R] [Sub R] [Mul R] [Div R] [Neg R] [Zero R] [One R] [NatCast R] [LT R] [DecidableLT R]

/-- What a backend avoids, a backend that runs in the same way avoids. -/
theorem QrAvoids.of_rel {P : Plat R} {ops : Chase R S} {ops' : Chase R S'} {r : S' → S → Prop}
    (hs : Sim ops' ops r) {cfg : Config R} {r0 s0 : ℕ → R} {s : S} {s' : S'} (h0 : r s' s) {bad : ℕ → R → S → Prop}
    {bad' : ℕ → R → S' → Prop} (hbad : ∀ k c t' t, r t' t → bad' k c t' → bad k c t)
    (hq : QrAvoids P ops cfg r0 s0 s bad) : QrAvoids P ops' cfg r0 s0 s' bad' := by
  have hw : Sim (watch bad' ops') (watch bad ops) (fun p q => r p.1 q.1 ∧ (p.2 → q.2)) := by
    constructor
    case checkSymmetryEasy => rintro p q ⟨h1, h2⟩; exact ⟨(hs.checkSymmetryEasy _ _ h1).1, (hs.checkSymmetryEasy _ _ h1).2, h2⟩
    case start => rintro p q ⟨h1, h2⟩; exact ⟨hs.start _ _ h1, h2⟩
    case finish => rintro p q ⟨h1, h2⟩; exact ⟨hs.finish _ _ h1, h2⟩
    case initVecs => rintro b p q ⟨h1, h2⟩; exact ⟨hs.initVecs b _ _ h1, h2⟩
    case qr =>
      rintro k c p q ⟨h1, h2⟩
      refine ⟨hs.qr k c _ _ h1, ?_⟩
      rintro (g | g)
      · exact Or.inl (h2 g)
      · exact Or.inr (hbad k c _ _ h1 g)
    case lanczos1 => rintro m p q ⟨h1, h2⟩; exact ⟨(hs.lanczos1 m _ _ h1).1, (hs.lanczos1 m _ _ h1).2, h2⟩
    case lanczosN => rintro m k p q ⟨h1, h2⟩; exact ⟨(hs.lanczosN m k _ _ h1).1, (hs.lanczosN m k _ _ h1).2, h2⟩
    case lanczosDos => rintro i m z p q ⟨h1, h2⟩; exact ⟨hs.lanczosDos i m z _ _ h1, h2⟩
    case shift => rintro c b p q ⟨h1, h2⟩; exact ⟨hs.shift c b _ _ h1, h2⟩
    case hemm => rintro k a b o p q ⟨h1, h2⟩; exact ⟨hs.hemm k a b o _ _ h1, h2⟩
    case rr => rintro b p q ⟨h1, h2⟩; exact ⟨(hs.rr b _ _ h1).1, (hs.rr b _ _ h1).2, h2⟩
    case resd => rintro f k p q ⟨h1, h2⟩; exact ⟨(hs.resd f k _ _ h1).1, (hs.resd f k _ _ h1).2, h2⟩
    case lock => rintro k p q ⟨h1, h2⟩; exact ⟨hs.lock k _ _ h1, h2⟩
    case swap => rintro i j p q ⟨h1, h2⟩; exact ⟨hs.swap i j _ _ h1, h2⟩
  intro o ho
  have h1 := solve_sim hw P cfg r0 s0 (be := (s', False)) (be' := (s, False)) ⟨h0, id⟩
  rw [ho] at h1
  cases hx : solve P (watch bad ops) cfg r0 s0 (s, False) with
  | error e => rw [hx] at h1; cases h1
  | ok o' =>
    rw [hx] at h1
    cases h1 with
    | ok h1 => exact fun hm => hq o' hx (h1.be.2 hm)

/-- The symmetry check only enters through its result. -/
theorem QrAvoids.congr_check {P : Plat R} {ops : Chase R S} {cfg : Config R} {r0 s0 : ℕ → R} {s : S}
    {bad : ℕ → R → S → Prop} (check : S → Bool × S) (hk : cfg.symCheck = true → check s = ops.checkSymmetryEasy s)
    (hq : QrAvoids P ops cfg r0 s0 s bad) :
    QrAvoids P { ops with checkSymmetryEasy := check } cfg r0 s0 s bad := by
  intro o ho
  refine hq o ?_
  rw [← ho]
  exact (Mpi.solve_congr_start P cfg (watch bad ops) (watch bad ops).initVecs
    (fun p => ((check p.1).1, ((check p.1).2, p.2))) r0 s0 (s, False) rfl fun h => by
      show ((check s).1, ((check s).2, False)) = ((ops.checkSymmetryEasy s).1, ((ops.checkSymmetryEasy s).2, False))
      rw [hk h]).symm

end

namespace Mpi

variable {K : Type*} [RCLike K] {N : ℕ} {r c : Layout N} {E : MEnv K}

/-- `QR` of the distributed backend ends in Householder QR for these columns (chase_mpi.hpp 351-427 and
chase_mpidla.hpp 1054-1308, modelled by `gQrRoutines` and `qrSelect`). -/
def Householder (E : Env K) (cond : ℝ) (C : ℕ → Fin N → K) : Prop :=
  cholDisable E.doCholQR E.envDisable = 1 ∨
    (cond > E.condUpper ∧ (shiftedcholQR2c E.lapack E.nevex ⟨true, false⟩ C).1 ≠ 0) ∨
    (¬ cond > E.condUpper ∧ cond < E.condLower ∧ (cholQR1c E.lapack E.nevex C).1 ≠ 0) ∨
    (¬ cond > E.condUpper ∧ ¬ cond < E.condLower ∧ (cholQR2c E.lapack E.nevex ⟨true, true⟩ C).1 ≠ 0)

/-- The state in another basis. -/
def GSt.rot (Q : Matrix (Fin N) (Fin N) K) (g : GSt K N) : GSt K N := ⟨g.toSt.rot Q, g.fresh⟩

/-- The global backend in another basis. -/
noncomputable def GEnv.rot (Q : Matrix (Fin N) (Fin N) K) (G : GEnv K N) : GEnv K N :=
  { G with base := G.base.rot Q, rnd := rotV Q G.rnd }

/-- The global backend for matrices that pass the symmetry check. -/
noncomputable def gPass (G : GEnv K N) : Chase ℝ (GSt K N) :=
  { gOps G with checkSymmetryEasy := fun g => (true, { g with isSym := true }) }

theorem GSt.rot_back {Q : Matrix (Fin N) (Fin N) K} (hQ : Qᴴ * Q = 1) (g : GSt K N) : (g.rot Q).rot Qᴴ = g := by
  show (⟨(g.toSt.rot Q).rot Qᴴ, g.fresh⟩ : GSt K N) = g
  rw [Seq.rot_back hQ]

theorem gSim_rot {Q : Matrix (Fin N) (Fin N) K} (hQ : Qᴴ * Q = 1) (G : GEnv K N) :
    Sim (gPass G) (gPass (G.rot Q)) (fun g t => t = g.rot Q) where
  checkSymmetryEasy := by rintro g _ rfl; exact ⟨rfl, rfl⟩
  start := by rintro g _ rfl; rfl
  finish := by rintro g _ rfl; rfl
  initVecs := by
    rintro b g _ rfl
    have e : ∀ t : Seq.St K N, Seq.initVecs (G.base.rot Q) (t.rot Q) = (Seq.initVecs G.base t).rot Q := by
      intro t
      show ({ t.rot Q with next := .bAc, C2 := copyCols 0 G.base.nevex (rotV Q t.C) (rotV Q t.C2) } : Seq.St K N) = _
      rw [copyCols_rot]
      rfl
    cases b
    · exact congrArg (fun t => (⟨t, g.fresh⟩ : GSt K N)) (e g.toSt)
    · have e' : ({ g.toSt.rot Q with C := writeAt (rotV Q g.C) 0 G.base.nevex (rotV Q G.rnd) } : Seq.St K N) =
          ({ g.toSt with C := writeAt g.C 0 G.base.nevex G.rnd } : Seq.St K N).rot Q := by
        rw [writeAt_rot]
        rfl
      show (⟨Seq.initVecs (G.base.rot Q)
        { g.toSt.rot Q with C := writeAt (rotV Q g.C) 0 G.base.nevex (rotV Q G.rnd) }, g.fresh⟩ : GSt K N) = _
      rw [e', e]
      rfl
  qr := by
    rintro k c g _ rfl
    refine qrSelect_rot (GSt.rot Q) _ _ (fun t => ?_) (fun t => ?_) (fun t => ?_) (fun t => ?_) (fun b t => ?_) _ _ _ _ g
    · show ({ t.rot Q with C := hhQRc (G.base.lapack.rot Q) G.base.nevex (rotV Q t.C), next := if G.scalapack then t.next else .bAc } : GSt K N) = _
      rw [hhQRc_rot hQ]
      rfl
    · show ((cholQR1c G.base.lapack G.base.nevex (rotV Q t.C)).1,
        ({ t.rot Q with C := (cholQR1c G.base.lapack G.base.nevex (rotV Q t.C)).2 } : GSt K N)) = _
      rw [cholQR1c_rot hQ]
      rfl
    · show ((cholQR2c G.base.lapack G.base.nevex ⟨true, true⟩ (rotV Q t.C)).1,
        ({ t.rot Q with C := (cholQR2c G.base.lapack G.base.nevex ⟨true, true⟩ (rotV Q t.C)).2 } : GSt K N)) = _
      rw [cholQR2c_rot hQ]
      rfl
    · show ((shiftedcholQR2c G.base.lapack G.base.nevex ⟨true, false⟩ (rotV Q t.C)).1,
        ({ t.rot Q with C := (shiftedcholQR2c G.base.lapack G.base.nevex ⟨true, false⟩ (rotV Q t.C)).2 } : GSt K N)) = _
      rw [shiftedcholQR2c_rot hQ]
      rfl
    · exact congrArg (fun u => (⟨u, t.fresh⟩ : GSt K N)) (Seq.lockVectorCopy_rot G.base _ t.toSt)
  lanczos1 := by
    rintro m g _ rfl
    exact ⟨(lanczosBound_rot hQ axpyOwn G.base.lapack g.H m g.C).symm, rfl⟩
  lanczosN := by
    rintro m k g _ rfl
    have e := lanczosMulti_rot hQ axpyOwn G.base.lapack g.H m k g.C
    refine ⟨(congrArg Prod.fst e).symm, ?_⟩
    show ({ g.rot Q with C := (lanczosMulti axpyOwn G.base.lapack (rotM Q g.H) m k (rotV Q g.C)).2 } : GSt K N) = _
    rw [e]
    rfl
  lanczosDos := by
    rintro i m z g _ rfl
    exact congrArg (fun u => (⟨u, g.fresh⟩ : GSt K N)) (Seq.lanczosDos_rot i m z g.toSt)
  shift := by
    rintro x b g _ rfl
    show ({ g.rot Q with H := shiftH (x : K) (rotM Q g.H), next := if g.fresh then .bAc else g.next, fresh := false } : GSt K N) = _
    rw [shiftH_rot hQ]
    rfl
  hemm := by
    rintro n a b o g _ rfl
    exact congrArg (fun u => (⟨u, g.fresh⟩ : GSt K N)) (Seq.apply_rot hQ _ _ _ _ _ g.toSt)
  rr := by
    rintro b g _ rfl
    have e := Seq.rr_rot hQ G.base b g.locked g.toSt
    exact ⟨(congrArg Prod.fst e).symm, congrArg (fun u => (⟨u, g.fresh⟩ : GSt K N)) (congrArg Prod.snd e)⟩
  resd := by
    rintro f k g _ rfl
    have e := Seq.resd_rot hQ f g.locked (G.base.nevex - k) g.toSt
    exact ⟨(congrArg Prod.fst e).symm, congrArg (fun u => (⟨u, g.fresh⟩ : GSt K N)) (congrArg Prod.snd e)⟩
  lock := by rintro k g _ rfl; rfl
  swap := by rintro i j g _ rfl; rfl

/-- A Cholesky QR that succeeds does in the new basis what it does in the old one. -/
theorem gQr_rot {Q : Matrix (Fin N) (Fin N) K} (hQ : Qᴴ * Q = 1) (G : GEnv K N) (k : ℕ) (x : ℝ) (g : GSt K N)
    (h : ¬ Householder G.base x g.C) : (gPass G).qr k x (g.rot Q) = ((gPass G).qr k x g).rot Q := by
  have h0 : ¬ cholDisable G.base.doCholQR G.base.envDisable = 1 := fun g => h (Or.inl g)
  have e1 := cholQR1c_rot hQ G.base.lapack G.base.nevex g.C
  have e2 := cholQR2c_rot hQ G.base.lapack G.base.nevex ⟨true, true⟩ g.C
  have e3 := shiftedcholQR2c_rot hQ G.base.lapack G.base.nevex ⟨true, false⟩ g.C
  have el : ∀ t : Seq.St K N, (⟨Seq.lockVectorCopy G.base g.locked (t.rot Q), g.fresh⟩ : GSt K N) =
      GSt.rot Q ⟨Seq.lockVectorCopy G.base g.locked t, g.fresh⟩ := fun t =>
    congrArg (fun u => (⟨u, g.fresh⟩ : GSt K N)) (Seq.lockVectorCopy_rot G.base _ t)
  show qrSelect _ _ _ _ _ _ = GSt.rot Q (qrSelect _ _ _ _ _ _)
  unfold qrSelect
  rw [if_neg h0, if_neg h0]
  simp only [decide_eq_true_eq]
  by_cases hu : x > G.base.condUpper
  · have h3 : (shiftedcholQR2c G.base.lapack G.base.nevex ⟨true, false⟩ g.C).1 = 0 := by
      by_contra g; exact h (Or.inr (Or.inl ⟨hu, g⟩))
    rw [if_pos hu, if_pos hu]
    dsimp only [gQrRoutines]
    show (if (shiftedcholQR2c G.base.lapack G.base.nevex ⟨true, false⟩ (rotV Q g.C)).1 ≠ 0 then _ else
      (⟨Seq.lockVectorCopy G.base g.locked { g.toSt.rot Q with
        C := (shiftedcholQR2c G.base.lapack G.base.nevex ⟨true, false⟩ (rotV Q g.C)).2 }, g.fresh⟩ : GSt K N)) = _
    rw [e3, if_neg (not_not.2 h3)]
    exact (el { g.toSt with C := (shiftedcholQR2c G.base.lapack G.base.nevex ⟨true, false⟩ g.C).2 }).trans
      (congrArg (GSt.rot Q) (if_neg (not_not.2 h3)).symm)
  · rw [if_neg hu, if_neg hu]
    by_cases hl : x < G.base.condLower
    · have h3 : (cholQR1c G.base.lapack G.base.nevex g.C).1 = 0 := by
        by_contra g; exact h (Or.inr (Or.inr (Or.inl ⟨hu, hl, g⟩)))
      rw [if_pos hl, if_pos hl]
      dsimp only [gQrRoutines]
      show (if (cholQR1c G.base.lapack G.base.nevex (rotV Q g.C)).1 ≠ 0 then _ else
        (⟨Seq.lockVectorCopy G.base g.locked { g.toSt.rot Q with
          C := (cholQR1c G.base.lapack G.base.nevex (rotV Q g.C)).2 }, g.fresh⟩ : GSt K N)) = _
      rw [e1, if_neg (not_not.2 h3)]
      exact (el { g.toSt with C := (cholQR1c G.base.lapack G.base.nevex g.C).2 }).trans
        (congrArg (GSt.rot Q) (if_neg (not_not.2 h3)).symm)
    · have h3 : (cholQR2c G.base.lapack G.base.nevex ⟨true, true⟩ g.C).1 = 0 := by
        by_contra g; exact h (Or.inr (Or.inr (Or.inr ⟨hu, hl, g⟩)))
      rw [if_neg hl, if_neg hl]
      dsimp only [gQrRoutines]
      show (if (cholQR2c G.base.lapack G.base.nevex ⟨true, true⟩ (rotV Q g.C)).1 ≠ 0 then _ else
        (⟨Seq.lockVectorCopy G.base g.locked { g.toSt.rot Q with
          C := (cholQR2c G.base.lapack G.base.nevex ⟨true, true⟩ (rotV Q g.C)).2 }, g.fresh⟩ : GSt K N)) = _
      rw [e2, if_neg (not_not.2 h3)]
      exact (el { g.toSt with C := (cholQR2c G.base.lapack G.base.nevex ⟨true, true⟩ g.C).2 }).trans
        (congrArg (GSt.rot Q) (if_neg (not_not.2 h3)).symm)

/-- The global backend, one LAPACK for both bases. -/
theorem gSolve_rot {Q : Matrix (Fin N) (Fin N) K} (hQ : Qᴴ * Q = 1) (G : GEnv K N) (P : Plat ℝ) (cfg : Config ℝ)
    (happ : cfg.approx = true) (ritzv0 resid0 : ℕ → ℝ) (g : GSt K N)
    (ha : QrAvoids P (gPass G) cfg ritzv0 resid0 g fun _ x t => Householder G.base x t.C)
    {a : Outcome ℝ (GSt K N)} (h : solve P (gPass G) cfg ritzv0 resid0 g = .ok a) :
    ∃ b, solve P (gPass G) cfg ritzv0 resid0 (g.rot Q) = .ok b ∧ Outcome.Rel (fun s t => t = GSt.rot Q s) a b := by
  have hb : ∀ p : GSt K N, (p.rot Qᴴ).rot Q = p := fun p => by
    have := GSt.rot_back (unitary_star hQ) p
    rwa [Matrix.conjTranspose_conjTranspose] at this
  have hπ : Sim (gPass (G.rot Q)) (gPass G) (fun (p : GSt K N) (t : GSt K N) => p.rot Qᴴ = t) := by
    have e : (fun (p : GSt K N) (t : GSt K N) => p.rot Qᴴ = t) = fun p t => p = t.rot Q := by
      funext p t
      refine propext ⟨fun g => by rw [← g, hb], fun g => by rw [g, GSt.rot_back hQ]⟩
    rw [e]
    exact (gSim_rot hQ G).flip
  have ha' : QrAvoids P (gPass (G.rot Q)) cfg ritzv0 resid0 (g.rot Q) fun _ x t => Householder G.base x (t.rot Qᴴ).C :=
    QrAvoids.of_sim hπ (bad := fun _ x (t : GSt K N) => Householder G.base x t.C) (by rw [GSt.rot_back hQ]; exact ha)
  have h1 := solve_sim (gSim_rot hQ G) P cfg ritzv0 resid0 (be := g) (be' := g.rot Q) rfl
  rw [h] at h1
  cases hx : solve P (gPass (G.rot Q)) cfg ritzv0 resid0 (g.rot Q) with
  | error e => rw [hx] at h1; cases h1
  | ok b =>
    rw [hx] at h1
    cases h1 with
    | ok h1 =>
      refine ⟨b, ?_, h1⟩
      have h2 := solve_withQr (q := (gPass G).qr) hx ha' fun k x t ht => by
        have e := gQr_rot hQ G k x (t.rot Qᴴ) ht
        have e' := (gSim_rot hQ G).qr k x (t.rot Qᴴ) _ rfl
        rw [hb] at e e'
        rw [e, e']
      rw [← h2]
      exact (solve_congr_start P cfg (gPass G) (gPass (G.rot Q)).initVecs (gPass G).checkSymmetryEasy
        ritzv0 resid0 (g.rot Q) (by rw [happ]; rfl) fun _ => rfl).symm

/-- **C98** (distributed CPU backend) In approximation mode, as long as the solve in the first basis does without
Householder QR, a solve of the matrix and the start vectors written in another orthonormal basis, on any other grid
and distribution, returns the same values and residuals after the same rounds, and the vectors written in that
basis.
Missing: runs with Householder QR, whose signs depend on the basis. -/
theorem C98_mpi_partial {Q : Matrix (Fin N) (Fin N) K} (hQ : Qᴴ * Q = 1) {r' c' : Layout N} {E' : MEnv K}
    (hc : RunsOk r c E.cRuns) (hb : RunsOk c r E.bRuns) (hc' : RunsOk r' c' E'.cRuns) (hb' : RunsOk c' r' E'.bRuns)
    (hbase : E.base = E'.base) (hsca : E.scalapack = E'.scalapack) (P : Plat ℝ) (cfg : Config ℝ)
    (hnev : E.base.nev = cfg.nev) (hnex : E.base.nex = cfg.nex) (hmax : Even cfg.maxDeg) (happ : cfg.approx = true)
    (ritzv0 resid0 : ℕ → ℝ) {s : Fam K r c} {s' : Fam K r' c'} {g g' : GSt K N} (hs : Rep s g) (hs' : Rep s' g')
    (hsym : cfg.symCheck = true → g.H.IsHermitian ∧ 0 ≤ E.symTol ∧ 0 ≤ E'.symTol)
    (hH : g'.H = Q * g.H * Qᴴ) (hC : ∀ k, g'.C k = Q *ᵥ g.C k)
    (hC2 : ∀ k, cfg.nev + cfg.nex ≤ k → g'.C2 k = Q *ᵥ g.C2 k)
    (i0 : Fin r.procs) (j0 : Fin c.procs) (i1 : Fin r'.procs) (j1 : Fin c'.procs)
    (ha : QrAvoids P (opsAt E i0 j0) cfg ritzv0 resid0 s fun _ x t =>
      ∃ X : ℕ → Fin N → K, (∀ i j k l, (t i j).C k l = X k (r.glob i l)) ∧ Householder E.base x X)
    {a : Outcome ℝ (Fam K r c)} (h : solve P (opsAt E i0 j0) cfg ritzv0 resid0 s = .ok a) :
    ∃ b, solve P (opsAt E' i1 j1) cfg ritzv0 resid0 s' = .ok b ∧ a.ritzv = b.ritzv ∧ a.resid = b.resid ∧
      a.iterations = b.iterations ∧ a.locked = b.locked ∧ (0 < a.iterations → ∃ X : ℕ → Fin N → K,
        (∀ i j k l, (a.be i j).C k l = X k (r.glob i l)) ∧
        ∀ i j k l, (b.be i j).C k l = (Q *ᵥ X k) (r'.glob i l)) := by
  have ha1 : QrAvoids P (gOps (E.glob r)) cfg ritzv0 resid0 g fun _ x t => Householder E.base x t.C :=
    QrAvoids.of_rel (sim hc hb i0 j0).flip hs (fun _ x t' t ht hb => ⟨t'.C, ht.C, hb⟩) ha
  have hchk : ∀ (E : MEnv K) (r : Layout N) (g : GSt K N), (cfg.symCheck = true → g.H.IsHermitian ∧ 0 ≤ E.symTol) →
      cfg.symCheck = true → (true, ({ g with isSym := true } : GSt K N)) = (gOps (E.glob r)).checkSymmetryEasy g := by
    intro E r g hg hk
    show _ = (gSymCheck (E.glob r) g, ({ g with isSym := gSymCheck (E.glob r) g } : GSt K N))
    rw [gSymCheck_hermitian (G := E.glob r) (hg hk).2 g (hg hk).1]
  have ha2 : QrAvoids P (gPass (E.glob r)) cfg ritzv0 resid0 g fun _ x t => Householder (E.glob r).base x t.C :=
    ha1.congr_check _ (hchk E r g fun hk => ⟨(hsym hk).1, (hsym hk).2.1⟩)
  have hpass : ∀ (E : MEnv K) (r : Layout N) (g : GSt K N), (cfg.symCheck = true → g.H.IsHermitian ∧ 0 ≤ E.symTol) →
      solve P (gPass (E.glob r)) cfg ritzv0 resid0 g = solve P (gOps (E.glob r)) cfg ritzv0 resid0 g :=
    fun E r g hg => solve_congr_start P cfg (gOps (E.glob r)) (gOps (E.glob r)).initVecs
      (fun g => (true, ({ g with isSym := true } : GSt K N))) ritzv0 resid0 g rfl (hchk E r g hg)
  have h0 := solve_sim (sim hc hb i0 j0) P cfg ritzv0 resid0 hs
  rw [h, ← hpass E r g fun hk => ⟨(hsym hk).1, (hsym hk).2.1⟩] at h0
  cases hx : solve P (gPass (E.glob r)) cfg ritzv0 resid0 g with
  | error e => rw [hx] at h0; cases h0
  | ok z =>
    rw [hx] at h0
    cases h0 with
    | ok h0 =>
      obtain ⟨w, hw, hzw⟩ := gSolve_rot hQ (E.glob r) P cfg happ ritzv0 resid0 g ha2 hx
      have hr : cfg.symCheck = true → (g.rot Q).H.IsHermitian ∧ 0 ≤ E'.symTol := fun hk => by
        refine ⟨?_, (hsym hk).2.2⟩
        show (Q * g.H * Qᴴ)ᴴ = _
        rw [Matrix.conjTranspose_mul, Matrix.conjTranspose_mul, (hsym hk).1.eq, Matrix.conjTranspose_conjTranspose]
        exact (Matrix.mul_assoc _ _ _).symm
      have hw' : solve P (gOps (E'.glob r')) cfg ritzv0 resid0 (g.rot Q) = .ok w := by
        rw [← hpass E' r' (g.rot Q) hr, ← hw]
        have e1 : gPass (E'.glob r') = { gPass (E.glob r) with
            initVecs := (gPass (E'.glob r')).initVecs
            checkSymmetryEasy := (gPass (E'.glob r')).checkSymmetryEasy } := by
          unfold gPass gOps gQrRoutines MEnv.glob
          dsimp only
          rw [hbase, hsca]
        rw [e1]
        refine solve_congr_start P cfg _ _ _ ritzv0 resid0 (g.rot Q) ?_ fun _ => rfl
        rw [happ]
        funext t
        show (⟨Seq.initVecs E'.base t.toSt, t.fresh⟩ : GSt K N) = ⟨Seq.initVecs E.base t.toSt, t.fresh⟩
        rw [hbase]
      have h2 := solve_sim (sim hc' hb' i1 j1) P cfg ritzv0 resid0 (scatter_rep r' c' (g.rot Q))
      rw [hw'] at h2
      have h3 := C62_mpi hc' hb' P cfg (hbase ▸ hnev) (hbase ▸ hnex) hmax ritzv0 resid0
        (scatter_rep r' c' (g.rot Q)) hs'
        (fun i j => by
          ext a b
          rw [(scatter_rep r' c' (g.rot Q)).H, hs'.H, hH]
          rfl)
        (fun _ i j k _ => by
          funext l
          rw [(scatter_rep r' c' (g.rot Q)).C, hs'.C, hC]
          rfl)
        (fun i j k hk => ⟨by
          funext l
          rw [(scatter_rep r' c' (g.rot Q)).C, hs'.C, hC]
          rfl, by
          funext l
          rw [(scatter_rep r' c' (g.rot Q)).C2, hs'.C2, hC2 k hk]
          rfl⟩) i1 j1
      cases hy : solve P (opsAt E' i1 j1) cfg ritzv0 resid0 (scatter r' c' (g.rot Q)) with
      | error e => rw [hy] at h2; cases h2
      | ok y =>
        rw [hy] at h2 h3
        cases hv : solve P (opsAt E' i1 j1) cfg ritzv0 resid0 s' with
        | error e => rw [hv] at h3; cases h3
        | ok b =>
          rw [hv] at h3
          cases h2 with
          | ok h2 =>
            cases h3 with
            | ok h3 =>
              obtain ⟨b1, b2, b3, b4, -, b6⟩ := h3
              refine ⟨b, rfl, h0.ritzv.trans (hzw.ritzv.trans (h2.ritzv.symm.trans b1)),
                h0.resid.trans (hzw.resid.trans (h2.resid.symm.trans b2)),
                h0.iterations.trans (hzw.iterations.trans (h2.iterations.symm.trans b3)),
                h0.locked.trans (hzw.locked.trans (h2.locked.symm.trans b4)), fun hp => ⟨z.be.C, h0.be.C, ?_⟩⟩
              intro i j k l
              have hpy : 0 < y.iterations := by
                rw [h2.iterations, ← hzw.iterations, ← h0.iterations]; exact hp
              rw [← b6 hpy i j, h2.be.C, hzw.be]
              rfl

/-- Runs without Householder QR, as `Seq.avoids_eigen`. -/
theorem gAvoids_eigen (P : Plat ℝ) (G : GEnv K N) (hL : G.base.lapack.Ok) (cfg : Config ℝ) (hnev : G.base.nev = cfg.nev)
    (hnex : G.base.nex = cfg.nex) (happ : cfg.approx = true) (hopt : cfg.optimization = false) (hit : cfg.maxIter = 1)
    (hmax : Even cfg.maxDeg) (hdeg : 1 ≤ cfg.deg) (hmax2 : 2 ≤ cfg.maxDeg) (hpos : 0 < cfg.nev + cfg.nex)
    (hdis : cholDisable G.base.doCholQR G.base.envDisable ≠ 1)
    (hε : 0 ≤ G.base.lapack.eps) (hN : cfg.N ≠ 0)
    {μ : ℝ} (hμ : μ < 0) (resid0 : ℕ → ℝ) (s : GSt K N) (hH : s.H.IsHermitian)
    (hC : ∀ k, k < cfg.nev + cfg.nex → s.H *ᵥ s.C k = (μ : K) • s.C k)
    (hli : LinearIndependent K fun j : Fin (cfg.nev + cfg.nex) => s.C j) :
    QrAvoids P (gOps G) cfg (fun _ => μ) resid0 s fun _ c t => Householder G.base c t.C := by
  refine QrAvoids.of_one happ hit ?_
  intro be' hbe st s1 av t hi ho hf k a b c d m n
  have hE : G.base.nevex = cfg.nev + cfg.nex := by unfold Env.nevex; rw [hnev, hnex]
  have hb1 : be'.H = s.H ∧ be'.C = s.C := by
    rcases hbe with rfl | rfl
    · exact ⟨rfl, rfl⟩
    · exact ⟨rfl, rfl⟩
  have hmin : minElem (fun _ : ℕ => μ) 0 (cfg.nev + cfg.nex) = μ := by
    obtain ⟨⟨i, _, h⟩, _⟩ := minElem_spec (fun _ : ℕ => μ) 0 _ hpos
    exact h.symm
  have hmaxe : maxElem (fun _ : ℕ => μ) 0 (cfg.nev + cfg.nex) = μ := by
    obtain ⟨⟨i, _, h⟩, _⟩ := maxElem_spec (fun _ : ℕ => μ) 0 _ hpos
    exact h.symm
  unfold initState at hi
  rw [happ] at hi
  unfold lanczos at hi
  by_cases hm : min (cfg.nev + cfg.nex) (min (cfg.N / 2) cfg.lanczosIter) = 0
  · simp only [if_pos hm] at hi
    cases hi
  simp only [if_neg hm, Bool.not_true, if_true, Bool.false_eq_true, if_false] at hi
  rw [if_neg (by omega)] at hi
  injection hi with hi
  subst hi
  unfold optimise at ho
  rw [if_neg (by rw [hopt]; simp)] at ho
  injection ho with ho
  subst ho
  set ub := lanczosBound axpyOwn G.base.lapack be'.H (min (cfg.nev + cfg.nex) (min (cfg.N / 2) cfg.lanczosIter)) be'.C with hub
  have hub0 : 0 ≤ ub := add_nonneg (le_max_of_le_left (abs_nonneg _)) (abs_nonneg _)
  set dg := min (cfg.deg + cfg.deg % 2) cfg.maxDeg with hdg
  have hdge : Even dg := by
    rw [hdg]
    rcases min_choice (cfg.deg + cfg.deg % 2) cfg.maxDeg with h | h
    · rw [h, Nat.even_iff]; omega
    · rw [h]; exact hmax
  have hdg2 : 2 ≤ dg := by rw [hdg]; exact le_min (by omega) hmax2
  set b0 : GSt K N := ⟨Seq.initVecs G.base { be'.toSt with locked := 0 }, be'.fresh⟩ with hb0
  have hf' : filter (gOps G) cfg.N (cfg.nev + cfg.nex - b0.locked) dg (fun _ => dg) (cfg.nev + cfg.nex) b0.locked μ μ ub b0
      = .ok (av, t) := by
    rw [← hf]
    have e1 : ¬ (cfg.nev + cfg.nex < cfg.nev + cfg.nex) := lt_irrefl _
    have e2 : ¬ (maxElem (fun _ : ℕ => μ) 0 (cfg.nev + cfg.nex) > ub) := by rw [hmaxe]; linarith
    unfold updateBounds
    simp only [e1, false_and, if_false, hmin]
    have e3 : ¬ (maxElem (fun _ : ℕ => μ) 0 (cfg.nev + cfg.nex) > ((gOps G).lanczos1
        (min (cfg.nev + cfg.nex) (min (cfg.N / 2) cfg.lanczosIter)) ((gOps G).initVecs false ((gOps G).start be'))).1) := e2
    rw [if_neg e3, hmaxe]
    rfl
  have ht : ∀ i : ℕ, (Polynomial.Chebyshev.T ℝ i).eval (normPoint μ μ ub) ≠ 0 :=
    C10_outside μ μ ub (by linarith) (Or.inl le_rfl)
  obtain ⟨-, h4, -⟩ := gFilter_spec (G := G) (g := b0) (by rw [← hb1.1] at hH; exact hH) rfl hN
    ⟨hpos, fun _ _ _ _ _ => le_rfl, fun _ _ _ => ⟨hdge, hdg2, le_rfl⟩, hdge⟩ (fun i _ => ht i) hf'
  have hCt : ∀ j, j < cfg.nev + cfg.nex → t.C j = s.C j := by
    intro j hj
    rw [h4 j (Nat.zero_le _) hj]
    show (Polynomial.aeval be'.H _).mulVec (be'.C j) = _
    rw [hb1.1, hb1.2, aeval_mulVec_eigenvector s.H _ (hC j hj), filterPoly_eval, div_self (ht _)]
    simp
  have hli' : LinearIndependent K fun j : Fin G.base.nevex => t.C j := by
    rw [hE]
    have e : (fun j : Fin (cfg.nev + cfg.nex) => t.C j) = fun j : Fin (cfg.nev + cfg.nex) => s.C j :=
      funext fun j => hCt j j.2
    rw [e]
    exact hli
  rintro (h | ⟨_, h⟩ | ⟨_, _, h⟩ | ⟨_, _, h⟩)
  · exact hdis h
  · exact h (shiftedcholQR2c_info hL hε _ hli')
  · exact h (cholQR1c_info hL hli')
  · exact h (cholQR2c_info hL _ hli')

/-- The same on the processes of a grid. -/
theorem avoids_of_glob (hc : RunsOk r c E.cRuns) (hb : RunsOk c r E.bRuns) (P : Plat ℝ) (cfg : Config ℝ)
    (ritzv0 resid0 : ℕ → ℝ) {s : Fam K r c} {g : GSt K N} (hs : Rep s g) (i0 : Fin r.procs) (j0 : Fin c.procs)
    (h : QrAvoids P (gOps (E.glob r)) cfg ritzv0 resid0 g fun _ x t => Householder E.base x t.C) :
    QrAvoids P (opsAt E i0 j0) cfg ritzv0 resid0 s fun _ x t =>
      ∃ X : ℕ → Fin N → K, (∀ i j k l, (t i j).C k l = X k (r.glob i l)) ∧ Householder E.base x X := by
  refine QrAvoids.of_rel (sim hc hb i0 j0) hs ?_ h
  rintro k x t' t ht ⟨X, hX, hh⟩
  have e : X = t.C := by
    funext k a
    obtain ⟨i, l, rfl⟩ := r.exists_glob a
    rw [← hX i j0, ht.C]
  exact e ▸ hh

/-- `C98_mpi_partial`: hypotheses met by a round with Cholesky QR, on a 3 x 2 grid in one basis and on a 2 x 3 grid
in the other. -/
example : ∃ (Q : Matrix (Fin 7) (Fin 7) K) (E E' : MEnv K) (g g' : GSt K 7)
    (s : Fam K (cyclicLayout exRow) (cyclicLayout exCol)) (s' : Fam K (cyclicLayout exCol) (cyclicLayout exRow))
    (a : Outcome ℝ (Fam K (cyclicLayout exRow) (cyclicLayout exCol)))
    (b : Outcome ℝ (Fam K (cyclicLayout exCol) (cyclicLayout exRow))),
    Qᴴ * Q = 1 ∧ Rep s g ∧ Rep s' g' ∧ g'.H = Q * g.H * Qᴴ ∧ g'.H ≠ g.H ∧
    solve (realPlat 1 id) (opsAt E (2 : Fin 3) (1 : Fin 2)) (exCfg 1) (fun _ => -1) (fun _ => 0) s = .ok a ∧
    0 < a.iterations ∧
    solve (realPlat 1 id) (opsAt E' (1 : Fin 2) (2 : Fin 3)) (exCfg 1) (fun _ => -1) (fun _ => 0) s' = .ok b ∧
    a.ritzv = b.ritzv ∧ a.resid = b.resid := by
  obtain ⟨Q, H, X, hQ, hH, hne, heig, hli⟩ := Seq.exBasis (K := K)
  let E : MEnv K := { exMEnv K with base := exEnvChol K }
  let E' : MEnv K := { E with cRuns := E.bRuns, bRuns := E.cRuns }
  let g : GSt K 7 := ⟨⟨H, X, fun _ _ => 0, X, fun _ _ => 0, .bAc, 0, false⟩, false⟩
  have hL : (exEnvChol K).lapack.Ok := Lapack.ideal_ok _ _ _
  have hs := scatter_rep (cyclicLayout exRow) (cyclicLayout exCol) g
  have hs' := scatter_rep (cyclicLayout exCol) (cyclicLayout exRow) (g.rot Q)
  obtain ⟨a, ha, hpos⟩ := C51_approx_solve_defined (realPlat 1 id)
    (opsAt (r := cyclicLayout exRow) (c := cyclicLayout exCol) E (2 : Fin 3) (1 : Fin 2)) (exCfg 1) rfl
    (by decide) (by decide) (by decide) (by decide) (by decide) (by decide) (by decide)
    (fun h => absurd h (by decide)) (fun _ => -1) (fun _ => 0) (scatter _ _ g)
  have hp := hpos (fun _ => C09_mpi_hermitian_accepted (E := E) (exRuns K).1 (exRuns K).2 (fun _ _ _ _ => rfl)
    hH (le_refl _)) (by decide)
  have hav := gAvoids_eigen (realPlat 1 id) (E.glob (cyclicLayout exRow)) hL (exCfg 1) rfl rfl rfl rfl rfl (by decide)
    (by decide) (by decide) (by decide) (by simp [MEnv.glob, E, cholDisable, exEnvChol, exEnv]) le_rfl (by decide)
    (μ := -1) (by norm_num) (fun _ => 0) g hH heig hli
  obtain ⟨b, hb, h1, h2, -⟩ := C98_mpi_partial (E := E) (E' := E') hQ (exRuns K).1 (exRuns K).2 (exRuns K).2 (exRuns K).1
    rfl rfl (realPlat 1 id) (exCfg 1) rfl rfl (by decide) rfl (fun _ => -1) (fun _ => 0) hs hs'
    (fun _ => ⟨hH, le_rfl, le_rfl⟩) rfl (fun _ => rfl) (fun _ _ => rfl) (2 : Fin 3) (1 : Fin 2) (1 : Fin 2) (2 : Fin 3)
    (avoids_of_glob (E := E) (exRuns K).1 (exRuns K).2 _ _ _ _ hs _ _ hav) ha
  exact ⟨Q, E, E', g, g.rot Q, _, _, a, b, hQ, hs, hs', rfl, hne, ha, hp, hb, h1, h2⟩

end Mpi
end Verif
