/-
C98 for the multi-GPU backend: neither the basis nor the grid matters.
-/
import Verif.Backend.BasisMpi
import Verif.Backend.MgpuProps

set_option linter.unusedSectionVars false

namespace Verif

open Matrix

section
variable {R S S' : Type*} [Add R] [Sub R] [Mul R] [Div R] [Neg R] [Zero R] [One R] [NatCast R] [LT R] [DecidableLT R]

/-- Backends related phase by phase avoid the same calls of QR. -/
theorem QrAvoids.simP_iff {ops : Chase R S} {ops' : Chase R S'} {nevex : ℕ} {par : ℕ → Prop} {ph : PhaseRel R S S'}
    (hs : SimP ops ops' nevex par ph) (P : Plat R) (cfg : Config R) (hn : nevex = cfg.nev + cfg.nex)
    (hpar : (∀ m, par m) ∨ (Even cfg.maxDeg ∧ ∀ m, Even m → par m)) (r0 s0 : ℕ → R)
    {s : S} {s' : S'} (h : ph.pre s s') {bad : ℕ → R → S → Prop} {bad' : ℕ → R → S' → Prop}
    (hbad : ∀ l k c t t', ph.inv l t t' → (bad k c t ↔ bad' k c t')) :
    QrAvoids P ops cfg r0 s0 s bad ↔ QrAvoids P ops' cfg r0 s0 s' bad' := by
  let ph' : PhaseRel R (S × Prop) (S' × Prop) :=
    { pre := fun p q => ph.pre p.1 q.1 ∧ (p.2 ↔ q.2)
      begun := fun p q => ph.begun p.1 q.1 ∧ (p.2 ↔ q.2)
      inv := fun l p q => ph.inv l p.1 q.1 ∧ (p.2 ↔ q.2)
      filt := fun l x p q => ph.filt l x p.1 q.1 ∧ (p.2 ↔ q.2)
      nest := fun l x a m p q => ph.nest l x a m p.1 q.1 ∧ (p.2 ↔ q.2)
      ready := fun l p q => ph.ready l p.1 q.1 ∧ (p.2 ↔ q.2)
      synced := fun l v p q => ph.synced l v p.1 q.1 ∧ (p.2 ↔ q.2) }
  have hw : SimP (watch bad ops) (watch bad' ops') nevex par ph' := by
    constructor
    case checkSymmetryEasy => rintro p q ⟨h1, h2⟩; exact ⟨(hs.checkSymmetryEasy _ _ h1).1, (hs.checkSymmetryEasy _ _ h1).2, h2⟩
    case start => rintro p q ⟨h1, h2⟩; exact ⟨hs.start _ _ h1, h2⟩
    case initVecs => rintro b p q ⟨h1, h2⟩; exact ⟨hs.initVecs b _ _ h1, h2⟩
    case qr => rintro l k c p q ⟨h1, h2⟩; exact ⟨hs.qr l k c _ _ h1, or_congr h2 (hbad l k c _ _ h1)⟩
    case ready_inv => rintro l p q ⟨h1, h2⟩; exact ⟨hs.ready_inv l _ _ h1, h2⟩
    case lanczos1 => rintro m p q ⟨h1, h2⟩; exact ⟨(hs.lanczos1 m _ _ h1).1, (hs.lanczos1 m _ _ h1).2, h2⟩
    case lanczosN => rintro m k p q ⟨h1, h2⟩; exact ⟨(hs.lanczosN m k _ _ h1).1, (hs.lanczosN m k _ _ h1).2, h2⟩
    case lanczosDos => rintro i m z p q ⟨h1, h2⟩; exact ⟨hs.lanczosDos i m z _ _ h1, h2⟩
    case shiftIn => rintro l x p q hl ⟨h1, h2⟩; exact ⟨hs.shiftIn l x _ _ hl h1, h2⟩
    case first => rintro l x y p q hl ⟨h1, h2⟩; exact ⟨hs.first l x y _ _ hl h1, h2⟩
    case prod => rintro l x a m y z p q hl ha ⟨h1, h2⟩; exact ⟨hs.prod l x a m y z _ _ hl ha h1, h2⟩
    case nest_mono => rintro l x a b m p q hl ha hb ⟨h1, h2⟩; exact ⟨hs.nest_mono l x a b m _ _ hl ha hb h1, h2⟩
    case shiftOut => rintro l x a m p q hl ha hp ⟨h1, h2⟩; exact ⟨hs.shiftOut l x a m _ _ hl ha hp h1, h2⟩
    case rr => rintro l p q hl ⟨h1, h2⟩; exact ⟨(hs.rr l _ _ hl h1).1, (hs.rr l _ _ hl h1).2, h2⟩
    case resd =>
      rintro f v l p q hl hf ⟨h1, h2⟩
      exact ⟨(hs.resd f v l _ _ hl hf h1).1, (hs.resd f v l _ _ hl hf h1).2, h2⟩
    case lock => rintro l v k p q ⟨h1, h2⟩; exact ⟨hs.lock l v k _ _ h1, h2⟩
    case swap_inv => rintro l i j p q ⟨h1, h2⟩; exact ⟨hs.swap_inv l i j _ _ h1, h2⟩
    case swap_synced => rintro l v i j p q ⟨h1, h2⟩; exact ⟨hs.swap_synced l v i j _ _ h1, h2⟩
    case finish => rintro l p q ⟨h1, h2⟩; exact ⟨hs.finish l _ _ h1, h2⟩
  have h1 := solve_simP hw P cfg hn hpar r0 s0 (be := (s, False)) (be' := (s', False)) ⟨h, Iff.rfl⟩
  unfold QrAvoids
  revert h1
  generalize solve P (watch bad ops) cfg r0 s0 (s, False) = x
  generalize solve P (watch bad' ops') cfg r0 s0 (s', False) = y
  intro h1
  cases h1 with
  | error e => exact ⟨fun _ _ ho => (by cases ho), fun _ _ ho => (by cases ho)⟩
  | ok h1 =>
    have hi := h1.be.2
    constructor
    · intro g o1 ho hm
      injection ho with ho
      subst ho
      exact g _ rfl (hi.2 hm)
    · intro g o1 ho hm
      injection ho with ho
      subst ho
      exact g _ rfl (hi.1 hm)

end

namespace Mgpu

open Mpi (Layout Proc MEnv Fam GSt GEnv)

variable {K : Type*} [RCLike K] {N : ℕ} {r c : Layout N} {E : GpuEnv K}

/-- `QR` of the multi-GPU backend ends in Householder QR for these columns (chase_mpi.hpp 351-427,
chase_mpidla.hpp 1054-1306 and, for `potrf`, chase_mpidla_mgpu.hpp 656-679, modelled by `refQrRoutines` and
`qrSelect`). -/
def Householder (E : Env K) (cond : ℝ) (C : ℕ → Fin N → K) : Prop :=
  cholDisable E.doCholQR E.envDisable = 1 ∨
    (cond > E.condUpper ∧ (shiftedcholQR2c E.lapack E.nevex ⟨true, false⟩ C).1 ≠ 0) ∨
    (¬ cond > E.condUpper ∧ cond < E.condLower ∧ (cholQR1c E.lapack E.nevex C).1 ≠ 0) ∨
    (¬ cond > E.condUpper ∧ ¬ cond < E.condLower ∧ (cholQR2c E.lapack E.nevex ⟨true, false⟩ C).1 ≠ 0)

/-- The backend on global data for matrices that pass the symmetry check. -/
noncomputable def refPass (G : GEnv K N) (aware : Bool) : Chase ℝ (GSt K N) :=
  { refOps G aware with checkSymmetryEasy := fun g => (true, { g with isSym := true }) }

theorem keep_rot (Q : Matrix (Fin N) (Fin N) K) (aware : Bool) (p : ℤ × (ℕ → Fin N → K)) (g : GSt K N) :
    keep aware (p.1, rotV Q p.2) (g.rot Q) = ((keep aware p g).1, (keep aware p g).2.rot Q) := by
  unfold keep
  dsimp only
  split_ifs <;> rfl

theorem refSim_rot {Q : Matrix (Fin N) (Fin N) K} (hQ : Qᴴ * Q = 1) (G : GEnv K N) (aware : Bool) :
    Sim (refPass G aware) (refPass (G.rot Q) aware) (fun g t => t = g.rot Q) :=
  { Mpi.gSim_rot hQ G with
    qr := by
      rintro k c g _ rfl
      refine qrSelect_rot (GSt.rot Q) _ _ (fun t => ?_) (fun t => ?_) (fun t => ?_) (fun t => ?_) (fun b t => ?_) _ _ _ _ g
      · show ({ t.rot Q with C := hhQRc (G.base.lapack.rot Q) G.base.nevex (rotV Q t.C), next := if G.scalapack then t.next else .bAc } : GSt K N) = _
        rw [hhQRc_rot hQ]
        rfl
      · show keep aware (cholQR1c G.base.lapack G.base.nevex (rotV Q t.C)) (t.rot Q) = _
        rw [cholQR1c_rot hQ, keep_rot]
        rfl
      · show keep aware (cholQR2c G.base.lapack G.base.nevex ⟨true, false⟩ (rotV Q t.C)) (t.rot Q) = _
        rw [cholQR2c_rot hQ, keep_rot]
        rfl
      · show keep aware (shiftedcholQR2c G.base.lapack G.base.nevex ⟨true, false⟩ (rotV Q t.C)) (t.rot Q) = _
        rw [shiftedcholQR2c_rot hQ, keep_rot]
        rfl
      · exact congrArg (fun u => (⟨u, t.fresh⟩ : GSt K N)) (Seq.lockVectorCopy_rot G.base _ t.toSt)
    resd := by
      rintro f k g _ rfl
      have e := Seq.resd_rot hQ f g.locked (G.base.nevex - k) g.toSt
      refine ⟨(congrArg Prod.fst e).symm, ?_⟩
      cases aware
      · exact congrArg (fun u => (⟨u, g.fresh⟩ : GSt K N)) (congrArg Prod.snd e)
      · exact congrArg (fun u => (⟨u, g.fresh⟩ : GSt K N)) (Seq.gather_rot hQ g.locked (G.base.nevex - k) g.toSt) }

/-- A Cholesky QR that succeeds does in the new basis what it does in the old one. -/
theorem refQr_rot {Q : Matrix (Fin N) (Fin N) K} (hQ : Qᴴ * Q = 1) (G : GEnv K N) (aware : Bool) (k : ℕ) (x : ℝ)
    (g : GSt K N) (h : ¬ Householder G.base x g.C) :
    (refPass G aware).qr k x (g.rot Q) = ((refPass G aware).qr k x g).rot Q := by
  have h0 : ¬ cholDisable G.base.doCholQR G.base.envDisable = 1 := fun g => h (Or.inl g)
  have el : ∀ (t : GSt K N), (⟨Seq.lockVectorCopy G.base g.locked (t.toSt.rot Q), t.fresh⟩ : GSt K N) =
      GSt.rot Q ⟨Seq.lockVectorCopy G.base g.locked t.toSt, t.fresh⟩ := fun t =>
    congrArg (fun u => (⟨u, t.fresh⟩ : GSt K N)) (Seq.lockVectorCopy_rot G.base _ t.toSt)
  have key : ∀ f : (ℕ → Fin N → K) → ℤ × (ℕ → Fin N → K), f (rotV Q g.C) = ((f g.C).1, rotV Q (f g.C).2) →
      (f g.C).1 = 0 →
      (keep aware (f (rotV Q g.C)) (g.rot Q)).1 = 0 ∧ (keep aware (f g.C) g).1 = 0 ∧
      (⟨Seq.lockVectorCopy G.base g.locked (keep aware (f (rotV Q g.C)) (g.rot Q)).2.toSt,
        (keep aware (f (rotV Q g.C)) (g.rot Q)).2.fresh⟩ : GSt K N) =
      GSt.rot Q ⟨Seq.lockVectorCopy G.base g.locked (keep aware (f g.C) g).2.toSt, (keep aware (f g.C) g).2.fresh⟩ := by
    intro f hf hi
    rw [hf, keep_rot]
    exact ⟨hi, hi, el _⟩
  show qrSelect _ _ _ _ _ _ = GSt.rot Q (qrSelect _ _ _ _ _ _)
  unfold qrSelect
  rw [if_neg h0, if_neg h0]
  simp only [decide_eq_true_eq]
  by_cases hu : x > G.base.condUpper
  · have h3 : (shiftedcholQR2c G.base.lapack G.base.nevex ⟨true, false⟩ g.C).1 = 0 := by
      by_contra g; exact h (Or.inr (Or.inl ⟨hu, g⟩))
    obtain ⟨k1, k2, k3⟩ := key _ (shiftedcholQR2c_rot hQ G.base.lapack G.base.nevex ⟨true, false⟩ g.C) h3
    rw [if_pos hu, if_pos hu]
    exact (if_neg (not_not.2 k1)).trans (k3.trans (congrArg (GSt.rot Q) (if_neg (not_not.2 k2)).symm))
  · rw [if_neg hu, if_neg hu]
    by_cases hl : x < G.base.condLower
    · have h3 : (cholQR1c G.base.lapack G.base.nevex g.C).1 = 0 := by
        by_contra g; exact h (Or.inr (Or.inr (Or.inl ⟨hu, hl, g⟩)))
      obtain ⟨k1, k2, k3⟩ := key _ (cholQR1c_rot hQ G.base.lapack G.base.nevex g.C) h3
      rw [if_pos hl, if_pos hl]
      exact (if_neg (not_not.2 k1)).trans (k3.trans (congrArg (GSt.rot Q) (if_neg (not_not.2 k2)).symm))
    · have h3 : (cholQR2c G.base.lapack G.base.nevex ⟨true, false⟩ g.C).1 = 0 := by
        by_contra g; exact h (Or.inr (Or.inr (Or.inr ⟨hu, hl, g⟩)))
      obtain ⟨k1, k2, k3⟩ := key _ (cholQR2c_rot hQ G.base.lapack G.base.nevex ⟨true, false⟩ g.C) h3
      rw [if_neg hl, if_neg hl]
      exact (if_neg (not_not.2 k1)).trans (k3.trans (congrArg (GSt.rot Q) (if_neg (not_not.2 k2)).symm))

/-- The global backend, one LAPACK for both bases. -/
theorem refSolve_rot {Q : Matrix (Fin N) (Fin N) K} (hQ : Qᴴ * Q = 1) (G : GEnv K N) (aware : Bool) (P : Plat ℝ) (cfg : Config ℝ)
    (happ : cfg.approx = true) (ritzv0 resid0 : ℕ → ℝ) (g : GSt K N)
    (ha : QrAvoids P (refPass G aware) cfg ritzv0 resid0 g fun _ x t => Householder G.base x t.C)
    {a : Outcome ℝ (GSt K N)} (h : solve P (refPass G aware) cfg ritzv0 resid0 g = .ok a) :
    ∃ b, solve P (refPass G aware) cfg ritzv0 resid0 (g.rot Q) = .ok b ∧ Outcome.Rel (fun s t => t = GSt.rot Q s) a b := by
  have hb : ∀ p : GSt K N, (p.rot Qᴴ).rot Q = p := fun p => by
    have := Mpi.GSt.rot_back (unitary_star hQ) p
    rwa [Matrix.conjTranspose_conjTranspose] at this
  have hπ : Sim (refPass (G.rot Q) aware) (refPass G aware) (fun (p : GSt K N) (t : GSt K N) => p.rot Qᴴ = t) := by
    have e : (fun (p : GSt K N) (t : GSt K N) => p.rot Qᴴ = t) = fun p t => p = t.rot Q := by
      funext p t
      refine propext ⟨fun g => by rw [← g, hb], fun g => by rw [g, Mpi.GSt.rot_back hQ]⟩
    rw [e]
    exact (refSim_rot hQ G aware).flip
  have ha' : QrAvoids P (refPass (G.rot Q) aware) cfg ritzv0 resid0 (g.rot Q) fun _ x t => Householder G.base x (t.rot Qᴴ).C :=
    QrAvoids.of_sim hπ (bad := fun _ x (t : GSt K N) => Householder G.base x t.C) (by rw [Mpi.GSt.rot_back hQ]; exact ha)
  have h1 := solve_sim (refSim_rot hQ G aware) P cfg ritzv0 resid0 (be := g) (be' := g.rot Q) rfl
  rw [h] at h1
  cases hx : solve P (refPass (G.rot Q) aware) cfg ritzv0 resid0 (g.rot Q) with
  | error e => rw [hx] at h1; cases h1
  | ok b =>
    rw [hx] at h1
    cases h1 with
    | ok h1 =>
      refine ⟨b, ?_, h1⟩
      have h2 := solve_withQr (q := (refPass G aware).qr) hx ha' fun k x t ht => by
        have e := refQr_rot hQ G aware k x (t.rot Qᴴ) ht
        have e' := (refSim_rot hQ G aware).qr k x (t.rot Qᴴ) _ rfl
        rw [hb] at e e'
        rw [e, e']
      rw [← h2]
      exact (Mpi.solve_congr_start P cfg (refPass G aware) (refPass (G.rot Q) aware).initVecs (refPass G aware).checkSymmetryEasy
        ritzv0 resid0 (g.rot Q) (by rw [happ]; rfl) fun _ => rfl).symm

/-- A run on the devices avoids Householder QR exactly if the run on global data does. -/
theorem avoids_iff (hS : E.Sound) (hc : Mpi.RunsOk r c E.mpi.cRuns) (hb : Mpi.RunsOk c r E.mpi.bRuns) (P : Plat ℝ)
    (cfg : Config ℝ) (hE : E.mpi.base.nevex = cfg.nev + cfg.nex) (ritzv0 resid0 : ℕ → ℝ) {s : GFam K r c} {g : GSt K N}
    (hs : Mpi.Rep (pview E s) g) (i0 : Fin r.procs) (j0 : Fin c.procs) :
    (QrAvoids P (opsAt E i0 j0) cfg ritzv0 resid0 s fun _ x t => ∃ X : ℕ → Fin N → K,
      (∀ i j k l, (if E.aware then (t i j).dC else (t i j).host.C) k l = X k (r.glob i l)) ∧
        Householder E.mpi.base x X) ↔
    QrAvoids P (refOps (E.mpi.glob r) E.aware) cfg ritzv0 resid0 g fun _ x t => Householder E.mpi.base x t.C := by
  refine QrAvoids.simP_iff (sim hS hc hb i0 j0) P cfg hE (Or.inl fun _ => trivial) ritzv0 resid0 hs ?_
  intro l k x t t' ht
  have hv : ∀ i j, (if E.aware then (t i j).dC else (t i j).host.C) = (view E t i j).C := by
    intro i j
    unfold view
    cases E.aware <;> rfl
  have hr : ∀ i j k l, (if E.aware then (t i j).dC else (t i j).host.C) k l = t'.C k (r.glob i l) := by
    intro i j k l
    rw [hv]
    exact ht.rep.C i j k l
  constructor
  · rintro ⟨X, hX, hh⟩
    have e : X = t'.C := by
      funext k a
      obtain ⟨i, l, rfl⟩ := r.exists_glob a
      rw [← hX i j0, hr]
    exact e ▸ hh
  · exact fun hh => ⟨t'.C, hr, hh⟩

/-- **C98** (multi-GPU backend) In approximation mode, as long as the solve in the first basis does without
Householder QR, a solve of the matrix and the start vectors written in another orthonormal basis, on any other grid
and distribution of devices, returns the same values and residuals after the same rounds, and leaves in host memory
the wanted vectors written in that basis.
Missing: runs with Householder QR, whose signs depend on the basis; the start vectors are those in the memory the
backend works on, with CUDA-aware communication not those of the user, see `C54_mgpu_aware_refuted`. -/
theorem C98_mgpu_partial {Q : Matrix (Fin N) (Fin N) K} (hQ : Qᴴ * Q = 1) {r' c' : Layout N} {E' : GpuEnv K}
    (hS : E.Sound) (hS' : E'.Sound) (hc : Mpi.RunsOk r c E.mpi.cRuns) (hb : Mpi.RunsOk c r E.mpi.bRuns)
    (hc' : Mpi.RunsOk r' c' E'.mpi.cRuns) (hb' : Mpi.RunsOk c' r' E'.mpi.bRuns) (haware : E.aware = E'.aware)
    (hbase : E.mpi.base = E'.mpi.base) (hsca : E.mpi.scalapack = E'.mpi.scalapack) (P : Plat ℝ) (cfg : Config ℝ)
    (hnev : E.mpi.base.nev = cfg.nev) (hnex : E.mpi.base.nex = cfg.nex) (hmax : Even cfg.maxDeg)
    (happ : cfg.approx = true) (ritzv0 resid0 : ℕ → ℝ) {s : GFam K r c} {s' : GFam K r' c'} {g g' : GSt K N}
    (hs : Mpi.Rep (pview E s) g) (hs' : Mpi.Rep (pview E' s') g')
    (hsym : cfg.symCheck = true → g.H.IsHermitian ∧ 0 ≤ E.mpi.symTol ∧ 0 ≤ E'.mpi.symTol)
    (hH : g'.H = Q * g.H * Qᴴ) (hC : ∀ k, g'.C k = Q *ᵥ g.C k)
    (hC2 : ∀ k, cfg.nev + cfg.nex ≤ k → g'.C2 k = Q *ᵥ g.C2 k)
    (i0 : Fin r.procs) (j0 : Fin c.procs) (i1 : Fin r'.procs) (j1 : Fin c'.procs)
    (ha : QrAvoids P (opsAt E i0 j0) cfg ritzv0 resid0 s fun _ x t => ∃ X : ℕ → Fin N → K,
      (∀ i j k l, (if E.aware then (t i j).dC else (t i j).host.C) k l = X k (r.glob i l)) ∧
        Householder E.mpi.base x X)
    {a : Outcome ℝ (GFam K r c)} (h : solve P (opsAt E i0 j0) cfg ritzv0 resid0 s = .ok a) :
    ∃ b, solve P (opsAt E' i1 j1) cfg ritzv0 resid0 s' = .ok b ∧ a.ritzv = b.ritzv ∧ a.resid = b.resid ∧
      a.iterations = b.iterations ∧ a.locked = b.locked ∧ (0 < a.iterations → ∃ X : ℕ → Fin N → K,
        (∀ i j k, k < cfg.nev → ∀ l, (a.be i j).host.C k l = X k (r.glob i l)) ∧
        ∀ i j k, k < cfg.nev → ∀ l, (b.be i j).host.C k l = (Q *ᵥ X k) (r'.glob i l)) := by
  have hE : E.mpi.base.nevex = cfg.nev + cfg.nex := by unfold Env.nevex; rw [hnev, hnex]
  have hE' : E'.mpi.base.nevex = cfg.nev + cfg.nex := by rw [← hbase]; exact hE
  have hnev' : E'.mpi.base.nev = cfg.nev := by rw [← hbase]; exact hnev
  have hnex' : E'.mpi.base.nex = cfg.nex := by rw [← hbase]; exact hnex
  have ha1 := (avoids_iff hS hc hb P cfg hE ritzv0 resid0 hs i0 j0).1 ha
  have hchk : ∀ (E : GpuEnv K) (r : Layout N) (g : GSt K N),
      (cfg.symCheck = true → g.H.IsHermitian ∧ 0 ≤ E.mpi.symTol) → cfg.symCheck = true →
      (true, ({ g with isSym := true } : GSt K N)) = (refOps (E.mpi.glob r) E.aware).checkSymmetryEasy g := by
    intro E r g hg hk
    show _ = (Mpi.gSymCheck (E.mpi.glob r) g, ({ g with isSym := Mpi.gSymCheck (E.mpi.glob r) g } : GSt K N))
    rw [Mpi.gSymCheck_hermitian (G := E.mpi.glob r) (hg hk).2 g (hg hk).1]
  have ha2 : QrAvoids P (refPass (E.mpi.glob r) E.aware) cfg ritzv0 resid0 g
      fun _ x t => Householder (E.mpi.glob r).base x t.C :=
    ha1.congr_check _ (hchk E r g fun hk => ⟨(hsym hk).1, (hsym hk).2.1⟩)
  have hpass : ∀ (E : GpuEnv K) (r : Layout N) (g : GSt K N),
      (cfg.symCheck = true → g.H.IsHermitian ∧ 0 ≤ E.mpi.symTol) →
      solve P (refPass (E.mpi.glob r) E.aware) cfg ritzv0 resid0 g =
        solve P (refOps (E.mpi.glob r) E.aware) cfg ritzv0 resid0 g :=
    fun E r g hg => Mpi.solve_congr_start P cfg (refOps (E.mpi.glob r) E.aware) (refOps (E.mpi.glob r) E.aware).initVecs
      (fun g => (true, ({ g with isSym := true } : GSt K N))) ritzv0 resid0 g rfl (hchk E r g hg)
  have h0 := solve_simP (sim hS hc hb i0 j0) P cfg hE (Or.inl fun _ => trivial) ritzv0 resid0 hs
  have h0' := solve_simP_end (sim hS hc hb i0 j0) P cfg hE (Or.inl fun _ => trivial) ritzv0 resid0 hs
  rw [h, ← hpass E r g fun hk => ⟨(hsym hk).1, (hsym hk).2.1⟩] at h0 h0'
  cases hx : solve P (refPass (E.mpi.glob r) E.aware) cfg ritzv0 resid0 g with
  | error e => rw [hx] at h0; cases h0
  | ok z =>
    rw [hx] at h0 h0'
    cases h0 with
    | ok h0 =>
    cases h0' with
    | ok h0' =>
      obtain ⟨w, hw, hzw⟩ := refSolve_rot hQ (E.mpi.glob r) E.aware P cfg happ ritzv0 resid0 g ha2 hx
      have hr : cfg.symCheck = true → (g.rot Q).H.IsHermitian ∧ 0 ≤ E'.mpi.symTol := fun hk => by
        refine ⟨?_, (hsym hk).2.2⟩
        show (Q * g.H * Qᴴ)ᴴ = _
        rw [Matrix.conjTranspose_mul, Matrix.conjTranspose_mul, (hsym hk).1.eq, Matrix.conjTranspose_conjTranspose]
        exact (Matrix.mul_assoc _ _ _).symm
      have hw' : solve P (refOps (E'.mpi.glob r') E'.aware) cfg ritzv0 resid0 (g.rot Q) = .ok w := by
        rw [← hpass E' r' (g.rot Q) hr, ← hw]
        have e1 : refPass (E'.mpi.glob r') E'.aware = { refPass (E.mpi.glob r) E.aware with
            initVecs := (refPass (E'.mpi.glob r') E'.aware).initVecs
            checkSymmetryEasy := (refPass (E'.mpi.glob r') E'.aware).checkSymmetryEasy } := by
          unfold refPass refOps Mpi.gOpsWith refQr refQrRoutines refResd Mpi.gOps Mpi.gQrRoutines Mpi.MEnv.glob
          dsimp only
          rw [hbase, hsca, haware]
        rw [e1]
        refine Mpi.solve_congr_start P cfg _ _ _ ritzv0 resid0 (g.rot Q) ?_ fun _ => rfl
        rw [happ]
        funext t
        show (⟨Seq.initVecs E'.mpi.base t.toSt, t.fresh⟩ : GSt K N) = ⟨Seq.initVecs E.mpi.base t.toSt, t.fresh⟩
        rw [hbase]
      have h2 := Mpi.gHistory (G := E'.mpi.glob r') (refQr_same (E'.mpi.glob r') E'.aware)
        (refResd_like (E'.mpi.glob r') E'.aware) (refResd_like (E'.mpi.glob r') E'.aware) P cfg hnev' hnex' hmax ritzv0 resid0 (g.rot Q) g' hH.symm (fun _ k _ => (hC k).symm)
        (fun k hk => ⟨(hC k).symm, (hC2 k hk).symm⟩)
      have e1 : Mpi.gOpsWith (E'.mpi.glob r') (refQr (E'.mpi.glob r') E'.aware) (refResd (E'.mpi.glob r') E'.aware) =
          refOps (E'.mpi.glob r') E'.aware := rfl
      rw [e1, hw'] at h2
      have h3 := solve_simP (sim hS' hc' hb' i1 j1) P cfg hE' (Or.inl fun _ => trivial) ritzv0 resid0 hs'
      have h3' := solve_simP_end (sim hS' hc' hb' i1 j1) P cfg hE' (Or.inl fun _ => trivial) ritzv0 resid0 hs'
      cases hy : solve P (refOps (E'.mpi.glob r') E'.aware) cfg ritzv0 resid0 g' with
      | error e => rw [hy] at h2; cases h2
      | ok y =>
        rw [hy] at h2 h3 h3'
        cases hv : solve P (opsAt E' i1 j1) cfg ritzv0 resid0 s' with
        | error e => rw [hv] at h3; cases h3
        | ok b =>
          rw [hv] at h3 h3'
          cases h2 with
          | ok h2 =>
          cases h3 with
          | ok h3 =>
          cases h3' with
          | ok h3' =>
            obtain ⟨b1, b2, b3, b4, -, b6⟩ := h2
            have hit := h0.iterations.trans (hzw.iterations.trans (b3.trans h3.iterations.symm))
            refine ⟨b, rfl, h0.ritzv.trans (hzw.ritzv.trans (b1.trans h3.ritzv.symm)),
              h0.resid.trans (hzw.resid.trans (b2.trans h3.resid.symm)), hit,
              h0.locked.trans (hzw.locked.trans (b4.trans h3.locked.symm)),
              fun hp => ⟨z.be.C, fun i j k hk l => ?_, fun i j k hk l => ?_⟩⟩
            · exact end_host (h0'.2 hp) i j k (hnev ▸ hk) l
            · rw [end_host (h3'.2 (hit ▸ hp)) i j k (hbase ▸ hnev ▸ hk) l, ← b6 (by
                rw [← hzw.iterations, ← h0.iterations]; exact hp), hzw.be]
              rfl

/-- Runs without Householder QR, as `Seq.avoids_eigen`. -/
theorem refAvoids_eigen (P : Plat ℝ) (G : GEnv K N) (aware : Bool) (hL : G.base.lapack.Ok) (cfg : Config ℝ) (hnev : G.base.nev = cfg.nev)
    (hnex : G.base.nex = cfg.nex) (happ : cfg.approx = true) (hopt : cfg.optimization = false) (hit : cfg.maxIter = 1)
    (hmax : Even cfg.maxDeg) (hdeg : 1 ≤ cfg.deg) (hmax2 : 2 ≤ cfg.maxDeg) (hpos : 0 < cfg.nev + cfg.nex)
    (hdis : cholDisable G.base.doCholQR G.base.envDisable ≠ 1)
    (hε : 0 ≤ G.base.lapack.eps) (hN : cfg.N ≠ 0)
    {μ : ℝ} (hμ : μ < 0) (resid0 : ℕ → ℝ) (s : GSt K N) (hH : s.H.IsHermitian)
    (hC : ∀ k, k < cfg.nev + cfg.nex → s.H *ᵥ s.C k = (μ : K) • s.C k)
    (hli : LinearIndependent K fun j : Fin (cfg.nev + cfg.nex) => s.C j) :
    QrAvoids P (refOps G aware) cfg (fun _ => μ) resid0 s fun _ c t => Householder G.base c t.C := by
  refine QrAvoids.of_one happ hit ?_
  intro be' hbe st s1 av t hi ho hf k a b c d m n
  have hE : G.base.nevex = cfg.nev + cfg.nex := by unfold Env.nevex; rw [hnev, hnex]
  have hb1 : be'.H = s.H ∧ be'.C = s.C := by
    rcases hbe with rfl | rfl
    · exact ⟨rfl, rfl⟩
    · exact ⟨rfl, rfl⟩
  have hmin : minElem (fun _ : ℕ => μ) 0 (cfg.nev + cfg.nex) = μ := by
    obtain ⟨⟨i, _, h⟩, _⟩ := minElem_spec (fun _ : ℕ => μ) 0 _ hpos
    exact h.symm
  have hmaxe : maxElem (fun _ : ℕ => μ) 0 (cfg.nev + cfg.nex) = μ := by
    obtain ⟨⟨i, _, h⟩, _⟩ := maxElem_spec (fun _ : ℕ => μ) 0 _ hpos
    exact h.symm
  unfold initState at hi
  rw [happ] at hi
  unfold lanczos at hi
  by_cases hm : min (cfg.nev + cfg.nex) (min (cfg.N / 2) cfg.lanczosIter) = 0
  · simp only [if_pos hm] at hi
    cases hi
  simp only [if_neg hm, Bool.not_true, if_true, Bool.false_eq_true, if_false] at hi
  rw [if_neg (by omega)] at hi
  injection hi with hi
  subst hi
  unfold optimise at ho
  rw [if_neg (by rw [hopt]; simp)] at ho
  injection ho with ho
  subst ho
  set ub := lanczosBound axpyOwn G.base.lapack be'.H (min (cfg.nev + cfg.nex) (min (cfg.N / 2) cfg.lanczosIter)) be'.C with hub
  have hub0 : 0 ≤ ub := add_nonneg (le_max_of_le_left (abs_nonneg _)) (abs_nonneg _)
  set dg := min (cfg.deg + cfg.deg % 2) cfg.maxDeg with hdg
  have hdge : Even dg := by
    rw [hdg]
    rcases min_choice (cfg.deg + cfg.deg % 2) cfg.maxDeg with h | h
    · rw [h, Nat.even_iff]; omega
    · rw [h]; exact hmax
  have hdg2 : 2 ≤ dg := by rw [hdg]; exact le_min (by omega) hmax2
  set b0 : GSt K N := ⟨Seq.initVecs G.base { be'.toSt with locked := 0 }, be'.fresh⟩ with hb0
  have hf' : filter (refOps G aware) cfg.N (cfg.nev + cfg.nex - b0.locked) dg (fun _ => dg) (cfg.nev + cfg.nex) b0.locked μ μ ub b0
      = .ok (av, t) := by
    rw [← hf]
    have e1 : ¬ (cfg.nev + cfg.nex < cfg.nev + cfg.nex) := lt_irrefl _
    have e2 : ¬ (maxElem (fun _ : ℕ => μ) 0 (cfg.nev + cfg.nex) > ub) := by rw [hmaxe]; linarith
    unfold updateBounds
    simp only [e1, false_and, if_false, hmin]
    have e3 : ¬ (maxElem (fun _ : ℕ => μ) 0 (cfg.nev + cfg.nex) > ((refOps G aware).lanczos1
        (min (cfg.nev + cfg.nex) (min (cfg.N / 2) cfg.lanczosIter)) ((refOps G aware).initVecs false ((refOps G aware).start be'))).1) := e2
    rw [if_neg e3, hmaxe]
    rfl
  have ht : ∀ i : ℕ, (Polynomial.Chebyshev.T ℝ i).eval (normPoint μ μ ub) ≠ 0 :=
    C10_outside μ μ ub (by linarith) (Or.inl le_rfl)
  obtain ⟨-, h4, -⟩ := Mpi.gFilter_spec (G := G) (g := b0) (by rw [← hb1.1] at hH; exact hH) rfl hN
    ⟨hpos, fun _ _ _ _ _ => le_rfl, fun _ _ _ => ⟨hdge, hdg2, le_rfl⟩, hdge⟩ (fun i _ => ht i) hf'
  have hCt : ∀ j, j < cfg.nev + cfg.nex → t.C j = s.C j := by
    intro j hj
    rw [h4 j (Nat.zero_le _) hj]
    show (Polynomial.aeval be'.H _).mulVec (be'.C j) = _
    rw [hb1.1, hb1.2, aeval_mulVec_eigenvector s.H _ (hC j hj), filterPoly_eval, div_self (ht _)]
    simp
  have hli' : LinearIndependent K fun j : Fin G.base.nevex => t.C j := by
    rw [hE]
    have e : (fun j : Fin (cfg.nev + cfg.nex) => t.C j) = fun j : Fin (cfg.nev + cfg.nex) => s.C j :=
      funext fun j => hCt j j.2
    rw [e]
    exact hli
  rintro (h | ⟨_, h⟩ | ⟨_, _, h⟩ | ⟨_, _, h⟩)
  · exact hdis h
  · exact h (shiftedcholQR2c_info hL hε _ hli')
  · exact h (cholQR1c_info hL hli')
  · exact h (cholQR2c_info hL _ hli')

/-- `C98_mgpu_partial`: hypotheses met, in both variants, by a round with Cholesky QR, on a 3 x 2 grid in one basis
and on a 2 x 3 grid in the other. -/
example (aware : Bool) : ∃ (Q : Matrix (Fin 7) (Fin 7) K) (E E' : GpuEnv K) (g g' : GSt K 7)
    (s : GFam K (Mpi.cyclicLayout Mpi.exRow) (Mpi.cyclicLayout Mpi.exCol))
    (s' : GFam K (Mpi.cyclicLayout Mpi.exCol) (Mpi.cyclicLayout Mpi.exRow))
    (a : Outcome ℝ (GFam K (Mpi.cyclicLayout Mpi.exRow) (Mpi.cyclicLayout Mpi.exCol)))
    (b : Outcome ℝ (GFam K (Mpi.cyclicLayout Mpi.exCol) (Mpi.cyclicLayout Mpi.exRow))),
    Qᴴ * Q = 1 ∧ E.aware = aware ∧ Mpi.Rep (pview E s) g ∧ Mpi.Rep (pview E' s') g' ∧ g'.H = Q * g.H * Qᴴ ∧
    g'.H ≠ g.H ∧
    solve (realPlat 1 id) (opsAt E (2 : Fin 3) (1 : Fin 2)) (exCfg 1) (fun _ => -1) (fun _ => 0) s = .ok a ∧
    0 < a.iterations ∧
    solve (realPlat 1 id) (opsAt E' (1 : Fin 2) (2 : Fin 3)) (exCfg 1) (fun _ => -1) (fun _ => 0) s' = .ok b ∧
    a.ritzv = b.ritzv ∧ a.resid = b.resid := by
  obtain ⟨Q, H, X, hQ, hH, hne, heig, hli⟩ := Seq.exBasis (K := K)
  let E : GpuEnv K := ⟨{ Mpi.exMEnv K with base := exEnvChol K, scalapack := aware }, aware, aware⟩
  let E' : GpuEnv K := ⟨{ E.mpi with cRuns := E.mpi.bRuns, bRuns := E.mpi.cRuns }, aware, aware⟩
  have hS : E.Sound := by
    cases aware
    · exact Or.inl ⟨rfl, rfl⟩
    · exact Or.inr ⟨rfl, rfl, rfl⟩
  have hS' : E'.Sound := by
    cases aware
    · exact Or.inl ⟨rfl, rfl⟩
    · exact Or.inr ⟨rfl, rfl, rfl⟩
  let g : GSt K 7 := ⟨⟨H, X, X, X, X, .bAc, 0, false⟩, false⟩
  have hL : (exEnvChol K).lapack.Ok := Lapack.ideal_ok _ _ _
  have hrep : ∀ (r c : Layout 7) (E : GpuEnv K) (H : Matrix (Fin 7) (Fin 7) K) (X : ℕ → Fin 7 → K),
      Mpi.Rep (pview E (onHost K r c ⟨⟨H, X, X, X, X, .bAc, 0, false⟩, false⟩ X false))
        ⟨⟨H, X, X, X, X, .bAc, 0, false⟩, false⟩ := by
    intro r c E H X
    obtain ⟨m, aw, cd⟩ := E
    cases aw
    · exact Mpi.scatter_rep r c ⟨⟨H, X, X, X, X, .bAc, 0, false⟩, false⟩
    · exact ⟨fun _ _ _ _ => rfl, fun _ _ _ _ => rfl, fun _ _ _ _ => rfl, fun _ _ _ _ => rfl, fun _ _ _ _ => rfl,
          fun _ _ => rfl, fun _ _ => rfl, fun _ _ => rfl, fun _ _ => rfl⟩
  have hs := hrep (Mpi.cyclicLayout Mpi.exRow) (Mpi.cyclicLayout Mpi.exCol) E H X
  have hs' := hrep (Mpi.cyclicLayout Mpi.exCol) (Mpi.cyclicLayout Mpi.exRow) E' (rotM Q H) (rotV Q X)
  obtain ⟨a, ha, hpos⟩ := C51_approx_solve_defined (realPlat 1 id)
    (opsAt (r := Mpi.cyclicLayout Mpi.exRow) (c := Mpi.cyclicLayout Mpi.exCol) E (2 : Fin 3) (1 : Fin 2)) (exCfg 1) rfl
    (by decide) (by decide) (by decide) (by decide) (by decide) (by decide) (by decide)
    (fun h => absurd h (by decide)) (fun _ => -1) (fun _ => 0) (onHost K _ _ g X false)
  have hp := hpos (fun _ => Mpi.C09_mpi_hermitian_accepted (E := E.mpi) (Mpi.exRuns K).1 (Mpi.exRuns K).2
    (fun _ _ _ _ => rfl) hH (le_refl _)) (by decide)
  have hav := refAvoids_eigen (realPlat 1 id) (E.mpi.glob (Mpi.cyclicLayout Mpi.exRow)) aware hL (exCfg 1) rfl rfl rfl
    rfl rfl (by decide) (by decide) (by decide) (by decide)
    (by simp [Mpi.MEnv.glob, E, cholDisable, exEnvChol, exEnv]) le_rfl (by decide)
    (μ := -1) (by norm_num) (fun _ => 0) g hH heig hli
  obtain ⟨b, hb, h1, h2, -⟩ := C98_mgpu_partial (E := E) (E' := E') hQ hS hS' (Mpi.exRuns K).1 (Mpi.exRuns K).2
    (Mpi.exRuns K).2 (Mpi.exRuns K).1 rfl rfl rfl (realPlat 1 id) (exCfg 1) rfl rfl (by decide) rfl (fun _ => -1)
    (fun _ => 0) hs hs' (fun _ => ⟨hH, le_rfl, le_rfl⟩) rfl (fun _ => rfl) (fun _ _ => rfl) (2 : Fin 3) (1 : Fin 2)
    (1 : Fin 2) (2 : Fin 3)
    ((avoids_iff (E := E) hS (Mpi.exRuns K).1 (Mpi.exRuns K).2 _ _ rfl _ _ hs _ _).2 hav) ha
  exact ⟨Q, E, E', g, _, _, _, a, b, hQ, rfl, hs, hs', rfl, hne, ha, hp, hb, h1, h2⟩

end Mgpu
end Verif
