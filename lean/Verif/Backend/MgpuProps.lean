/-
C60, C61: whole solves on the multi-GPU backend.
-/
import Verif.Backend.MgpuProof
import Verif.Backend.HistoryProps
import Verif.Solver.ReachSimP

namespace Verif
namespace Mgpu

open Matrix
open Seq (NextOp)
open Mpi (Layout Proc MEnv Fam GSt GEnv)

variable {K : Type*} [RCLike K] {N : ℕ} {r c : Layout N}

/-! ### QR and residuals on global data -/

theorem refResd_like (G : GEnv K N) (aware : Bool) : Mpi.ResdLike G (refResd G aware) := by
  intro f k g
  refine ⟨rfl, ?_⟩
  unfold refResd
  cases aware
  · exact ⟨_, rfl⟩
  · refine ⟨(Seq.asynCxHGatherC g.locked (G.base.nevex - k) g.toSt).B, ?_⟩
    show ({ g with toSt := Seq.asynCxHGatherC g.locked (G.base.nevex - k) g.toSt } : GSt K N) =
      ({ g with toSt := { (Seq.resd f g.locked (G.base.nevex - k) g.toSt).2 with
          B := (Seq.asynCxHGatherC g.locked (G.base.nevex - k) g.toSt).B } } : GSt K N)
    rw [Mpi.seq_resd_eq]

theorem refQr_like {G : GEnv K N} (hL : G.base.lapack.Ok) (hn : G.base.nevex ≤ N) (aware : Bool) :
    Mpi.QrLike G (refQr G aware) := by
  intro k c g hnext
  show ∃ Y, _ ∧ qrSelect _ _ _ _ _ g = _
  unfold qrSelect
  have hhq : ∀ C, (refQrRoutines G aware g.locked).hhQR { g with C := C } =
      { g with C := hhQRc G.base.lapack G.base.nevex C } := by
    intro C
    show ({ g with C := _, next := if G.scalapack then g.next else .bAc } : GSt K N) = _
    rw [hnext]
    simp only [ite_self]
  by_cases hd : cholDisable G.base.doCholQR G.base.envDisable = 1
  · rw [if_pos hd]
    refine ⟨_, hhQRc_post hL hn g.C, ?_⟩
    show (refQrRoutines G aware g.locked).lockCopy true
      ((refQrRoutines G aware g.locked).hhQR { g with C := g.C }) = _
    rw [hhq]
    rfl
  · rw [if_neg hd]
    have main : ∀ (p : ℤ × (ℕ → Fin N → K)), QrPost G.base.nevex g.C p.1 p.2 →
        ∃ Y, QrPost G.base.nevex g.C 0 Y ∧
          (if (keep aware p g).1 ≠ 0 then (refQrRoutines G aware g.locked).lockCopy true
              ((refQrRoutines G aware g.locked).hhQR (keep aware p g).2)
            else (refQrRoutines G aware g.locked).lockCopy false (keep aware p g).2) =
            { g with toSt := Seq.lockVectorCopy G.base g.locked { g.toSt with C := Y } } := by
      intro p hp
      unfold keep
      dsimp only
      by_cases h0 : p.1 ≠ 0
      · rw [if_pos h0]
        cases aware
        · rw [if_neg (by simpa using h0)]
          refine ⟨_, hhQRc_post hL hn g.C, ?_⟩
          rw [show g = { g with C := g.C } from rfl, hhq]
          rfl
        · rw [if_pos (Or.inr rfl), hhq]
          exact ⟨_, hp.trans (hhQRc_post hL hn p.2), rfl⟩
      · rw [if_neg h0]
        push Not at h0
        rw [if_pos (Or.inl h0)]
        exact ⟨p.2, h0 ▸ hp, rfl⟩
    split_ifs
    · exact main _ (shiftedcholQR2c_post hL ⟨true, false⟩ (by simp) g.C)
    · exact main _ (cholQR1c_post hL g.C)
    · exact main _ (cholQR2c_post hL ⟨true, false⟩ g.C)

/-! ### C60: certified pairs -/

variable {E : GpuEnv K}

/-- What the two variants leave in host memory: the vectors of the representing global state. -/
theorem end_host {i0 : Fin r.procs} {j0 : Fin c.procs} {s : GFam K r c} {g : GSt K N}
    (h : EndRel (opsAt E i0 j0) (refOps (E.mpi.glob r) E.aware) (phases E) s g) (i : Fin r.procs)
    (j : Fin c.procs) (k : ℕ) (hk : k < E.mpi.base.nev) (a : Fin (r.size i)) :
    (s i j).host.C k a = g.C k (r.glob i a) := by
  obtain ⟨l, t, t', k1, k2, k3⟩ := h
  have e : ((t i j).work E.aware).C k a = t'.C k (r.glob i a) := k1.rep.C i j k a
  have k3' : g = t' := k3
  rw [k2, k3', ← e]
  show (finish E t i j).host.C k a = ((t i j).work E.aware).C k a
  unfold finish GProc.work
  cases E.aware
  · rfl
  · rw [if_pos rfl, if_pos rfl]
    show copyCols 0 E.mpi.base.nev (t i j).dC (t i j).host.C k a = (t i j).dC k a
    rw [copyCols_of_mem ⟨Nat.zero_le _, by omega⟩]

/-- **C60** (partial, multi-GPU backend).  The setups for which it holds are described by `E.Sound`: staged
copies without ScaLAPACK, or CUDA-aware communication with ScaLAPACK, if a copy between two device addresses
is done although it is declared as one to the host.

After a solve every process holds in host memory its block of the original matrix.  If there was a round,
the first `nev` columns in its host memory are its rows of vectors `X`, which are orthonormal, and the
returned pairs are certified, but with the columns in the order `σ`: value `i` belongs to column `σ i`, where
`σ` moves only the wanted pairs and is the identity after a single round.  Missing from the full claim: `σ`
is the rearrangement of the final sort, which `Swap` should have applied to the columns; the other setups,
for which it fails; and columns from `nev` on (not in host memory in the CUDA-aware variant). -/
theorem C60_mgpu_partial (hS : E.Sound) (hc : Mpi.RunsOk r c E.mpi.cRuns) (hb : Mpi.RunsOk c r E.mpi.bRuns)
    (P : Plat ℝ) (hP : SortsIndices P) (hkeep : SortKeepsSorted P) (hL : E.mpi.base.lapack.Ok)
    (ht : 0 ≤ E.mpi.symTol) (cfg : Config ℝ) (hnev : E.mpi.base.nev = cfg.nev)
    (hnex : E.mpi.base.nex = cfg.nex) (hN : cfg.N = N) (hle : cfg.nev + cfg.nex ≤ N)
    (hmax : Even cfg.maxDeg) (ritzv0 resid0 : ℕ → ℝ) {s : GFam K r c} {g : GSt K N}
    (h : Mpi.Rep (pview E s) g) (hH : g.H.IsHermitian) (i0 : Fin r.procs) (j0 : Fin c.procs)
    (out : Outcome ℝ (GFam K r c)) (ho : solve P (opsAt E i0 j0) cfg ritzv0 resid0 s = .ok out) :
    (∀ i j, (out.be i j).host.H = (s i j).host.H) ∧ (0 < out.iterations →
      ∃ X : ℕ → Fin N → K,
        (∀ i j k, k < cfg.nev → ∀ a, (out.be i j).host.C k a = X k (r.glob i a)) ∧
        (∀ k l, k < cfg.nev + cfg.nex → l < cfg.nev + cfg.nex →
          ∑ x, star (X k x) * X l x = if k = l then 1 else 0) ∧
        ∃ σ : Equiv.Perm ℕ, (∀ i, cfg.nev ≤ i → σ i = i) ∧ (out.iterations = 1 → σ = 1) ∧
          CertifiedPairs g.H cfg.nev (cfg.nev + cfg.nex) out.ritzv out.resid (X ∘ σ)) := by
  have hE : E.mpi.base.nevex = cfg.nev + cfg.nex := by unfold Env.nevex; rw [hnev, hnex]
  have h0 := solve_simP (sim hS hc hb i0 j0) P cfg hE (Or.inl fun _ => trivial) ritzv0 resid0 h
  have h1 := solve_simP_end (sim hS hc hb i0 j0) P cfg hE (Or.inl fun _ => trivial) ritzv0 resid0 h
  rw [ho] at h0 h1
  generalize hz : solve P (refOps (E.mpi.glob r) E.aware) cfg ritzv0 resid0 g = z at h0 h1
  cases h0 with
  | ok h0 =>
    rename_i z
    cases h1 with
    | ok h1 =>
      obtain ⟨g1, g2⟩ := Mpi.gSolveWith (G := E.mpi.glob r)
        (refQr_like hL (by show E.mpi.base.nevex ≤ N; rw [hE]; exact hle) E.aware) (refResd_like _ _)
        P hP hL ht cfg hnev hnex hN hle hmax ritzv0 resid0 g hH z hz
      refine ⟨fun i j => ?_, fun hit => ?_⟩
      · funext a b
        have e1 : (out.be i j).host.H a b = z.be.H (r.glob i a) (c.glob j b) := h0.be.H i j a b
        have e2 : (s i j).host.H a b = g.H (r.glob i a) (c.glob j b) := h.H i j a b
        rw [e1, g1, e2]
      · obtain ⟨be0, st, -, -, -, σ, h5, -, -, h8, h9, -, h10⟩ := g2 (h0.iterations ▸ hit)
        refine ⟨z.be.C, fun i j k hk a => ?_, h9, σ, fun i hi => h5 i (Or.inr hi),
          fun h1 => h8 (h0.iterations.symm.trans h1), ?_⟩
        · exact end_host (h1.2 hit) i j k (by omega) a
        · rw [h0.ritzv, h0.resid]
          exact h10 hkeep

/-- **C03** (multi-GPU backend, in the setups of `C60_mgpu_partial`) Once a pair is locked, no later round
changes its value, its residual or, on any process, its column: the one in host memory with staged copies,
the one in device memory with CUDA-aware communication. -/
theorem C03_mgpu (hS : E.Sound) (hc : Mpi.RunsOk r c E.mpi.cRuns) (hb : Mpi.RunsOk c r E.mpi.bRuns)
    (P : Plat ℝ) (hP : SortsIndices P) (hL : E.mpi.base.lapack.Ok) (cfg : Config ℝ)
    (hnev : E.mpi.base.nev = cfg.nev) (hnex : E.mpi.base.nex = cfg.nex) (hN : cfg.N = N)
    (hle : cfg.nev + cfg.nex ≤ N) (hmax : Even cfg.maxDeg) (ritzv0 resid0 : ℕ → ℝ) {s : GFam K r c}
    {g : GSt K N} (h : Mpi.Rep (pview E s) g) (hH : g.H.IsHermitian) (i0 : Fin r.procs)
    (j0 : Fin c.procs) (st st' : St ℝ (GFam K r c))
    (hr : Reach P (opsAt E i0 j0) cfg ritzv0 resid0 s st) (hs : Steps P (opsAt E i0 j0) cfg st st') :
    st.locked ≤ st'.locked ∧
    ∀ k, k < st.locked → st'.ritzv k = st.ritzv k ∧ st'.resid k = st.resid k ∧
      ∀ i j, if E.aware then (st'.be i j).dC k = (st.be i j).dC k
        else (st'.be i j).host.C k = (st.be i j).host.C k := by
  subst hN
  have hE : E.mpi.base.nevex = cfg.nev + cfg.nex := by unfold Env.nevex; rw [hnev, hnex]
  have hE' : (E.mpi.glob r).base.nevex = cfg.nev + cfg.nex := hE
  have hq := refQr_like (G := E.mpi.glob r) hL (by rw [hE']; exact hle) E.aware
  have hd := refResd_like (E.mpi.glob r) E.aware
  have hf := Mpi.gFrameWith (G := E.mpi.glob r) hq hd hL (by rw [hE']; exact hle) hH
  have hp := Mpi.gMakesPairsWith (G := E.mpi.glob r) (q := refQr (E.mpi.glob r) E.aware)
    (d := refResd (E.mpi.glob r) E.aware) hL hH
  have hrs := Mpi.gMakesResidualsWith (G := E.mpi.glob r) (q := refQr (E.mpi.glob r) E.aware) hd hL hH
  have ha := Mpi.gMakesAscendingWith (G := E.mpi.glob r) (q := refQr (E.mpi.glob r) E.aware)
    (d := refResd (E.mpi.glob r) E.aware) hL hH
  rw [hE'] at hf hp hrs ha
  have hsim := sim (K := K) (E := E) hS hc hb i0 j0
  obtain ⟨st1, k1, k2⟩ := reach_simP hsim P cfg hE (Or.inl fun _ => trivial) h hr
  obtain ⟨st2, k3, k4⟩ := steps_simP hsim P cfg hE (Or.inl fun _ => trivial) k2 hs
  obtain ⟨m1, m2⟩ := C03_locked_pairs_frozen_noSwap P (refOps (E.mpi.glob r) E.aware) GSt.cols GSt.nl
    (Mpi.gPhases (E.mpi.glob r) g.H) (IsRayleigh g.H) (IsResidual g.H) cfg hP hf (fun _ _ _ => rfl) hmax ha
    hp hrs ritzv0 resid0 g rfl st1 st2 k1 k3
  rw [k2.1.locked, k4.1.locked]
  refine ⟨m1, fun k hk => ?_⟩
  obtain ⟨n1, n2, n3⟩ := m2 k hk
  rw [k4.1.ritzv, k2.1.ritzv, k4.1.resid, k2.1.resid]
  refine ⟨n1, n2, fun i j => ?_⟩
  have key : ∀ a, ((st'.be i j).work E.aware).C k a = ((st.be i j).work E.aware).C k a := by
    intro a
    have e1 : ((st'.be i j).work E.aware).C k a = st2.be.C k (r.glob i a) := k4.1.be.rep.C i j k a
    have e2 : ((st.be i j).work E.aware).C k a = st1.be.C k (r.glob i a) := k2.1.be.rep.C i j k a
    rw [e1, e2]
    exact congrFun n3 _
  split_ifs with haw
  · funext a
    have := key a
    rw [haw] at this
    exact this
  · funext a
    have := key a
    rw [Bool.not_eq_true _ |>.mp haw] at this
    exact this

/-- **C49** (multi-GPU backend) Every process makes the same calls and gets the same values, residuals,
numbers of rounds and of locked pairs. -/
theorem C49_mgpu_same_run (hS : E.Sound) (hc : Mpi.RunsOk r c E.mpi.cRuns)
    (hb : Mpi.RunsOk c r E.mpi.bRuns) (P : Plat ℝ) (cfg : Config ℝ) (hnev : E.mpi.base.nev = cfg.nev)
    (hnex : E.mpi.base.nex = cfg.nex) (ritzv0 resid0 : ℕ → ℝ) {s : GFam K r c} {g : GSt K N}
    (h : Mpi.Rep (pview E s) g) (i0 i1 : Fin r.procs) (j0 j1 : Fin c.procs) :
    RelE (fun a b => a.ritzv = b.ritzv ∧ a.resid = b.resid ∧ a.iterations = b.iterations ∧
        a.locked = b.locked ∧ a.be.2 = b.be.2)
      (solve P (traced (opsAt E i0 j0)) cfg ritzv0 resid0 (s, []))
      (solve P (traced (opsAt E i1 j1)) cfg ritzv0 resid0 (s, [])) := by
  have hE : E.mpi.base.nevex = cfg.nev + cfg.nex := by unfold Env.nevex; rw [hnev, hnex]
  have h0 := solve_simP (sim hS hc hb i0 j0).traced P cfg hE (Or.inl fun _ => trivial) ritzv0 resid0
    (be := (s, [])) (be' := (g, [])) ⟨h, rfl⟩
  have h1 := solve_simP (sim hS hc hb i1 j1).traced P cfg hE (Or.inl fun _ => trivial) ritzv0 resid0
    (be := (s, [])) (be' := (g, [])) ⟨h, rfl⟩
  generalize solve P (traced (opsAt E i0 j0)) cfg ritzv0 resid0 (s, []) = x at h0 ⊢
  generalize solve P (traced (opsAt E i1 j1)) cfg ritzv0 resid0 (s, []) = y at h1 ⊢
  generalize solve P (traced (refOps (E.mpi.glob r) E.aware)) cfg ritzv0 resid0 (g, []) = z at h0 h1
  cases h0 with
  | error e => cases h1; exact RelE.error _
  | ok h0 =>
    cases h1 with
    | ok h1 =>
      exact RelE.ok ⟨h0.ritzv.trans h1.ritzv.symm, h0.resid.trans h1.resid.symm,
        h0.iterations.trans h1.iterations.symm, h0.locked.trans h1.locked.symm, h0.be.2.trans h1.be.2.symm⟩

/-! ### C61: the same results as on the CPU -/

/-- Two Cholesky rounds: the second factorisation does not fail if the first did not. -/
theorem cholQR2c_variant {G : GEnv K N} (hL : G.base.lapack.Ok) (v v' : CholVariant) (X : ℕ → Fin N → K) :
    cholQR2c G.base.lapack G.base.nevex v X = cholQR2c G.base.lapack G.base.nevex v' X := by
  rw [cholQR2c_eq, cholQR2c_eq]
  by_cases h : (G.base.lapack.potrf (gram G.base.nevex X)).1 ≠ 0
  · rw [if_pos h, if_pos h]
  · rw [if_neg h, if_neg h]
    push Not at h
    have h2 := (potrf_trsm_ortho hL h).potrf_ok hL
    have h3 : (G.base.lapack.potrf (gram G.base.nevex (round1 G.base.lapack G.base.nevex X))).1 = 0 := h2
    simp only [h3, h, ite_self]

/-- A QR call in which the shifted Cholesky QR may give up after its first round: Cholesky QR is not
disabled, the condition estimate selects the shifted variant and the columns are linearly dependent. -/
def badQr (G : GEnv K N) (_ : ℕ) (c : ℝ) (g : GSt K N) : Prop :=
  cholDisable G.base.doCholQR G.base.envDisable ≠ 1 ∧ c > G.base.condUpper ∧
    ¬ LinearIndependent K (fun j : Fin G.base.nevex => g.C j)

theorem keep_true (p : ℤ × (ℕ → Fin N → K)) (g : GSt K N) : keep true p g = (p.1, { g with C := p.2 }) := by
  unfold keep
  rw [if_pos (Or.inr rfl)]

theorem keep_false (p : ℤ × (ℕ → Fin N → K)) (g : GSt K N) (h : p.1 ≠ 0 → p.2 = g.C) :
    keep false p g = (p.1, { g with C := p.2 }) := by
  unfold keep
  by_cases h0 : p.1 = 0
  · rw [if_pos (Or.inl h0)]
  · rw [if_neg (by simpa using h0), h h0]

/-- The QR of the CUDA-aware variant is that of the distributed CPU backend. -/
theorem refQr_aware {G : GEnv K N} (hL : G.base.lapack.Ok) : refQr G true = (Mpi.gOps G).qr := by
  have e : ∀ l, refQrRoutines G true l = Mpi.gQrRoutines G l := by
    intro l
    unfold refQrRoutines Mpi.gQrRoutines
    simp only [keep_true, cholQR2c_variant hL ⟨true, false⟩ ⟨true, true⟩]
  funext k c g
  unfold refQr
  rw [e]
  rfl

/-- The QR of the staged variant is that of the distributed CPU backend, except when the shifted
Cholesky QR meets dependent columns. -/
theorem refQr_staged {G : GEnv K N} (hL : G.base.lapack.Ok) (hε : 0 ≤ G.base.lapack.eps) (k : ℕ) (c : ℝ)
    (g : GSt K N) (hg : ¬ badQr G k c g) : refQr G false k c g = (Mpi.gOps G).qr k c g := by
  show qrSelect _ _ _ _ _ g = qrSelect _ _ _ _ _ g
  unfold qrSelect
  by_cases hd : cholDisable G.base.doCholQR G.base.envDisable = 1
  · rw [if_pos hd, if_pos hd]
    rfl
  rw [if_neg hd, if_neg hd]
  have h1 : (refQrRoutines G false g.locked).cholQR1 g = (Mpi.gQrRoutines G g.locked).cholQR1 g := by
    refine keep_false _ g fun h => ?_
    rw [cholQR1c_eq] at h ⊢
    split_ifs at h ⊢ with h'
    · rfl
    · exact absurd h h'
  have h2 : (refQrRoutines G false g.locked).cholQR2 g = (Mpi.gQrRoutines G g.locked).cholQR2 g := by
    show keep false _ g = _
    rw [keep_false]
    · rw [cholQR2c_variant hL ⟨true, false⟩ ⟨true, true⟩]
      rfl
    · intro h
      rw [cholQR2c_eq] at h ⊢
      by_cases h' : (G.base.lapack.potrf (gram G.base.nevex g.C)).1 ≠ 0
      · rw [if_pos h']
      · rw [if_neg h'] at h
        exact absurd h h'
  by_cases hab : c > G.base.condUpper
  · have hab' : (open Classical in decide (c > G.base.condUpper)) = true := by simpa using hab
    rw [hab', if_pos rfl, if_pos rfl]
    have h3 : (refQrRoutines G false g.locked).shiftedcholQR2 g =
        (Mpi.gQrRoutines G g.locked).shiftedcholQR2 g := by
      refine keep_false _ g fun h => ?_
      have hi : LinearIndependent K (fun j : Fin G.base.nevex => g.C j) := by
        by_contra hi
        exact hg ⟨hd, hab, hi⟩
      exact absurd (shiftedcholQR2c_info hL hε ⟨true, false⟩ hi) h
    rw [h3]
    rfl
  · have hab' : (open Classical in decide (c > G.base.condUpper)) = false := by simpa using hab
    rw [hab', if_neg Bool.false_ne_true, if_neg Bool.false_ne_true, h1, h2]
    rfl

/-- The results of two runs agree: values, residuals, numbers of rounds and of locked pairs. -/
def SameResult {S S' : Type*} (a : Outcome ℝ S) (b : Outcome ℝ S') : Prop :=
  a.ritzv = b.ritzv ∧ a.resid = b.resid ∧ a.iterations = b.iterations ∧ a.locked = b.locked

/-- **C61** (partial, staged copies) The multi-GPU backend returns what the CPU backend returns from the
same matrix and vectors, and leaves the same vectors in host memory, unless the shifted Cholesky QR meets
linearly dependent columns (`badQr`).  Missing: a run in which it does; there the staged variant goes back
to the columns before the first round and the CPU backend goes on with those after it. -/
theorem C61_staged_partial (ha : E.aware = false) (hsca : E.mpi.scalapack = false)
    (hc : Mpi.RunsOk r c E.mpi.cRuns) (hb : Mpi.RunsOk c r E.mpi.bRuns) (P : Plat ℝ)
    (hL : E.mpi.base.lapack.Ok) (hε : 0 ≤ E.mpi.base.lapack.eps) (cfg : Config ℝ)
    (hnev : E.mpi.base.nev = cfg.nev) (hnex : E.mpi.base.nex = cfg.nex) (ritzv0 resid0 : ℕ → ℝ)
    {s : GFam K r c} {g : GSt K N} (h : Mpi.Rep (fun i j => (s i j).host) g)
    (hq : QrAvoids P (Mpi.gOps (E.mpi.glob r)) cfg ritzv0 resid0 g (badQr (E.mpi.glob r)))
    (i0 : Fin r.procs) (j0 : Fin c.procs) (cpu : Outcome ℝ (Fam K r c))
    (ho : solve P (Mpi.opsAt E.mpi i0 j0) cfg ritzv0 resid0 (fun i j => (s i j).host) = .ok cpu) :
    ∃ gpu, solve P (opsAt E i0 j0) cfg ritzv0 resid0 s = .ok gpu ∧ SameResult gpu cpu ∧
      ∀ i j, (gpu.be i j).host.C = (cpu.be i j).C ∧ (gpu.be i j).host.H = (cpu.be i j).H := by
  have hE : E.mpi.base.nevex = cfg.nev + cfg.nex := by unfold Env.nevex; rw [hnev, hnex]
  have hp : ∀ t : GFam K r c, pview E t = fun i j => (t i j).host := by
    intro t
    funext i j
    unfold pview GProc.work
    rw [ha]
    rfl
  have h0 := solve_sim (Mpi.sim hc hb i0 j0) P cfg ritzv0 resid0 h
  rw [ho] at h0
  generalize hz : solve P (Mpi.gOps (E.mpi.glob r)) cfg ritzv0 resid0 g = z at h0
  have h1 := solve_simP (sim (Or.inl ⟨ha, hsca⟩) hc hb i0 j0) P cfg hE (Or.inl fun _ => trivial)
    ritzv0 resid0 (be := s) (be' := g) (by show Mpi.Rep (pview E s) g; rw [hp]; exact h)
  cases h0 with
  | ok h0 =>
    rename_i z
    have e : refOps (E.mpi.glob r) E.aware =
        (Mpi.gOps (E.mpi.glob r)).withQr (refQr (E.mpi.glob r) false) := by
      rw [ha]
      rfl
    rw [e, solve_withQr hz hq fun k c' g' hg => refQr_staged hL hε k c' g' hg] at h1
    generalize hx : solve P (opsAt E i0 j0) cfg ritzv0 resid0 s = x at h1
    cases h1 with
    | ok h1 =>
      rename_i x
      have hr : Mpi.Rep (fun i j => (x.be i j).host) z.be := by
        have : Mpi.Rep (pview E x.be) z.be := h1.be
        rw [hp] at this
        exact this
      refine ⟨x, rfl, ⟨h1.ritzv.trans h0.ritzv.symm, h1.resid.trans h0.resid.symm,
        h1.iterations.trans h0.iterations.symm, h1.locked.trans h0.locked.symm⟩, fun i j => ⟨?_, ?_⟩⟩
      · funext k a
        rw [hr.C, h0.be.C]
      · funext a b
        rw [hr.H, h0.be.H]

/-- The QR on global data does not depend on what the scratch buffers hold. -/
theorem refQr_same (G : GEnv K N) (aware : Bool) : Mpi.QrSame (refQr G aware) (refQr G aware) := by
  intro l k cond g g' h
  have hl : g.locked = l := h.2.2.2
  have hl' : g'.locked = l := h.1.locked.symm.trans hl
  have hk : ∀ (f : (ℕ → Fin N → K) → ℤ × (ℕ → Fin N → K)) (s s' : GSt K N), Seq.Same l s.toSt s'.toSt →
      (keep aware (f s.C) s).1 = (keep aware (f s'.C) s').1 ∧
      Seq.Same l (keep aware (f s.C) s).2.toSt (keep aware (f s'.C) s').2.toSt := by
    intro f s s' h
    unfold keep
    have e : s.C = s'.C := h.1.C
    refine ⟨by rw [e], ?_⟩
    dsimp only
    rw [← e]
    split_ifs
    · exact ⟨⟨h.1.H, rfl, h.1.C2, h.1.locked⟩, h.2⟩
    · exact h
  show Seq.Same l (qrSelect (refQrRoutines G aware g.locked) _ _ _ _ g).toSt
    (qrSelect (refQrRoutines G aware g'.locked) _ _ _ _ g').toSt
  rw [hl, hl']
  refine qrSelect_rel (q := fun g g' : GSt K N => Seq.Same l g.toSt g'.toSt) ?_ (hk _) (hk _) (hk _) ?_
    _ _ _ _ h
  · exact fun s s' h => Mpi.hhQR_same (l' := l) (l'' := l) h
  · exact fun _ s s' h => h.lockCopy G.base

/-- **C61** (partial, CUDA-aware communication) The multi-GPU backend returns what the CPU backend returns
from the same matrix, and in approximation mode from the vectors on the device, and leaves the same wanted
vectors in host memory; whatever both objects hold otherwise.  Missing: in approximation mode the start
vectors should be those of the user, see `C54_mgpu_aware_refuted`; Householder QR without ScaLAPACK, see
`C61_aware_hhQR_refuted`; and the copy direction assumed in `copyDone`. -/
theorem C61_aware_partial (ha : E.aware = true) (hsca : E.mpi.scalapack = true) (hd : E.copyDone = true)
    (hc : Mpi.RunsOk r c E.mpi.cRuns) (hb : Mpi.RunsOk c r E.mpi.bRuns) (P : Plat ℝ)
    (hL : E.mpi.base.lapack.Ok) (cfg : Config ℝ) (hnev : E.mpi.base.nev = cfg.nev)
    (hnex : E.mpi.base.nex = cfg.nex) (hmax : Even cfg.maxDeg) (ritzv0 resid0 : ℕ → ℝ)
    {s : GFam K r c} {s' : Fam K r c} {g g' : GSt K N} (h : Mpi.Rep (pview E s) g) (h' : Mpi.Rep s' g')
    (hH : ∀ i j, (s i j).host.H = (s' i j).H)
    (hV : cfg.approx = true → ∀ i j k, k < cfg.nev + cfg.nex → (s i j).dC k = (s' i j).C k)
    (hout : ∀ i j k, cfg.nev + cfg.nex ≤ k → (s i j).dC k = (s' i j).C k ∧ (s i j).dC2 k = (s' i j).C2 k)
    (i0 : Fin r.procs) (j0 : Fin c.procs) :
    RelE (fun gpu cpu => SameResult gpu cpu ∧ (∀ i j, (gpu.be i j).host.H = (cpu.be i j).H) ∧
        (0 < gpu.iterations → ∀ i j k, k < cfg.nev → (gpu.be i j).host.C k = (cpu.be i j).C k))
      (solve P (opsAt E i0 j0) cfg ritzv0 resid0 s)
      (solve P (Mpi.opsAt E.mpi i0 j0) cfg ritzv0 resid0 s') := by
  have hE : E.mpi.base.nevex = cfg.nev + cfg.nex := by unfold Env.nevex; rw [hnev, hnex]
  have hw : ∀ i j, (s i j).work E.aware = (s i j).dev := fun i j => by rw [ha]; rfl
  have hsim := sim (E := E) (Or.inr ⟨ha, hsca, hd⟩) hc hb i0 j0
  have h0 := solve_simP hsim P cfg hE (Or.inl fun _ => trivial) ritzv0 resid0 h
  have h0' := solve_simP_end hsim P cfg hE (Or.inl fun _ => trivial) ritzv0 resid0 h
  have h1 := solve_sim (Mpi.sim hc hb i0 j0) P cfg ritzv0 resid0 h'
  have hcol : ∀ k, (∀ i j, (s i j).dC k = (s' i j).C k) → g.C k = g'.C k := by
    intro k hk
    funext x
    obtain ⟨i, a, rfl⟩ := r.exists_glob x
    have e : ((s i j0).work E.aware).C k a = g.C k (r.glob i a) := h.C i j0 k a
    rw [← e, ← h'.C i j0 k a, ← hk, hw]
    rfl
  have hcol2 : ∀ k, (∀ i j, (s i j).dC2 k = (s' i j).C2 k) → g.C2 k = g'.C2 k := by
    intro k hk
    funext x
    obtain ⟨i, a, rfl⟩ := r.exists_glob x
    have e : ((s i j0).work E.aware).C2 k a = g.C2 k (r.glob i a) := h.C2 i j0 k a
    rw [← e, ← h'.C2 i j0 k a, ← hk, hw]
    rfl
  have hgH : g.H = g'.H := by
    funext x y
    obtain ⟨i, a, rfl⟩ := r.exists_glob x
    obtain ⟨j, b, rfl⟩ := c.exists_glob y
    have e : (s i j).host.H a b = g.H (r.glob i a) (c.glob j b) := h.H i j a b
    rw [← e, ← h'.H, hH]
  have h2 := Mpi.gHistory (G := E.mpi.glob r) (q := (Mpi.gOps (E.mpi.glob r)).qr)
    (q' := (Mpi.gOps (E.mpi.glob r)).qr) (Mpi.gQr_same (G := E.mpi.glob r))
    (refResd_like (E.mpi.glob r) E.aware) Mpi.gResd_like P cfg hnev hnex hmax ritzv0 resid0 g g' hgH
    (fun ha k hk => hcol k fun i j => hV ha i j k hk)
    (fun k hk => ⟨hcol k fun i j => (hout i j k hk).1, hcol2 k fun i j => (hout i j k hk).2⟩)
  have e1 : Mpi.gOpsWith (E.mpi.glob r) (Mpi.gOps (E.mpi.glob r)).qr (refResd (E.mpi.glob r) E.aware) =
      refOps (E.mpi.glob r) E.aware := by
    unfold refOps
    rw [ha, refQr_aware (G := E.mpi.glob r) hL]
  have e2 : Mpi.gOpsWith (E.mpi.glob r) (Mpi.gOps (E.mpi.glob r)).qr (Mpi.gOps (E.mpi.glob r)).resd =
      Mpi.gOps (E.mpi.glob r) := rfl
  rw [e1, e2] at h2
  generalize solve P (opsAt E i0 j0) cfg ritzv0 resid0 s = x at h0 h0' ⊢
  generalize solve P (Mpi.opsAt E.mpi i0 j0) cfg ritzv0 resid0 s' = y at h1 ⊢
  generalize solve P (refOps (E.mpi.glob r) E.aware) cfg ritzv0 resid0 g = z at h0 h0' h2
  generalize solve P (Mpi.gOps (E.mpi.glob r)) cfg ritzv0 resid0 g' = w at h1 h2
  cases h0 with
  | error e => cases h2; cases h1; exact RelE.error _
  | ok h0 =>
    cases h0' with
    | ok h0' =>
      cases h2 with
      | ok h2 =>
        cases h1 with
        | ok h1 =>
          obtain ⟨k1, k2, k3, k4, k5, k6⟩ := h2
          refine RelE.ok ⟨⟨h0.ritzv.trans (k1.trans h1.ritzv.symm), h0.resid.trans (k2.trans h1.resid.symm),
            h0.iterations.trans (k3.trans h1.iterations.symm), h0.locked.trans (k4.trans h1.locked.symm)⟩,
            fun i j => ?_, fun hp i j k hk => ?_⟩
          · funext a b
            refine (h0.be.H i j a b).trans ?_
            rw [h1.be.H, k5]
          · funext a
            rw [end_host (h0'.2 hp) i j k (by omega) a, h1.be.C, k6 (h0.iterations ▸ hp)]

/-- **C62** (partial, multi-GPU backend, setups of `E.Sound`) Two solves with the same configuration and the same matrix, and in
approximation mode the same vectors in the buffers in use, return the same values and residuals after the
same number of rounds, with the same wanted vectors in host memory on every process, whatever else the
objects hold in host and device memory.  Missing: the other setups; and in the CUDA-aware variant the buffers
in use are those on the device, so that in approximation mode the vectors an earlier solve left there do
matter, where those of the user should. -/
theorem C62_mgpu_partial (hS : E.Sound) (hc : Mpi.RunsOk r c E.mpi.cRuns) (hb : Mpi.RunsOk c r E.mpi.bRuns)
    (P : Plat ℝ) (cfg : Config ℝ) (hnev : E.mpi.base.nev = cfg.nev) (hnex : E.mpi.base.nex = cfg.nex)
    (hmax : Even cfg.maxDeg) (ritzv0 resid0 : ℕ → ℝ) {s s' : GFam K r c} {g g' : GSt K N}
    (h : Mpi.Rep (pview E s) g) (h' : Mpi.Rep (pview E s') g')
    (hH : ∀ i j, (s i j).host.H = (s' i j).host.H)
    (hV : cfg.approx = true → ∀ i j k, k < cfg.nev + cfg.nex → (pview E s i j).C k = (pview E s' i j).C k)
    (hout : ∀ i j k, cfg.nev + cfg.nex ≤ k → (pview E s i j).C k = (pview E s' i j).C k ∧
      (pview E s i j).C2 k = (pview E s' i j).C2 k)
    (i0 : Fin r.procs) (j0 : Fin c.procs) :
    RelE (fun a b => SameResult a b ∧ (∀ i j, (a.be i j).host.H = (b.be i j).host.H) ∧
        (0 < a.iterations → ∀ i j k, k < cfg.nev → (a.be i j).host.C k = (b.be i j).host.C k))
      (solve P (opsAt E i0 j0) cfg ritzv0 resid0 s) (solve P (opsAt E i0 j0) cfg ritzv0 resid0 s') := by
  have hE : E.mpi.base.nevex = cfg.nev + cfg.nex := by unfold Env.nevex; rw [hnev, hnex]
  have hsim := sim (E := E) hS hc hb i0 j0
  have h0 := solve_simP hsim P cfg hE (Or.inl fun _ => trivial) ritzv0 resid0 h
  have h0' := solve_simP_end hsim P cfg hE (Or.inl fun _ => trivial) ritzv0 resid0 h
  have h1 := solve_simP hsim P cfg hE (Or.inl fun _ => trivial) ritzv0 resid0 h'
  have h1' := solve_simP_end hsim P cfg hE (Or.inl fun _ => trivial) ritzv0 resid0 h'
  have hcol : ∀ k, (∀ i j, (pview E s i j).C k = (pview E s' i j).C k) → g.C k = g'.C k := by
    intro k hk
    funext x
    obtain ⟨i, a, rfl⟩ := r.exists_glob x
    rw [← h.C i j0 k a, ← h'.C i j0 k a, hk]
  have hcol2 : ∀ k, (∀ i j, (pview E s i j).C2 k = (pview E s' i j).C2 k) → g.C2 k = g'.C2 k := by
    intro k hk
    funext x
    obtain ⟨i, a, rfl⟩ := r.exists_glob x
    rw [← h.C2 i j0 k a, ← h'.C2 i j0 k a, hk]
  have hgH : g.H = g'.H := by
    funext x y
    obtain ⟨i, a, rfl⟩ := r.exists_glob x
    obtain ⟨j, b, rfl⟩ := c.exists_glob y
    have e : (s i j).host.H a b = g.H (r.glob i a) (c.glob j b) := h.H i j a b
    have e' : (s' i j).host.H a b = g'.H (r.glob i a) (c.glob j b) := h'.H i j a b
    rw [← e, ← e', hH]
  have h2 := Mpi.gHistory (G := E.mpi.glob r) (refQr_same (E.mpi.glob r) E.aware)
    (refResd_like (E.mpi.glob r) E.aware) (refResd_like (E.mpi.glob r) E.aware) P cfg hnev hnex hmax
    ritzv0 resid0 g g' hgH (fun ha k hk => hcol k fun i j => hV ha i j k hk)
    (fun k hk => ⟨hcol k fun i j => (hout i j k hk).1, hcol2 k fun i j => (hout i j k hk).2⟩)
  have e1 : Mpi.gOpsWith (E.mpi.glob r) (refQr (E.mpi.glob r) E.aware) (refResd (E.mpi.glob r) E.aware) =
      refOps (E.mpi.glob r) E.aware := rfl
  rw [e1] at h2
  generalize solve P (opsAt E i0 j0) cfg ritzv0 resid0 s = x at h0 h0' ⊢
  generalize solve P (opsAt E i0 j0) cfg ritzv0 resid0 s' = y at h1 h1' ⊢
  generalize solve P (refOps (E.mpi.glob r) E.aware) cfg ritzv0 resid0 g = z at h0 h0' h2
  generalize solve P (refOps (E.mpi.glob r) E.aware) cfg ritzv0 resid0 g' = w at h1 h1' h2
  cases h0 with
  | error e => cases h2; cases h1; exact RelE.error _
  | ok h0 =>
    cases h0' with
    | ok h0' =>
      cases h2 with
      | ok h2 =>
        cases h1 with
        | ok h1 =>
          cases h1' with
          | ok h1' =>
            obtain ⟨k1, k2, k3, k4, k5, k6⟩ := h2
            have hit := h0.iterations.trans (k3.trans h1.iterations.symm)
            refine RelE.ok ⟨⟨h0.ritzv.trans (k1.trans h1.ritzv.symm),
              h0.resid.trans (k2.trans h1.resid.symm), hit, h0.locked.trans (k4.trans h1.locked.symm)⟩,
              fun i j => ?_, fun hp i j k hk => ?_⟩
            · funext a b
              refine (h0.be.H i j a b).trans ?_
              rw [k5]
              exact (h1.be.H i j a b).symm
            · funext a
              rw [end_host (h0'.2 hp) i j k (by omega) a, end_host (h1'.2 (hit ▸ hp)) i j k (by omega) a,
                k6 (h0.iterations ▸ hp)]

/-- **C54** (multi-GPU backend with staging through the host) In approximation mode the block the solver
starts from is the content `V` of the user's arrays in host memory. -/
theorem C54_start_vectors_mgpu_staged (ha : E.aware = false) (s : GFam K r c) (V : ℕ → Fin N → K)
    (hV : ∀ i j k a, (s i j).host.C k a = V k (r.glob i a)) (i0 : Fin r.procs) (j0 : Fin c.procs) :
    ∀ i j k a, (((opsAt E i0 j0).initVecs false ((opsAt E i0 j0).start s) i j).work E.aware).C k a =
      V k (r.glob i a) := by
  intro i j k a
  rw [← hV i j k a]
  simp [opsAt, initVecs, lift, GProc.work, GProc.put, ha, Mpi.initVecs]

/-! ### Where the claims fail -/

/-- **C54 is false for the CUDA-aware multi-GPU backend**: in approximation mode the vectors of the user
in host memory are not used.  Whatever they are, the results are the same. -/
theorem C54_mgpu_aware_refuted (ha : E.aware = true) (hsca : E.mpi.scalapack = true)
    (hd : E.copyDone = true) (hc : Mpi.RunsOk r c E.mpi.cRuns) (hb : Mpi.RunsOk c r E.mpi.bRuns)
    (P : Plat ℝ) (cfg : Config ℝ) (hnev : E.mpi.base.nev = cfg.nev) (hnex : E.mpi.base.nex = cfg.nex)
    (hmax : Even cfg.maxDeg) (ritzv0 resid0 : ℕ → ℝ) {s : GFam K r c} {g : GSt K N}
    (h : Mpi.Rep (pview E s) g) (V : (i : Fin r.procs) → (j : Fin c.procs) → ℕ → Fin (r.size i) → K)
    (i0 : Fin r.procs) (j0 : Fin c.procs) :
    RelE (fun a b => SameResult a b ∧ (0 < a.iterations → ∀ i j k, k < cfg.nev →
        (a.be i j).host.C k = (b.be i j).host.C k))
      (solve P (opsAt E i0 j0) cfg ritzv0 resid0 s)
      (solve P (opsAt E i0 j0) cfg ritzv0 resid0 fun i j =>
        { s i j with host := { (s i j).host with C := V i j } }) := by
  have e : pview E (fun i j => { s i j with host := { (s i j).host with C := V i j } }) = pview E s := by
    funext i j
    unfold pview GProc.work
    rw [ha]
    rfl
  have h1 := C62_mgpu_partial (E := E) (Or.inr ⟨ha, hsca, hd⟩) hc hb P cfg hnev hnex hmax ritzv0 resid0 h
    (s' := fun i j => { s i j with host := { (s i j).host with C := V i j } }) (g' := g)
    (by rw [e]; exact h) (fun _ _ => rfl) (fun _ i j k _ => by rw [e]) (fun i j k _ => by rw [e]; exact ⟨rfl, rfl⟩)
    i0 j0
  generalize solve P (opsAt E i0 j0) cfg ritzv0 resid0 s = x at h1 ⊢
  generalize solve P (opsAt E i0 j0) cfg ritzv0 resid0 _ = y at h1 ⊢
  cases h1 with
  | error e => exact RelE.error e
  | ok h1 => exact RelE.ok ⟨h1.1, h1.2.2⟩

/-- **C61 is false for the CUDA-aware multi-GPU backend without ScaLAPACK**: Householder QR
orthonormalises a copy of the vectors in host memory and leaves the vectors that the solver goes on with as
they are; only the locked ones are restored. -/
theorem C61_aware_hhQR_refuted (ha : E.aware = true) (hsca : E.mpi.scalapack = false)
    (hq : cholDisable E.mpi.base.doCholQR E.mpi.base.envDisable = 1) (i0 : Fin r.procs) (j0 : Fin c.procs)
    (m : ℕ) (cond : ℝ) (s : GFam K r c) (i : Fin r.procs) (j : Fin c.procs) (k : ℕ)
    (hk : (s i j).host.locked ≤ k) :
    (((opsAt E i0 j0).qr m cond s i j).work E.aware).C k = ((s i j).work E.aware).C k := by
  show ((qrSelect _ _ _ _ _ s i j).work E.aware).C k = _
  unfold qrSelect
  rw [if_pos hq]
  show ((lockVectorCopy E _ true (hhQR E s) i j).work E.aware).C k = _
  obtain ⟨mpi, aware, cd⟩ := E
  dsimp only at ha hsca
  subst ha
  show copyCols 0 (s i j).host.locked ((hhQR _ s i j).dC2) ((hhQR _ s i j).dC) k = (s i j).dC k
  rw [copyCols_of_not_mem (by omega)]
  unfold hhQR
  rw [if_neg (by simpa using hsca)]
  rfl

/-- **C61 depends on an undocumented behaviour**: if `cudaMemcpy` copies nothing when the direction does
not fit the addresses, the CUDA-aware variant does not store the vectors of a Cholesky QR where
Rayleigh-Ritz reads them: `C2` is as before the call, whatever the vectors are. -/
theorem C61_aware_copy_refuted (ha : E.aware = true) (hcd : E.copyDone = false)
    (lk : Fin r.procs → Fin c.procs → ℕ) (s : GFam K r c) (i : Fin r.procs) (j : Fin c.procs) :
    ((lockVectorCopy E lk false s i j).work E.aware).C2 = ((s i j).work E.aware).C2 := by
  obtain ⟨mpi, aware, cd⟩ := E
  dsimp only at ha hcd
  subst ha hcd
  rfl

/-- **C60 is false with staged copies and ScaLAPACK**: after a Householder QR, Rayleigh-Ritz multiplies
the matrix with what the device buffer held before, unless the flag `isHHqr`, which nothing has set, happens
to be true.  If the device holds zeros, all Ritz values are those of the zero matrix, whatever the matrix
and the vectors are. -/
theorem C60_staged_scalapack_refuted (ha : E.aware = false) (hsca : E.mpi.scalapack = true)
    (hq : cholDisable E.mpi.base.doCholQR E.mpi.base.envDisable = 1) (i0 : Fin r.procs) (j0 : Fin c.procs)
    (m block : ℕ) (cond : ℝ) (s : GFam K r c) (l : ℕ)
    (hl : ∀ i j, (s i j).host.locked = l) (hz : ∀ i j, (s i j).dC = fun _ _ => 0)
    (hh : ∀ i j, (s i j).hh = false) (t : Fin block) :
    ((opsAt E i0 j0).rr block ((opsAt E i0 j0).qr m cond s)).1 t =
      (E.mpi.base.lapack.heevd (0 : Matrix (Fin block) (Fin block) K)).1 t := by
  have e0 : (opsAt E i0 j0).qr m cond s =
      lockVectorCopy E (fun i j => (s i j).host.locked) true (hhQR E s) := by
    show qrSelect _ _ _ _ _ s = _
    unfold qrSelect
    rw [if_pos hq]
    rfl
  rw [e0]
  obtain ⟨mpi, aware, cd⟩ := E
  dsimp only at ha hsca hq
  subst ha
  set s1 := lockVectorCopy (⟨mpi, false, cd⟩ : GpuEnv K) (fun i j => (s i j).host.locked) true
    (hhQR (⟨mpi, false, cd⟩ : GpuEnv K) s) with hs1
  have hkey : ∀ i j, hhQR (⟨mpi, false, cd⟩ : GpuEnv K) s i j =
      { s i j with host := Mpi.hhQR mpi (fun i j => (s i j).host) i j } := by
    intro i j
    unfold hhQR
    rw [if_pos hsca]
    rfl
  have h1 : ∀ i j, (s1 i j).dC = fun _ _ => 0 := by
    intro i j
    have : (s1 i j).dC = (hhQR (⟨mpi, false, cd⟩ : GpuEnv K) s i j).dC := rfl
    rw [this, hkey]
    exact hz i j
  have h2 : ∀ i j, (s1 i j).hh = false := by
    intro i j
    have : (s1 i j).hh = (hhQR (⟨mpi, false, cd⟩ : GpuEnv K) s i j).hh := rfl
    rw [this, hkey]
    exact hh i j
  have h3 : ∀ i j, (s1 i j).host.locked = l := by
    intro i j
    have : (s1 i j).host.locked = (hhQR (⟨mpi, false, cd⟩ : GpuEnv K) s i j).host.locked := rfl
    rw [this, hkey]
    show (Mpi.hhQR mpi (fun i j => (s i j).host) i j).locked = l
    unfold Mpi.hhQR
    exact hl i j
  show (if h : t.val < block then (mpi.base.lapack.heevd (Mpi.rrMatrix (r := r) (c := c) _ block _ i0)).1
    ⟨t, h⟩ else (0 : ℝ)) = _
  rw [dif_pos t.2]
  refine congrArg (fun A : Matrix (Fin block) (Fin block) K => (mpi.base.lapack.heevd A).1 t) ?_
  unfold Mpi.rrMatrix
  refine Finset.sum_eq_zero fun j' _ => ?_
  have hB : ∀ j : Fin c.procs, getBlk (s1 i0 j0).host.locked block (GProc.dev (staged (⟨mpi, false, cd⟩ : GpuEnv K)
      (fun p => (p.upB (s1 i0 j).host.locked block).upB2 (s1 i0 j).host.locked block)
      (fun i j => asynCxHGatherC (⟨mpi, false, cd⟩ : GpuEnv K) (s1 i j).host.locked block
        (fun i j => !(s1 i j).hh) s1 i j) i0 j)).B = 0 := by
    intro j
    funext a b
    show copyCols (s1 i0 j).host.locked block (setBlk (s1 i0 j).host.locked (∑ i',
      ((if (!(s1 i' j).hh) = true then s1 i' j else _ : GProc K _ _).dH)ᴴ *
        getBlk (s1 i0 j).host.locked block (if (!(s1 i' j).hh) = true then s1 i' j else _ : GProc K _ _).dC) _) _
        ((s1 i0 j0).host.locked + b) a = 0
    rw [h3, h3, copyCols_of_mem ⟨Nat.le_add_right _ _, by omega⟩]
    refine (congrFun (congrFun (getBlk_setBlk (X := _)) a) b).trans ?_
    rw [Finset.sum_eq_zero]
    · rfl
    · intro i' _
      rw [if_pos (by rw [h2]; rfl), h1]
      exact Matrix.mul_zero _
  rw [show getBlk _ block _ = (0 : Matrix (Fin (c.size j')) (Fin block) K) from hB j']
  exact Matrix.mul_zero _

/-! ### Concrete cases -/

section example_
variable (K)

/-- Staged copies without ScaLAPACK, or CUDA-aware communication with ScaLAPACK, on a 3 x 2 grid. -/
noncomputable def exGpu (aware : Bool) : GpuEnv K :=
  ⟨{ Mpi.exMEnv K with scalapack := aware }, aware, aware⟩

theorem exGpu_sound (aware : Bool) : (exGpu K aware).Sound := by
  cases aware
  · exact Or.inl ⟨rfl, rfl⟩
  · exact Or.inr ⟨rfl, rfl, rfl⟩

/-- The parts of global data in host memory; the device holds vectors `W`, the flags `hh`. -/
def onHost (r c : Layout N) (g : GSt K N) (W : ℕ → Fin N → K) (hh : Bool) : GFam K r c := fun i j =>
  ⟨Mpi.scatter r c g i j, fun _ _ => 0, fun k a => W k (r.glob i a), fun k a => W k (r.glob i a),
    fun k b => W k (c.glob j b), fun k b => W k (c.glob j b), fun _ => 0, hh⟩

/-- `C60_mgpu_partial`, `C03_mgpu`, `C49_mgpu_same_run`, `C61_staged_partial`, `C61_aware_partial`, `C62_mgpu_partial`,
`C54_mgpu_aware_refuted`: on a 3 x 2 grid a solve of a matrix that is not diagonal completes with at least one
round, in both variants, and also with other contents of the device buffers. -/
example (aware : Bool) :
    let g : GSt K 7 := ⟨⟨exMat K, fun _ _ => 0, fun _ _ => 0, fun _ _ => 0, fun _ _ => 0, .bAc, 0, true⟩, true⟩
    let r := Mpi.cyclicLayout Mpi.exRow
    let c := Mpi.cyclicLayout Mpi.exCol
    (exGpu K aware).Sound ∧ Mpi.RunsOk r c (exGpu K aware).mpi.cRuns ∧
    Mpi.RunsOk c r (exGpu K aware).mpi.bRuns ∧ (exGpu K aware).mpi.base.lapack.Ok ∧
    0 ≤ (exGpu K aware).mpi.base.lapack.eps ∧ 0 ≤ (exGpu K aware).mpi.symTol ∧
    (∃ g', Mpi.Rep (pview (exGpu K aware) (onHost K r c g (fun _ _ => 1) true)) g' ∧ g'.H.IsHermitian) ∧
    Mpi.Rep (pview (exGpu K aware) (onHost K r c g (fun _ _ => 0) true)) g ∧
    QrAvoids (realPlat 1 id) (Mpi.gOps ((exGpu K aware).mpi.glob r)) (exCfg 4) (fun _ => 0) (fun _ => 0) g
      (badQr ((exGpu K aware).mpi.glob r)) ∧
    (∃ out, solve (realPlat 1 id) (opsAt (exGpu K aware) (2 : Fin 3) (1 : Fin 2)) (exCfg 4) (fun _ => 0)
      (fun _ => 0) (onHost K r c g (fun _ _ => 1) true) = .ok out ∧ 0 < out.iterations) := by
  intro g r c
  refine ⟨exGpu_sound K aware, (Mpi.exRuns K).1, (Mpi.exRuns K).2, Lapack.ideal_ok _ _ _, le_refl _, le_refl _,
    ?_, ?_, ?_, ?_⟩
  · cases aware
    · exact ⟨g, Mpi.scatter_rep _ _ g, exMat_hermitian⟩
    · refine ⟨{ g with C := fun _ _ => 1, C2 := fun _ _ => 1, B := fun _ _ => 1, B2 := fun _ _ => 1 },
        ⟨fun _ _ _ _ => rfl, fun _ _ _ _ => rfl, fun _ _ _ _ => rfl, fun _ _ _ _ => rfl, fun _ _ _ _ => rfl,
          fun _ _ => rfl, fun _ _ => rfl, fun _ _ => rfl, fun _ _ => rfl⟩, exMat_hermitian⟩
  · cases aware
    · exact Mpi.scatter_rep _ _ g
    · exact ⟨fun _ _ _ _ => rfl, fun _ _ _ _ => rfl, fun _ _ _ _ => rfl, fun _ _ _ _ => rfl, fun _ _ _ _ => rfl,
          fun _ _ => rfl, fun _ _ => rfl, fun _ _ => rfl, fun _ _ => rfl⟩
  · exact .of_est (fun _ hb => hb.1 rfl) (fun _ _ _ _ _ _ _ _ hb => hb.1 rfl) _ _ _ _ _
  · obtain ⟨out, ho, hpos⟩ := C51_approx_solve_defined (realPlat 1 id)
      (opsAt (r := r) (c := c) (exGpu K aware) (2 : Fin 3) (1 : Fin 2)) (exCfg 4) rfl
      (by decide) (by decide) (by decide) (by decide) (by decide) (by decide) (by decide)
      (fun h => absurd h (by decide)) (fun _ => 0) (fun _ => 0) (onHost K r c g (fun _ _ => 1) true)
    refine ⟨out, ho, hpos (fun _ => ?_) (by decide)⟩
    exact Mpi.C09_mpi_hermitian_accepted (E := (exGpu K aware).mpi) (Mpi.exRuns K).1 (Mpi.exRuns K).2
      (fun _ _ _ _ => rfl) exMat_hermitian (le_refl _)

/-- `C61_aware_hhQR_refuted`, `C61_aware_copy_refuted`: the setups exist, and vectors that are not
orthonormal. -/
example : ∃ E : GpuEnv K, E.aware = true ∧ E.mpi.scalapack = false ∧ E.copyDone = false ∧
    cholDisable E.mpi.base.doCholQR E.mpi.base.envDisable = 1 ∧
    ∃ s : GFam K (Mpi.cyclicLayout Mpi.exRow) (Mpi.cyclicLayout Mpi.exCol),
      (∀ i j, (s i j).host.locked = 0) ∧ ∀ i j a, ((s i j).work E.aware).C 0 a = 2 := by
  refine ⟨⟨{ Mpi.exMEnv K with scalapack := false }, true, false⟩, rfl, rfl, rfl, rfl,
    onHost K _ _ ⟨⟨exMat K, fun _ _ => 0, fun _ _ => 0, fun _ _ => 0, fun _ _ => 0, .bAc, 0, true⟩, true⟩
      (fun _ _ => 2) true, fun _ _ => rfl, fun _ _ _ => rfl⟩

/-- `C60_staged_scalapack_refuted`: with the identity matrix all Ritz values of orthonormal vectors are
one; the theorem says they are zero. -/
example : ∃ E : GpuEnv K, E.aware = false ∧ E.mpi.scalapack = true ∧
    cholDisable E.mpi.base.doCholQR E.mpi.base.envDisable = 1 ∧ E.mpi.base.lapack.Ok ∧
    ∃ s : GFam K (Mpi.cyclicLayout Mpi.exRow) (Mpi.cyclicLayout Mpi.exCol),
      (∀ i j a b, (s i j).host.H a b = if (Mpi.cyclicLayout Mpi.exRow).glob i a =
        (Mpi.cyclicLayout Mpi.exCol).glob j b then 1 else 0) ∧
      (∀ i j, (s i j).host.locked = 0) ∧ (∀ i j, (s i j).dC = fun _ _ => 0) ∧ ∀ i j, (s i j).hh = false := by
  refine ⟨⟨Mpi.exMEnv K, false, false⟩, rfl, rfl, rfl, Lapack.ideal_ok _ _ _,
    onHost K _ _ ⟨⟨1, fun _ _ => 0, fun _ _ => 0, fun _ _ => 0, fun _ _ => 0, .bAc, 0, true⟩, true⟩
      (fun _ _ => 0) false, fun _ _ _ _ => ?_, fun _ _ => rfl, fun _ _ => rfl, fun _ _ => rfl⟩
  exact Matrix.one_apply

end example_

end Mgpu
end Verif
