/-
C21, C25, C26, C27 on the distributed CPU backend and on the multi-GPU backend, and C55 on the multi-GPU backend: what
the Lanczos runs and Rayleigh-Ritz compute when the matrix and the columns are spread over a grid of processes.
-/
import Verif.Backend.MgpuProps
import Verif.Backend.QrProps
import Verif.Backend.LanczosProps
import Verif.Backend.EstimateExamples

namespace Verif

open Matrix

variable {K : Type*} [RCLike K] {N : ℕ} {r c : Mpi.Layout N}

namespace Mpi

variable {E : MEnv K}

/-- **C27** (distributed CPU backend) From orthonormal columns, held in both copies, Rayleigh-Ritz on the
unlocked part gives every process the same values, and parts of the same columns, in both copies; they are Ritz
pairs of the distributed matrix, which stays as it is. -/
theorem C27_mpi (hE : RunsOk r c E.cRuns) (hL : E.base.lapack.Ok) {s : Fam K r c} {g : GSt K N}
    (h : Rep s g) (hH : g.H.IsHermitian) (b : ℕ) (ho : OrthoOn (g.locked + b) g.C)
    (hc : ∀ j, g.locked ≤ j → j < g.locked + b → g.C2 j = g.C j) :
    ∃ (Y : ℕ → Fin N → K) (w : ℕ → ℝ), RitzPairs g.H g.locked b g.C Y w ∧
      ∀ i j, ((opsAt E i j).rr b s).1 = w ∧
        ∀ i' j', (((opsAt E i j).rr b s).2 i' j').H = (s i' j').H ∧
          (∀ k a, (((opsAt E i j).rr b s).2 i' j').C k a = Y k (r.glob i' a)) ∧
          ∀ k, g.locked ≤ k → k < g.locked + b → ∀ a,
            (((opsAt E i j).rr b s).2 i' j').C2 k a = Y k (r.glob i' a) := by
  obtain ⟨h1, h2⟩ := rr_rep (E := E) hE h b
  obtain ⟨q1, q2, q3⟩ := C27_rayleigh_ritz_seq E.base hL g.toSt hH b ho hc
  refine ⟨_, _, q1, fun i j => ⟨h1 i j, fun i' j' => ⟨?_, h2.C i' j', fun k k1 k2 a => ?_⟩⟩⟩
  · rfl
  · refine (h2.C2 i' j' k a).trans ?_
    exact congrFun (q3 k k1 k2) _

/-- **C21** (distributed CPU backend; the multi-GPU backend runs the same code on the buffers in use) As long
as no off-diagonal vanishes, run `t` of a batch has built an orthonormal basis `v` starting from the normalised
start vector, with `H v_k = e_{k-1} v_{k-1} + d_k v_k + e_k v_{k+1}` for the matrix spread over the processes and
the diagonals `d`, `e` that every process holds; the last step leaves a remainder orthogonal to the basis whose
norm is the last off-diagonal. -/
theorem C21_mpi (hE : RunsOk c r E.bRuns) {s : Fam K r c} {g : GSt K N} (h : Rep s g)
    (hH : g.H.IsHermitian) (M numvec : ℕ) (hM : 0 < M) (store : Bool) (t : ℕ) (ht : t < numvec)
    (hC : g.C t ≠ 0) (i0 : Fin r.procs) (j0 : Fin c.procs)
    (he : ∀ k, k + 1 < M → (mLanczos E s M numvec store i0 j0).e (k + M * t) ≠ 0) :
    ∃ (v : ℕ → Fin N → K) (z : Fin N → K),
      v 0 = ((1 / nrm2 (g.C t) : ℝ) : K) • g.C t ∧
      (∀ j k, j < M → k < M → dotc (v j) (v k) = if j = k then 1 else 0) ∧
      (∀ k, k < M → dotc (v k) z = 0) ∧
      ∀ i j, (∀ k, k < M → g.H.mulVec (v k) =
        (if 0 < k then ((mLanczos E s M numvec store i j).e (k - 1 + M * t) : K) • v (k - 1) else 0)
        + ((mLanczos E s M numvec store i j).d (k + M * t) : K) • v k
        + (if k + 1 < M then ((mLanczos E s M numvec store i j).e (k + M * t) : K) • v (k + 1) else z)) ∧
        nrm2 z = (mLanczos E s M numvec store i j).rbeta t := by
  have hl := mLanczos_rep (E := E) hE h M numvec store
  obtain ⟨v, z, a1, a2, a3, a4, a5⟩ := C21_lanczos_recurrence axpyOwn g.H hH M numvec (fun _ _ => rfl) hM store
    g.C t ht hC (fun k hk => by rw [← hl.e i0 j0]; exact he k hk)
  refine ⟨v, z, a1, a2, a4, fun i j => ⟨fun k hk => ?_, ?_⟩⟩
  · rw [hl.e i j, hl.d i j]
    exact a3 k hk
  · rw [hl.rbeta i j]
    exact a5

/-- **C21** (distributed CPU backend) In that basis the matrix is the tridiagonal one made of the diagonals any
process holds. -/
theorem C21_mpi_tridiagonalises (hE : RunsOk c r E.bRuns) {s : Fam K r c} {g : GSt K N} (h : Rep s g)
    (hH : g.H.IsHermitian) (M numvec : ℕ) (hM : 0 < M) (store : Bool) (t : ℕ) (ht : t < numvec)
    (hC : g.C t ≠ 0) (i : Fin r.procs) (j : Fin c.procs)
    (he : ∀ k, k + 1 < M → (mLanczos E s M numvec store i j).e (k + M * t) ≠ 0) :
    ∃ V : Matrix (Fin N) (Fin M) K, Vᴴ * V = 1 ∧
      Vᴴ * g.H * V = (tridiag M (fun k => (mLanczos E s M numvec store i j).d (k + M * t))
        (fun k => (mLanczos E s M numvec store i j).e (k + M * t))).map (fun x => (x : K)) := by
  have hl := mLanczos_rep (E := E) hE h M numvec store
  obtain ⟨V, a1, a2⟩ := C21_tridiagonalises axpyOwn g.H hH M numvec (fun _ _ => rfl) hM store
    g.C t ht hC (fun k hk => by rw [← hl.e i j]; exact he k hk)
  refine ⟨V, a1, ?_⟩
  rw [hl.e i j, hl.d i j]
  exact a2

/-- What a QR call leaves on global data, whatever variant runs. -/
theorem qrLike_spec {G : GEnv K N} {q : ℕ → ℝ → GSt K N → GSt K N} (hq : QrLike G q) {g : GSt K N}
    (hnext : g.next = .bAc) (hl : g.locked ≤ G.base.nevex) (ho : OrthoOn g.locked g.C)
    (hc : ∀ k, k < g.locked → g.C2 k = g.C k) (fixednev : ℕ) (cond : ℝ) :
    (∀ k, k < g.locked → (q fixednev cond g).C k = g.C k) ∧
    (∀ k, k < G.base.nevex → (q fixednev cond g).C2 k = (q fixednev cond g).C k) ∧
    OrthoOn G.base.nevex (q fixednev cond g).C ∧ (q fixednev cond g).H = g.H ∧
    (LinearIndependent K (fun k : Fin G.base.nevex => g.C k) →
      Submodule.span K ((q fixednev cond g).C '' {k | k < G.base.nevex}) =
        Submodule.span K (g.C '' {k | k < G.base.nevex})) := by
  obtain ⟨Y, hY, e⟩ := hq fixednev cond g hnext
  obtain ⟨a1, -, -, a4, a5, a6, -, a8⟩ := Seq.lockCopy_spec g.toSt hY hl ho hc _ rfl
  rw [e]
  exact ⟨a4, a5, a6, a1, a8⟩

/-- **C25, C26** (distributed CPU backend) After QR, whatever variant runs and whether or not it fails, the
processes hold parts of orthonormal columns `Y`, the same in both copies; of the locked columns, what they held
before; and `Y` spans what the columns spanned, if these were independent.  The matrix stays as it is. -/
theorem C26_mpi (hc : RunsOk r c E.cRuns) (hb : RunsOk c r E.bRuns) (hL : E.base.lapack.Ok)
    (hn : E.base.nevex ≤ N) {s : Fam K r c} {g : GSt K N} (h : Rep s g) (hnext : g.next = .bAc)
    (hl : g.locked ≤ E.base.nevex) (ho : OrthoOn g.locked g.C) (h2 : ∀ k, k < g.locked → g.C2 k = g.C k)
    (fixednev : ℕ) (cond : ℝ) (i0 : Fin r.procs) (j0 : Fin c.procs) :
    ∃ Y : ℕ → Fin N → K, OrthoOn E.base.nevex Y ∧ (∀ k, k < g.locked → Y k = g.C k) ∧
      (LinearIndependent K (fun k : Fin E.base.nevex => g.C k) →
        Submodule.span K (Y '' {k | k < E.base.nevex}) = Submodule.span K (g.C '' {k | k < E.base.nevex})) ∧
      ∀ i j, ((opsAt E i0 j0).qr fixednev cond s i j).H = (s i j).H ∧
        (∀ k a, ((opsAt E i0 j0).qr fixednev cond s i j).C k a = Y k (r.glob i a)) ∧
        (∀ k, k < E.base.nevex → ∀ a,
          ((opsAt E i0 j0).qr fixednev cond s i j).C2 k a = Y k (r.glob i a)) ∧
        ∀ k, k < g.locked → ((opsAt E i0 j0).qr fixednev cond s i j).C k = (s i j).C k := by
  have hr := (sim hc hb i0 j0).qr fixednev cond s g h
  obtain ⟨a1, a2, a3, a4, a5⟩ := qrLike_spec (gQr_like (G := E.glob r) hL hn) hnext hl ho h2 fixednev cond
  refine ⟨_, a3, a1, a5, fun i j => ⟨?_, hr.C i j, fun k hk a => ?_, fun k hk => ?_⟩⟩
  · funext a b
    rw [hr.H, h.H]
    exact congrFun (congrFun a4 _) _
  · rw [hr.C2]
    exact congrFun (a2 k hk) _
  · funext a
    rw [hr.C, h.C]
    exact congrFun (a1 k hk) _

end Mpi

namespace Mgpu

variable {E : GpuEnv K}

/-- **C27** (multi-GPU backend, with either communication setup) From orthonormal columns, held in both copies
of the buffers in use and, when staging, also on the device (or the Householder flag is set, so that they are
copied there), Rayleigh-Ritz on the unlocked part gives every process the same values and parts of the same
columns; they are Ritz pairs of the distributed matrix, which stays as it is on device and host. -/
theorem C27_mgpu (hE : Mpi.RunsOk r c E.mpi.cRuns) (hL : E.mpi.base.lapack.Ok) {s : GFam K r c}
    {g : Mpi.GSt K N} (h : Mpi.Rep (view E s) g) (hH : g.H.IsHermitian) (b : ℕ)
    (hb : E.mpi.base.nevex = g.locked + b) (ho : OrthoOn (g.locked + b) g.C)
    (hc : ∀ j, g.locked ≤ j → j < g.locked + b → g.C2 j = g.C j)
    (hd : E.aware = false → ∀ i j, (s i j).hh = true ∨
      ∀ k, g.locked ≤ k → k < g.locked + b → (s i j).dC k = (s i j).host.C k) :
    ∃ (Y : ℕ → Fin N → K) (w : ℕ → ℝ), RitzPairs g.H g.locked b g.C Y w ∧
      ∀ i j, ((opsAt E i j).rr b s).1 = w ∧
        ∀ i' j', (((opsAt E i j).rr b s).2 i' j').dH = (s i' j').dH ∧
          (((opsAt E i j).rr b s).2 i' j').host.H = (s i' j').host.H ∧
          ∀ k a, (if E.aware then (((opsAt E i j).rr b s).2 i' j').dC
            else (((opsAt E i j).rr b s).2 i' j').host.C) k a = Y k (r.glob i' a) := by
  have hlk : (fun i j => (s i j).host.locked) = fun (_ : Fin r.procs) (_ : Fin c.procs) => g.locked := by
    funext i j
    exact (work_locked E.aware (s i j)).symm.trans (h.locked i j)
  have hlk' : (fun i j => (view E s i j).locked) = fun (_ : Fin r.procs) (_ : Fin c.procs) => g.locked := by
    funext i j
    exact h.locked i j
  obtain ⟨v1, v2, v3, v4, -, -⟩ := rr_view (E := E) (s := s) g.locked b (by omega) hd
  obtain ⟨h1, h2⟩ := Mpi.rr_rep (E := E.mpi) hE h b
  rw [hlk'] at h1 h2
  obtain ⟨q1, q2, q3⟩ := C27_rayleigh_ritz_seq E.mpi.base hL g.toSt hH b ho hc
  have e : ∀ i j, (opsAt E i j).rr b s =
      ((rr E b (fun _ _ => g.locked) s).1 i j, (rr E b (fun _ _ => g.locked) s).2) := by
    intro i j
    rw [← hlk]
    rfl
  refine ⟨_, _, q1, fun i j => ⟨?_, fun i' j' => ⟨?_, ?_, fun k a => ?_⟩⟩⟩
  · rw [e, v1]
    exact h1 i j
  · rw [e]
    exact v3 i' j'
  · rw [e]
    exact v4 i' j'
  · rw [e]
    have hv : ∀ s : GFam K r c, (if E.aware then (s i' j').dC else (s i' j').host.C) = (view E s i' j').C := by
      intro s
      unfold view
      cases E.aware <;> rfl
    rw [hv, v2]
    exact h2.C i' j' k a

/-- **C25, C26** (multi-GPU backend, setups of C60) After QR, whatever variant runs and whether or not it
fails, the processes hold parts of orthonormal columns `Y` in the buffers in use; of the locked columns, what
they held before; and `Y` spans what the columns spanned, if these were independent.  The matrix stays as it is
on device and host. -/
theorem C26_mgpu (hS : E.Sound) (hL : E.mpi.base.lapack.Ok) (hn : E.mpi.base.nevex ≤ N) {s : GFam K r c}
    {g : Mpi.GSt K N} (h : Mpi.Rep (view E s) g) (hdev : ∀ i j, (s i j).dH = (s i j).host.H)
    (hnext : g.next = .bAc) (hl : g.locked ≤ E.mpi.base.nevex) (ho : OrthoOn g.locked g.C)
    (h2 : ∀ k, k < g.locked → g.C2 k = g.C k) (fixednev : ℕ) (cond : ℝ) (i0 : Fin r.procs) (j0 : Fin c.procs) :
    ∃ Y : ℕ → Fin N → K, OrthoOn E.mpi.base.nevex Y ∧ (∀ k, k < g.locked → Y k = g.C k) ∧
      (LinearIndependent K (fun k : Fin E.mpi.base.nevex => g.C k) →
        Submodule.span K (Y '' {k | k < E.mpi.base.nevex}) =
          Submodule.span K (g.C '' {k | k < E.mpi.base.nevex})) ∧
      ∀ i j, let p := (opsAt E i0 j0).qr fixednev cond s i j
        p.dH = (s i j).dH ∧ p.host.H = (s i j).host.H ∧
        (∀ k a, (if E.aware then p.dC else p.host.C) k a = Y k (r.glob i a)) ∧
        (∀ k, k < E.mpi.base.nevex → ∀ a, (if E.aware then p.dC2 else p.host.C2) k a = Y k (r.glob i a)) ∧
        ∀ k, k < g.locked → (if E.aware then p.dC else p.host.C) k =
          (if E.aware then (s i j).dC else (s i j).host.C) k := by
  obtain ⟨⟨hr, hm, -⟩, -⟩ := qr_ready hS i0 j0 g.locked fixednev cond (Inv.mk h hdev rfl)
  obtain ⟨a1, a2, a3, a4, a5⟩ := Mpi.qrLike_spec (refQr_like (G := E.mpi.glob r) hL hn E.aware) hnext hl ho h2
    fixednev cond
  have hv : ∀ (s : GFam K r c) i j, (if E.aware then (s i j).dC else (s i j).host.C) = (view E s i j).C ∧
      (if E.aware then (s i j).dC2 else (s i j).host.C2) = (view E s i j).C2 ∧
      (s i j).dH = (view E s i j).H := by
    intro s i j
    unfold view
    cases E.aware <;> exact ⟨rfl, rfl, rfl⟩
  have hH : ∀ i j, ((opsAt E i0 j0).qr fixednev cond s i j).dH = (s i j).dH := by
    intro i j
    rw [(hv _ i j).2.2, (hv s i j).2.2]
    funext a b
    rw [hr.H, h.H]
    exact congrFun (congrFun a4 _) _
  refine ⟨_, a3, a1, a5, fun i j => ⟨hH i j, ?_, fun k a => ?_, fun k hk a => ?_, fun k hk => ?_⟩⟩
  · rw [← hm, hH, hdev]
  · rw [(hv _ i j).1]
    exact hr.C i j k a
  · rw [(hv _ i j).2.1, hr.C2]
    exact congrFun (a2 k hk) _
  · rw [(hv _ i j).1, (hv s i j).1]
    funext a
    rw [hr.C, h.C]
    exact congrFun (a1 k hk) _

/-- **C55** (multi-GPU backend, setups of C60) For start vectors in the buffers in use, the result of a solve
does not depend on the number of devices, the shape of the grid, or the distribution of the matrix. -/
theorem C55_mgpu {r' c' : Mpi.Layout N} {E' : GpuEnv K} (hS : E.Sound) (hS' : E'.Sound)
    (hc : Mpi.RunsOk r c E.mpi.cRuns) (hb : Mpi.RunsOk c r E.mpi.bRuns) (hc' : Mpi.RunsOk r' c' E'.mpi.cRuns)
    (hb' : Mpi.RunsOk c' r' E'.mpi.bRuns) (haware : E.aware = E'.aware) (hbase : E.mpi.base = E'.mpi.base)
    (hsca : E.mpi.scalapack = E'.mpi.scalapack) (P : Plat ℝ) (cfg : Config ℝ)
    (hnev : E.mpi.base.nev = cfg.nev) (hnex : E.mpi.base.nex = cfg.nex) (ritzv0 resid0 : ℕ → ℝ)
    {s : GFam K r c} {s' : GFam K r' c'} {g : Mpi.GSt K N} (h : Mpi.Rep (pview E s) g)
    (h' : Mpi.Rep (pview E' s') g) (ha : cfg.approx = true)
    (hsym : cfg.symCheck = true → g.H.IsHermitian ∧ 0 ≤ E.mpi.symTol ∧ 0 ≤ E'.mpi.symTol)
    (i0 : Fin r.procs) (j0 : Fin c.procs) (i1 : Fin r'.procs) (j1 : Fin c'.procs) :
    RelE (fun a b => a.ritzv = b.ritzv ∧ a.resid = b.resid ∧ a.iterations = b.iterations ∧
        a.locked = b.locked ∧ ∃ X : ℕ → Fin N → K,
          (∀ i j k l, (if E.aware then (a.be i j).dC else (a.be i j).host.C) k l = X k (r.glob i l)) ∧
          ∀ i j k l, (if E'.aware then (b.be i j).dC else (b.be i j).host.C) k l = X k (r'.glob i l))
      (solve P (opsAt E i0 j0) cfg ritzv0 resid0 s) (solve P (opsAt E' i1 j1) cfg ritzv0 resid0 s') := by
  have hE : E.mpi.base.nevex = cfg.nev + cfg.nex := by unfold Env.nevex; rw [hnev, hnex]
  have hE' : E'.mpi.base.nevex = cfg.nev + cfg.nex := by rw [← hbase]; exact hE
  have h0 := solve_simP (sim hS hc hb i0 j0) P cfg hE (Or.inl fun _ => trivial) ritzv0 resid0 h
  have h1 := solve_simP (sim hS' hc' hb' i1 j1) P cfg hE' (Or.inl fun _ => trivial) ritzv0 resid0 h'
  have e : solve P (refOps (E'.mpi.glob r') E'.aware) cfg ritzv0 resid0 g =
      solve P (refOps (E.mpi.glob r) E.aware) cfg ritzv0 resid0 g := by
    have e1 : refOps (E'.mpi.glob r') E'.aware = { refOps (E.mpi.glob r) E.aware with
        initVecs := (refOps (E'.mpi.glob r') E'.aware).initVecs
        checkSymmetryEasy := (refOps (E'.mpi.glob r') E'.aware).checkSymmetryEasy } := by
      unfold refOps Mpi.gOpsWith refQr refQrRoutines refResd Mpi.gOps Mpi.gQrRoutines Mpi.MEnv.glob
      dsimp only
      rw [hbase, hsca, haware]
    rw [e1]
    refine Mpi.solve_congr_start P cfg _ _ _ ritzv0 resid0 g ?_ fun hk => ?_
    · rw [ha]
      funext t
      show (⟨Seq.initVecs E'.mpi.base t.toSt, t.fresh⟩ : Mpi.GSt K N) =
        ⟨Seq.initVecs E.mpi.base t.toSt, t.fresh⟩
      rw [hbase]
    · obtain ⟨a1, a2, a3⟩ := hsym hk
      show (Mpi.gSymCheck (E'.mpi.glob r') g,
          ({ g with isSym := Mpi.gSymCheck (E'.mpi.glob r') g } : Mpi.GSt K N)) =
        (Mpi.gSymCheck (E.mpi.glob r) g, ({ g with isSym := Mpi.gSymCheck (E.mpi.glob r) g } : Mpi.GSt K N))
      rw [Mpi.gSymCheck_hermitian (G := E'.mpi.glob r') a3 g a1,
        Mpi.gSymCheck_hermitian (G := E.mpi.glob r) a2 g a1]
  rw [e] at h1
  have hv : ∀ {r c : Mpi.Layout N} (E : GpuEnv K) (s : GFam K r c) i j,
      (if E.aware then (s i j).dC else (s i j).host.C) = (pview E s i j).C := by
    intro r c E s i j
    unfold pview
    cases E.aware <;> rfl
  generalize solve P (opsAt E i0 j0) cfg ritzv0 resid0 s = x at h0 ⊢
  generalize solve P (opsAt E' i1 j1) cfg ritzv0 resid0 s' = y at h1 ⊢
  generalize solve P (refOps (E.mpi.glob r) E.aware) cfg ritzv0 resid0 g = z at h0 h1
  cases h0 with
  | error e => cases h1; exact RelE.error _
  | ok h0 =>
    cases h1 with
    | ok h1 =>
      rename_i a z b
      refine RelE.ok ⟨h0.ritzv.trans h1.ritzv.symm, h0.resid.trans h1.resid.symm,
        h0.iterations.trans h1.iterations.symm, h0.locked.trans h1.locked.symm, z.be.C,
        fun i j k l => ?_, fun i j k l => ?_⟩
      · rw [hv]
        exact Mpi.Rep.C (show Mpi.Rep (pview E a.be) z.be from h0.be) i j k l
      · rw [hv]
        exact Mpi.Rep.C (show Mpi.Rep (pview E' b.be) z.be from h1.be) i j k l

end Mgpu

/-! ### Non-vacuity -/

/-- A diagonal matrix with distinct eigenvalues, five orthonormal columns that are no eigenvectors of it in
both copies, one of them locked. -/
noncomputable def exPhase (K : Type*) [RCLike K] : Mpi.GSt K 7 :=
  ⟨{ H := exDiag K, C := exMix K, C2 := exMix K, B := fun _ _ => 0, B2 := fun _ _ => 0, next := .bAc, locked := 1,
      isSym := true }, false⟩

/-- `C27_mpi` on a 3 by 2 grid; the hypotheses of `C26_mpi` are among these. -/
example : let g := exPhase ℂ
    Mpi.RunsOk (Mpi.cyclicLayout Mpi.exRow) (Mpi.cyclicLayout Mpi.exCol) (Mpi.exMEnv ℂ).cRuns ∧
    (Mpi.exMEnv ℂ).base.lapack.Ok ∧
    Mpi.Rep (Mpi.scatter (Mpi.cyclicLayout Mpi.exRow) (Mpi.cyclicLayout Mpi.exCol) g) g ∧ g.H.IsHermitian ∧
    OrthoOn (g.locked + 4) g.C ∧ (∀ j, g.locked ≤ j → j < g.locked + 4 → g.C2 j = g.C j) ∧
    g.next = .bAc ∧ g.locked ≤ (Mpi.exMEnv ℂ).base.nevex ∧ (Mpi.exMEnv ℂ).base.nevex ≤ 7 ∧
    OrthoOn g.locked g.C ∧ ∀ k, k < g.locked → g.C2 k = g.C k :=
  ⟨(Mpi.exRuns ℂ).1, Lapack.ideal_ok _ _ _, Mpi.scatter_rep _ _ _, exDiag_hermitian, exMix_ortho,
    fun _ _ _ => rfl, rfl, (by decide : 1 ≤ 5), (by decide : 5 ≤ 7),
    fun i j hi hj => exMix_ortho i j (lt_trans hi (by decide)) (lt_trans hj (by decide)), fun _ _ => rfl⟩

/-- `C27_mgpu` on a 3 by 2 grid of devices with staged copies, the columns on the host and on the device; the hypotheses of `C26_mgpu` are among these. -/
example :
    let s : Mgpu.GFam ℂ (Mpi.cyclicLayout Mpi.exRow) (Mpi.cyclicLayout Mpi.exCol) := fun i j =>
      { Mgpu.onHost ℂ _ _ (exPhase ℂ) (exMix ℂ) false i j with
        dH := (Mpi.scatter _ _ (exPhase ℂ) i j).H }
    let g := exPhase ℂ
    (Mgpu.exGpu ℂ false).Sound ∧ (∀ i j, (s i j).dH = (s i j).host.H) ∧ Mpi.Rep (Mgpu.view (Mgpu.exGpu ℂ false) s) g ∧ g.H.IsHermitian ∧
    (Mgpu.exGpu ℂ false).mpi.base.nevex = g.locked + 4 ∧ OrthoOn (g.locked + 4) g.C ∧
    (∀ j, g.locked ≤ j → j < g.locked + 4 → g.C2 j = g.C j) ∧
    ∀ i j, ∀ k, g.locked ≤ k → k < g.locked + 4 → (s i j).dC k = (s i j).host.C k :=
  ⟨Mgpu.exGpu_sound ℂ false, fun _ _ => rfl, ⟨fun _ _ _ _ => rfl, fun _ _ _ _ => rfl, fun _ _ _ _ => rfl,
    fun _ _ _ _ => rfl, fun _ _ _ _ => rfl, fun _ _ => rfl, fun _ _ => rfl, fun _ _ => rfl, fun _ _ => rfl⟩, exDiag_hermitian, rfl, exMix_ortho,
    fun _ _ _ => rfl, fun _ _ _ _ _ => rfl⟩

/-- `C21_mpi` and `C21_mpi_tridiagonalises` on a 3 by 2 grid: three steps in which no off-diagonal vanishes. -/
example : let g := exPhase ℂ
    let s := Mpi.scatter (Mpi.cyclicLayout Mpi.exRow) (Mpi.cyclicLayout Mpi.exCol) g
    Mpi.RunsOk (Mpi.cyclicLayout Mpi.exCol) (Mpi.cyclicLayout Mpi.exRow) (Mpi.exMEnv ℂ).bRuns ∧
    Mpi.Rep s g ∧ g.H.IsHermitian ∧ g.C 0 ≠ 0 ∧
    ∀ k, k + 1 < 3 → (Mpi.mLanczos (Mpi.exMEnv ℂ) s 3 1 true (2 : Fin 3) (1 : Fin 2)).e (k + 3 * 0) ≠ 0 := by
  intro g s
  have hd := (lz_divisors_iff (x := exMix ℂ 0) (exDiag_hermitian (K := ℂ)) 3 (by omega)).mpr exMix_krylov
  refine ⟨(Mpi.exRuns ℂ).2, Mpi.scatter_rep _ _ _, exDiag_hermitian, hd.1, fun k hk => ?_⟩
  have hl := Mpi.mLanczos_rep (E := Mpi.exMEnv ℂ) (Mpi.exRuns ℂ).2
    (Mpi.scatter_rep (Mpi.cyclicLayout Mpi.exRow) (Mpi.cyclicLayout Mpi.exCol) g) 3 1 true
  have e : (Mpi.mLanczos (Mpi.exMEnv ℂ) s 3 1 true (2 : Fin 3) (1 : Fin 2)).e =
    (Verif.mLanczos axpyOwn g.H 3 1 true g.C).e := hl.e (2 : Fin 3) (1 : Fin 2)
  rw [e, (mLanczos_spec axpyOwn g.H 3 1 (fun _ _ => rfl) (by omega) true g.C).2.1 0 k (by omega) hk]
  exact hd.2 k hk

/-- `C55_mgpu`: the same data on the 3 by 2 grid and on one with the roles of rows and columns
interchanged; by the theorem both solves return the same values. -/
example (aware : Bool) :
    let g : Mpi.GSt ℂ 7 := exPhase ℂ
    let r := Mpi.cyclicLayout Mpi.exRow
    let c := Mpi.cyclicLayout Mpi.exCol
    let E := Mgpu.exGpu ℂ aware
    let E' : Mgpu.GpuEnv ℂ := { E with mpi := { E.mpi with cRuns := E.mpi.bRuns, bRuns := E.mpi.cRuns } }
    E.Sound ∧ E'.Sound ∧ Mpi.RunsOk r c E.mpi.cRuns ∧ Mpi.RunsOk c r E.mpi.bRuns ∧
    Mpi.RunsOk c r E'.mpi.cRuns ∧ Mpi.RunsOk r c E'.mpi.bRuns ∧ E.aware = E'.aware ∧
    E.mpi.base = E'.mpi.base ∧ E.mpi.scalapack = E'.mpi.scalapack ∧
    (exCfg 4).approx = true ∧ 0 ≤ E.mpi.symTol ∧
    (∃ s : Mgpu.GFam ℂ r c, Mpi.Rep (Mgpu.pview E s) { g with C2 := g.C, B := g.C, B2 := g.C }) ∧
    ∃ s : Mgpu.GFam ℂ c r, Mpi.Rep (Mgpu.pview E' s) { g with C2 := g.C, B := g.C, B2 := g.C } := by
  intro g r c E E'
  have hS := Mgpu.exGpu_sound ℂ aware
  refine ⟨hS, hS, (Mpi.exRuns ℂ).1, (Mpi.exRuns ℂ).2, (Mpi.exRuns ℂ).2, (Mpi.exRuns ℂ).1, rfl, rfl, rfl, rfl,
    le_refl _, ?_, ?_⟩
  · refine ⟨Mgpu.onHost ℂ r c { g with C2 := g.C, B := g.C, B2 := g.C } g.C true, ?_⟩
    cases aware <;> exact ⟨fun _ _ _ _ => rfl, fun _ _ _ _ => rfl, fun _ _ _ _ => rfl, fun _ _ _ _ => rfl,
      fun _ _ _ _ => rfl, fun _ _ => rfl, fun _ _ => rfl, fun _ _ => rfl, fun _ _ => rfl⟩
  · refine ⟨Mgpu.onHost ℂ c r { g with C2 := g.C, B := g.C, B2 := g.C } g.C true, ?_⟩
    cases aware <;> exact ⟨fun _ _ _ _ => rfl, fun _ _ _ _ => rfl, fun _ _ _ _ => rfl, fun _ _ _ _ => rfl,
      fun _ _ _ _ => rfl, fun _ _ => rfl, fun _ _ => rfl, fun _ _ => rfl, fun _ _ => rfl⟩

end Verif
