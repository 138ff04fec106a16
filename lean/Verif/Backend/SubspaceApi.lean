/-
C64 and C66 on the single-process, distributed, multi-GPU and in-place backends.
-/
import Verif.Backend.SubspaceInst
import Verif.Solver.ReachSimP
import Verif.Solver.WatchReach

open Polynomial

namespace Verif

variable {K : Type*} [RCLike K] {N : ℕ}

/-! ### C64 -/

/-- One round of filtered subspace iteration on `n` columns: with the first `locked` columns of `X` as they
are and every other column `x` replaced by `p(H) x`, where `p` is the scaled Chebyshev polynomial of the
interval `I` of an even degree that may depend on the column, `X'` spans the same space if those columns are
independent.  `fixed` says when the degree is `deg` for all columns. -/
def FilteredStep (H : Matrix (Fin N) (Fin N) K) (I : Interval ℝ) (locked n deg : ℕ) (fixed : Prop)
    (X X' : ℕ → Fin N → K) : Prop :=
  ∃ d : ℕ → ℕ, (∀ j, locked ≤ j → j < n → Even (d j)) ∧ (fixed → d = fun _ => deg) ∧
    (LinearIndependent K (fun j : Fin n => filtered H I locked d X j) →
      Submodule.span K (X' '' {j | j < n}) = Submodule.span K (filtered H I locked d X '' {j | j < n}))

section Rounds
variable {P : Plat ℝ} {cfg : Config ℝ} {ritzv0 resid0 : ℕ → ℝ} {I : Interval ℝ}

/-- **C64** (single process) Every round of every solve of a Hermitian matrix is a step of filtered subspace
iteration with the interval the round uses. -/
theorem C64_seq (hP : SortsIndices P) (E : Env K) (hL : E.lapack.Ok)
    (hnev : E.nev = cfg.nev) (hnex : E.nex = cfg.nex) (hN : cfg.N = N) (hle : cfg.nev + cfg.nex ≤ N)
    (hmax : Even cfg.maxDeg) (s : Seq.St K N) (hH : s.H.IsHermitian) (st st' : St ℝ (Seq.St K N))
    (h : Reach P (Seq.ops E) cfg ritzv0 resid0 s st) (hs : Step P (Seq.ops E) cfg st st')
    (hI : FilterRuns P (Seq.ops E) cfg st I) (hI1 : I.lambda ≤ I.lower) (hI2 : I.lower < I.upper) :
    FilteredStep s.H I st.locked (cfg.nev + cfg.nex) (startDegree cfg)
      (cfg.optimization = false ∨ st.iteration = 0) st.be.C st'.be.C :=
  C64_round hP (Seq.backs hL hnev hnex hN hle hH) hmax rfl h hs hI hI1 hI2

/-- **C64** (distributed CPU backend), for every process grid and distribution: the processes hold the rows
of two sets of columns of which the second spans the filtered first. -/
theorem Mpi.C64_mpi {r c : Mpi.Layout N} {E : Mpi.MEnv K} (hc : Mpi.RunsOk r c E.cRuns)
    (hb : Mpi.RunsOk c r E.bRuns) (hP : SortsIndices P) (hL : E.base.lapack.Ok)
    (hnev : E.base.nev = cfg.nev) (hnex : E.base.nex = cfg.nex) (hN : cfg.N = N)
    (hle : cfg.nev + cfg.nex ≤ N) (hmax : Even cfg.maxDeg) {s : Mpi.Fam K r c} {g : Mpi.GSt K N}
    (hg : Mpi.Rep s g) (hH : g.H.IsHermitian) (i0 : Fin r.procs) (j0 : Fin c.procs)
    (st st' : St ℝ (Mpi.Fam K r c)) (h : Reach P (Mpi.opsAt E i0 j0) cfg ritzv0 resid0 s st)
    (hs : Step P (Mpi.opsAt E i0 j0) cfg st st') (hI : FilterRuns P (Mpi.opsAt E i0 j0) cfg st I)
    (hI1 : I.lambda ≤ I.lower) (hI2 : I.lower < I.upper) :
    ∃ X X' : ℕ → Fin N → K, (∀ i j k a, (st.be i j).C k a = X k (r.glob i a)) ∧
      (∀ i j k a, (st'.be i j).C k a = X' k (r.glob i a)) ∧
      FilteredStep g.H I st.locked (cfg.nev + cfg.nex) (startDegree cfg)
        (cfg.optimization = false ∨ st.iteration = 0) X X' := by
  have hS := Mpi.sim hc hb i0 j0
  obtain ⟨z, hz, hrel⟩ := reach_sim hS P cfg hg h
  obtain ⟨z', hz', hrel'⟩ := step_sim hS P cfg hrel hs
  have hJ := filterRuns_sim hS P cfg hrel hI
  have := C64_round hP (Mpi.backs (G := E.glob r) hL hnev hnex hN hle hH) hmax rfl hz hz' hJ hI1 hI2
  rw [← hrel.locked, ← hrel.iteration] at this
  exact ⟨z.be.C, z'.be.C, hrel.be.C, hrel'.be.C, this⟩

/-- **C64** (multi-GPU backend, the setups of C60), for every process grid and distribution: the buffers the
processes work on (`work`: in host memory, or on the device in the CUDA-aware variant) hold the rows of two
sets of columns of which the second spans the filtered first. -/
theorem Mgpu.C64_mgpu {r c : Mpi.Layout N} {E : Mgpu.GpuEnv K} (hS : E.Sound)
    (hc : Mpi.RunsOk r c E.mpi.cRuns) (hb : Mpi.RunsOk c r E.mpi.bRuns) (hP : SortsIndices P)
    (hL : E.mpi.base.lapack.Ok) (hnev : E.mpi.base.nev = cfg.nev) (hnex : E.mpi.base.nex = cfg.nex)
    (hN : cfg.N = N) (hle : cfg.nev + cfg.nex ≤ N) (hmax : Even cfg.maxDeg) {s : Mgpu.GFam K r c}
    {g : Mpi.GSt K N} (hg : Mpi.Rep (Mgpu.pview E s) g) (hH : g.H.IsHermitian) (i0 : Fin r.procs)
    (j0 : Fin c.procs) (st st' : St ℝ (Mgpu.GFam K r c))
    (h : Reach P (Mgpu.opsAt E i0 j0) cfg ritzv0 resid0 s st)
    (hs : Step P (Mgpu.opsAt E i0 j0) cfg st st') (hI : FilterRuns P (Mgpu.opsAt E i0 j0) cfg st I)
    (hI1 : I.lambda ≤ I.lower) (hI2 : I.lower < I.upper) :
    ∃ X X' : ℕ → Fin N → K, (∀ i j k a, ((st.be i j).work E.aware).C k a = X k (r.glob i a)) ∧
      (∀ i j k a, ((st'.be i j).work E.aware).C k a = X' k (r.glob i a)) ∧
      FilteredStep g.H I st.locked (cfg.nev + cfg.nex) (startDegree cfg)
        (cfg.optimization = false ∨ st.iteration = 0) X X' := by
  have hE : E.mpi.base.nevex = cfg.nev + cfg.nex := by unfold Env.nevex; rw [hnev, hnex]
  have hsim := Mgpu.sim hS hc hb i0 j0
  obtain ⟨z, hz, hrel⟩ := reach_simP hsim P cfg hE (Or.inl fun _ => trivial) hg h
  obtain ⟨z', hz', hrel'⟩ := step_simP hsim P cfg hE (Or.inl fun _ => trivial) hrel hs
  have hJ := filterRuns_simP hsim P cfg hrel hI
  have := C64_round hP (Mpi.backsWith (G := E.mpi.glob r)
    (Mgpu.refQr_like hL (by show E.mpi.base.nevex ≤ N; rw [hE]; exact hle) E.aware)
    (Mgpu.refResd_like _ _) hL hnev hnex hN hle hH) hmax rfl hz hz' hJ hI1 hI2
  rw [← hrel.1.locked, ← hrel.1.iteration] at this
  exact ⟨z.be.C, z'.be.C, hrel.1.be.rep.C, hrel'.1.be.rep.C, this⟩

/-- With Householder QR the auxiliary backend of the proofs is the backend. -/
theorem InPlace.safeOps_eq {E : Env K} {k : InPlace.Kind} (h : cholDisable E.doCholQR E.envDisable = 1) :
    (InPlace.safeOps E k : Chase ℝ (InPlace.St K N)) = InPlace.ops E k := by
  have : (InPlace.safeQr E k : ℕ → ℝ → InPlace.St K N → InPlace.St K N) = (InPlace.ops E k).qr := by
    funext m c s
    exact InPlace.safeQr_agree m c s fun hb => hb.1 h
  unfold InPlace.safeOps
  rw [this]
  rfl

/-- **C64** (in-place CPU and CUDA backends with Householder QR). -/
theorem InPlace.C64_inplace (hP : SortsIndices P) (E : Env K) (k : InPlace.Kind) (hL : E.lapack.Ok)
    (hε : 0 ≤ E.lapack.eps) (hhh : cholDisable E.doCholQR E.envDisable = 1)
    (hnev : E.nev = cfg.nev) (hnex : E.nex = cfg.nex) (hN : cfg.N = N) (hle : cfg.nev + cfg.nex ≤ N)
    (hmax : Even cfg.maxDeg) (s : InPlace.St K N) (hH : (s.userH k).IsHermitian)
    (st st' : Verif.St ℝ (InPlace.St K N))
    (h : Reach P (InPlace.ops E k) cfg ritzv0 resid0 s st) (hs : Step P (InPlace.ops E k) cfg st st')
    (hI : FilterRuns P (InPlace.ops E k) cfg st I) (hI1 : I.lambda ≤ I.lower) (hI2 : I.lower < I.upper) :
    FilteredStep (s.userH k) I st.locked (cfg.nev + cfg.nex) (startDegree cfg)
      (cfg.optimization = false ∨ st.iteration = 0) st.be.V1 st'.be.V1 := by
  have hB := InPlace.backs (k := k) hL hε hnev hnex hN hle hH
  rw [InPlace.safeOps_eq hhh] at hB
  exact C64_round hP hB hmax rfl h hs hI hI1 hI2

/-- **C64** (in-place CPU and CUDA backends with Cholesky QR): a run in which up to the end of the round no QR
call selects the shifted Cholesky variant on dependent columns (`badQr`, watched by the mark `be.2`). -/
theorem InPlace.C64_inplace_chol (hP : SortsIndices P) (E : Env K) (k : InPlace.Kind) (hL : E.lapack.Ok)
    (hε : 0 ≤ E.lapack.eps)
    (hnev : E.nev = cfg.nev) (hnex : E.nex = cfg.nex) (hN : cfg.N = N) (hle : cfg.nev + cfg.nex ≤ N)
    (hmax : Even cfg.maxDeg) (s : InPlace.St K N) (hH : (s.userH k).IsHermitian)
    (st st' : Verif.St ℝ (InPlace.St K N × Prop))
    (h : Reach P (watch (InPlace.badQr E) (InPlace.ops E k)) cfg ritzv0 resid0 (s, False) st)
    (hs : Step P (watch (InPlace.badQr E) (InPlace.ops E k)) cfg st st') (hbad : ¬ st'.be.2)
    (hI : FilterRuns P (watch (InPlace.badQr E) (InPlace.ops E k)) cfg st I)
    (hI1 : I.lambda ≤ I.lower) (hI2 : I.lower < I.upper) :
    FilteredStep (s.userH k) I st.locked (cfg.nev + cfg.nex) (startDegree cfg)
      (cfg.optimization = false ∨ st.iteration = 0) st.be.1.V1 st'.be.1.V1 := by
  obtain ⟨h1, h2⟩ := step_withQr (q := InPlace.safeQr E k) InPlace.safeQr_agree hs hbad
  exact C64_round hP (InPlace.backs (k := k) hL hε hnev hnex hN hle hH) hmax rfl
    (reach_withQr InPlace.safeQr_agree h h2) h1 (filterRuns_withQr hI) hI1 hI2

/-! ### C66 -/

/-- What is known after `rounds` rounds about an eigenvector `u` with the value `lam` below the filter
interval `I`, of which the start space contained `u + e`: the space of the columns `X` contains `u + e'`
with `e'` in the damped part of the spectrum and `‖e'‖ ≤ ‖e‖ / gain ^ rounds`; one of the values is at most
`lam + (upper - lam) (‖e‖ / ‖u‖)² / gain ^ (2 rounds)`; and none is below `lam` if `lam` is the smallest
eigenvalue. -/
structure GeometricRound (H : Matrix (Fin N) (Fin N) K) (I : Interval ℝ) (n deg rounds : ℕ) (lam : ℝ)
    (u e : Fin N → K) (vals : ℕ → ℝ) (X : ℕ → Fin N → K) : Prop where
  space : ∃ e' : Fin N → K, u + e' ∈ Submodule.span K (X '' {j | j < n}) ∧
    SupportedIn H I.lower I.upper e' ∧
    (∑ k, ‖e' k‖ ^ 2) * gain I deg lam ^ (2 * rounds) ≤ ∑ k, ‖e k‖ ^ 2
  value : ∃ i, i < n ∧ (vals i - lam) * (∑ k, ‖u k‖ ^ 2) * gain I deg lam ^ (2 * rounds) ≤
    (I.upper - lam) * ∑ k, ‖e k‖ ^ 2
  above : (∀ μ, IsEigenvalue H μ → lam ≤ μ) → ∀ i, i < n → lam ≤ vals i

/-- The start of the rounds C66 speaks about: the interval is one, the filter polynomial has no zero at an
eigenvalue, `u` is an eigenvector below the interval, and the independent start columns `X` span a space
that contains `u + e` with `e` in the damped part. -/
structure GeometricStart (H : Matrix (Fin N) (Fin N) K) (I : Interval ℝ) (n deg : ℕ) (lam : ℝ)
    (u e : Fin N → K) (X : ℕ → Fin N → K) : Prop where
  point : I.lambda ≤ I.lower
  proper : I.lower < I.upper
  nonzero : ∀ μ, IsEigenvalue H μ → gain I deg μ ≠ 0
  indep : LinearIndependent K (fun j : Fin n => X j)
  eigen : H.mulVec u = (lam : K) • u
  below : lam < I.lower
  damped : SupportedIn H I.lower I.upper e
  mem : u + e ∈ Submodule.span K (X '' {j | j < n})

theorem GeometricStart.round {S : Type*} {ops : Chase ℝ S} {cols user : S → ℕ → Fin N → K} {nl : S → ℕ}
    {ph : Phases S} {H : Matrix (Fin N) (Fin N) K} (hP : SortsIndices P)
    (hB : Backs ops cols user nl ph cfg H) (hH : H.IsHermitian) (hmax : Even cfg.maxDeg)
    (hno : cfg.optimization = false) {be : S} (hpre : ph.pre be) {st0 st st' : St ℝ S}
    (h0 : initState P ops cfg ritzv0 resid0 be = .ok st0) (hI : FilterRuns P ops cfg st0 I)
    {u e : Fin N → K} {lam : ℝ}
    (hg : GeometricStart H I (cfg.nev + cfg.nex) (startDegree cfg) lam u e (cols st0.be))
    (h : Reach P ops cfg ritzv0 resid0 be st) (hl : st.locked = 0) (hs : Step P ops cfg st st') :
    GeometricRound H I (cfg.nev + cfg.nex) (startDegree cfg) st'.iteration lam u e st'.ritzv (cols st'.be) := by
  obtain ⟨a1, a2, a3⟩ := C66_geometric hP hB hH hmax hno hpre h0 hI hg.point hg.proper hg.indep hg.nonzero
    hg.eigen hg.below hg.damped hg.mem h hl hs
  exact ⟨a1, a2, a3⟩

/-- **C66** (single process) As long as nothing is locked and degrees are not optimised, every round brings
the search space closer to the wanted eigenvectors by the factor `gain`. -/
theorem C66_seq (hP : SortsIndices P) (E : Env K) (hL : E.lapack.Ok)
    (hnev : E.nev = cfg.nev) (hnex : E.nex = cfg.nex) (hN : cfg.N = N) (hle : cfg.nev + cfg.nex ≤ N)
    (hmax : Even cfg.maxDeg) (hno : cfg.optimization = false) (s : Seq.St K N) (hH : s.H.IsHermitian)
    (st0 st st' : St ℝ (Seq.St K N))
    (h0 : initState P (Seq.ops E) cfg ritzv0 resid0 s = .ok st0) (hI : FilterRuns P (Seq.ops E) cfg st0 I)
    (lam : ℝ) (u e : Fin N → K)
    (hg : GeometricStart s.H I (cfg.nev + cfg.nex) (startDegree cfg) lam u e st0.be.C)
    (h : Reach P (Seq.ops E) cfg ritzv0 resid0 s st) (hl : st.locked = 0)
    (hs : Step P (Seq.ops E) cfg st st') :
    GeometricRound s.H I (cfg.nev + cfg.nex) (startDegree cfg) st'.iteration lam u e st'.ritzv st'.be.C :=
  hg.round hP (Seq.backs hL hnev hnex hN hle hH) hH hmax hno rfl h0 hI h hl hs

/-- **C66** (distributed CPU backend), for every process grid and distribution. -/
theorem Mpi.C66_mpi {r c : Mpi.Layout N} {E : Mpi.MEnv K} (hc : Mpi.RunsOk r c E.cRuns)
    (hb : Mpi.RunsOk c r E.bRuns) (hP : SortsIndices P) (hL : E.base.lapack.Ok)
    (hnev : E.base.nev = cfg.nev) (hnex : E.base.nex = cfg.nex) (hN : cfg.N = N)
    (hle : cfg.nev + cfg.nex ≤ N) (hmax : Even cfg.maxDeg) (hno : cfg.optimization = false)
    {s : Mpi.Fam K r c} {g : Mpi.GSt K N} (hrep : Mpi.Rep s g) (hH : g.H.IsHermitian) (i0 : Fin r.procs)
    (j0 : Fin c.procs) (st0 st st' : St ℝ (Mpi.Fam K r c))
    (h0 : initState P (Mpi.opsAt E i0 j0) cfg ritzv0 resid0 s = .ok st0)
    (hI : FilterRuns P (Mpi.opsAt E i0 j0) cfg st0 I) (lam : ℝ) (u e : Fin N → K) (X0 : ℕ → Fin N → K)
    (hX0 : ∀ i j k a, (st0.be i j).C k a = X0 k (r.glob i a))
    (hg : GeometricStart g.H I (cfg.nev + cfg.nex) (startDegree cfg) lam u e X0)
    (h : Reach P (Mpi.opsAt E i0 j0) cfg ritzv0 resid0 s st) (hl : st.locked = 0)
    (hs : Step P (Mpi.opsAt E i0 j0) cfg st st') :
    ∃ X : ℕ → Fin N → K, (∀ i j k a, (st'.be i j).C k a = X k (r.glob i a)) ∧
      GeometricRound g.H I (cfg.nev + cfg.nex) (startDegree cfg) st'.iteration lam u e st'.ritzv X := by
  have hS := Mpi.sim hc hb i0 j0
  obtain ⟨z0, hz0, hrel0⟩ := init_sim hS P cfg hrep h0
  obtain ⟨z, hz, hrel⟩ := reach_sim hS P cfg hrep h
  obtain ⟨z', hz', hrel'⟩ := step_sim hS P cfg hrel hs
  have hJ := filterRuns_sim hS P cfg hrel0 hI
  have hX : X0 = z0.be.C := by
    funext k x
    obtain ⟨⟨i, a⟩, ha⟩ := r.bij.2 x
    dsimp only at ha
    rw [← ha, ← hX0 i j0 k a, hrel0.be.C]
  rw [hX] at hg
  have := hg.round hP (Mpi.backs (G := E.glob r) hL hnev hnex hN hle hH) hH hmax hno rfl hz0 hJ hz
    (by rw [← hrel.locked]; exact hl) hz'
  rw [← hrel'.iteration, ← hrel'.ritzv] at this
  exact ⟨z'.be.C, hrel'.be.C, this⟩

/-- **C66** (multi-GPU backend, the setups of C60), for every process grid and distribution, about the buffers
the processes work on. -/
theorem Mgpu.C66_mgpu {r c : Mpi.Layout N} {E : Mgpu.GpuEnv K} (hS : E.Sound)
    (hc : Mpi.RunsOk r c E.mpi.cRuns) (hb : Mpi.RunsOk c r E.mpi.bRuns) (hP : SortsIndices P)
    (hL : E.mpi.base.lapack.Ok) (hnev : E.mpi.base.nev = cfg.nev) (hnex : E.mpi.base.nex = cfg.nex)
    (hN : cfg.N = N) (hle : cfg.nev + cfg.nex ≤ N) (hmax : Even cfg.maxDeg)
    (hno : cfg.optimization = false) {s : Mgpu.GFam K r c} {g : Mpi.GSt K N}
    (hrep : Mpi.Rep (Mgpu.pview E s) g) (hH : g.H.IsHermitian) (i0 : Fin r.procs)
    (j0 : Fin c.procs) (st0 st st' : St ℝ (Mgpu.GFam K r c))
    (h0 : initState P (Mgpu.opsAt E i0 j0) cfg ritzv0 resid0 s = .ok st0)
    (hI : FilterRuns P (Mgpu.opsAt E i0 j0) cfg st0 I) (lam : ℝ) (u e : Fin N → K) (X0 : ℕ → Fin N → K)
    (hX0 : ∀ i j k a, ((st0.be i j).work E.aware).C k a = X0 k (r.glob i a))
    (hg : GeometricStart g.H I (cfg.nev + cfg.nex) (startDegree cfg) lam u e X0)
    (h : Reach P (Mgpu.opsAt E i0 j0) cfg ritzv0 resid0 s st) (hl : st.locked = 0)
    (hs : Step P (Mgpu.opsAt E i0 j0) cfg st st') :
    ∃ X : ℕ → Fin N → K, (∀ i j k a, ((st'.be i j).work E.aware).C k a = X k (r.glob i a)) ∧
      GeometricRound g.H I (cfg.nev + cfg.nex) (startDegree cfg) st'.iteration lam u e st'.ritzv X := by
  have hE : E.mpi.base.nevex = cfg.nev + cfg.nex := by unfold Env.nevex; rw [hnev, hnex]
  have hsim := Mgpu.sim hS hc hb i0 j0
  obtain ⟨z0, hz0, hrel0⟩ := init_simP hsim P cfg hE hrep h0
  obtain ⟨z, hz, hrel⟩ := reach_simP hsim P cfg hE (Or.inl fun _ => trivial) hrep h
  obtain ⟨z', hz', hrel'⟩ := step_simP hsim P cfg hE (Or.inl fun _ => trivial) hrel hs
  have hJ := filterRuns_simP hsim P cfg hrel0 hI
  have hX : X0 = z0.be.C := by
    funext k x
    obtain ⟨⟨i, a⟩, ha⟩ := r.bij.2 x
    dsimp only at ha
    rw [← ha, ← hX0 i j0 k a]
    exact hrel0.1.be.rep.C i j0 k a
  rw [hX] at hg
  have := hg.round hP (Mpi.backsWith (G := E.mpi.glob r)
    (Mgpu.refQr_like hL (by show E.mpi.base.nevex ≤ N; rw [hE]; exact hle) E.aware)
    (Mgpu.refResd_like _ _) hL hnev hnex hN hle hH) hH hmax hno rfl hz0 hJ hz
    (by rw [← hrel.1.locked]; exact hl) hz'
  rw [← hrel'.1.iteration, ← hrel'.1.ritzv] at this
  exact ⟨z'.be.C, hrel'.1.be.rep.C, this⟩

/-- **C66** (in-place CPU and CUDA backends with Householder QR). -/
theorem InPlace.C66_inplace (hP : SortsIndices P) (E : Env K) (k : InPlace.Kind) (hL : E.lapack.Ok)
    (hε : 0 ≤ E.lapack.eps) (hhh : cholDisable E.doCholQR E.envDisable = 1)
    (hnev : E.nev = cfg.nev) (hnex : E.nex = cfg.nex) (hN : cfg.N = N) (hle : cfg.nev + cfg.nex ≤ N)
    (hmax : Even cfg.maxDeg) (hno : cfg.optimization = false) (s : InPlace.St K N)
    (hH : (s.userH k).IsHermitian) (st0 st st' : Verif.St ℝ (InPlace.St K N))
    (h0 : initState P (InPlace.ops E k) cfg ritzv0 resid0 s = .ok st0)
    (hI : FilterRuns P (InPlace.ops E k) cfg st0 I) (lam : ℝ) (u e : Fin N → K)
    (hg : GeometricStart (s.userH k) I (cfg.nev + cfg.nex) (startDegree cfg) lam u e st0.be.V1)
    (h : Reach P (InPlace.ops E k) cfg ritzv0 resid0 s st) (hl : st.locked = 0)
    (hs : Step P (InPlace.ops E k) cfg st st') :
    GeometricRound (s.userH k) I (cfg.nev + cfg.nex) (startDegree cfg) st'.iteration lam u e st'.ritzv
      st'.be.V1 := by
  have hB := InPlace.backs (k := k) hL hε hnev hnex hN hle hH
  rw [InPlace.safeOps_eq hhh] at hB
  exact hg.round hP hB hH hmax hno rfl h0 hI h hl hs

/-- **C66** (in-place CPU and CUDA backends with Cholesky QR), for runs without a bad QR call as in
`C64_inplace_chol`. -/
theorem InPlace.C66_inplace_chol (hP : SortsIndices P) (E : Env K) (k : InPlace.Kind) (hL : E.lapack.Ok)
    (hε : 0 ≤ E.lapack.eps)
    (hnev : E.nev = cfg.nev) (hnex : E.nex = cfg.nex) (hN : cfg.N = N) (hle : cfg.nev + cfg.nex ≤ N)
    (hmax : Even cfg.maxDeg) (hno : cfg.optimization = false) (s : InPlace.St K N)
    (hH : (s.userH k).IsHermitian) (st0 st st' : Verif.St ℝ (InPlace.St K N × Prop))
    (h0 : initState P (watch (InPlace.badQr E) (InPlace.ops E k)) cfg ritzv0 resid0 (s, False) = .ok st0)
    (hI : FilterRuns P (watch (InPlace.badQr E) (InPlace.ops E k)) cfg st0 I) (lam : ℝ) (u e : Fin N → K)
    (hg : GeometricStart (s.userH k) I (cfg.nev + cfg.nex) (startDegree cfg) lam u e st0.be.1.V1)
    (h : Reach P (watch (InPlace.badQr E) (InPlace.ops E k)) cfg ritzv0 resid0 (s, False) st)
    (hl : st.locked = 0) (hs : Step P (watch (InPlace.badQr E) (InPlace.ops E k)) cfg st st')
    (hbad : ¬ st'.be.2) :
    GeometricRound (s.userH k) I (cfg.nev + cfg.nex) (startDegree cfg) st'.iteration lam u e st'.ritzv
      st'.be.1.V1 := by
  obtain ⟨h1, h2⟩ := step_withQr (q := InPlace.safeQr E k) InPlace.safeQr_agree hs hbad
  have := GeometricStart.round (st0 := st0.bare) hP (InPlace.backs (k := k) hL hε hnev hnex hN hle hH) hH hmax
    hno rfl (init_withQr InPlace.safeQr_agree h0 (reach_mark h0 h h2)) (filterRuns_withQr hI) hg
    (reach_withQr InPlace.safeQr_agree h h2) hl h1
  exact this

end Rounds

end Verif
