/-
C86: a failure reported by a library routine does not become a result.

`OkWhen L I` says that a routine is right when it reports success; what it leaves after reporting a failure
is arbitrary.  In a build with assertions of the CPU backends every solve that returns has the certified
results of C50, C41; without assertions, and on the GPU backends in every build, it need not.
-/
import Verif.Backend.StatusBlank
import Verif.Backend.UserArray

namespace Verif

open Matrix

variable {K : Type*} [RCLike K] {N : ℕ}

/-! ### Builds with assertions -/

/-- **C86** (sequential backend, build with assertions).  LAPACK may fail whenever it reports it.  A solve that
returns has, if there was a round, certified pairs in the user's array, and the matrix is what it was. -/
theorem C86_seq (P : Plat ℝ) (hP : SortsIndices P) (E : Env K) (I : Info K) (hL : E.lapack.OkWhen I)
    (cfg : Config ℝ) (hnev : E.nev = cfg.nev) (hnex : E.nex = cfg.nex) (hN : cfg.N = N)
    (hle : cfg.nev + cfg.nex ≤ N) (hmax : Even cfg.maxDeg) (ritzv0 resid0 : ℕ → ℝ) (s : Seq.St K N)
    (hH : s.H.IsHermitian) (out : Outcome ℝ (Seq.St K N))
    (h : solveBuild true P (Seq.ops E) (Seq.fails I .cpu E) cfg ritzv0 resid0 s = some (.ok out)) :
    out.be.H = s.H ∧
    (0 < out.iterations →
      CertifiedPairs s.H cfg.nev (cfg.nev + cfg.nex) out.ritzv out.resid out.be.C) :=
  C50_seq P hP { E with lapack := E.lapack.repaired I } (Lapack.repaired_ok hL) cfg hnev hnex hN hle hmax
    ritzv0 resid0 s hH out (solveBuild_some (Seq.agree I.covered_cpu E) h)

/-- Which statuses the in-place backends look at. -/
def InPlace.Kind.asserted : InPlace.Kind → Asserted
  | .cpu => .cpu
  | .cuda => .cuda

/-- **C86** (partial, in-place CPU and single-GPU backend, build with assertions).  On the CPU `I.Covered` holds
always (`Info.covered_cpu`); on the GPU it says that Householder QR and the eigensolver never fail, without
which the claim is false (`C86_cuda_refuted`).  The other limits are those of `C41_inplace_partial`. -/
theorem C86_inplace_partial (P : Plat ℝ) (hP : SortsIndices P) (E : Env K) (k : InPlace.Kind) (I : Info K)
    (hL : E.lapack.OkWhen I) (hI : I.Covered k.asserted) (hε : 0 ≤ E.lapack.eps) (cfg : Config ℝ)
    (hnev : E.nev = cfg.nev) (hnex : E.nex = cfg.nex) (hN : cfg.N = N) (hle : cfg.nev + cfg.nex ≤ N)
    (hmax : Even cfg.maxDeg) (ritzv0 resid0 : ℕ → ℝ) (s : InPlace.St K N)
    (hq : QrAvoids P (InPlace.ops E k) cfg ritzv0 resid0 s (InPlace.badQr E))
    (hH : (s.userH k).IsHermitian) (hfl : s.flipped = false) (out : Outcome ℝ (InPlace.St K N))
    (h : solveBuild true P (InPlace.ops E k) (InPlace.fails I k.asserted E k) cfg ritzv0 resid0 s =
      some (.ok out)) :
    out.be.userH k = s.userH k ∧
    (0 < out.iterations →
      CertifiedPairs (s.userH k) cfg.nev (cfg.nev + cfg.nex) out.ritzv out.resid out.be.V1) ∧
    ((k = .cuda ∨ out.iterations % 2 = 0) →
      ∀ j, j < cfg.nev + cfg.nex → out.be.userV k j = out.be.V1 j) :=
  C41_inplace_partial P hP { E with lapack := E.lapack.repaired I } k (Lapack.repaired_ok hL) hε cfg hnev hnex
    hN hle hmax ritzv0 resid0 s (solveBuild_avoids (InPlace.agree hI E k) h hq) hH hfl out
    (solveBuild_some (InPlace.agree hI E k) h)

/-- **C86** (partial, distributed CPU backend, build with assertions).  If no process is aborted, the results
are those of `C50_mpi_partial`; missing is what is missing there (the order of the vectors). -/
theorem Mpi.C86_mpi_partial {r c : Mpi.Layout N} {E : Mpi.MEnv K} (hc : Mpi.RunsOk r c E.cRuns)
    (hb : Mpi.RunsOk c r E.bRuns) (P : Plat ℝ) (hP : SortsIndices P) (hkeep : SortKeepsSorted P) (I : Info K)
    (hL : E.base.lapack.OkWhen I) (ht : 0 ≤ E.symTol) (cfg : Config ℝ) (hnev : E.base.nev = cfg.nev)
    (hnex : E.base.nex = cfg.nex) (hN : cfg.N = N) (hle : cfg.nev + cfg.nex ≤ N) (hmax : Even cfg.maxDeg)
    (ritzv0 resid0 : ℕ → ℝ) {s : Mpi.Fam K r c} {g : Mpi.GSt K N} (h : Mpi.Rep s g) (hH : g.H.IsHermitian)
    (i0 : Fin r.procs) (j0 : Fin c.procs) (out : Outcome ℝ (Mpi.Fam K r c))
    (ho : solveBuild true P (Mpi.opsAt E i0 j0) (Mpi.fails I .cpu E j0) cfg ritzv0 resid0 s =
      some (.ok out)) :
    (∀ i j, (out.be i j).H = (s i j).H) ∧
    ∃ X : ℕ → Fin N → K, (∀ i j k a, (out.be i j).C k a = X k (r.glob i a)) ∧
      (0 < out.iterations →
        (∀ k l, k < cfg.nev + cfg.nex → l < cfg.nev + cfg.nex →
          ∑ x, star (X k x) * X l x = if k = l then 1 else 0) ∧
        ∃ σ : Equiv.Perm ℕ, (∀ i, cfg.nev ≤ i → σ i = i) ∧ (out.iterations = 1 → σ = 1) ∧
          CertifiedPairs g.H cfg.nev (cfg.nev + cfg.nex) out.ritzv out.resid (X ∘ σ)) :=
  Mpi.C50_mpi_partial (E := E.withLapack (E.base.lapack.repaired I)) hc hb P hP hkeep
    (Lapack.repaired_ok hL) ht cfg hnev hnex hN hle hmax ritzv0 resid0 h hH i0 j0 out
    (solveBuild_some (Mpi.agree I.covered_cpu E i0 j0) ho)

/-- **C86** (partial, multi-GPU backend, build with assertions).  `hI`: the eigensolver on the device never
fails; without it the claim is false (`Mgpu.C86_mgpu_refuted`).  The other limits are those of
`C60_mgpu_partial`. -/
theorem Mgpu.C86_mgpu_partial {r c : Mpi.Layout N} {E : Mgpu.GpuEnv K} (hS : E.Sound)
    (hc : Mpi.RunsOk r c E.mpi.cRuns) (hb : Mpi.RunsOk c r E.mpi.bRuns) (P : Plat ℝ) (hP : SortsIndices P)
    (hkeep : SortKeepsSorted P) (I : Info K) (hL : E.mpi.base.lapack.OkWhen I) (hI : I.Covered .mgpu)
    (ht : 0 ≤ E.mpi.symTol) (cfg : Config ℝ) (hnev : E.mpi.base.nev = cfg.nev)
    (hnex : E.mpi.base.nex = cfg.nex) (hN : cfg.N = N) (hle : cfg.nev + cfg.nex ≤ N) (hmax : Even cfg.maxDeg)
    (ritzv0 resid0 : ℕ → ℝ) {s : Mgpu.GFam K r c} {g : Mpi.GSt K N} (h : Mpi.Rep (Mgpu.pview E s) g)
    (hH : g.H.IsHermitian) (i0 : Fin r.procs) (j0 : Fin c.procs) (out : Outcome ℝ (Mgpu.GFam K r c))
    (ho : solveBuild true P (Mgpu.opsAt E i0 j0) (Mgpu.fails I .mgpu E j0) cfg ritzv0 resid0 s =
      some (.ok out)) :
    (∀ i j, (out.be i j).host.H = (s i j).host.H) ∧ (0 < out.iterations →
      ∃ X : ℕ → Fin N → K,
        (∀ i j k, k < cfg.nev → ∀ a, (out.be i j).host.C k a = X k (r.glob i a)) ∧
        (∀ k l, k < cfg.nev + cfg.nex → l < cfg.nev + cfg.nex →
          ∑ x, star (X k x) * X l x = if k = l then 1 else 0) ∧
        ∃ σ : Equiv.Perm ℕ, (∀ i, cfg.nev ≤ i → σ i = i) ∧ (out.iterations = 1 → σ = 1) ∧
          CertifiedPairs g.H cfg.nev (cfg.nev + cfg.nex) out.ritzv out.resid (X ∘ σ)) :=
  Mgpu.C60_mgpu_partial (E := E.withLapack (E.mpi.base.lapack.repaired I)) hS hc hb P hP hkeep
    (Lapack.repaired_ok hL) ht cfg hnev hnex hN hle hmax ritzv0 resid0 h hH i0 j0 out
    (solveBuild_some (Mgpu.agree hI E i0 j0) ho)

/-! ### No abort without a failure -/

/-- A QR meets nothing that does not exist. -/
theorem not_qrMeets {S : Type*} {r : QrRoutines S} {bad : S → Prop} (h : ∀ s, ¬ bad s) (d : Bool)
    (e : Option ℤ) (a b : Bool) (s : S) : ¬ qrMeets r bad d e a b s := by
  have key : ∀ f : ℤ × (S × Prop), ¬ f.2.2 →
      ¬ (if f.1 ≠ 0 then (r.marked bad).lockCopy true ((r.marked bad).hhQR f.2)
        else (r.marked bad).lockCopy false f.2).2 := by
    intro f hf
    split_ifs
    · exact fun hx => hx.elim hf (h _)
    · exact hf
  unfold qrMeets qrSelect
  by_cases hd : cholDisable d e = 1
  · rw [if_pos hd]
    exact fun hx => hx.elim id (h s)
  · rw [if_neg hd]
    cases a
    · cases b
      · exact key ((r.marked bad).cholQR2 (s, False)) id
      · exact key ((r.marked bad).cholQR1 (s, False)) id
    · exact key ((r.marked bad).shiftedcholQR2 (s, False)) id

/-- Every routine reports success on every argument. -/
structure Info.AllZero (I : Info K) : Prop where
  hhqr : ∀ {m n : ℕ} (V : Matrix (Fin m) (Fin n) K), I.hhqr V = 0
  heevd : ∀ {n : ℕ} (A : Matrix (Fin n) (Fin n) K), I.heevd A = 0
  stemr : ∀ (M : ℕ) (d e : ℕ → ℝ), I.stemr M d e = 0

/-- What an assertion looks at is zero: weaker than `AllZero` on the GPU backends. -/
structure Info.ZeroOn (I : Info K) (a : Asserted) : Prop where
  hhqr : a.hhqr = true → ∀ {m n : ℕ} (V : Matrix (Fin m) (Fin n) K), I.hhqr V = 0
  heevd : a.heevd = true → ∀ {n : ℕ} (A : Matrix (Fin n) (Fin n) K), I.heevd A = 0
  stemr : a.stemr = true → ∀ (M : ℕ) (d e : ℕ → ℝ), I.stemr M d e = 0

theorem Info.AllZero.on {I : Info K} (h : I.AllZero) (a : Asserted) : I.ZeroOn a :=
  ⟨fun _ => h.hhqr, fun _ => h.heevd, fun _ => h.stemr⟩

section
variable {I : Info K} {a : Asserted} (hI : I.ZeroOn a)
include hI

theorem Seq.not_fails (E : Env K) (q : Req ℝ) (s : Seq.St K N) : ¬ Seq.fails I a E q s := by
  cases q
  case qr => exact not_qrMeets (fun _ hb => hb.2 (hI.hhqr hb.1 _)) _ _ _ _ _
  case lanczos1 => exact fun hb => hb.2 (hI.stemr hb.1 _ _ _)
  case lanczosN => exact fun hb => by obtain ⟨h1, i, -, h2⟩ := hb; exact h2 (hI.stemr h1 _ _ _)
  case rr => exact fun hb => hb.2 (hI.heevd hb.1 _)
  all_goals exact id

theorem InPlace.not_fails (E : Env K) (k : InPlace.Kind) (q : Req ℝ) (s : InPlace.St K N) :
    ¬ InPlace.fails I a E k q s := by
  cases q
  case qr => exact not_qrMeets (fun _ hb => hb.2 (hI.hhqr hb.1 _)) _ _ _ _ _
  case lanczos1 => exact fun hb => hb.2 (hI.stemr hb.1 _ _ _)
  case lanczosN => exact fun hb => by obtain ⟨h1, i, -, h2⟩ := hb; exact h2 (hI.stemr h1 _ _ _)
  case rr => exact fun hb => hb.2 (hI.heevd hb.1 _)
  all_goals exact id

theorem Mpi.not_fails {r c : Mpi.Layout N} (E : Mpi.MEnv K) (j0 : Fin c.procs) (q : Req ℝ)
    (s : Mpi.Fam K r c) : ¬ Mpi.fails I a E j0 q s := by
  cases q
  case qr =>
    exact not_qrMeets (fun _ hb => by obtain ⟨h1, j, h2⟩ := hb; exact h2 (hI.hhqr h1 _)) _ _ _ _ _
  case lanczos1 => exact fun hb => by obtain ⟨i, j, h1, h2⟩ := hb; exact h2 (hI.stemr h1 _ _ _)
  case lanczosN =>
    exact fun hb => by obtain ⟨i, j, h1, k, -, h2⟩ := hb; exact h2 (hI.stemr h1 _ _ _)
  case rr => exact fun hb => by obtain ⟨h1, i, j, h2⟩ := hb; exact h2 (hI.heevd h1 _)
  all_goals exact id

theorem Mgpu.not_fails {r c : Mpi.Layout N} (E : Mgpu.GpuEnv K) (j0 : Fin c.procs) (q : Req ℝ)
    (s : Mgpu.GFam K r c) : ¬ Mgpu.fails I a E j0 q s := by
  cases q
  case qr =>
    exact not_qrMeets (fun _ hb => by obtain ⟨h1, j, h2⟩ := hb; exact h2 (hI.hhqr h1 _)) _ _ _ _ _
  case lanczos1 => exact fun hb => by obtain ⟨i, j, h1, h2⟩ := hb; exact h2 (hI.stemr h1 _ _ _)
  case lanczosN =>
    exact fun hb => by obtain ⟨i, j, h1, k, -, h2⟩ := hb; exact h2 (hI.stemr h1 _ _ _)
  case rr => exact fun hb => by obtain ⟨h1, i, j, h2⟩ := hb; exact h2 (hI.heevd h1 _)
  all_goals exact id

end

/-- **C86**: no backend aborts without a failure.  If the routines report success on all arguments, a build with
assertions does exactly what a build without them does. -/
theorem C86_no_abort {I : Info K} (hI : I.AllZero) (P : Plat ℝ) (E : Env K) (k : InPlace.Kind)
    {r c : Mpi.Layout N} (M : Mpi.MEnv K) (G : Mgpu.GpuEnv K) (i0 : Fin r.procs) (j0 : Fin c.procs)
    (cfg : Config ℝ) (ritzv0 resid0 : ℕ → ℝ) :
    (∀ s : Seq.St K N, solveBuild true P (Seq.ops E) (Seq.fails I .cpu E) cfg ritzv0 resid0 s =
      some (solve P (Seq.ops E) cfg ritzv0 resid0 s)) ∧
    (∀ s : InPlace.St K N, solveBuild true P (InPlace.ops E k) (InPlace.fails I k.asserted E k) cfg ritzv0
      resid0 s = some (solve P (InPlace.ops E k) cfg ritzv0 resid0 s)) ∧
    (∀ s : Mpi.Fam K r c, solveBuild true P (Mpi.opsAt M i0 j0) (Mpi.fails I .cpu M j0) cfg ritzv0 resid0 s =
      some (solve P (Mpi.opsAt M i0 j0) cfg ritzv0 resid0 s)) ∧
    ∀ s : Mgpu.GFam K r c, solveBuild true P (Mgpu.opsAt G i0 j0) (Mgpu.fails I .mgpu G j0) cfg ritzv0
      resid0 s = some (solve P (Mgpu.opsAt G i0 j0) cfg ritzv0 resid0 s) :=
  ⟨fun s => solveBuild_never (Seq.not_fails (hI.on _) E) true cfg ritzv0 resid0 s,
    fun s => solveBuild_never (InPlace.not_fails (hI.on _) E k) true cfg ritzv0 resid0 s,
    fun s => solveBuild_never (Mpi.not_fails (hI.on _) M j0) true cfg ritzv0 resid0 s,
    fun s => solveBuild_never (Mgpu.not_fails (hI.on _) G j0) true cfg ritzv0 resid0 s⟩

/-! ### Where failures become results -/

/-- Statuses of routines of which only the eigensolver fails, always. -/
def Info.eigFails (K : Type*) : Info K := ⟨fun _ => 0, fun _ => 1, fun _ _ _ => 0⟩

/-- The other routines ideal; the eigensolver leaves zeros. -/
noncomputable def Lapack.eigFails (K : Type*) [RCLike K] : Lapack K :=
  { Lapack.ideal K (fun j i => (j + i : ℕ)) (fun i => (i : ℕ)) 0 with heevd := fun _ => (fun _ => 0, 0) }

theorem Lapack.eigFails_ok : (Lapack.eigFails K).OkWhen (Info.eigFails K) where
  potrf := (Lapack.ideal_ok (K := K) (fun j i => (j + i : ℕ)) (fun i => (i : ℕ)) 0).potrf
  hhqr := fun V hn _ => (Lapack.ideal_ok (K := K) (fun j i => (j + i : ℕ)) (fun i => (i : ℕ)) 0).hhqr V hn
  heevd := fun A _ h => absurd h one_ne_zero
  stemr := fun M d e _ =>
    (Lapack.ideal_ok (K := K) (fun j i => (j + i : ℕ)) (fun i => (i : ℕ)) 0).stemr M d e

theorem Lapack.eigFails_givesUp : (Lapack.eigFails K).GivesUp := fun _ => rfl

/-- The environment of the examples (`exEnv`) with that LAPACK. -/
noncomputable def failEnv (K : Type*) [RCLike K] : Env K := { exEnv K with lapack := Lapack.eigFails K }

theorem exCfg_tol (m : ℕ) : ¬ (0 : ℝ) > (exCfg m).tol := by
  have : (exCfg m).tol = Config.initTolerance .d := rfl
  rw [this, Config.initTolerance]
  norm_num

/-- Zero vectors are not certified pairs. -/
theorem not_certified {H : Matrix (Fin N) (Fin N) K} {nev n : ℕ} {vals resid : ℕ → ℝ} {X : ℕ → Fin N → K}
    (hn : 0 < n) (h : X 0 = 0) : ¬ CertifiedPairs H nev n vals resid X := fun hc => by
  have := hc.1 0 0 hn hn
  rw [h] at this
  simp at this

/-- **C86** fails in a build without assertions (`NDEBUG`, as in CMake's build type `Release`).  Sequential
backend: whatever the Hermitian matrix, the eigensolver reports a failure in its first call, and the solve
returns after one round with all wanted pairs declared converged: values, residuals and vectors are zero.
The build with assertions is aborted. -/
theorem C86_seq_ndebug_refuted (H : Matrix (Fin 7) (Fin 7) K) (hH : H.IsHermitian) :
    ∃ (I : Info K) (E : Env K) (s : Seq.St K 7) (out : Outcome ℝ (Seq.St K 7)),
      E.lapack.OkWhen I ∧ s.H = H ∧
      solveBuild false (realPlat 1 id) (Seq.ops E) (Seq.fails I .cpu E) (exCfg 4) (fun _ => 0) (fun _ => 0) s =
        some (.ok out) ∧
      out.iterations = 1 ∧ out.locked = 3 ∧
      (∀ i, i < 5 → out.ritzv i = 0 ∧ out.resid i = 0 ∧ out.be.C i = 0) ∧
      ¬ CertifiedPairs H 3 5 out.ritzv out.resid out.be.C ∧
      solveBuild true (realPlat 1 id) (Seq.ops E) (Seq.fails I .cpu E) (exCfg 4) (fun _ => 0) (fun _ => 0) s =
        none := by
  let s : Seq.St K 7 := ⟨H, fun _ _ => 0, fun _ _ => 0, fun _ _ => 0, fun _ _ => 0, .bAc, 0, true⟩
  have hsym : (exCfg 4).symCheck = true → ((Seq.ops (failEnv K)).checkSymmetryEasy s).1 = true :=
    fun _ => C09_hermitian_accepted (failEnv K).lapack _ hH
  obtain ⟨out, ho, hpos⟩ := C51_approx_solve_defined (realPlat 1 id) (Seq.ops (failEnv K)) (exCfg 4) rfl
    (by decide) (by decide) (by decide) (by decide) (by decide) (by decide) (by decide)
    (fun h => absurd h (by decide)) (fun _ => 0) (fun _ => 0) s
  have hp := hpos hsym (by decide)
  obtain ⟨b1, b2, b3, b4, b5⟩ := (Seq.blanks (N := 7) (E := failEnv K) Lapack.eigFails_givesUp).solve
    (fun u key k hk => (realPlat_sorts 1 id u key).1 k hk) (cfg := exCfg 4) rfl (exCfg_tol 4) hsym ho hp
  have hz : out.be.C 0 = 0 := b5 0 (by show 0 < 5; decide)
  refine ⟨Info.eigFails K, failEnv K, s, out, Lapack.eigFails_ok, rfl, congrArg some ho, b1, b2,
    fun i hi => ⟨b3 i hi, b4 i hi, b5 i hi⟩, not_certified (by decide) hz, ?_⟩
  cases hb : solveBuild true (realPlat 1 id) (Seq.ops (failEnv K))
    (Seq.fails (Info.eigFails K) .cpu (failEnv K)) (exCfg 4) (fun _ => 0) (fun _ => 0) s with
  | none => rfl
  | some x =>
    exfalso
    have e := solveBuild_some (ops' := Seq.ops (failEnv K)) (fun _ _ _ => rfl) hb
    rw [ho] at e
    subst e
    exact not_certified (by decide) hz ((C86_seq (realPlat 1 id) (realPlat_sorts _ _) (failEnv K)
      (Info.eigFails K) Lapack.eigFails_ok (exCfg 4) rfl rfl rfl (by decide) (by decide) _ _ s hH out hb).2 hp)

/-- **C86** fails on the single-GPU backend in a build with assertions: whatever the Hermitian matrix, the
eigensolver on the device reports a failure, nobody reads the report, and the solve returns after one round
with all wanted pairs declared converged; values, residuals and the vectors in the user's array are zero. -/
theorem C86_cuda_refuted (H : Matrix (Fin 7) (Fin 7) K) (hH : H.IsHermitian) :
    ∃ (I : Info K) (E : Env K) (s : InPlace.St K 7) (out : Outcome ℝ (InPlace.St K 7)),
      E.lapack.OkWhen I ∧ s.userH .cuda = H ∧
      solveBuild true (realPlat 1 id) (InPlace.ops E .cuda) (InPlace.fails I .cuda E .cuda) (exCfg 4)
        (fun _ => 0) (fun _ => 0) s = some (.ok out) ∧
      out.iterations = 1 ∧ out.locked = 3 ∧
      (∀ i, i < 5 → out.ritzv i = 0 ∧ out.resid i = 0 ∧ out.be.userV .cuda i = 0) ∧
      ¬ CertifiedPairs H 3 5 out.ritzv out.resid (out.be.userV .cuda) := by
  let s : InPlace.St K 7 := ⟨H, H, fun _ _ => 0, fun _ _ => 0, fun _ _ => 0, false, fun _ => 0, 0, true⟩
  have hsym : (exCfg 4).symCheck = true → ((InPlace.ops (failEnv K) .cuda).checkSymmetryEasy s).1 = true :=
    fun _ => C09_hermitian_accepted (failEnv K).lapack _ hH
  obtain ⟨out, ho, hpos⟩ := C51_approx_solve_defined (realPlat 1 id) (InPlace.ops (failEnv K) .cuda) (exCfg 4)
    rfl (by decide) (by decide) (by decide) (by decide) (by decide) (by decide) (by decide)
    (fun h => absurd h (by decide)) (fun _ => 0) (fun _ => 0) s
  have hp := hpos hsym (by decide)
  obtain ⟨b1, b2, b3, b4, b5⟩ := (InPlace.blanks (N := 7) (E := failEnv K) (k := .cuda)
    Lapack.eigFails_givesUp).solve (fun u key k hk => (realPlat_sorts 1 id u key).1 k hk) (cfg := exCfg 4) rfl
    (exCfg_tol 4) hsym ho hp
  refine ⟨Info.eigFails K, failEnv K, s, out, Lapack.eigFails_ok, rfl, ?_, b1, b2,
    fun i hi => ⟨b3 i hi, b4 i hi, (b5 i hi).2 rfl⟩, not_certified (by decide) ((b5 0 (by show 0 < 5; decide)).2 rfl)⟩
  rw [solveBuild_never (InPlace.not_fails (a := .cuda)
    ⟨nofun, nofun, fun _ _ _ _ => rfl⟩ (failEnv K) .cuda), ho]

/-- The parameters of the examples for the distributed backends with that LAPACK. -/
noncomputable def failMEnv (K : Type*) [RCLike K] : Mpi.MEnv K := { Mpi.exMEnv K with base := failEnv K }

/-- **C86** fails in a build without assertions on the distributed backend: on every process all wanted pairs
are declared converged after one round, with zeros for values, residuals and vectors. -/
theorem Mpi.C86_mpi_ndebug_refuted (H : Matrix (Fin 7) (Fin 7) K) (hH : H.IsHermitian) :
    let r := Mpi.cyclicLayout Mpi.exRow
    let c := Mpi.cyclicLayout Mpi.exCol
    ∃ (I : Info K) (E : Mpi.MEnv K) (g : Mpi.GSt K 7) (s : Mpi.Fam K r c), E.base.lapack.OkWhen I ∧
      Mpi.RunsOk r c E.cRuns ∧ Mpi.RunsOk c r E.bRuns ∧ Mpi.Rep s g ∧ g.H = H ∧
      ∀ (i0 : Fin r.procs) (j0 : Fin c.procs), ∃ out : Outcome ℝ (Mpi.Fam K r c),
        solveBuild false (realPlat 1 id) (Mpi.opsAt E i0 j0) (Mpi.fails I .cpu E j0) (exCfg 4)
          (fun _ => 0) (fun _ => 0) s = some (.ok out) ∧
        out.iterations = 1 ∧ out.locked = 3 ∧
        ∀ k, k < 5 → out.ritzv k = 0 ∧ out.resid k = 0 ∧ ∀ i j, (out.be i j).C k = 0 := by
  intro r c
  let g : Mpi.GSt K 7 := ⟨⟨H, fun _ _ => 0, fun _ _ => 0, fun _ _ => 0, fun _ _ => 0, .bAc, 0, true⟩, true⟩
  have hr := Mpi.exRuns K
  have hrep : Mpi.Rep (Mpi.scatter r c g) g := Mpi.scatter_rep _ _ g
  refine ⟨Info.eigFails K, failMEnv K, g, Mpi.scatter r c g, Lapack.eigFails_ok, hr.1, hr.2, hrep, rfl,
    fun i0 j0 => ?_⟩
  have hsym : (exCfg 4).symCheck = true →
      ((Mpi.opsAt (failMEnv K) i0 j0).checkSymmetryEasy (Mpi.scatter r c g)).1 = true := fun _ =>
    Mpi.C09_mpi_hermitian_accepted (E := failMEnv K) hr.1 hr.2 (fun _ _ _ _ => rfl) hH (le_refl _)
  obtain ⟨out, ho, hpos⟩ := C51_approx_solve_defined (realPlat 1 id)
    (Mpi.opsAt (r := r) (c := c) (failMEnv K) i0 j0) (exCfg 4) rfl
    (by decide) (by decide) (by decide) (by decide) (by decide) (by decide) (by decide)
    (fun h => absurd h (by decide)) (fun _ => 0) (fun _ => 0) (Mpi.scatter r c g)
  have hp := hpos hsym (by decide)
  refine ⟨out, congrArg some ho, ?_⟩
  have h0 := solve_sim (Mpi.sim (E := failMEnv K) hr.1 hr.2 i0 j0) (realPlat 1 id) (exCfg 4) (fun _ => 0)
    (fun _ => 0) hrep
  rw [ho] at h0
  generalize hz : solve (realPlat 1 id) (Mpi.gOps ((failMEnv K).glob r)) (exCfg 4) (fun _ => 0) (fun _ => 0) g
    = z at h0
  cases h0 with
  | ok h0 =>
    rename_i z
    have hsym' : (exCfg 4).symCheck = true →
        ((Mpi.gOps ((failMEnv K).glob r)).checkSymmetryEasy g).1 = true := fun _ =>
      Mpi.gSymCheck_hermitian (le_refl _) g hH
    obtain ⟨b1, b2, b3, b4, b5⟩ := (Mpi.blanks (G := (failMEnv K).glob r) Lapack.eigFails_givesUp
      (q := (Mpi.gOps ((failMEnv K).glob r)).qr) Mpi.qr_locked Mpi.gResd_like).solve
      (fun u key k hk => (realPlat_sorts 1 id u key).1 k hk) (cfg := exCfg 4) rfl (exCfg_tol 4) hsym' hz
      (by rw [← h0.iterations]; exact hp)
    refine ⟨h0.iterations.trans b1, h0.locked.trans b2, fun k hk => ⟨?_, ?_, fun i j => ?_⟩⟩
    · rw [h0.ritzv]; exact b3 k hk
    · rw [h0.resid]; exact b4 k hk
    · funext a
      rw [h0.be.C]
      exact congrFun (b5 k hk) _

/-- The multi-GPU parameters of the examples with that LAPACK. -/
noncomputable def failGpu (K : Type*) [RCLike K] (aware : Bool) : Mgpu.GpuEnv K :=
  ⟨{ failMEnv K with scalapack := aware }, aware, aware⟩

/-- **C86** fails on the multi-GPU backend in a build with assertions, in both variants that are otherwise right
(`GpuEnv.Sound`): nobody reads the status of the eigensolver on the device. -/
theorem Mgpu.C86_mgpu_refuted (aware : Bool) (H : Matrix (Fin 7) (Fin 7) K) (hH : H.IsHermitian) :
    let r := Mpi.cyclicLayout Mpi.exRow
    let c := Mpi.cyclicLayout Mpi.exCol
    ∃ (I : Info K) (E : Mgpu.GpuEnv K) (g : Mpi.GSt K 7) (s : Mgpu.GFam K r c), E.mpi.base.lapack.OkWhen I ∧
      E.aware = aware ∧ E.Sound ∧ Mpi.RunsOk r c E.mpi.cRuns ∧ Mpi.RunsOk c r E.mpi.bRuns ∧
      Mpi.Rep (Mgpu.pview E s) g ∧ g.H = H ∧
      ∀ (i0 : Fin r.procs) (j0 : Fin c.procs), ∃ out : Outcome ℝ (Mgpu.GFam K r c),
        solveBuild true (realPlat 1 id) (Mgpu.opsAt E i0 j0) (Mgpu.fails I .mgpu E j0) (exCfg 4)
          (fun _ => 0) (fun _ => 0) s = some (.ok out) ∧
        out.iterations = 1 ∧ out.locked = 3 ∧
        (∀ k, k < 5 → out.ritzv k = 0 ∧ out.resid k = 0) ∧
        ∀ k, k < 3 → ∀ i j, (out.be i j).host.C k = 0 := by
  intro r c
  let g : Mpi.GSt K 7 := ⟨⟨H, fun _ _ => 0, fun _ _ => 0, fun _ _ => 0, fun _ _ => 0, .bAc, 0, true⟩, true⟩
  have hr := Mpi.exRuns K
  have hS : (failGpu K aware).Sound := by
    cases aware
    · exact Or.inl ⟨rfl, rfl⟩
    · exact Or.inr ⟨rfl, rfl, rfl⟩
  let s : Mgpu.GFam K r c := Mgpu.onHost K r c g (fun _ _ => 0) true
  have hrep : Mpi.Rep (Mgpu.pview (failGpu K aware) s) g := by
    cases aware
    · exact Mpi.scatter_rep _ _ g
    · exact ⟨fun _ _ _ _ => rfl, fun _ _ _ _ => rfl, fun _ _ _ _ => rfl, fun _ _ _ _ => rfl,
        fun _ _ _ _ => rfl, fun _ _ => rfl, fun _ _ => rfl, fun _ _ => rfl, fun _ _ => rfl⟩
  refine ⟨Info.eigFails K, failGpu K aware, g, s, Lapack.eigFails_ok, rfl, hS, hr.1, hr.2, hrep, rfl,
    fun i0 j0 => ?_⟩
  have hsym : (exCfg 4).symCheck = true →
      ((Mgpu.opsAt (failGpu K aware) i0 j0).checkSymmetryEasy s).1 = true := fun _ =>
    Mpi.C09_mpi_hermitian_accepted (E := (failGpu K aware).mpi) hr.1 hr.2 (fun _ _ _ _ => rfl) hH (le_refl _)
  obtain ⟨out, ho, hpos⟩ := C51_approx_solve_defined (realPlat 1 id)
    (Mgpu.opsAt (r := r) (c := c) (failGpu K aware) i0 j0) (exCfg 4) rfl
    (by decide) (by decide) (by decide) (by decide) (by decide) (by decide) (by decide)
    (fun h => absurd h (by decide)) (fun _ => 0) (fun _ => 0) s
  have hp := hpos hsym (by decide)
  refine ⟨out, ?_, ?_⟩
  · rw [solveBuild_never (Mgpu.not_fails (a := .mgpu) ⟨fun _ _ _ _ => rfl, nofun, fun _ _ _ _ => rfl⟩
      (failGpu K aware) j0), ho]
  have h1 := solve_simP_end (Mgpu.sim hS hr.1 hr.2 i0 j0) (realPlat 1 id) (exCfg 4) rfl
    (Or.inl fun _ => trivial) (fun _ => 0) (fun _ => 0) hrep
  rw [ho] at h1
  generalize hz : solve (realPlat 1 id) (Mgpu.refOps ((failGpu K aware).mpi.glob r) (failGpu K aware).aware)
    (exCfg 4) (fun _ => 0) (fun _ => 0) g = z at h1
  cases h1 with
  | ok h1 =>
    rename_i z
    obtain ⟨h0, hend⟩ := h1
    have hsym' : (exCfg 4).symCheck = true →
        ((Mgpu.refOps ((failGpu K aware).mpi.glob r) (failGpu K aware).aware).checkSymmetryEasy g).1 = true :=
      fun _ => Mpi.gSymCheck_hermitian (le_refl _) g hH
    obtain ⟨b1, b2, b3, b4, b5⟩ := (Mpi.blanks (G := (failGpu K aware).mpi.glob r) Lapack.eigFails_givesUp
      (q := Mgpu.refQr ((failGpu K aware).mpi.glob r) (failGpu K aware).aware) Mgpu.refQr_locked
      (Mgpu.refResd_like _ _)).solve
      (fun u key k hk => (realPlat_sorts 1 id u key).1 k hk) (cfg := exCfg 4) rfl (exCfg_tol 4) hsym' hz
      (by rw [← h0.iterations]; exact hp)
    refine ⟨h0.iterations.trans b1, h0.locked.trans b2, fun k hk => ⟨?_, ?_⟩, fun k hk i j => ?_⟩
    · rw [h0.ritzv]; exact b3 k hk
    · rw [h0.resid]; exact b4 k hk
    · funext a
      rw [Mgpu.end_host (hend hp) i j k hk a]
      exact congrFun (b5 k (show k < 5 by omega)) _

/-! ### Non-vacuity -/

/-- Householder QR of six or more columns fails. -/
def Info.wideFails (K : Type*) : Info K := ⟨fun {_ n} _ => if n < 6 then 0 else -7, fun _ => 0, fun _ _ _ => 0⟩

/-- It leaves zeros then; the other routines are ideal. -/
noncomputable def Lapack.wideFails (K : Type*) [RCLike K] : Lapack K :=
  { Lapack.ideal K (fun j i => (j + i : ℕ)) (fun i => (i : ℕ)) 0 with
    hhqr := fun {_ n} V =>
      if n < 6 then (Lapack.ideal K (fun j i => (j + i : ℕ)) (fun i => (i : ℕ)) 0).hhqr V else 0 }

theorem Lapack.wideFails_ok : (Lapack.wideFails K).OkWhen (Info.wideFails K) where
  potrf := (Lapack.ideal_ok (K := K) (fun j i => (j + i : ℕ)) (fun i => (i : ℕ)) 0).potrf
  hhqr := fun {_ n} V hn h => by
    have h6 : n < 6 := by
      by_contra h6
      have h' : (if n < 6 then (0 : ℤ) else -7) = 0 := h
      rw [if_neg h6] at h'
      exact absurd h' (by decide)
    have e : (Lapack.wideFails K).hhqr V =
        (Lapack.ideal K (fun j i => (j + i : ℕ)) (fun i => (i : ℕ)) 0).hhqr V := if_pos h6
    rw [e]
    exact (Lapack.ideal_ok (K := K) (fun j i => (j + i : ℕ)) (fun i => (i : ℕ)) 0).hhqr V hn
  heevd := fun A hA _ => (Lapack.ideal_ok (K := K) (fun j i => (j + i : ℕ)) (fun i => (i : ℕ)) 0).heevd A hA
  stemr := fun M d e _ =>
    (Lapack.ideal_ok (K := K) (fun j i => (j + i : ℕ)) (fun i => (i : ℕ)) 0).stemr M d e

/-- `C86_seq`: routines that are not right on all arguments, and a solve of five columns with a round that is
not aborted. -/
example : ∃ (E : Env K) (I : Info K) (s : Seq.St K 7) (out : Outcome ℝ (Seq.St K 7)),
    E.lapack.OkWhen I ∧ ¬ E.lapack.Ok ∧ E.nev = 3 ∧ E.nex = 2 ∧ s.H = exMat K ∧
    solveBuild true (realPlat 1 id) (Seq.ops E) (Seq.fails I .cpu E) (exCfg 4) (fun _ => 0) (fun _ => 0) s =
      some (.ok out) ∧ 0 < out.iterations := by
  refine ⟨{ exEnv K with lapack := Lapack.wideFails K }, Info.wideFails K,
    ⟨exMat K, fun _ _ => 0, fun _ _ => 0, fun _ _ => 0, fun _ _ => 0, .bAc, 0, true⟩, ?_⟩
  generalize hs : (⟨exMat K, fun _ _ => 0, fun _ _ => 0, fun _ _ => 0, fun _ _ => 0, .bAc, 0, true⟩ :
    Seq.St K 7) = s
  obtain ⟨out, ho, hpos⟩ := C51_approx_solve_defined (realPlat 1 id)
    (Seq.ops { exEnv K with lapack := Lapack.wideFails K }) (exCfg 4) rfl
    (by decide) (by decide) (by decide) (by decide) (by decide) (by decide) (by decide)
    (fun h => absurd h (by decide)) (fun _ => 0) (fun _ => 0) s
  have hsH : s.H = exMat K := by rw [← hs]
  refine ⟨out, Lapack.wideFails_ok, fun h => ?_, rfl, rfl, hsH, ?_,
    hpos (fun _ => C09_hermitian_accepted (Lapack.wideFails K) _ (by rw [hsH]; exact exMat_hermitian))
      (by decide)⟩
  · have h6 := congrFun (congrFun (h.hhqr (0 : Matrix (Fin 6) (Fin 6) K) le_rfl).1 0) 0
    have e : (Lapack.wideFails K).hhqr (0 : Matrix (Fin 6) (Fin 6) K) = 0 := by
      simp [Lapack.wideFails]
    change (((Lapack.wideFails K).hhqr (0 : Matrix (Fin 6) (Fin 6) K))ᴴ *
      (Lapack.wideFails K).hhqr (0 : Matrix (Fin 6) (Fin 6) K)) 0 0 = _ at h6
    rw [e] at h6
    simp at h6
  · rw [solveBuild_never (fun q s => ?_), ho]
    cases q
    case qr => exact not_qrMeets (fun _ hb => hb.2 rfl) _ _ _ _ _
    case lanczos1 => exact fun hb => hb.2 rfl
    case lanczosN => exact fun hb => by obtain ⟨h1, i, -, h2⟩ := hb; exact h2 rfl
    case rr => exact fun hb => hb.2 rfl
    all_goals exact id

omit [RCLike K] in
/-- `C86_no_abort`: routines that report success always. -/
theorem Info.allZero_none : (⟨fun _ => 0, fun _ => 0, fun _ _ _ => 0⟩ : Info K).AllZero :=
  ⟨fun _ => rfl, fun _ => rfl, fun _ _ _ => rfl⟩

/-- `C86_inplace_partial`: a solve with a round, on the CPU and on the GPU. -/
example (k : InPlace.Kind) : ∃ (I : Info K) (s : InPlace.St K 7) (out : Outcome ℝ (InPlace.St K 7)),
    (exEnv K).lapack.OkWhen I ∧ I.Covered k.asserted ∧ 0 ≤ (exEnv K).lapack.eps ∧
    QrAvoids (realPlat 1 id) (InPlace.ops (exEnv K) k) (exCfg 4) (fun _ => 0) (fun _ => 0) s
      (InPlace.badQr (exEnv K)) ∧
    s.userH k = exMat K ∧ s.flipped = false ∧
    solveBuild true (realPlat 1 id) (InPlace.ops (exEnv K) k) (InPlace.fails I k.asserted (exEnv K) k) (exCfg 4)
      (fun _ => 0) (fun _ => 0) s = some (.ok out) ∧ 0 < out.iterations := by
  have hz := Info.allZero_none (K := K)
  obtain ⟨s, hs, hfl⟩ : ∃ s : InPlace.St K 7, s.userH k = exMat K ∧ s.flipped = false := by
    refine ⟨⟨exMat K, exMat K, fun _ _ => 0, fun _ _ => 0, fun _ _ => 0, false, fun _ => 0, 0, true⟩, ?_, rfl⟩
    cases k <;> rfl
  obtain ⟨out, ho, hpos⟩ := C51_approx_solve_defined (realPlat 1 id) (InPlace.ops (exEnv K) k) (exCfg 4) rfl
    (by decide) (by decide) (by decide) (by decide) (by decide) (by decide) (by decide)
    (fun h => absurd h (by decide)) (fun _ => 0) (fun _ => 0) s
  refine ⟨⟨fun _ => 0, fun _ => 0, fun _ _ _ => 0⟩, s, out, Lapack.Ok.okWhen (Lapack.ideal_ok _ _ _) _,
    ⟨fun _ => hz.hhqr, fun _ => hz.heevd, fun _ => hz.stemr⟩, le_refl _, .of_householder rfl _ _ _ _ _, hs, hfl,
    ?_, hpos (fun _ => ?_) (by decide)⟩
  · rw [solveBuild_never (InPlace.not_fails (hz.on _) _ k), ho]
  · exact C09_hermitian_accepted _ _ (by rw [hs]; exact exMat_hermitian)

/-- `Mpi.C86_mpi_partial`: a solve with a round. -/
example : ∃ (I : Info K) (s : Mpi.Fam K (Mpi.cyclicLayout Mpi.exRow) (Mpi.cyclicLayout Mpi.exCol))
    (g : Mpi.GSt K 7) (out : Outcome ℝ (Mpi.Fam K (Mpi.cyclicLayout Mpi.exRow) (Mpi.cyclicLayout Mpi.exCol))),
    Mpi.Rep s g ∧ g.H = exMat K ∧ (Mpi.exMEnv K).base.lapack.OkWhen I ∧
    solveBuild true (realPlat 1 id) (Mpi.opsAt (Mpi.exMEnv K) (2 : Fin 3) (1 : Fin 2))
      (Mpi.fails I .cpu (Mpi.exMEnv K) (1 : Fin 2)) (exCfg 4) (fun _ => 0) (fun _ => 0) s = some (.ok out) ∧
    0 < out.iterations := by
  let g : Mpi.GSt K 7 :=
    ⟨⟨exMat K, fun _ _ => 0, fun _ _ => 0, fun _ _ => 0, fun _ _ => 0, .bAc, 0, true⟩, true⟩
  have hz := Info.allZero_none (K := K)
  obtain ⟨out, ho, hpos⟩ := C51_approx_solve_defined (realPlat 1 id)
    (Mpi.opsAt (r := Mpi.cyclicLayout Mpi.exRow) (c := Mpi.cyclicLayout Mpi.exCol) (Mpi.exMEnv K) (2 : Fin 3)
      (1 : Fin 2)) (exCfg 4) rfl
    (by decide) (by decide) (by decide) (by decide) (by decide) (by decide) (by decide)
    (fun h => absurd h (by decide)) (fun _ => 0) (fun _ => 0) (Mpi.scatter _ _ g)
  refine ⟨⟨fun _ => 0, fun _ => 0, fun _ _ _ => 0⟩, Mpi.scatter _ _ g, g, out, Mpi.scatter_rep _ _ _, rfl,
    Lapack.Ok.okWhen (Lapack.ideal_ok _ _ _) _, ?_,
    hpos (fun _ => ?_) (by decide)⟩
  · exact (solveBuild_never (Mpi.not_fails (hz.on _) _ _) _ _ _ _ _).trans (congrArg some ho)
  · exact Mpi.C09_mpi_hermitian_accepted (Mpi.exRuns K).1 (Mpi.exRuns K).2 (fun _ _ _ _ => rfl) exMat_hermitian
      (le_refl _)

/-- `Mgpu.C86_mgpu_partial`: a solve with a round; the eigensolver never fails, as `Covered .mgpu` asks. -/
example (aware : Bool) : ∃ (I : Info K)
    (s : Mgpu.GFam K (Mpi.cyclicLayout Mpi.exRow) (Mpi.cyclicLayout Mpi.exCol)) (g : Mpi.GSt K 7)
    (out : Outcome ℝ (Mgpu.GFam K (Mpi.cyclicLayout Mpi.exRow) (Mpi.cyclicLayout Mpi.exCol))),
    (Mgpu.exGpu K aware).Sound ∧ Mpi.Rep (Mgpu.pview (Mgpu.exGpu K aware) s) g ∧ g.H = exMat K ∧
    (Mgpu.exGpu K aware).mpi.base.lapack.OkWhen I ∧ I.Covered .mgpu ∧
    solveBuild true (realPlat 1 id) (Mgpu.opsAt (Mgpu.exGpu K aware) (2 : Fin 3) (1 : Fin 2))
      (Mgpu.fails I .mgpu (Mgpu.exGpu K aware) (1 : Fin 2)) (exCfg 4) (fun _ => 0) (fun _ => 0) s =
      some (.ok out) ∧ 0 < out.iterations := by
  let g : Mpi.GSt K 7 :=
    ⟨⟨exMat K, fun _ _ => 0, fun _ _ => 0, fun _ _ => 0, fun _ _ => 0, .bAc, 0, true⟩, true⟩
  let s : Mgpu.GFam K (Mpi.cyclicLayout Mpi.exRow) (Mpi.cyclicLayout Mpi.exCol) :=
    Mgpu.onHost K _ _ g (fun _ _ => 0) true
  have hz := Info.allZero_none (K := K)
  have hrep : Mpi.Rep (Mgpu.pview (Mgpu.exGpu K aware) s) g := by
    cases aware
    · exact Mpi.scatter_rep _ _ g
    · exact ⟨fun _ _ _ _ => rfl, fun _ _ _ _ => rfl, fun _ _ _ _ => rfl, fun _ _ _ _ => rfl,
        fun _ _ _ _ => rfl, fun _ _ => rfl, fun _ _ => rfl, fun _ _ => rfl, fun _ _ => rfl⟩
  obtain ⟨out, ho, hpos⟩ := C51_approx_solve_defined (realPlat 1 id)
    (Mgpu.opsAt (r := Mpi.cyclicLayout Mpi.exRow) (c := Mpi.cyclicLayout Mpi.exCol) (Mgpu.exGpu K aware)
      (2 : Fin 3) (1 : Fin 2)) (exCfg 4) rfl
    (by decide) (by decide) (by decide) (by decide) (by decide) (by decide) (by decide)
    (fun h => absurd h (by decide)) (fun _ => 0) (fun _ => 0) s
  refine ⟨⟨fun _ => 0, fun _ => 0, fun _ _ _ => 0⟩, s, g, out, Mgpu.exGpu_sound K aware, hrep, rfl,
    Lapack.Ok.okWhen (Lapack.ideal_ok _ _ _) _,
    ⟨fun _ => hz.hhqr, fun _ => hz.heevd, fun _ => hz.stemr⟩, ?_, hpos (fun _ => ?_) (by decide)⟩
  · exact (solveBuild_never (Mgpu.not_fails (hz.on _) _ _) _ _ _ _ _).trans (congrArg some ho)
  · exact Mpi.C09_mpi_hermitian_accepted (E := (Mgpu.exGpu K aware).mpi) (Mpi.exRuns K).1 (Mpi.exRuns K).2
      (fun _ _ _ _ => rfl) exMat_hermitian (le_refl _)

end Verif
