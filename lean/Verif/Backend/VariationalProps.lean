/-
C90: sums of returned values are never below the sums of the smallest eigenvalues.
C91: returned vectors are close to eigenvectors, and returned values quadratically close to eigenvalues.
-/
import Verif.Backend.Variational
import Verif.Backend.DistinctProps

namespace Verif

open Matrix Finset

section
variable {K : Type*} [RCLike K] {N : ℕ}

/-! ### Specification -/

/-- The outcome promised by C90 for `n` values: with the eigenvalues `w` in ascending order, the sum of any `m` of the
values lies between the sum of the `m` smallest and the sum of the `m` largest eigenvalues. -/
def Variational (H : Matrix (Fin N) (Fin N) K) (n : ℕ) (vals : ℕ → ℝ) : Prop :=
  ∀ w, EigenvaluesOf H w → Monotone w → ∀ T ⊆ range n,
    ∑ k with k.val < T.card, w k ≤ ∑ i ∈ T, vals i ∧ ∑ i ∈ T, vals i ≤ ∑ k with N ≤ k.val + T.card, w k

/-- The sums of eigenvectors whose eigenvalues are closer than `δ` to `v`. -/
def nearEigenvectors (H : Matrix (Fin N) (Fin N) K) (v δ : ℝ) : Submodule K (Fin N → K) :=
  Submodule.span K {y | ∃ μ : ℝ, |μ - v| < δ ∧ H.mulVec y = (μ : K) • y}

/-- `x` is an eigenvector of `H` for eigenvalues near `v`, up to `r` divided by the distance to the others. -/
def NearEigenvector (H : Matrix (Fin N) (Fin N) K) (v : ℝ) (x : Fin N → K) (r : ℝ) : Prop :=
  ∀ δ, 0 < δ → ∃ y ∈ nearEigenvectors H v δ, Real.sqrt (∑ k, ‖x k - y k‖ ^ 2) ≤ r / δ

/-- If only one eigenvalue is nearer to `v` than `δ`, it is at most `r² / δ` away. -/
def NearEigenvalue (H : Matrix (Fin N) (Fin N) K) (v r : ℝ) : Prop :=
  ∀ δ μ, |μ - v| < δ → (∀ μ', IsEigenvalue H μ' → |μ' - v| < δ → μ' = μ) → |μ - v| ≤ r ^ 2 / δ

/-- The outcome promised by C91 for `n` pairs of which the first `nev` were asked for; the residuals of these up to their
order (see C06). -/
def NearEigenpairs (H : Matrix (Fin N) (Fin N) K) (nev n : ℕ) (vals resid : ℕ → ℝ) (X : ℕ → Fin N → K) : Prop :=
  ∃ σ : Equiv.Perm ℕ, (∀ i, nev ≤ i → σ i = i) ∧ ∀ i, i < n →
    NearEigenvector H (vals i) (X i) (resid (σ i)) ∧ NearEigenvalue H (vals i) (resid (σ i))

/-! ### Proof -/

private theorem toLin_apply (H : Matrix (Fin N) (Fin N) K) (x : Fin N → K) :
    Matrix.toEuclideanLin H (WithLp.toLp 2 x) = WithLp.toLp 2 (H.mulVec x) := by
  simp [Matrix.toEuclideanLin]

private theorem inner_toLin (x y : Fin N → K) :
    inner K (WithLp.toLp 2 x : EuclideanSpace K (Fin N)) (WithLp.toLp 2 y) = ∑ k, star (x k) * y k := by
  rw [EuclideanSpace.inner_eq_star_dotProduct]
  simp only [dotProduct, Pi.star_apply]
  exact Finset.sum_congr rfl fun k _ => mul_comm _ _

theorem residual_toLin (H : Matrix (Fin N) (Fin N) K) (v : ℝ) (x : Fin N → K) :
    ‖Matrix.toEuclideanLin H (WithLp.toLp 2 x) - (v : K) • WithLp.toLp 2 x‖
      = Real.sqrt (∑ k, ‖H.mulVec x k - (v : K) * x k‖ ^ 2) := by
  rw [toLin_apply, EuclideanSpace.norm_eq]
  rfl

/-- A small residual puts a vector near the eigenvectors. -/
theorem nearEigenvector_of {H : Matrix (Fin N) (Fin N) K} (hH : H.IsHermitian) (v : ℝ) (x : Fin N → K) {r : ℝ}
    (hr : Real.sqrt (∑ k, ‖H.mulVec x k - (v : K) * x k‖ ^ 2) ≤ r) : NearEigenvector H v x r := by
  classical
  obtain ⟨w, hw, -⟩ := eigenvaluesOf_exists hH
  obtain ⟨b, hb⟩ := hw.basis hH
  intro δ hδ
  have h := norm_sub_eigenPart_le hb (WithLp.toLp 2 x) v hδ
  rw [residual_toLin] at h
  refine ⟨WithLp.ofLp (eigenPart b (fun k => |w k - v| < δ) (WithLp.toLp 2 x)), ?_,
    le_trans ?_ (h.trans (by gcongr))⟩
  · unfold eigenPart nearEigenvectors
    rw [WithLp.ofLp_sum]
    refine Submodule.sum_mem _ fun k hk => ?_
    rw [WithLp.ofLp_smul]
    refine Submodule.smul_mem _ _ (Submodule.subset_span ⟨w k, (mem_filter.mp hk).2, ?_⟩)
    have := congrArg WithLp.ofLp (hb k)
    simpa [Matrix.toEuclideanLin] using this
  · rw [EuclideanSpace.norm_eq]
    rfl

theorem nearEigenvalue_of {H : Matrix (Fin N) (Fin N) K} (hH : H.IsHermitian) {v : ℝ} {x : Fin N → K} {r : ℝ}
    (hx : ∑ k, star (x k) * x k = 1) (hv : IsRayleigh H v x) (hr : IsResidual H v x r) : NearEigenvalue H v r := by
  obtain ⟨w, hw, -⟩ := eigenvaluesOf_exists hH
  obtain ⟨b, hb⟩ := hw.basis hH
  intro δ μ hμ hone
  have h1 : ‖(WithLp.toLp 2 x : EuclideanSpace K (Fin N))‖ = 1 := by
    have h2 := inner_self_eq_norm_sq_to_K (𝕜 := K) (WithLp.toLp 2 x : EuclideanSpace K (Fin N))
    rw [inner_toLin, hx] at h2
    have h3 : ‖(WithLp.toLp 2 x : EuclideanSpace K (Fin N))‖ ^ 2 = 1 := by exact_mod_cast h2.symm
    nlinarith [norm_nonneg (WithLp.toLp 2 x : EuclideanSpace K (Fin N))]
  have h2 : inner K (WithLp.toLp 2 x) (Matrix.toEuclideanLin H (WithLp.toLp 2 x)) = (v : K) := by
    rw [toLin_apply, inner_toLin]
    exact hv
  have h := temple hb h1 h2 ((abs_nonneg _).trans_lt hμ) hμ.le fun k hk => hone (w k) ⟨WithLp.ofLp (b k), ?_, ?_⟩ hk
  · rw [residual_toLin] at h
    rw [hr]
    exact h
  · intro h0
    have : b k = 0 := by
      rw [← WithLp.toLp_ofLp 2 (b k), h0]
      rfl
    exact b.orthonormal.ne_zero k this
  · have := congrArg WithLp.ofLp (hb k)
    simpa [Matrix.toEuclideanLin] using this

theorem CertifiedPairs.variational {H : Matrix (Fin N) (Fin N) K} (hH : H.IsHermitian) {nev n : ℕ}
    {vals resid : ℕ → ℝ} {X : ℕ → Fin N → K} (h : CertifiedPairs H nev n vals resid X) : Variational H n vals := by
  classical
  obtain ⟨ho, hr, -, -, -⟩ := h
  intro w hw hm T hT
  obtain ⟨b, hb⟩ := hw.basis hH
  have hlt : ∀ i : T, (i : ℕ) < n := fun i => mem_range.mp (hT i.2)
  have hq : Orthonormal K fun i : T => (WithLp.toLp 2 (X i) : EuclideanSpace K (Fin N)) := by
    rw [orthonormal_iff_ite]
    intro i j
    rw [inner_toLin, ho i j (hlt i) (hlt j)]
    simp only [Subtype.ext_iff]
  have hk := kyFan hb hm hq (θ := fun i : T => vals i) fun i => by
    rw [toLin_apply, inner_toLin]
    exact hr i (hlt i)
  have e : ∑ i : T, vals i = ∑ i ∈ T, vals i := Finset.sum_coe_sort T vals
  rw [Fintype.card_coe, e] at hk
  exact hk

theorem CertifiedPairs.near {H : Matrix (Fin N) (Fin N) K} (hH : H.IsHermitian) {nev n : ℕ}
    {vals resid : ℕ → ℝ} {X : ℕ → Fin N → K} (h : CertifiedPairs H nev n vals resid X) :
    NearEigenpairs H nev n vals resid X := by
  obtain ⟨ho, hr, -, ⟨σ, hσ, hres⟩, -⟩ := h
  refine ⟨σ, hσ, fun i hi => ⟨nearEigenvector_of hH _ _ (le_of_eq (hres i hi).1.symm),
    nearEigenvalue_of hH ?_ (hr i hi) (hres i hi).1⟩⟩
  rw [ho i i hi hi, if_pos rfl]

/-! ### C90 and C91 -/

/-- **C90** (one process, CPU) After a solve with at least one round, converged or not, the sum of any `m` returned
values is at least the sum of the `m` smallest eigenvalues and at most that of the `m` largest. -/
theorem C90_seq (P : Plat ℝ) (hP : SortsIndices P) (E : Env K) (hL : E.lapack.Ok) (cfg : Config ℝ)
    (hnev : E.nev = cfg.nev) (hnex : E.nex = cfg.nex) (hN : cfg.N = N) (hle : cfg.nev + cfg.nex ≤ N)
    (hmax : Even cfg.maxDeg) (ritzv0 resid0 : ℕ → ℝ) (s : Seq.St K N) (hH : s.H.IsHermitian)
    (out : Outcome ℝ (Seq.St K N)) (h : solve P (Seq.ops E) cfg ritzv0 resid0 s = .ok out)
    (hit : 0 < out.iterations) : Variational s.H (cfg.nev + cfg.nex) out.ritzv :=
  ((C50_seq P hP E hL cfg hnev hnex hN hle hmax ritzv0 resid0 s hH out h).2 hit).variational hH

/-- **C91** (one process, CPU) After a solve with at least one round each vector in the user's array is close to
eigenvectors and each value quadratically close to an isolated eigenvalue. -/
theorem C91_seq (P : Plat ℝ) (hP : SortsIndices P) (E : Env K) (hL : E.lapack.Ok) (cfg : Config ℝ)
    (hnev : E.nev = cfg.nev) (hnex : E.nex = cfg.nex) (hN : cfg.N = N) (hle : cfg.nev + cfg.nex ≤ N)
    (hmax : Even cfg.maxDeg) (ritzv0 resid0 : ℕ → ℝ) (s : Seq.St K N) (hH : s.H.IsHermitian)
    (out : Outcome ℝ (Seq.St K N)) (h : solve P (Seq.ops E) cfg ritzv0 resid0 s = .ok out)
    (hit : 0 < out.iterations) :
    NearEigenpairs s.H cfg.nev (cfg.nev + cfg.nex) out.ritzv out.resid out.be.C :=
  ((C50_seq P hP E hL cfg hnev hnex hN hle hmax ritzv0 resid0 s hH out h).2 hit).near hH

/-- **C90** (partial, the backends that work in the user's arrays).  Missing: runs in which the shifted Cholesky QR
meets linearly dependent columns (`hq`). -/
theorem C90_inplace_partial (P : Plat ℝ) (hP : SortsIndices P) (E : Env K) (k : InPlace.Kind)
    (hL : E.lapack.Ok) (hε : 0 ≤ E.lapack.eps) (cfg : Config ℝ)
    (hnev : E.nev = cfg.nev) (hnex : E.nex = cfg.nex) (hN : cfg.N = N) (hle : cfg.nev + cfg.nex ≤ N)
    (hmax : Even cfg.maxDeg) (ritzv0 resid0 : ℕ → ℝ) (s : InPlace.St K N)
    (hq : QrAvoids P (InPlace.ops E k) cfg ritzv0 resid0 s (InPlace.badQr E))
    (hH : (s.userH k).IsHermitian) (hfl : s.flipped = false) (out : Outcome ℝ (InPlace.St K N))
    (h : solve P (InPlace.ops E k) cfg ritzv0 resid0 s = .ok out) (hit : 0 < out.iterations) :
    Variational (s.userH k) (cfg.nev + cfg.nex) out.ritzv :=
  ((C41_inplace_partial P hP E k hL hε cfg hnev hnex hN hle hmax ritzv0 resid0 s hq hH hfl out h).2.1 hit).variational
    hH

/-- **C91** (partial, the backends that work in the user's arrays).  Missing: an odd number of rounds on the CPU, after
which the user's array does not hold the vectors (C41), and `hq` as in `C90_inplace_partial`. -/
theorem C91_inplace_partial (P : Plat ℝ) (hP : SortsIndices P) (E : Env K) (k : InPlace.Kind)
    (hL : E.lapack.Ok) (hε : 0 ≤ E.lapack.eps) (cfg : Config ℝ)
    (hnev : E.nev = cfg.nev) (hnex : E.nex = cfg.nex) (hN : cfg.N = N) (hle : cfg.nev + cfg.nex ≤ N)
    (hmax : Even cfg.maxDeg) (ritzv0 resid0 : ℕ → ℝ) (s : InPlace.St K N)
    (hq : QrAvoids P (InPlace.ops E k) cfg ritzv0 resid0 s (InPlace.badQr E))
    (hH : (s.userH k).IsHermitian) (hfl : s.flipped = false) (out : Outcome ℝ (InPlace.St K N))
    (h : solve P (InPlace.ops E k) cfg ritzv0 resid0 s = .ok out) (hit : 0 < out.iterations)
    (heven : k = .cuda ∨ out.iterations % 2 = 0) :
    NearEigenpairs (s.userH k) cfg.nev (cfg.nev + cfg.nex) out.ritzv out.resid (out.be.userV k) := by
  obtain ⟨-, h1, h2⟩ := C41_inplace_partial P hP E k hL hε cfg hnev hnex hN hle hmax ritzv0 resid0 s hq hH hfl out h
  obtain ⟨σ, hσ, hn⟩ := (h1 hit).near hH
  refine ⟨σ, hσ, fun i hi => ?_⟩
  rw [h2 heven i hi]
  exact hn i hi

/-- `C90_seq`, `C91_seq`: a solve with a positive number of rounds, and a matrix with eigenvalues in ascending order. -/
example : ∃ (s : Seq.St K 7) (out : Outcome ℝ (Seq.St K 7)) (w : Fin 7 → ℝ),
    solve (realPlat 1 id) (Seq.ops (exEnv K)) (exCfg 4) (fun _ => 0) (fun _ => 0) s = .ok out ∧
    s.H = exMat K ∧ 0 < out.iterations ∧ EigenvaluesOf s.H w ∧ Monotone w ∧
    Variational s.H 5 out.ritzv ∧ NearEigenpairs s.H 3 5 out.ritzv out.resid out.be.C := by
  obtain ⟨s, hs⟩ : ∃ s : Seq.St K 7, s.H = exMat K :=
    ⟨⟨exMat K, fun _ _ => 0, fun _ _ => 0, fun _ _ => 0, fun _ _ => 0, .bAc, 0, true⟩, rfl⟩
  have hL : (exEnv K).lapack.Ok := Lapack.ideal_ok _ _ _
  have hH : s.H.IsHermitian := by rw [hs]; exact exMat_hermitian
  obtain ⟨out, ho, hpos⟩ := C51_approx_solve_defined (realPlat 1 id) (Seq.ops (exEnv K)) (exCfg 4) rfl
    (by decide) (by decide) (by decide) (by decide) (by decide) (by decide) (by decide)
    (fun h => absurd h (by decide)) (fun _ => 0) (fun _ => 0) s
  have hp := hpos (fun _ => C09_hermitian_accepted (exEnv K).lapack _ hH) (by decide)
  obtain ⟨w, hw, hm⟩ := eigenvaluesOf_exists hH
  exact ⟨s, out, w, ho, hs, hp, hw, hm,
    C90_seq (realPlat 1 id) (realPlat_sorts _ _) (exEnv K) hL (exCfg 4) rfl rfl rfl (by decide) (by decide) _ _ s hH
      out ho hp,
    C91_seq (realPlat 1 id) (realPlat_sorts _ _) (exEnv K) hL (exCfg 4) rfl rfl rfl (by decide) (by decide) _ _ s hH
      out ho hp⟩

/-- `C90_inplace_partial`, `C91_inplace_partial`: the same with Cholesky QR, on both backends and on the GPU. -/
example (k : InPlace.Kind) : ∃ (s : InPlace.St K 7) (out : Outcome ℝ (InPlace.St K 7)),
    solve exPlat (InPlace.ops (exEnvChol K) k) (exCfg 4) (fun _ => 0) (fun _ => 0) s = .ok out ∧
    s.userH k = exMat K ∧ 0 < out.iterations ∧ Variational (s.userH k) 5 out.ritzv ∧
    (k = .cuda → NearEigenpairs (s.userH k) 3 5 out.ritzv out.resid (out.be.userV k)) := by
  obtain ⟨s, hs, hfl⟩ : ∃ s : InPlace.St K 7, s.userH k = exMat K ∧ s.flipped = false := by
    refine ⟨⟨exMat K, exMat K, fun _ _ => 0, fun _ _ => 0, fun _ _ => 0, false, fun _ => 0, 0, true⟩, ?_,
      rfl⟩
    cases k <;> rfl
  have hL : (exEnvChol K).lapack.Ok := Lapack.ideal_ok _ _ _
  have hH : (s.userH k).IsHermitian := by rw [hs]; exact exMat_hermitian
  obtain ⟨out, ho, hpos⟩ := C51_approx_solve_defined exPlat (InPlace.ops (exEnvChol K) k) (exCfg 4) rfl
    (by decide) (by decide) (by decide) (by decide) (by decide) (by decide) (by decide)
    (fun h => absurd h (by decide)) (fun _ => 0) (fun _ => 0) s
  have hp := hpos (fun _ => C09_hermitian_accepted (exEnvChol K).lapack _ hH) (by decide)
  exact ⟨s, out, ho, hs, hp, C90_inplace_partial exPlat (realPlat_sorts 1 id) (exEnvChol K) k hL (le_refl _) (exCfg 4)
    rfl rfl rfl (by decide) (by decide) _ _ s (.of_small (by show (1 : ℝ) ≤ 10; norm_num)
      (fun _ _ _ _ _ _ => by show (1 : ℝ) ≤ 10; norm_num) _ _ _ _ _) hH hfl out ho hp,
    fun hk => C91_inplace_partial exPlat (realPlat_sorts 1 id) (exEnvChol K) k hL (le_refl _) (exCfg 4)
    rfl rfl rfl (by decide) (by decide) _ _ s (.of_small (by show (1 : ℝ) ≤ 10; norm_num)
      (fun _ _ _ _ _ _ => by show (1 : ℝ) ≤ 10; norm_num) _ _ _ _ _) hH hfl out ho hp (.inl hk)⟩

end

namespace Mpi
variable {K : Type*} [RCLike K] {N : ℕ} {r c : Layout N} {E : MEnv K}

/-- **C90** (distributed CPU backend) The values every process gets. -/
theorem C90_mpi (hc : RunsOk r c E.cRuns) (hb : RunsOk c r E.bRuns) (P : Plat ℝ)
    (hP : SortsIndices P) (hkeep : SortKeepsSorted P) (hL : E.base.lapack.Ok) (ht : 0 ≤ E.symTol)
    (cfg : Config ℝ) (hnev : E.base.nev = cfg.nev) (hnex : E.base.nex = cfg.nex) (hN : cfg.N = N)
    (hle : cfg.nev + cfg.nex ≤ N) (hmax : Even cfg.maxDeg) (ritzv0 resid0 : ℕ → ℝ)
    {s : Fam K r c} {g : GSt K N} (h : Rep s g) (hH : g.H.IsHermitian) (i0 : Fin r.procs)
    (j0 : Fin c.procs) (out : Outcome ℝ (Fam K r c))
    (ho : solve P (opsAt E i0 j0) cfg ritzv0 resid0 s = .ok out) (hit : 0 < out.iterations) :
    Variational g.H (cfg.nev + cfg.nex) out.ritzv := by
  obtain ⟨-, X, -, hX⟩ := C50_mpi_partial hc hb P hP hkeep hL ht cfg hnev hnex hN hle hmax ritzv0 resid0 h hH i0 j0 out ho
  obtain ⟨-, σ, -, -, hcert⟩ := hX hit
  exact hcert.variational hH

/-- **C91** (partial, distributed CPU backend) The vectors the processes hold together are close to eigenvectors, but
value `i` belongs to column `σ i`, where `σ` moves only the wanted pairs and is the identity after a single round (C05). -/
theorem C91_mpi_partial (hc : RunsOk r c E.cRuns) (hb : RunsOk c r E.bRuns) (P : Plat ℝ)
    (hP : SortsIndices P) (hkeep : SortKeepsSorted P) (hL : E.base.lapack.Ok) (ht : 0 ≤ E.symTol)
    (cfg : Config ℝ) (hnev : E.base.nev = cfg.nev) (hnex : E.base.nex = cfg.nex) (hN : cfg.N = N)
    (hle : cfg.nev + cfg.nex ≤ N) (hmax : Even cfg.maxDeg) (ritzv0 resid0 : ℕ → ℝ)
    {s : Fam K r c} {g : GSt K N} (h : Rep s g) (hH : g.H.IsHermitian) (i0 : Fin r.procs)
    (j0 : Fin c.procs) (out : Outcome ℝ (Fam K r c))
    (ho : solve P (opsAt E i0 j0) cfg ritzv0 resid0 s = .ok out) (hit : 0 < out.iterations) :
    ∃ X : ℕ → Fin N → K, (∀ i j k a, (out.be i j).C k a = X k (r.glob i a)) ∧
      ∃ σ : Equiv.Perm ℕ, (∀ i, cfg.nev ≤ i → σ i = i) ∧ (out.iterations = 1 → σ = 1) ∧
        NearEigenpairs g.H cfg.nev (cfg.nev + cfg.nex) out.ritzv out.resid (X ∘ σ) := by
  obtain ⟨-, X, h1, hX⟩ := C50_mpi_partial hc hb P hP hkeep hL ht cfg hnev hnex hN hle hmax ritzv0 resid0 h hH i0 j0 out ho
  obtain ⟨-, σ, h2, h3, hcert⟩ := hX hit
  exact ⟨X, h1, σ, h2, h3, hcert.near hH⟩

/-- `C90_mpi`, `C91_mpi_partial`: a solve on a 3 x 2 grid with at least one round. -/
example : ∃ (s : Fam K (cyclicLayout exRow) (cyclicLayout exCol)) (g : GSt K 7)
    (out : Outcome ℝ (Fam K (cyclicLayout exRow) (cyclicLayout exCol))),
    Rep s g ∧ g.H = exMat K ∧
    solve (realPlat 1 id) (opsAt (exMEnv K) (2 : Fin 3) (1 : Fin 2)) (exCfg 4) (fun _ => 0) (fun _ => 0) s
      = .ok out ∧ 0 < out.iterations ∧ Variational g.H 5 out.ritzv ∧
    ∃ X σ, NearEigenpairs g.H 3 5 out.ritzv out.resid (X ∘ (σ : Equiv.Perm ℕ)) := by
  let g : GSt K 7 := ⟨⟨exMat K, fun _ _ => 0, fun _ _ => 0, fun _ _ => 0, fun _ _ => 0, .bAc, 0, true⟩, true⟩
  have hL : (exEnv K).lapack.Ok := Lapack.ideal_ok _ _ _
  obtain ⟨out, ho, hpos⟩ := C51_approx_solve_defined (realPlat 1 id)
    (opsAt (r := cyclicLayout exRow) (c := cyclicLayout exCol) (exMEnv K) (2 : Fin 3) (1 : Fin 2)) (exCfg 4) rfl
    (by decide) (by decide) (by decide) (by decide) (by decide) (by decide) (by decide)
    (fun h => absurd h (by decide)) (fun _ => 0) (fun _ => 0) (scatter _ _ g)
  have hp := hpos (fun _ => C09_mpi_hermitian_accepted (exRuns K).1 (exRuns K).2 (fun _ _ _ _ => rfl) exMat_hermitian
    (le_refl _)) (by decide)
  obtain ⟨X, -, σ, -, -, hX⟩ := C91_mpi_partial (exRuns K).1 (exRuns K).2 (realPlat 1 id)
    (realPlat_sorts _ _) (realPlat_keeps _ _) hL (le_refl _) (exCfg 4) rfl rfl rfl (by decide) (by decide) _ _
    (scatter_rep _ _ g) exMat_hermitian _ _ out ho hp
  exact ⟨scatter _ _ g, g, out, scatter_rep _ _ _, rfl, ho, hp, C90_mpi (exRuns K).1 (exRuns K).2 (realPlat 1 id)
    (realPlat_sorts _ _) (realPlat_keeps _ _) hL (le_refl _) (exCfg 4) rfl rfl rfl (by decide) (by decide) _ _
    (scatter_rep _ _ _) exMat_hermitian _ _ out ho hp, X, σ, hX⟩

end Mpi

namespace Mgpu
open Mpi (Layout Fam GSt)
variable {K : Type*} [RCLike K] {N : ℕ} {r c : Layout N} {E : GpuEnv K}

/-- **C90** (partial, multi-GPU backend).  Missing: the setups outside `E.Sound`. -/
theorem C90_mgpu_partial (hS : E.Sound) (hc : Mpi.RunsOk r c E.mpi.cRuns) (hb : Mpi.RunsOk c r E.mpi.bRuns)
    (P : Plat ℝ) (hP : SortsIndices P) (hkeep : SortKeepsSorted P) (hL : E.mpi.base.lapack.Ok)
    (ht : 0 ≤ E.mpi.symTol) (cfg : Config ℝ) (hnev : E.mpi.base.nev = cfg.nev)
    (hnex : E.mpi.base.nex = cfg.nex) (hN : cfg.N = N) (hle : cfg.nev + cfg.nex ≤ N)
    (hmax : Even cfg.maxDeg) (ritzv0 resid0 : ℕ → ℝ) {s : GFam K r c} {g : GSt K N}
    (h : Mpi.Rep (pview E s) g) (hH : g.H.IsHermitian) (i0 : Fin r.procs) (j0 : Fin c.procs)
    (out : Outcome ℝ (GFam K r c)) (ho : solve P (opsAt E i0 j0) cfg ritzv0 resid0 s = .ok out)
    (hit : 0 < out.iterations) : Variational g.H (cfg.nev + cfg.nex) out.ritzv := by
  obtain ⟨-, hX⟩ := C60_mgpu_partial hS hc hb P hP hkeep hL ht cfg hnev hnex hN hle hmax ritzv0 resid0 h hH i0 j0 out ho
  obtain ⟨X, -, -, σ, -, -, hcert⟩ := hX hit
  exact hcert.variational hH

/-- **C91** (partial, multi-GPU backend): the vectors of which the processes hold the rows of the first `nev` in host
memory, paired with the values as in `Mpi.C91_mpi_partial`.  Missing: that, and the setups outside `E.Sound`. -/
theorem C91_mgpu_partial (hS : E.Sound) (hc : Mpi.RunsOk r c E.mpi.cRuns) (hb : Mpi.RunsOk c r E.mpi.bRuns)
    (P : Plat ℝ) (hP : SortsIndices P) (hkeep : SortKeepsSorted P) (hL : E.mpi.base.lapack.Ok)
    (ht : 0 ≤ E.mpi.symTol) (cfg : Config ℝ) (hnev : E.mpi.base.nev = cfg.nev)
    (hnex : E.mpi.base.nex = cfg.nex) (hN : cfg.N = N) (hle : cfg.nev + cfg.nex ≤ N)
    (hmax : Even cfg.maxDeg) (ritzv0 resid0 : ℕ → ℝ) {s : GFam K r c} {g : GSt K N}
    (h : Mpi.Rep (pview E s) g) (hH : g.H.IsHermitian) (i0 : Fin r.procs) (j0 : Fin c.procs)
    (out : Outcome ℝ (GFam K r c)) (ho : solve P (opsAt E i0 j0) cfg ritzv0 resid0 s = .ok out)
    (hit : 0 < out.iterations) :
    ∃ X : ℕ → Fin N → K, (∀ i j k, k < cfg.nev → ∀ a, (out.be i j).host.C k a = X k (r.glob i a)) ∧
      ∃ σ : Equiv.Perm ℕ, (∀ i, cfg.nev ≤ i → σ i = i) ∧ (out.iterations = 1 → σ = 1) ∧
        NearEigenpairs g.H cfg.nev (cfg.nev + cfg.nex) out.ritzv out.resid (X ∘ σ) := by
  obtain ⟨-, hX⟩ := C60_mgpu_partial hS hc hb P hP hkeep hL ht cfg hnev hnex hN hle hmax ritzv0 resid0 h hH i0 j0 out ho
  obtain ⟨X, h1, -, σ, h2, h3, hcert⟩ := hX hit
  exact ⟨X, h1, σ, h2, h3, hcert.near hH⟩

/-- `C90_mgpu_partial`, `C91_mgpu_partial`: a solve on a 3 x 2 grid with at least one round, in both variants. -/
example (aware : Bool) :
    let g : GSt K 7 := ⟨⟨exMat K, fun _ _ => 0, fun _ _ => 0, fun _ _ => 0, fun _ _ => 0, .bAc, 0, true⟩, true⟩
    let r := Mpi.cyclicLayout Mpi.exRow
    let c := Mpi.cyclicLayout Mpi.exCol
    ∃ out, solve (realPlat 1 id) (opsAt (exGpu K aware) (2 : Fin 3) (1 : Fin 2)) (exCfg 4) (fun _ => 0)
      (fun _ => 0) (onHost K r c g (fun _ _ => 0) true) = .ok out ∧ 0 < out.iterations ∧
      Variational (exMat K) 5 out.ritzv ∧
      ∃ X σ, NearEigenpairs (exMat K) 3 5 out.ritzv out.resid (X ∘ (σ : Equiv.Perm ℕ)) := by
  intro g r c
  have hrep : Mpi.Rep (pview (exGpu K aware) (onHost K r c g (fun _ _ => 0) true)) g := by
    cases aware
    · exact Mpi.scatter_rep _ _ g
    · exact ⟨fun _ _ _ _ => rfl, fun _ _ _ _ => rfl, fun _ _ _ _ => rfl, fun _ _ _ _ => rfl, fun _ _ _ _ => rfl,
          fun _ _ => rfl, fun _ _ => rfl, fun _ _ => rfl, fun _ _ => rfl⟩
  obtain ⟨out, ho, hpos⟩ := C51_approx_solve_defined (realPlat 1 id)
      (opsAt (r := r) (c := c) (exGpu K aware) (2 : Fin 3) (1 : Fin 2)) (exCfg 4) rfl
      (by decide) (by decide) (by decide) (by decide) (by decide) (by decide) (by decide)
      (fun h => absurd h (by decide)) (fun _ => 0) (fun _ => 0) (onHost K r c g (fun _ _ => 0) true)
  have hp := hpos (fun _ => Mpi.C09_mpi_hermitian_accepted (E := (exGpu K aware).mpi) (Mpi.exRuns K).1 (Mpi.exRuns K).2
      (fun _ _ _ _ => rfl) exMat_hermitian (le_refl _)) (by decide)
  obtain ⟨X, -, σ, -, -, hX⟩ := C91_mgpu_partial (exGpu_sound K aware) (Mpi.exRuns K).1 (Mpi.exRuns K).2 (realPlat 1 id)
    (realPlat_sorts _ _) (realPlat_keeps _ _) (Lapack.ideal_ok _ _ _) (le_refl _) (exCfg 4) rfl rfl rfl (by decide)
    (by decide) _ _ hrep exMat_hermitian _ _ out ho hp
  exact ⟨out, ho, hp, C90_mgpu_partial (exGpu_sound K aware) (Mpi.exRuns K).1 (Mpi.exRuns K).2 (realPlat 1 id)
    (realPlat_sorts _ _) (realPlat_keeps _ _) (Lapack.ideal_ok _ _ _) (le_refl _) (exCfg 4) rfl rfl rfl (by decide)
    (by decide) _ _ hrep exMat_hermitian _ _ out ho hp, X, σ, hX⟩

end Mgpu

/-! ### The statements are not true of arbitrary values -/

/-- A value below all eigenvalues violates C90. -/
example : ¬ Variational (1 : Matrix (Fin 3) (Fin 3) ℝ) 2 fun _ => 0 := by
  intro h
  have h1 := (h (fun _ => 1) (by unfold EigenvaluesOf; simp [Matrix.charpoly_one]) (fun _ _ _ => le_rfl) {0}
    (by simp)).1
  have e : (Finset.univ.filter fun k : Fin 3 => k.val < ({0} : Finset ℕ).card) = {0} := by decide
  rw [e, Finset.sum_singleton, Finset.sum_singleton] at h1
  linarith

/-- The first unit vector is not close to an eigenvector of `diag(0, 1)` for the value 1. -/
example : ¬ NearEigenvector (Matrix.diagonal ![0, 1] : Matrix (Fin 2) (Fin 2) ℝ) 1 ![1, 0] (1 / 2) := by
  intro h
  obtain ⟨y, hy, hr⟩ := h 1 one_pos
  have h0 : y 0 = 0 := by
    clear hr
    unfold nearEigenvectors at hy
    induction hy using Submodule.span_induction with
    | mem y hy =>
      obtain ⟨μ, hμ, e⟩ := hy
      have := congrFun e 0
      simp [Matrix.mulVec_diagonal] at this
      rcases this with rfl | h
      · norm_num at hμ
      · exact h
    | zero => rfl
    | add x y _ _ hx hy => simp [hx, hy]
    | smul a x _ hx => simp [hx]
  rw [Real.sqrt_le_iff] at hr
  have := hr.2
  rw [Fin.sum_univ_two, h0] at this
  simp at this
  nlinarith [sq_nonneg (y 1)]

end Verif
