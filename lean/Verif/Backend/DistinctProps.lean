/-
C85: the returned values stand for different eigenvalues.
-/
import Verif.Backend.Distinct
import Verif.Backend.SolveProps
import Verif.Backend.MgpuProps
import Verif.Backend.UserArray

namespace Verif

open Matrix Finset

section
variable {K : Type*} [RCLike K] {N : ℕ}

/-! ### Specification -/

/-- `w` lists the eigenvalues of `H`, with multiplicities: the zeros of the characteristic polynomial. -/
def EigenvaluesOf (H : Matrix (Fin N) (Fin N) K) (w : Fin N → ℝ) : Prop :=
  H.charpoly = ∏ i, (Polynomial.X - Polynomial.C (w i : K))

/-- The values at the positions `T` stand for different eigenvalues of `H` at distance at most `ε`; an eigenvalue of
multiplicity `m` may be used `m` times. -/
def StandForDifferent (H : Matrix (Fin N) (Fin N) K) (T : Finset ℕ) (vals : ℕ → ℝ) (ε : ℝ) : Prop :=
  ∀ w, EigenvaluesOf H w → ∃ f : T → Fin N, Function.Injective f ∧ ∀ i : T, |w (f i) - vals i| ≤ ε

/-- The outcome promised by C85 for `n` values of which the first `nev` were asked for. -/
def DifferentEigenvalues (H : Matrix (Fin N) (Fin N) K) (nev n : ℕ) (vals resid : ℕ → ℝ) : Prop :=
  StandForDifferent H (range nev) vals (Real.sqrt (∑ j ∈ range nev, resid j ^ 2)) ∧
  StandForDifferent H (range n) vals (Real.sqrt (∑ j ∈ range n, resid j ^ 2)) ∧
  ∀ w, EigenvaluesOf H w → Monotone w → ∀ i : Fin N, (i : ℕ) < nev →
    w i ≤ vals i + Real.sqrt (∑ j ∈ range nev, resid j ^ 2)

/-! ### Proof -/

theorem exists_perm_of_map_eq {w w' : Fin N → ℝ} (h : univ.val.map w = univ.val.map w') :
    ∃ σ : Equiv.Perm (Fin N), w = w' ∘ σ := by
  have hp : (List.ofFn w).Perm (List.ofFn w') := by
    rw [← Multiset.coe_eq_coe, ← Fin.univ_val_map, ← Fin.univ_val_map, h]
  have hs : w ∘ Tuple.sort w = w' ∘ Tuple.sort w' := by
    apply List.ofFn_injective
    refine List.Perm.eq_of_sortedLE ?_ ?_ (((Equiv.Perm.ofFn_comp_perm _ _).trans hp).trans (Equiv.Perm.ofFn_comp_perm _ _).symm)
    · exact (Tuple.monotone_sort w).sortedLE_ofFn
    · exact (Tuple.monotone_sort w').sortedLE_ofFn
  refine ⟨(Tuple.sort w).symm.trans (Tuple.sort w'), ?_⟩
  funext i
  have := congrFun hs ((Tuple.sort w).symm i)
  simpa using this

/-- An orthonormal basis of eigenvectors for a given list of the eigenvalues. -/
theorem EigenvaluesOf.basis {H : Matrix (Fin N) (Fin N) K} (hH : H.IsHermitian) {w : Fin N → ℝ} (hw : EigenvaluesOf H w) :
    ∃ b : OrthonormalBasis (Fin N) K (EuclideanSpace K (Fin N)), ∀ k, Matrix.toEuclideanLin H (b k) = (w k : K) • b k := by
  have h1 : univ.val.map w = univ.val.map hH.eigenvalues := by
    have h2 := hH.charpoly_eq
    rw [hw] at h2
    have h3 := congrArg Polynomial.roots h2
    rw [Polynomial.roots_prod _ _ (by simp [Finset.prod_ne_zero_iff, Polynomial.X_sub_C_ne_zero]),
      Polynomial.roots_prod _ _ (by simp [Finset.prod_ne_zero_iff, Polynomial.X_sub_C_ne_zero])] at h3
    simp only [Polynomial.roots_X_sub_C, Multiset.bind_singleton] at h3
    have h4 := congrArg (Multiset.map (RCLike.re : K → ℝ)) h3
    rw [Multiset.map_map, Multiset.map_map] at h4
    simpa [Function.comp_def] using h4
  obtain ⟨σ, e⟩ := exists_perm_of_map_eq h1
  refine ⟨hH.eigenvectorBasis.reindex σ.symm, fun k => ?_⟩
  rw [e, OrthonormalBasis.reindex_apply, Equiv.symm_symm]
  have := hH.mulVec_eigenvectorBasis (σ k)
  ext i
  have h5 := congrFun this i
  simpa [Matrix.toEuclideanLin, RCLike.real_smul_eq_coe_mul] using h5

theorem eigenvaluesOf_exists {H : Matrix (Fin N) (Fin N) K} (hH : H.IsHermitian) :
    ∃ w, EigenvaluesOf H w ∧ Monotone w := by
  refine ⟨hH.eigenvalues ∘ Tuple.sort hH.eigenvalues, ?_, Tuple.monotone_sort _⟩
  unfold EigenvaluesOf
  rw [hH.charpoly_eq]
  exact (Equiv.prod_comp (Tuple.sort hH.eigenvalues) fun i => Polynomial.X - Polynomial.C (hH.eigenvalues i : K)).symm

/-- Orthonormal vectors with residuals. -/
theorem standForDifferent_of {H : Matrix (Fin N) (Fin N) K} (hH : H.IsHermitian) {T : Finset ℕ} {vals res : ℕ → ℝ}
    {X : ℕ → Fin N → K} (ho : ∀ i ∈ T, ∀ j ∈ T, ∑ k, star (X i k) * X j k = if i = j then 1 else 0)
    (hr : ∀ i ∈ T, IsResidual H (vals i) (X i) (res i)) :
    StandForDifferent H T vals (Real.sqrt (∑ i ∈ T, res i ^ 2)) := by
  classical
  intro w hw
  obtain ⟨b, hb⟩ := hw.basis hH
  let q : T → EuclideanSpace K (Fin N) := fun i => WithLp.toLp 2 (X i)
  have hq : Orthonormal K q := by
    rw [orthonormal_iff_ite]
    intro i j
    have := ho i i.2 j j.2
    rw [EuclideanSpace.inner_eq_star_dotProduct]
    simp only [q, dotProduct, Pi.star_apply]
    rw [show (if i = j then (1 : K) else 0) = if (i : ℕ) = j then 1 else 0 by
      by_cases h : i = j
      · rw [if_pos h, if_pos (congrArg _ h)]
      · rw [if_neg h, if_neg fun e => h (Subtype.ext e)], ← this]
    exact Finset.sum_congr rfl fun k _ => mul_comm _ _
  have hn : ∀ c : EuclideanSpace K T, ‖∑ i, c i • q i‖ = ‖c‖ := by
    intro c
    rw [← sq_eq_sq₀ (norm_nonneg _) (norm_nonneg _), EuclideanSpace.norm_sq_eq c]
    have := hq.inner_sum (fun i => c i) (fun i => c i) univ
    rw [inner_self_eq_norm_sq_to_K] at this
    have h2 : ((‖∑ i, c i • q i‖ ^ 2 : ℝ) : K) = ((∑ i, ‖c i‖ ^ 2 : ℝ) : K) := by
      push_cast
      rw [this]
      exact Finset.sum_congr rfl fun i _ => RCLike.conj_mul _
    exact_mod_cast h2
  have hres : ∑ i : T, ‖Matrix.toEuclideanLin H (q i) - (vals i : K) • q i‖ ^ 2 ≤ Real.sqrt (∑ i ∈ T, res i ^ 2) ^ 2 := by
    rw [Real.sq_sqrt (Finset.sum_nonneg fun _ _ => sq_nonneg _), ← Finset.sum_attach T, Finset.univ_eq_attach]
    refine Finset.sum_le_sum fun i _ => ?_
    have := hr i i.2
    unfold IsResidual at this
    rw [this, Real.sq_sqrt (Finset.sum_nonneg fun _ _ => sq_nonneg _), EuclideanSpace.norm_sq_eq]
    refine le_of_eq (Finset.sum_congr rfl fun k _ => ?_)
    simp [q, Matrix.toEuclideanLin, RCLike.real_smul_eq_coe_mul]
  obtain ⟨D, hD⟩ : ∃ D : ℝ, ∀ i j : T, |vals i - vals j| ≤ 2 * D := by
    refine ⟨∑ i : T, |vals i|, fun i j => ?_⟩
    have h1 := Finset.single_le_sum (f := fun i : T => |vals i|) (fun _ _ => abs_nonneg _) (mem_univ i)
    have h2 := Finset.single_le_sum (f := fun i : T => |vals i|) (fun _ _ => abs_nonneg _) (mem_univ j)
    have h3 := abs_sub (vals i) (vals j)
    linarith
  obtain ⟨f, hf, hd⟩ := Distinct.exists_eigenvalues hb (q := q) (θ := fun i => vals i) (a := 1) (b := 1) (D := D)
    (fun c => by rw [hn, one_mul]) (fun c => by rw [hn, one_mul]) hres (Real.sqrt_nonneg _) one_pos le_rfl hD
  exact ⟨f, hf, fun i => by simpa using hd i⟩

theorem StandForDifferent.lower {H : Matrix (Fin N) (Fin N) K} {nev : ℕ} {vals : ℕ → ℝ} {ε : ℝ}
    (h : StandForDifferent H (range nev) vals ε) (hasc : ∀ i j, i ≤ j → j < nev → vals i ≤ vals j) {w : Fin N → ℝ}
    (hw : EigenvaluesOf H w) (hm : Monotone w) (i : Fin N) (hi : (i : ℕ) < nev) : w i ≤ vals i + ε := by
  obtain ⟨f, hf, hd⟩ := h w hw
  obtain ⟨j, hj, hk⟩ : ∃ j : range nev, (j : ℕ) ≤ i ∧ i ≤ f j := by
    by_contra hcon
    push Not at hcon
    have h1 : (Finset.univ : Finset (Fin (i + 1))).card ≤ (Finset.univ : Finset (Fin i)).card := by
      refine Finset.card_le_card_of_injOn
        (fun j => if h : (f ⟨j, mem_range.mpr (by have := j.isLt; omega)⟩ : ℕ) < i then ⟨_, h⟩ else ⟨0, ?_⟩) (fun _ _ => mem_univ _) ?_
      · have := hcon ⟨j, mem_range.mpr (by have := j.isLt; omega)⟩ (by have := j.isLt; show (j : ℕ) ≤ i; omega)
        exact absurd this h
      · intro a _ b _ hab
        have ha : ((f ⟨a, mem_range.mpr (by have := a.isLt; omega)⟩ : Fin N) : ℕ) < i := hcon ⟨a, mem_range.mpr (by have := a.isLt; omega)⟩ (by have := a.isLt; show (a : ℕ) ≤ i; omega)
        have hb : ((f ⟨b, mem_range.mpr (by have := b.isLt; omega)⟩ : Fin N) : ℕ) < i := hcon ⟨b, mem_range.mpr (by have := b.isLt; omega)⟩ (by have := b.isLt; show (b : ℕ) ≤ i; omega)
        simp only at hab
        rw [dif_pos ha, dif_pos hb] at hab
        have hv := congrArg Fin.val hab
        simp only at hv
        have := hf (Fin.ext hv)
        exact Fin.ext (congrArg (fun x : range nev => (x : ℕ)) this)
    simp at h1
  have h1 := hm hk
  have h2 := (abs_le.mp (hd j)).2
  have h3 := hasc j i hj hi
  linarith

/-- Certified pairs stand for different eigenvalues. -/
theorem CertifiedPairs.different {H : Matrix (Fin N) (Fin N) K} (hH : H.IsHermitian) {nev n : ℕ} (hn : nev ≤ n)
    {vals resid : ℕ → ℝ} {X : ℕ → Fin N → K} (h : CertifiedPairs H nev n vals resid X) :
    DifferentEigenvalues H nev n vals resid := by
  obtain ⟨ho, -, hasc, ⟨σ, hσ, hres⟩, -⟩ := h
  have hs : ∀ m, nev ≤ m → m ≤ n → StandForDifferent H (range m) vals (Real.sqrt (∑ j ∈ range m, resid j ^ 2)) := by
    intro m hm hmn
    have e : ∑ j ∈ range m, resid j ^ 2 = ∑ i ∈ range m, resid (σ i) ^ 2 := by
      symm
      refine Finset.sum_equiv σ (fun i => ?_) fun _ _ => rfl
      rw [mem_range, mem_range]
      constructor
      · intro hi
        by_contra hc
        have := σ.injective (hσ (σ i) (by omega))
        omega
      · intro hi
        by_contra hc
        rw [hσ i (by omega)] at hi
        omega
    rw [e]
    refine standForDifferent_of (res := fun i => resid (σ i)) (X := X) hH (fun i hi j hj => ?_) fun i hi => ?_
    · rw [mem_range] at hi hj
      exact ho i j (by omega) (by omega)
    · rw [mem_range] at hi
      exact (hres i (by omega)).1
  exact ⟨hs nev le_rfl hn, hs n hn le_rfl, fun w hw hm i hi => (hs nev le_rfl hn).lower hasc hw hm i hi⟩

/-- With all residuals at most `δ` the distance is at most `δ√n`. -/
theorem StandForDifferent.of_le {H : Matrix (Fin N) (Fin N) K} {n : ℕ} {vals resid : ℕ → ℝ} {δ : ℝ} (hδ : 0 ≤ δ)
    (h : StandForDifferent H (range n) vals (Real.sqrt (∑ j ∈ range n, resid j ^ 2)))
    (hr : ∀ j, j < n → |resid j| ≤ δ) : StandForDifferent H (range n) vals (Real.sqrt n * δ) := by
  intro w hw
  obtain ⟨f, hf, hd⟩ := h w hw
  refine ⟨f, hf, fun i => (hd i).trans ?_⟩
  rw [← Real.sqrt_sq hδ, ← Real.sqrt_mul (Nat.cast_nonneg _)]
  refine Real.sqrt_le_sqrt ?_
  calc ∑ j ∈ range n, resid j ^ 2 ≤ ∑ j ∈ range n, δ ^ 2 :=
        Finset.sum_le_sum fun j hj => sq_le_sq' (by have := abs_le.mp (hr j (mem_range.mp hj)); linarith)
          (le_of_abs_le (hr j (mem_range.mp hj)))
    _ = n * δ ^ 2 := by simp

/-! ### C85 -/

/-- **C85** (one process, CPU) After a solve with at least one round the returned values stand for different
eigenvalues, up to the root of the sum of the squared returned residuals; no returned value is below the eigenvalue
of the same rank by more. -/
theorem C85_seq (P : Plat ℝ) (hP : SortsIndices P) (E : Env K) (hL : E.lapack.Ok) (cfg : Config ℝ)
    (hnev : E.nev = cfg.nev) (hnex : E.nex = cfg.nex) (hN : cfg.N = N) (hle : cfg.nev + cfg.nex ≤ N)
    (hmax : Even cfg.maxDeg) (ritzv0 resid0 : ℕ → ℝ) (s : Seq.St K N) (hH : s.H.IsHermitian)
    (out : Outcome ℝ (Seq.St K N)) (h : solve P (Seq.ops E) cfg ritzv0 resid0 s = .ok out)
    (hit : 0 < out.iterations) :
    DifferentEigenvalues s.H cfg.nev (cfg.nev + cfg.nex) out.ritzv out.resid :=
  ((C50_seq P hP E hL cfg hnev hnex hN hle hmax ritzv0 resid0 s hH out h).2 hit).different hH (Nat.le_add_right _ _)

/-- **C85** (partial, the backends that work in the user's arrays).  Missing: runs in which the shifted Cholesky QR
meets linearly dependent columns (`hq`). -/
theorem C85_inplace_partial (P : Plat ℝ) (hP : SortsIndices P) (E : Env K) (k : InPlace.Kind)
    (hL : E.lapack.Ok) (hε : 0 ≤ E.lapack.eps) (cfg : Config ℝ)
    (hnev : E.nev = cfg.nev) (hnex : E.nex = cfg.nex) (hN : cfg.N = N) (hle : cfg.nev + cfg.nex ≤ N)
    (hmax : Even cfg.maxDeg) (ritzv0 resid0 : ℕ → ℝ) (s : InPlace.St K N)
    (hq : QrAvoids P (InPlace.ops E k) cfg ritzv0 resid0 s (InPlace.badQr E))
    (hH : (s.userH k).IsHermitian) (hfl : s.flipped = false) (out : Outcome ℝ (InPlace.St K N))
    (h : solve P (InPlace.ops E k) cfg ritzv0 resid0 s = .ok out) (hit : 0 < out.iterations) :
    DifferentEigenvalues (s.userH k) cfg.nev (cfg.nev + cfg.nex) out.ritzv out.resid :=
  ((C41_inplace_partial P hP E k hL hε cfg hnev hnex hN hle hmax ritzv0 resid0 s hq hH hfl out h).2.1 hit).different
    hH (Nat.le_add_right _ _)

/-- `C85_seq`: a solve with a positive number of rounds, and a matrix with eigenvalues in ascending order. -/
example : ∃ (s : Seq.St K 7) (out : Outcome ℝ (Seq.St K 7)) (w : Fin 7 → ℝ),
    solve (realPlat 1 id) (Seq.ops (exEnv K)) (exCfg 4) (fun _ => 0) (fun _ => 0) s = .ok out ∧
    s.H = exMat K ∧ 0 < out.iterations ∧ EigenvaluesOf s.H w ∧ Monotone w ∧
    DifferentEigenvalues s.H 3 5 out.ritzv out.resid := by
  obtain ⟨s, hs⟩ : ∃ s : Seq.St K 7, s.H = exMat K :=
    ⟨⟨exMat K, fun _ _ => 0, fun _ _ => 0, fun _ _ => 0, fun _ _ => 0, .bAc, 0, true⟩, rfl⟩
  have hL : (exEnv K).lapack.Ok := Lapack.ideal_ok _ _ _
  have hH : s.H.IsHermitian := by rw [hs]; exact exMat_hermitian
  obtain ⟨out, ho, hpos⟩ := C51_approx_solve_defined (realPlat 1 id) (Seq.ops (exEnv K)) (exCfg 4) rfl
    (by decide) (by decide) (by decide) (by decide) (by decide) (by decide) (by decide)
    (fun h => absurd h (by decide)) (fun _ => 0) (fun _ => 0) s
  have hp := hpos (fun _ => C09_hermitian_accepted (exEnv K).lapack _ hH) (by decide)
  obtain ⟨w, hw, hm⟩ := eigenvaluesOf_exists hH
  exact ⟨s, out, w, ho, hs, hp, hw, hm, C85_seq (realPlat 1 id) (realPlat_sorts _ _) (exEnv K) hL (exCfg 4) rfl rfl
    rfl (by decide) (by decide) _ _ s hH out ho hp⟩

/-- `C85_inplace_partial`: the same, on both backends, with Cholesky QR. -/
example (k : InPlace.Kind) : ∃ (s : InPlace.St K 7) (out : Outcome ℝ (InPlace.St K 7)),
    solve exPlat (InPlace.ops (exEnvChol K) k) (exCfg 4) (fun _ => 0) (fun _ => 0) s = .ok out ∧
    s.userH k = exMat K ∧ 0 < out.iterations ∧
    DifferentEigenvalues (s.userH k) 3 5 out.ritzv out.resid := by
  obtain ⟨s, hs, hfl⟩ : ∃ s : InPlace.St K 7, s.userH k = exMat K ∧ s.flipped = false := by
    refine ⟨⟨exMat K, exMat K, fun _ _ => 0, fun _ _ => 0, fun _ _ => 0, false, fun _ => 0, 0, true⟩, ?_,
      rfl⟩
    cases k <;> rfl
  have hL : (exEnvChol K).lapack.Ok := Lapack.ideal_ok _ _ _
  have hH : (s.userH k).IsHermitian := by rw [hs]; exact exMat_hermitian
  obtain ⟨out, ho, hpos⟩ := C51_approx_solve_defined exPlat (InPlace.ops (exEnvChol K) k) (exCfg 4) rfl
    (by decide) (by decide) (by decide) (by decide) (by decide) (by decide) (by decide)
    (fun h => absurd h (by decide)) (fun _ => 0) (fun _ => 0) s
  have hp := hpos (fun _ => C09_hermitian_accepted (exEnvChol K).lapack _ hH) (by decide)
  exact ⟨s, out, ho, hs, hp, C85_inplace_partial exPlat (realPlat_sorts 1 id) (exEnvChol K) k hL (le_refl _) (exCfg 4)
    rfl rfl rfl (by decide) (by decide) _ _ s (.of_small (by show (1 : ℝ) ≤ 10; norm_num)
      (fun _ _ _ _ _ _ => by show (1 : ℝ) ≤ 10; norm_num) _ _ _ _ _) hH hfl out ho hp⟩

end

namespace Mpi
variable {K : Type*} [RCLike K] {N : ℕ} {r c : Layout N} {E : MEnv K}

/-- **C85** (distributed CPU backend) The values and residuals every process gets. -/
theorem C85_mpi (hc : RunsOk r c E.cRuns) (hb : RunsOk c r E.bRuns) (P : Plat ℝ)
    (hP : SortsIndices P) (hkeep : SortKeepsSorted P) (hL : E.base.lapack.Ok) (ht : 0 ≤ E.symTol)
    (cfg : Config ℝ) (hnev : E.base.nev = cfg.nev) (hnex : E.base.nex = cfg.nex) (hN : cfg.N = N)
    (hle : cfg.nev + cfg.nex ≤ N) (hmax : Even cfg.maxDeg) (ritzv0 resid0 : ℕ → ℝ)
    {s : Fam K r c} {g : GSt K N} (h : Rep s g) (hH : g.H.IsHermitian) (i0 : Fin r.procs)
    (j0 : Fin c.procs) (out : Outcome ℝ (Fam K r c))
    (ho : solve P (opsAt E i0 j0) cfg ritzv0 resid0 s = .ok out) (hit : 0 < out.iterations) :
    DifferentEigenvalues g.H cfg.nev (cfg.nev + cfg.nex) out.ritzv out.resid := by
  obtain ⟨-, X, -, hX⟩ := C50_mpi_partial hc hb P hP hkeep hL ht cfg hnev hnex hN hle hmax ritzv0 resid0 h hH i0 j0 out ho
  obtain ⟨-, σ, -, -, hcert⟩ := hX hit
  exact hcert.different hH (Nat.le_add_right _ _)

/-- `C85_mpi`: a solve on a 3 x 2 grid with at least one round. -/
example : ∃ (s : Fam K (cyclicLayout exRow) (cyclicLayout exCol)) (g : GSt K 7)
    (out : Outcome ℝ (Fam K (cyclicLayout exRow) (cyclicLayout exCol))),
    Rep s g ∧ g.H = exMat K ∧
    solve (realPlat 1 id) (opsAt (exMEnv K) (2 : Fin 3) (1 : Fin 2)) (exCfg 4) (fun _ => 0) (fun _ => 0) s
      = .ok out ∧ 0 < out.iterations ∧ DifferentEigenvalues g.H 3 5 out.ritzv out.resid := by
  let g : GSt K 7 := ⟨⟨exMat K, fun _ _ => 0, fun _ _ => 0, fun _ _ => 0, fun _ _ => 0, .bAc, 0, true⟩, true⟩
  have hL : (exEnv K).lapack.Ok := Lapack.ideal_ok _ _ _
  obtain ⟨out, ho, hpos⟩ := C51_approx_solve_defined (realPlat 1 id)
    (opsAt (r := cyclicLayout exRow) (c := cyclicLayout exCol) (exMEnv K) (2 : Fin 3) (1 : Fin 2)) (exCfg 4) rfl
    (by decide) (by decide) (by decide) (by decide) (by decide) (by decide) (by decide)
    (fun h => absurd h (by decide)) (fun _ => 0) (fun _ => 0) (scatter _ _ g)
  have hp := hpos (fun _ => C09_mpi_hermitian_accepted (exRuns K).1 (exRuns K).2 (fun _ _ _ _ => rfl) exMat_hermitian
    (le_refl _)) (by decide)
  exact ⟨scatter _ _ g, g, out, scatter_rep _ _ _, rfl, ho, hp, C85_mpi (exRuns K).1 (exRuns K).2 (realPlat 1 id)
    (realPlat_sorts _ _) (realPlat_keeps _ _) hL (le_refl _) (exCfg 4) rfl rfl rfl (by decide) (by decide) _ _
    (scatter_rep _ _ _) exMat_hermitian _ _ out ho hp⟩

end Mpi

namespace Mgpu
open Mpi (Layout Fam GSt)
variable {K : Type*} [RCLike K] {N : ℕ} {r c : Layout N} {E : GpuEnv K}

/-- **C85** (partial, multi-GPU backend).  Missing: the setups outside `E.Sound`. -/
theorem C85_mgpu_partial (hS : E.Sound) (hc : Mpi.RunsOk r c E.mpi.cRuns) (hb : Mpi.RunsOk c r E.mpi.bRuns)
    (P : Plat ℝ) (hP : SortsIndices P) (hkeep : SortKeepsSorted P) (hL : E.mpi.base.lapack.Ok)
    (ht : 0 ≤ E.mpi.symTol) (cfg : Config ℝ) (hnev : E.mpi.base.nev = cfg.nev)
    (hnex : E.mpi.base.nex = cfg.nex) (hN : cfg.N = N) (hle : cfg.nev + cfg.nex ≤ N)
    (hmax : Even cfg.maxDeg) (ritzv0 resid0 : ℕ → ℝ) {s : GFam K r c} {g : GSt K N}
    (h : Mpi.Rep (pview E s) g) (hH : g.H.IsHermitian) (i0 : Fin r.procs) (j0 : Fin c.procs)
    (out : Outcome ℝ (GFam K r c)) (ho : solve P (opsAt E i0 j0) cfg ritzv0 resid0 s = .ok out)
    (hit : 0 < out.iterations) :
    DifferentEigenvalues g.H cfg.nev (cfg.nev + cfg.nex) out.ritzv out.resid := by
  obtain ⟨-, hX⟩ := C60_mgpu_partial hS hc hb P hP hkeep hL ht cfg hnev hnex hN hle hmax ritzv0 resid0 h hH i0 j0 out ho
  obtain ⟨X, -, -, σ, -, -, hcert⟩ := hX hit
  exact hcert.different hH (Nat.le_add_right _ _)

/-- `C85_mgpu_partial`: a solve on a 3 x 2 grid with at least one round, in both variants. -/
example (aware : Bool) :
    let g : GSt K 7 := ⟨⟨exMat K, fun _ _ => 0, fun _ _ => 0, fun _ _ => 0, fun _ _ => 0, .bAc, 0, true⟩, true⟩
    let r := Mpi.cyclicLayout Mpi.exRow
    let c := Mpi.cyclicLayout Mpi.exCol
    ∃ out, solve (realPlat 1 id) (opsAt (exGpu K aware) (2 : Fin 3) (1 : Fin 2)) (exCfg 4) (fun _ => 0)
      (fun _ => 0) (onHost K r c g (fun _ _ => 0) true) = .ok out ∧ 0 < out.iterations ∧
      DifferentEigenvalues (exMat K) 3 5 out.ritzv out.resid := by
  intro g r c
  have hrep : Mpi.Rep (pview (exGpu K aware) (onHost K r c g (fun _ _ => 0) true)) g := by
    cases aware
    · exact Mpi.scatter_rep _ _ g
    · exact ⟨fun _ _ _ _ => rfl, fun _ _ _ _ => rfl, fun _ _ _ _ => rfl, fun _ _ _ _ => rfl, fun _ _ _ _ => rfl,
          fun _ _ => rfl, fun _ _ => rfl, fun _ _ => rfl, fun _ _ => rfl⟩
  obtain ⟨out, ho, hpos⟩ := C51_approx_solve_defined (realPlat 1 id)
      (opsAt (r := r) (c := c) (exGpu K aware) (2 : Fin 3) (1 : Fin 2)) (exCfg 4) rfl
      (by decide) (by decide) (by decide) (by decide) (by decide) (by decide) (by decide)
      (fun h => absurd h (by decide)) (fun _ => 0) (fun _ => 0) (onHost K r c g (fun _ _ => 0) true)
  have hp := hpos (fun _ => Mpi.C09_mpi_hermitian_accepted (E := (exGpu K aware).mpi) (Mpi.exRuns K).1 (Mpi.exRuns K).2
      (fun _ _ _ _ => rfl) exMat_hermitian (le_refl _)) (by decide)
  exact ⟨out, ho, hp, C85_mgpu_partial (exGpu_sound K aware) (Mpi.exRuns K).1 (Mpi.exRuns K).2 (realPlat 1 id)
    (realPlat_sorts _ _) (realPlat_keeps _ _) (Lapack.ideal_ok _ _ _) (le_refl _) (exCfg 4) rfl rfl rfl (by decide)
    (by decide) _ _ hrep exMat_hermitian _ _ out ho hp⟩

end Mgpu
end Verif
