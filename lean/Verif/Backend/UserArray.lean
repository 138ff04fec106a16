/-
C41 for the in-place CPU backend: what the user's array holds after an odd number of rounds.
-/
import Verif.Backend.SolveProps
import Verif.Backend.LapackExists
import Verif.Solver.RealPlat

namespace Verif

open Matrix

variable {K : Type*} [RCLike K] {N : ℕ}

/-- After `Resd` the second buffer of the CPU backend holds the residual vectors. -/
theorem InPlace.resd_V2 (ritzv : ℕ → ℝ) (l u : ℕ) (s : InPlace.St K N) (hH : s.H.IsHermitian) :
    ∀ i, i < u → (InPlace.resd .cpu ritzv l u s).2.V2 (l + i) =
      s.H.mulVec (s.V1 (l + i)) - (ritzv i : K) • s.V1 (l + i) := by
  set s1 : InPlace.St K N := { s with V2 := setBlk l (s.Hᴴ * getBlk l u s.V1) s.V2 } with hs1
  have h := forRange_inv (Nat.zero_le u)
    (fun i (p : (ℕ → ℝ) × InPlace.St K N) =>
      (Function.update p.1 i (nrm2 ((Function.update p.2.V2 (l + i)
        ((-(ritzv i : K)) • p.2.V1 (l + i) + p.2.V2 (l + i))) (l + i))),
        { p.2 with
          V2 := Function.update p.2.V2 (l + i) ((-(ritzv i : K)) • p.2.V1 (l + i) + p.2.V2 (l + i)) }))
    (fun m p => p.2.V1 = s.V1 ∧ (∀ j, l + m ≤ j → p.2.V2 j = s1.V2 j) ∧
      ∀ i, i < m → p.2.V2 (l + i) = s.H.mulVec (s.V1 (l + i)) - (ritzv i : K) • s.V1 (l + i))
    (s := (fun _ => 0, s1)) ⟨rfl, fun _ _ => rfl, by omega⟩ ?_
  · exact h.2.2
  · rintro m p - hm ⟨a3, a7, a8⟩
    refine ⟨a3, ?_, ?_⟩
    · intro j hj
      show Function.update p.2.V2 (l + m) _ j = _
      rw [Function.update_of_ne (by omega)]
      exact a7 j (by omega)
    · intro i hi
      show Function.update p.2.V2 (l + m) _ (l + i) = _
      by_cases h : i = m
      · subst h
        rw [Function.update_self, a3, a7 _ le_rfl]
        have g1 : s1.V2 (l + i) = s.Hᴴ.mulVec (s.V1 (l + i)) := by
          show setBlk l (s.Hᴴ * getBlk l u s.V1) s.V2 (l + i) = _
          rw [setBlk_mem (by omega) (by omega)]
          have := mul_getBlk_col s.Hᴴ s.V1 (off := l) (⟨l + i - l, by omega⟩ : Fin u)
          rw [this]
          congr 2
          show l + (l + i - l) = l + i
          omega
        rw [g1, hH.eq, neg_smul]
        abel
      · rw [Function.update_of_ne (by omega)]
        exact a8 i (by omega)

/-- **C41** (in-place CPU backend, odd number of rounds).  The user's array does not hold the vectors:
with `x_j` the returned vectors (in the internal buffer) and `v_j` the returned values, the array holds
the residual vectors `H x - v x` of the pairs handled in the last round, in the order before the last
sorting.  `first` is the number of pairs locked before the last round. -/
theorem C41_inplace_odd (P : Plat ℝ) (hP : SortsIndices P) (E : Env K)
    (hL : E.lapack.Ok) (hε : 0 ≤ E.lapack.eps) (cfg : Config ℝ)
    (hnev : E.nev = cfg.nev) (hnex : E.nex = cfg.nex) (hN : cfg.N = N) (hle : cfg.nev + cfg.nex ≤ N)
    (hmax : Even cfg.maxDeg) (ritzv0 resid0 : ℕ → ℝ) (s : InPlace.St K N)
    (hq : QrAvoids P (InPlace.ops E .cpu) cfg ritzv0 resid0 s (InPlace.badQr E))
    (hH : s.H.IsHermitian) (hfl : s.flipped = false) (out : Outcome ℝ (InPlace.St K N))
    (h : solve P (InPlace.ops E .cpu) cfg ritzv0 resid0 s = .ok out) (hodd : out.iterations % 2 = 1) :
    ∃ first, first < cfg.nev ∧ (out.iterations = 1 → first = 0) ∧
      ∃ σ : Equiv.Perm ℕ, PermOn 0 cfg.nev σ ∧
      ∀ j, first ≤ j → j < cfg.nev + cfg.nex →
        out.be.userV .cpu j =
          s.H.mulVec (out.be.V1 (σ j)) - (out.ritzv (σ j) : K) • out.be.V1 (σ j) := by
  subst hN
  have hE : E.nevex = cfg.nev + cfg.nex := by unfold Env.nevex; rw [hnev, hnex]
  have hb := InPlace.bookkeeping (E := E) (k := .cpu) (H0 := s.H) hL hε (by rw [hE]; exact hle) hH
  rw [hE] at hb
  have hsym : cfg.symCheck = true → ((InPlace.ops E .cpu).checkSymmetryEasy s).1 = true :=
    fun _ => C09_hermitian_accepted E.lapack _ hH
  have hpar := parity_at_end (InPlace.toggles E .cpu) hP hmax hsym h
  rw [hfl, hodd] at hpar
  have h' : solve P (InPlace.safeOps E .cpu) cfg ritzv0 resid0 s = .ok out :=
    solve_withQr h hq InPlace.safeQr_agree
  clear h
  obtain ⟨be0, st0, st, hbe0, h0, hst, hnr, -, rfl⟩ := solve_ok h' hsym
  have hpre : (InPlace.phases E .cpu s.H).pre be0 := by
    have : (InPlace.phases E .cpu s.H).pre s := rfl
    rw [hbe0]; split_ifs
    · exact hb.check _ this
    · exact this
  have hit0 : st0.iteration = 0 ∧ st0.locked = 0 := by
    obtain ⟨be1, l, -, -, -, rfl⟩ := initState_ok h0
    exact ⟨rfl, rfl⟩
  cases hst with
  | refl =>
    have hodd' : st0.iteration % 2 = 1 := hodd
    rw [hit0.1] at hodd'; omega
  | @tail st1 _ hs1 hstep =>
    have hreach := steps_reach (.init h0) hs1
    obtain ⟨hinv, -⟩ := columns_at_head hP hb hmax hpre hreach
    obtain ⟨q, st3, R, rfl⟩ := round_exists hb.frame hmax hinv hstep
    have hacc := reach_acc hreach
    have hrun := hstep.1
    have hu : cfg.nex < st1.unconverged := hrun.1
    obtain ⟨-, -, σ1, hσ1, l1, -, -, l4⟩ := lockStep_perm hP.permutes hb (st := st3)
      (by rw [R.locked, R.unconverged]; exact hacc.1) (by rw [R.locked]; exact hacc.2.1)
      R.synced (by rw [R.locked]; exact R.nl3)
    obtain ⟨-, σ2, hσ2, g1, g2⟩ := finalSort_spec (ops := InPlace.safeOps E .cpu) (cols := InPlace.St.V1)
      (nev := cfg.nev) (hb.swap.mono (by omega)) (lockStep P (InPlace.safeOps E .cpu) cfg st3).ritzv
      (lockStep P (InPlace.safeOps E .cpu) cfg st3).be
    have hV2 : (finalSort (InPlace.safeOps E .cpu) cfg.nev (lockStep P (InPlace.safeOps E .cpu) cfg st3).ritzv
        (lockStep P (InPlace.safeOps E .cpu) cfg st3).be).2.V2 = st3.be.V2 := by
      have hq : ∀ i j t, InPlace.St.V2 ((InPlace.safeOps (N := cfg.N) E .cpu).swap i j t) = t.V2 :=
        fun _ _ _ => rfl
      refine (finalSort_quiet hq _ _ _).trans ?_
      show InPlace.St.V2 (lockLoop _ _ _ _ _ _ _).be = _
      exact lockLoop_nl (ops := InPlace.safeOps E .cpu) (nl := InPlace.St.V2) (fun _ _ _ => rfl) _ _ _ _ _ _
    refine ⟨st1.locked, by omega, ?_, (σ1 * σ2)⁻¹, ?_, ?_⟩
    · intro h1
      have h2 : st3.iteration + 1 = 1 := h1
      have h3 : st1.iteration = 0 := by rw [← R.iteration]; omega
      cases hs1 with
      | refl => exact hit0.2
      | tail a b =>
        have := iter_iteration _ _ _ _ _ b.2
        omega
    · have : PermOn 0 cfg.nev (σ1 * σ2) := by
        intro i hi
        show σ1 (σ2 i) = i
        rw [hσ2 i (by omega), hσ1 i (by rw [R.locked, R.unconverged]; omega)]
      intro i hi
      rw [Equiv.Perm.inv_eq_iff_eq]
      exact (this i hi).symm
    · intro j hj1 hj2
      show (if _ then _ else _ : ℕ → Fin cfg.N → K) j = _
      rw [hpar]
      show (finalSort (InPlace.safeOps E .cpu) cfg.nev (lockStep P (InPlace.safeOps E .cpu) cfg st3).ritzv
        (lockStep P (InPlace.safeOps E .cpu) cfg st3).be).2.V2 j = s.H.mulVec (InPlace.St.V1 (finalSort
          (InPlace.safeOps E .cpu) cfg.nev (lockStep P (InPlace.safeOps E .cpu) cfg st3).ritzv
          (lockStep P (InPlace.safeOps E .cpu) cfg st3).be).2 _) -
          ((finalSort (InPlace.safeOps E .cpu) cfg.nev (lockStep P (InPlace.safeOps E .cpu) cfg st3).ritzv
          (lockStep P (InPlace.safeOps E .cpu) cfg st3).be).1 _ : K) • InPlace.St.V1 (finalSort
          (InPlace.safeOps E .cpu) cfg.nev (lockStep P (InPlace.safeOps E .cpu) cfg st3).ritzv
          (lockStep P (InPlace.safeOps E .cpu) cfg st3).be).2 _
      rw [hV2, g1, g2, l1, l4]
      have e : σ1 (σ2 ((σ1 * σ2)⁻¹ j)) = j := (σ1 * σ2).apply_symm_apply j
      simp only [Function.comp, e]
      obtain ⟨t, ht⟩ : ∃ t, t = ((InPlace.safeOps E .cpu).rr (cfg.nev + cfg.nex - q.locked) q).2 := ⟨_, rfl⟩
      have b3 := R.be3
      rw [← ht] at b3
      have hcol := R.columns
      rw [← ht] at hcol
      have htl : t.locked = st1.locked := by rw [ht, ← R.nlq]; rfl
      have htH : t.H = s.H := by rw [ht]; exact R.ready.1
      have hr2 := InPlace.resd_V2 (fun i => st3.ritzv (st1.locked + i)) t.locked
        (E.nevex - q.locked) t (by rw [htH]; exact hH) (j - st1.locked) (by
          rw [hE, show q.locked = st1.locked from R.nlq]; omega)
      have e2 : st1.locked + (j - st1.locked) = j := by omega
      rw [htl, htH, e2, ← hcol] at hr2
      have b4 : st3.be.V2 j = (InPlace.resd .cpu (fun i => st3.ritzv (st1.locked + i)) t.locked
          (E.nevex - q.locked) t).2.V2 j := congrArg (fun x : InPlace.St K cfg.N => x.V2 j) b3
      rw [← hr2, b4, htl]

/-- **C41 is false** for the in-place CPU backend: for every LAPACK, every size, and every start space,
a solve with the identity matrix that makes one round (approximate mode, Householder QR) returns with
vectors of norm one in the internal buffer and nothing but zeros in the user's array. -/
theorem C41_inplace_refuted (P : Plat ℝ) (hP : SortsIndices P) (E : Env K)
    (hL : E.lapack.Ok) (hε : 0 ≤ E.lapack.eps) (cfg : Config ℝ)
    (hnev : E.nev = cfg.nev) (hnex : E.nex = cfg.nex) (hN : cfg.N = N) (hle : cfg.nev + cfg.nex ≤ N)
    (hmax : Even cfg.maxDeg) (happ : cfg.approx = true) (h1 : 2 ≤ cfg.N) (h2 : 1 ≤ cfg.deg)
    (h3 : 2 ≤ cfg.maxDeg) (h4 : 1 ≤ cfg.degExtra) (h5 : 1 ≤ cfg.nev) (h6 : 1 ≤ cfg.lanczosIter)
    (hopt : cfg.optimization = false) (hit : cfg.maxIter = 1)
    (ritzv0 resid0 : ℕ → ℝ) (s : InPlace.St K N)
    (hq : QrAvoids P (InPlace.ops E .cpu) cfg ritzv0 resid0 s (InPlace.badQr E))
    (hH : s.H = 1) (hfl : s.flipped = false) :
    ∃ out, solve P (InPlace.ops E .cpu) cfg ritzv0 resid0 s = .ok out ∧ out.iterations = 1 ∧
      (∀ j, j < cfg.nev + cfg.nex → ∑ k, ‖out.be.V1 j k‖ ^ 2 = 1) ∧
      ∀ j, j < cfg.nev + cfg.nex → out.be.userV .cpu j = 0 := by
  have hH' : s.H.IsHermitian := by rw [hH]; exact Matrix.isHermitian_one
  obtain ⟨out, ho, hpos⟩ := C51_approx_solve_defined P (InPlace.ops E .cpu) cfg happ hmax h1 h2 h3 h4 h5
    h6 (fun h => absurd h (by rw [hopt]; simp)) ritzv0 resid0 s
  have hsym : cfg.symCheck = true → ((InPlace.ops E .cpu).checkSymmetryEasy s).1 = true :=
    fun _ => C09_hermitian_accepted E.lapack _ hH'
  have hp := hpos hsym (by omega)
  have hle' := (C01_stops_within_maxIter P (InPlace.ops E .cpu) cfg ritzv0 resid0 s out hsym ho).1
  have hi : out.iterations = 1 := by omega
  obtain ⟨-, hcert, -⟩ := C41_inplace_partial P hP E .cpu hL hε cfg hnev hnex hN hle hmax ritzv0 resid0
    s hq hH' hfl out ho
  obtain ⟨c1, c2, -⟩ := hcert hp
  obtain ⟨first, -, hf, σ, hσ, hu⟩ := C41_inplace_odd P hP E hL hε cfg hnev hnex hN hle hmax ritzv0
    resid0 s hq hH' hfl out ho (by rw [hi])
  have hunit : ∀ j, j < cfg.nev + cfg.nex → ∑ k, ‖out.be.V1 j k‖ ^ 2 = 1 := by
    intro j hj
    have : dotc (out.be.V1 j) (out.be.V1 j) = _ := c1 j j hj hj
    rw [dotc_self, if_pos rfl] at this
    exact_mod_cast this
  refine ⟨out, ho, hi, hunit, fun j hj => ?_⟩
  rw [hu j (by rw [hf hi]; omega) hj, hH, Matrix.one_mulVec]
  have hj' : σ j < cfg.nev + cfg.nex := by
    by_contra hcon
    have : σ j = j := σ.injective (hσ _ (by omega))
    omega
  have hr := c2 (σ j) hj'
  unfold IsRayleigh at hr
  have hr1 : ∑ k, star (out.be.V1 (σ j) k) * out.be.V1 (σ j) k = (out.ritzv (σ j) : K) := by
    rw [← hr]
    show _ = ∑ k, star (out.be.V1 (σ j) k) * s.H.mulVec (out.be.V1 (σ j)) k
    rw [hH, Matrix.one_mulVec]
  have hv := c1 (σ j) (σ j) hj' hj'
  rw [if_pos rfl, hr1] at hv
  rw [hv, one_smul, sub_self]

/-! ### Non-vacuity: an environment, a configuration and a matrix that meet all hypotheses -/

/-- The environment of the examples: an ideal LAPACK, three plus two columns, Householder QR. -/
noncomputable def exEnv (K : Type*) [RCLike K] : Env K :=
  { lapack := Lapack.ideal K (fun j i => (j + i : ℕ)) (fun i => (i : ℕ)) 0, nev := 3, nex := 2,
    doCholQR := false, envDisable := none, condUpper := 1, condLower := 1 }

/-- The configuration of the examples. -/
noncomputable def exCfg (maxIter : ℕ) : Config ℝ :=
  Config.run .d 7 3 2 [.approx true, .opt false, .maxIter maxIter]

/-- A Hermitian matrix that is not diagonal. -/
def exMat (K : Type*) [RCLike K] : Matrix (Fin 7) (Fin 7) K :=
  Matrix.of fun i j => if i = j then ((i.val : ℕ) : K) else 1

theorem exMat_hermitian : (exMat K).IsHermitian := by
  apply Matrix.IsHermitian.ext
  intro i j
  show star (if j = i then ((j.val : ℕ) : K) else 1) = if i = j then ((i.val : ℕ) : K) else 1
  by_cases h : i = j
  · subst h; simp
  · rw [if_neg h, if_neg (Ne.symm h)]; simp

/-- `C50_seq`: there is a solve with a positive number of rounds that meets the hypotheses. -/
example : ∃ (s : Seq.St K 7) (out : Outcome ℝ (Seq.St K 7)),
    solve (realPlat 1 id) (Seq.ops (exEnv K)) (exCfg 4) (fun _ => 0) (fun _ => 0) s = .ok out ∧
    s.H = exMat K ∧ 0 < out.iterations ∧ (exEnv K).lapack.Ok ∧ SortsIndices (realPlat 1 id) ∧
    CertifiedPairs (exMat K) 3 5 out.ritzv out.resid out.be.C := by
  obtain ⟨s, hs⟩ : ∃ s : Seq.St K 7, s.H = exMat K :=
    ⟨⟨exMat K, fun _ _ => 0, fun _ _ => 0, fun _ _ => 0, fun _ _ => 0, .bAc, 0, true⟩, rfl⟩
  have hL : (exEnv K).lapack.Ok := Lapack.ideal_ok _ _ _
  have hH : s.H.IsHermitian := by rw [hs]; exact exMat_hermitian
  obtain ⟨out, ho, hpos⟩ := C51_approx_solve_defined (realPlat 1 id) (Seq.ops (exEnv K)) (exCfg 4) rfl
    (by decide) (by decide) (by decide) (by decide) (by decide) (by decide) (by decide)
    (fun h => absurd h (by decide)) (fun _ => 0) (fun _ => 0) s
  have hp := hpos (fun _ => C09_hermitian_accepted (exEnv K).lapack _ hH) (by decide)
  refine ⟨s, out, ho, hs, hp, hL, realPlat_sorts _ _, ?_⟩
  have := (C50_seq (realPlat 1 id) (realPlat_sorts _ _) (exEnv K) hL (exCfg 4) rfl rfl rfl (by decide)
    (by decide) _ _ s hH out ho).2 hp
  rw [hs] at this
  exact this

/-- The condition on the run holds whenever Householder QR is selected. -/
theorem QrAvoids.of_householder {P : Plat ℝ} {E : Env K} (h : cholDisable E.doCholQR E.envDisable = 1)
    (ops : Chase ℝ (InPlace.St K N)) (cfg : Config ℝ) (r0 s0 : ℕ → ℝ) (s : InPlace.St K N) :
    QrAvoids P ops cfg r0 s0 s (InPlace.badQr E) :=
  .of_est (fun _ hb => hb.1 h) (fun _ _ _ _ _ _ _ _ hb => hb.1 h) _ _ _ _ _

/-- It holds whenever no condition estimate exceeds the limit for the shifted variant. -/
theorem QrAvoids.of_small {P : Plat ℝ} {E : Env K} (h1 : 1 ≤ E.condUpper)
    (h : ∀ a b c d m n, P.condEst a b c d m n ≤ E.condUpper)
    (ops : Chase ℝ (InPlace.St K N)) (cfg : Config ℝ) (r0 s0 : ℕ → ℝ) (s : InPlace.St K N) :
    QrAvoids P ops cfg r0 s0 s (InPlace.badQr E) :=
  .of_est (fun _ hb => absurd hb.2.1 (not_lt.mpr h1))
    (fun _ _ _ _ _ _ _ _ hb => absurd hb.2.1 (not_lt.mpr (h _ _ _ _ _ _))) _ _ _ _ _

/-- Library functions with a condition estimate that is always one. -/
noncomputable def exPlat : Plat ℝ := { realPlat 1 id with condEst := fun _ _ _ _ _ _ => 1 }

/-- The environment of the examples with Cholesky QR. -/
noncomputable def exEnvChol (K : Type*) [RCLike K] : Env K :=
  { exEnv K with doCholQR := true, condUpper := 10, condLower := 2 }

/-- `C41_inplace_partial` with Cholesky QR: there is a solve with a positive number of rounds, on both
backends, that meets the hypotheses. -/
example (k : InPlace.Kind) : ∃ (s : InPlace.St K 7) (out : Outcome ℝ (InPlace.St K 7)),
    solve exPlat (InPlace.ops (exEnvChol K) k) (exCfg 4) (fun _ => 0) (fun _ => 0) s = .ok out ∧
    cholDisable (exEnvChol K).doCholQR (exEnvChol K).envDisable ≠ 1 ∧
    s.userH k = exMat K ∧ 0 < out.iterations ∧
    CertifiedPairs (exMat K) 3 5 out.ritzv out.resid out.be.V1 := by
  obtain ⟨s, hs, hfl⟩ : ∃ s : InPlace.St K 7, s.userH k = exMat K ∧ s.flipped = false := by
    refine ⟨⟨exMat K, exMat K, fun _ _ => 0, fun _ _ => 0, fun _ _ => 0, false, fun _ => 0, 0, true⟩, ?_,
      rfl⟩
    cases k <;> rfl
  have hL : (exEnvChol K).lapack.Ok := Lapack.ideal_ok _ _ _
  have hH : (s.userH k).IsHermitian := by rw [hs]; exact exMat_hermitian
  obtain ⟨out, ho, hpos⟩ := C51_approx_solve_defined exPlat (InPlace.ops (exEnvChol K) k) (exCfg 4) rfl
    (by decide) (by decide) (by decide) (by decide) (by decide) (by decide) (by decide)
    (fun h => absurd h (by decide)) (fun _ => 0) (fun _ => 0) s
  have hp := hpos (fun _ => C09_hermitian_accepted (exEnvChol K).lapack _ hH) (by decide)
  refine ⟨s, out, ho, by simp [cholDisable, exEnvChol, exEnv], hs, hp, ?_⟩
  have hP : SortsIndices exPlat := realPlat_sorts 1 id
  have := (C41_inplace_partial exPlat hP (exEnvChol K) k hL (le_refl _) (exCfg 4) rfl rfl rfl (by decide)
    (by decide) _ _ s (.of_small (by show (1 : ℝ) ≤ 10; norm_num)
      (fun _ _ _ _ _ _ => by show (1 : ℝ) ≤ 10; norm_num) _ _ _ _ _) hH hfl out ho).2.1 hp
  exact hs ▸ this

/-- `C41_inplace_partial`, `C41_inplace_odd`, `C41_inplace_refuted`: hypotheses met. -/
example : (exEnv K).lapack.Ok ∧ 0 ≤ (exEnv K).lapack.eps ∧
    cholDisable (exEnv K).doCholQR (exEnv K).envDisable = 1 ∧ (exEnv K).nev = (exCfg 1).nev ∧
    (exEnv K).nex = (exCfg 1).nex ∧ (exCfg 1).N = 7 ∧ (exCfg 1).nev + (exCfg 1).nex ≤ 7 ∧
    Even (exCfg 1).maxDeg ∧ (exCfg 1).approx = true ∧ 2 ≤ (exCfg 1).N ∧ 1 ≤ (exCfg 1).deg ∧
    2 ≤ (exCfg 1).maxDeg ∧ 1 ≤ (exCfg 1).degExtra ∧ 1 ≤ (exCfg 1).nev ∧ 1 ≤ (exCfg 1).lanczosIter ∧
    (exCfg 1).optimization = false ∧ (exCfg 1).maxIter = 1 ∧
    ∃ s : InPlace.St K 7, s.H = 1 ∧ s.flipped = false ∧
      QrAvoids (realPlat 1 id) (InPlace.ops (exEnv K) .cpu) (exCfg 1) (fun _ => 0) (fun _ => 0) s
        (InPlace.badQr (exEnv K)) :=
  ⟨Lapack.ideal_ok _ _ _, le_refl _, rfl, rfl, rfl, rfl, by decide, by decide, rfl, by decide, by decide,
    by decide, by decide, by decide, by decide, rfl, rfl,
    ⟨1, 1, fun _ _ => 0, fun _ _ => 0, fun _ _ => 0, false, fun _ => 0, 0, true⟩, rfl, rfl,
    .of_householder rfl _ _ _ _ _⟩

end Verif
