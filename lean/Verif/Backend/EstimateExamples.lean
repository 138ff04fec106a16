/-
C88: a round that meets its hypotheses, and rounds in which the estimate is too small.
-/
import Verif.Backend.EstimateProps
import Verif.Solver.ToyProof

open Matrix Finset Polynomial

namespace Verif

variable {K : Type*} [RCLike K]

/-! ### The number at the start -/

section
variable {R S : Type*} [Add R] [Sub R] [Mul R] [Div R] [Neg R] [Zero R] [One R] [NatCast R] [LT R] [DecidableLT R]
  {bad : ℕ → R → S → Prop} {ops : Chase R S}

/-- The QR call at the start of a solve with random vectors, as the watch sees it. -/
theorem init_mark {P : Plat R} {cfg : Config R} (happ : cfg.approx = false) {r0 s0 : ℕ → R} {s : S}
    {st : St R (S × Prop)} (h : initState P (watch bad ops) cfg r0 s0 (s, False) = .ok st) :
    st.be.2 ↔ bad 0 1 (ops.initVecs true (ops.start s)) := by
  obtain ⟨be1, l, hb1, hl, -, rfl⟩ := initState_ok h
  rw [happ] at hb1 hl
  simp only [Bool.not_false, if_true] at hb1
  rw [watch_eq, lanczos_withQr] at hl
  have e : be1.2 ↔ bad 0 1 (ops.initVecs true (ops.start s)) := by
    rw [hb1]; exact ⟨fun h => h.resolve_left id, Or.inr⟩
  rw [← e]
  show l.be.2 ↔ be1.2
  constructor
  · intro hm
    by_contra hb
    exact (RelE.self_ok (lanczos_sim (watch_clean ops) P _ _ _ _ _ r0 (be := be1) (be' := be1) ⟨rfl, hb⟩)
      hl).be.2 hm
  · intro hb
    exact (RelE.self_ok (lanczos_sim (watch_mark (fun _ _ _ => False) ops) P _ _ _ _ _ r0 (be := be1) (be' := be1)
      ⟨rfl, hb⟩) hl).be.2

end

/-- Columns of condition number one have the same length. -/
theorem CondAtMost.length {N lo hi : ℕ} {X : ℕ → Fin N → K} (h : CondAtMost 1 lo hi X) {i j : ℕ} (hi1 : lo ≤ i)
    (hi2 : i < hi) (hj1 : lo ≤ j) (hj2 : j < hi) : nrm2 (X i) = nrm2 (X j) := by
  have key : ∀ i, lo ≤ i → i < hi → ∀ j, lo ≤ j → j < hi → nrm2 (X i) ≤ nrm2 (X j) := by
    intro i h1 h2 j h3 h4
    have hs : ∀ i, lo ≤ i → i < hi → ∑ k ∈ Ico lo hi, ‖(if k = i then (1 : K) else 0)‖ ^ 2 = 1 := by
      intro i h1 h2
      rw [Finset.sum_eq_single i] <;> simp_all
    have ht : ∀ i, lo ≤ i → i < hi → ∑ k ∈ Ico lo hi, (if k = i then (1 : K) else 0) • X k = X i := by
      intro i h1 h2
      rw [Finset.sum_eq_single i] <;> simp_all
    have := h (fun k => if k = i then 1 else 0) (fun k => if k = j then 1 else 0) (by rw [hs i h1 h2, hs j h3 h4])
    rwa [ht i h1 h2, ht j h3 h4, one_mul] at this
  exact le_antisymm (key i hi1 hi2 j hj1 hj2) (key j hj1 hj2 i hi1 hi2)

/-- **C88** fails at the start of every solve with random vectors that do not all have the same length: QR is
told the number one. -/
theorem C88_refuted_start {N : ℕ} (P : Plat ℝ) (E : Env K) (cfg : Config ℝ) (happ : cfg.approx = false)
    (hsz : E.nev + E.nex = cfg.nev + cfg.nex) (ritzv0 resid0 : ℕ → ℝ) (s : Seq.St K N)
    (st : St ℝ (Seq.St K N × Prop))
    (h : initState P (watch (Underestimates Seq.St.C (cfg.nev + cfg.nex)) (Seq.ops E)) cfg ritzv0 resid0
      (s, False) = .ok st) (i j : ℕ) (hi : i < cfg.nev + cfg.nex) (hj : j < cfg.nev + cfg.nex)
    (hne : nrm2 (fun a : Fin N => E.lapack.randn i a) ≠ nrm2 (fun a : Fin N => E.lapack.randn j a)) :
    st.be.2 := by
  rw [init_mark happ h]
  intro hc
  have := hc.length (Nat.zero_le _) hi (Nat.zero_le _) hj
  have e : ∀ k, k < cfg.nev + cfg.nex → ((Seq.ops E).initVecs true ((Seq.ops E).start s)).C k =
      fun a : Fin N => E.lapack.randn k a := by
    intro k hk
    show writeAt s.C 0 E.nevex (fun j i => E.lapack.randn j i) k = _
    rw [writeAt_in _ _ _ (by unfold Env.nevex; omega)]
  rw [e i hi, e j hj] at this
  exact hne this

/-- One Lanczos run of one step, on two columns. -/
noncomputable def exRndCfg : Config ℝ := Config.run .d 7 1 1 [.opt false, .lanczosIter 1, .numLanczos 1]

noncomputable def exRndEnv (K : Type*) [RCLike K] : Env K := { exEnv K with nev := 1, nex := 1 }

theorem exRnd_lanczos {S : Type*} (ops : Chase ℝ S) (be : S) (htau : (ops.lanczosN 1 1 be).1.tau 0 = 1) :
    ∃ l, lanczos (realPlat 1 fun _ => 1 / 2) ops 7 1 1 2 true (fun _ => 0) be = .ok l := by
  unfold lanczos
  rw [if_neg (by omega), if_neg (by simp)]
  obtain ⟨o, ho⟩ : ∃ o, ops.lanczosN 1 1 be = o := ⟨_, rfl⟩
  rw [ho] at htau ⊢
  dsimp only
  have e0 : (realPlat 1 fun _ => 1 / 2).sortIdx (1 * 1) o.1.theta 0 = 0 := by
    have := (realPlat_sorts 1 (fun _ => 1 / 2) 1 o.1.theta).1 0 (by omega)
    rw [Nat.mul_one]
    omega
  have hcur : dosCurr (realPlat 1 fun _ => 1 / 2) o.1.theta o.1.tau 1 1 (o.1.theta 0) = 1 / 2 := by
    unfold dosCurr
    show (if _ then _ else _) / _ = _
    rw [if_neg (by norm_num), if_neg (by norm_num), htau]
    show (0 + 1 * (1 / 2 : ℝ)) / ((1 : ℕ) : ℝ) = 1 / 2
    norm_num
  have hd : dosSearch (realPlat 1 fun _ => 1 / 2) o.1.theta o.1.tau
      (fun i => o.1.theta ((realPlat 1 fun _ => 1 / 2).sortIdx (1 * 1) o.1.theta i)) (1 * 1) 1
      (((2 : ℕ) : ℝ) / ((7 : ℕ) : ℝ)) (1 * 1) 0 0 = .ok (o.1.theta 0) := by
    show (if _ then _ else _) = _
    beta_reduce
    rw [e0, Nat.mul_one, hcur, if_pos (by norm_num), if_pos (by unfold stdAbs; norm_num)]
  rw [if_neg (by omega), hd]
  have hi : dosIdx o.1.theta ((1 - 1) * 1) 1 (o.1.theta 0) = .ofNat 0 := by
    unfold dosIdx
    simp
  dsimp only
  rw [hi]
  exact ⟨_, rfl⟩

/-- The start with random vectors ends well. -/
theorem exRnd_init (s : Seq.St K 7) : ∃ st, initState (realPlat 1 fun _ => 1 / 2) (Seq.ops (exRndEnv K)) exRndCfg
    (fun _ => 0) (fun _ => 0) s = .ok st := by
  have hL : (exRndEnv K).lapack.Ok := Lapack.ideal_ok _ _ _
  unfold initState
  dsimp only
  generalize hbe : (if (!exRndCfg.approx) = true then _ else _ : Seq.St K 7) = be
  obtain ⟨l, hl⟩ := exRnd_lanczos (Seq.ops (exRndEnv K)) be (by
    obtain ⟨-, h, -⟩ := hL.stemr 1 (fun k => (mLanczos axpyOwn be.H 1 1 true be.C).d (0 * 1 + k))
      (fun k => (mLanczos axpyOwn be.H 1 1 true be.C).e (0 * 1 + k))
    have h := h 0 0 (by omega) (by omega)
    rw [Finset.sum_range_one, if_pos rfl] at h
    exact (abs_mul_abs_self _).trans h)
  have : lanczos (realPlat 1 fun _ => 1 / 2) (Seq.ops (exRndEnv K)) exRndCfg.N exRndCfg.numLanczos
      (min (exRndCfg.nev + exRndCfg.nex) (min (exRndCfg.N / 2) exRndCfg.lanczosIter))
      (exRndCfg.nev + exRndCfg.nex) (!exRndCfg.approx) (fun _ => 0) be = .ok l := hl
  rw [this]
  exact ⟨_, rfl⟩

/-- `C88_refuted_start` is about something: here the first two random vectors have different lengths. -/
example (s : Seq.St K 7) : exRndCfg.approx = false ∧ exRndCfg.nev + exRndCfg.nex = 2 ∧
    ∃ st, initState (realPlat 1 fun _ => 1 / 2) (watch (Underestimates Seq.St.C 2) (Seq.ops (exRndEnv K)))
      exRndCfg (fun _ => 0) (fun _ => 0) (s, False) = .ok st ∧
    nrm2 (fun a : Fin 7 => (exRndEnv K).lapack.randn 0 a) ≠ nrm2 (fun a : Fin 7 => (exRndEnv K).lapack.randn 1 a) ∧
    st.be.2 := by
  obtain ⟨st, hst⟩ := exRnd_init s
  have h1 := initState_sim (watch_sim (Underestimates Seq.St.C 2) (Seq.ops (exRndEnv K)))
    (realPlat 1 fun _ => 1 / 2) exRndCfg (fun _ => 0) (fun _ => 0) (be := (s, False)) (be' := s) rfl
  rw [hst] at h1
  have hne : nrm2 (fun a : Fin 7 => (exRndEnv K).lapack.randn 0 a) ≠
      nrm2 (fun a : Fin 7 => (exRndEnv K).lapack.randn 1 a) := by
    intro h
    have h2 : nrm2 (fun a : Fin 7 => (exRndEnv K).lapack.randn 0 a) ^ 2 =
      nrm2 (fun a : Fin 7 => (exRndEnv K).lapack.randn 1 a) ^ 2 := by rw [h]
    rw [nrm2_sq, nrm2_sq] at h2
    have e : ∀ j (a : Fin 7), ‖(exRndEnv K).lapack.randn j a‖ = ((j + a.val : ℕ) : ℝ) := by
      intro j a
      show ‖((j + a.val : ℕ) : K)‖ = _
      rw [RCLike.norm_natCast]
    simp only [e, Fin.sum_univ_succ, Fin.sum_univ_zero] at h2
    norm_num at h2
  generalize hw : initState (realPlat 1 fun _ => 1 / 2) (watch (Underestimates Seq.St.C 2) (Seq.ops (exRndEnv K)))
      exRndCfg (fun _ => 0) (fun _ => 0) (s, False) = w at h1
  cases h1 with
  | ok h1 =>
    rename_i w
    exact ⟨rfl, rfl, w, rfl, hne, C88_refuted_start _ (exRndEnv K) exRndCfg rfl rfl _ _ s w hw 0 1 (by decide)
      (by decide) hne⟩

/-! ### Start columns in a mixed basis -/

section
variable (K)

/-- Orthonormal columns that span the space of the unit vectors 0, 1, 2, 3 and 6. -/
noncomputable def exMix (j : ℕ) : Fin 7 → K :=
  if j = 0 then (3 : K)⁻¹ • ((2 : K) • exU K 0 - exU K 1 + (2 : K) • exU K 6)
  else if j = 1 then (3 : K)⁻¹ • ((2 : K) • exU K 0 + (2 : K) • exU K 1 - exU K 6)
  else if j = 4 then (3 : K)⁻¹ • (-exU K 0 + (2 : K) • exU K 1 + (2 : K) • exU K 6)
  else exU K j

/-- These unit vectors. -/
def exEig (j : ℕ) : Fin 7 → K := if j = 4 then exU K 6 else exU K j

end

/-- The values of `exVals` with the largest first. -/
noncomputable def exSwapped (k : ℕ) : ℝ := if k = 0 then -1 else if k = 4 then -7 else (k : ℝ) - 7

theorem exEig_ortho : ∀ i j, i < 5 → j < 5 → dotc (exEig K i) (exEig K j) = if i = j then 1 else 0 := by
  intro i j hi hj
  unfold exEig
  split_ifs with h1 h2 h3 h3 h3 h3 h3 <;> first | omega | skip
  all_goals (rw [exU_ortho _ _ (by omega) (by omega)]; split_ifs <;> first | rfl | omega)

theorem exEig_eigen (j : ℕ) : (exDiag K).mulVec (exEig K j) = (exVals j : K) • exEig K j := by
  unfold exEig exVals
  split_ifs with h
  · rw [exDiag_U]; norm_num
  · exact exDiag_U j

theorem exMix_span (j : ℕ) (hj : j < 5) : exMix K j ∈ Submodule.span K (exEig K '' {i | 0 ≤ i ∧ i < 5}) := by
  have hm : ∀ i, i < 5 → exEig K i ∈ Submodule.span K (exEig K '' {i | 0 ≤ i ∧ i < 5}) := fun i hi =>
    Submodule.subset_span ⟨i, ⟨Nat.zero_le _, hi⟩, rfl⟩
  have h0 : exU K 0 ∈ _ := hm 0 (by omega)
  have h1 : exU K 1 ∈ _ := hm 1 (by omega)
  have h2 : exU K 2 ∈ _ := hm 2 (by omega)
  have h3 : exU K 3 ∈ _ := hm 3 (by omega)
  have h6 : exU K 6 ∈ _ := hm 4 (by omega)
  have s2 := fun {v} (h : v ∈ Submodule.span K (exEig K '' {i | 0 ≤ i ∧ i < 5})) =>
    Submodule.smul_mem _ (2 : K) h
  unfold exMix
  interval_cases j
  · exact Submodule.smul_mem _ _ (Submodule.add_mem _ (Submodule.sub_mem _ (s2 h0) h1) (s2 h6))
  · exact Submodule.smul_mem _ _ (Submodule.sub_mem _ (Submodule.add_mem _ (s2 h0) (s2 h1)) h6)
  · exact h2
  · exact h3
  · exact Submodule.smul_mem _ _ (Submodule.add_mem _ (Submodule.add_mem _ (Submodule.neg_mem _ h0) (s2 h1)) (s2 h6))

theorem exMix_ortho : ∀ i j, i < 5 → j < 5 → dotc (exMix K i) (exMix K j) = if i = j then 1 else 0 := by
  intro i j hi hj
  have c2 : (starRingEnd K) 2 = 2 := map_ofNat (starRingEnd K) 2
  interval_cases i <;> interval_cases j <;>
    simp [dotc, exMix, exU, Fin.sum_univ_succ, c2] <;> norm_num

/-- The Lanczos process from the first of the columns divides by nothing that is zero in three steps. -/
theorem exMix_krylov : LinearIndependent K (fun k : Fin 3 => (exDiag K ^ (k : ℕ)).mulVec (exMix K 0)) := by
  rw [Fintype.linearIndependent_iff]
  intro g hg
  have hc : ∀ i : Fin 7, ∑ k : Fin 3, g k * ((((i.val : ℝ) - 7 : ℝ) : K) ^ (k : ℕ) * exMix K 0 i) = 0 := by
    intro i
    have := congrFun hg i
    simpa [exDiag, Matrix.diagonal_pow, Matrix.mulVec_diagonal] using this
  have key : ∀ (i : Fin 7) (x y : K), exMix K 0 i = y → y ≠ 0 → (((i.val : ℝ) - 7 : ℝ) : K) = x →
      g 0 + x * g 1 + x ^ 2 * g 2 = 0 := by
    intro i x y h1 h0 h2
    have := hc i
    rw [Fin.sum_univ_three, h1, h2] at this
    simp only [Fin.val_zero, Fin.val_one, Fin.val_two, pow_zero, pow_one, one_mul] at this
    refine (mul_eq_zero.mp ?_).resolve_left h0
    linear_combination this
  have h0 := key 0 (-7) (3⁻¹ * 2) (by simp [exMix, exU]) (by norm_num) (by push_cast; simp)
  have h1 := key 1 (-6) (-3⁻¹) (by simp [exMix, exU]) (by norm_num) (by
    have : ((((1 : Fin 7).val : ℕ) : ℝ) - 7) = -6 := by norm_num
    rw [this]; push_cast; simp)
  have h2 := key 6 (-1) (3⁻¹ * 2) (by simp [exMix, exU]) (by norm_num) (by
    have : ((((6 : Fin 7).val : ℕ) : ℝ) - 7) = -1 := by norm_num
    rw [this]; push_cast; simp)
  have g2 : g 2 = 0 := by
    have : (30 : K) * g 2 = 0 := by linear_combination 5 * h0 - 6 * h1 + h2
    exact (mul_eq_zero.mp this).resolve_left (by norm_num)
  have g1 : g 1 = 0 := by
    rw [g2] at h0 h1
    linear_combination h1 - h0
  have g0 : g 0 = 0 := by
    rw [g2, g1] at h0
    linear_combination h0
  intro i
  fin_cases i <;> assumption

/-! ### A first round -/

/-- The first round of a solve with start values `vals` up to -1. -/
theorem exFirstAt {S : Type*} (P : Plat ℝ) (ops : Chase ℝ S) (s : S) (vals : ℕ → ℝ)
    (hle : ∀ k, k < 5 → vals k ≤ -1) {k0 : ℕ} (hk0 : k0 < 5) (hv : vals k0 = -1)
    (hsym : (ops.checkSymmetryEasy s).1 = true)
    (hb : 0 ≤ boundOf ops (exCfg 4) (if (exCfg 4).symCheck then (ops.checkSymmetryEasy s).2 else s)) :
    ∃ be0 st0 st' st1, be0 = (if (exCfg 4).symCheck then (ops.checkSymmetryEasy s).2 else s) ∧
      initState P ops (exCfg 4) vals (fun _ => 0) be0 = .ok st0 ∧
      Step P ops (exCfg 4) st0 st' ∧ FilterStarts P ops (exCfg 4) st0 st1 ∧
      st0.be = (ops.lanczos1 3 (ops.initVecs false (ops.start be0))).2 ∧ st1.be = st0.be ∧
      st1.locked = 0 ∧ st1.ritzv = vals ∧ IsSmallest vals 5 st1.lambda ∧ st1.lowerb = -1 ∧
      st1.lowerb < st1.upperb ∧ st1.degrees = fun _ => startDegree (exCfg 4) := by
  obtain ⟨out, ho, hpos⟩ := C51_approx_solve_defined P ops (exCfg 4) rfl
    (by decide) (by decide) (by decide) (by decide) (by decide) (by decide) (by decide)
    (fun h => absurd h (by decide)) vals (fun _ => 0) s
  have hp := hpos (fun _ => hsym) (by decide)
  obtain ⟨be0, st0, st, e0, h0, hst, -, -, rfl⟩ := solve_ok ho (fun _ => hsym)
  have hst0 : st0.iteration = 0 ∧ st0.locked = 0 ∧ st0.ritzv = vals ∧
      st0.be = (ops.lanczos1 3 (ops.initVecs false (ops.start be0))).2 ∧
      st0.degrees = fun _ => startDegree (exCfg 4) := by
    obtain ⟨be1, l, hb1, hl, -, rfl⟩ := initState_ok h0
    rw [show (exCfg 4).approx = true from rfl] at hl hb1
    simp only [Bool.not_true, Bool.false_eq_true, if_false] at hl hb1
    unfold lanczos at hl
    split_ifs at hl with c1 c2
    · cases hl
      refine ⟨rfl, rfl, rfl, ?_, rfl⟩
      rw [hb1]
      rfl
    · exact absurd rfl c2
  rcases steps_head hst with rfl | ⟨st', hs, -⟩
  · have : 0 < st.iteration := hp
    omega
  obtain ⟨I, -, -, -, hI, -⟩ := filterRuns_of_iter hs.1 hs.2
  obtain ⟨a1, a2, a3⟩ := first_interval rfl h0 hI (fun k hk => by
    rw [e0]
    exact (hle k hk).trans_lt (lt_of_lt_of_le (by norm_num) hb))
  have hsm := C63_scaling_point_partial P ops (exCfg 4) vals _ be0 st0 (.init h0) (Or.inl hst0.1) I hI
  have hlo : I.lower = -1 := by
    refine le_antisymm ?_ ?_
    · obtain ⟨x, ⟨⟨k1, hk1, e1⟩, -⟩, hl⟩ := (C63_lower_end_partial P ops (exCfg 4) vals _ be0 st0 (.init h0) I
        hI).1 hst0.1
      rw [hl, ← e1, hst0.2.2.1]
      exact (min_le_left _ _).trans (hle _ hk1)
    · have := a3 k0 hk0
      rwa [hv] at this
  rw [hst0.2.2.1] at hsm
  obtain ⟨hrun, st1, h1, rfl⟩ := hI
  have e1 : st1 = updateBounds 5 st0 := by
    have : optimise P ops (exCfg 4) (updateBounds ((exCfg 4).nev + (exCfg 4).nex) st0) =
        .ok (updateBounds 5 st0) := rfl
    rw [this] at h1
    cases h1; rfl
  refine ⟨be0, st0, st', st1, e0, h0, hs, ⟨hrun, h1⟩, hst0.2.2.2.1, ?_, ?_, ?_, hsm, hlo, a2, ?_⟩
  · rw [e1]; rfl
  · rw [e1]; exact hst0.2.1
  · rw [e1]; exact hst0.2.2.1
  · rw [e1]; exact hst0.2.2.2.2

/-- The first round of a watched solve on the single process backend with the start columns `exMix`. -/
theorem exMixRound (bad : ℕ → ℝ → Seq.St K 7 → Prop) (vals : ℕ → ℝ)
    (hle : ∀ k, k < 5 → vals k ≤ -1) {k0 : ℕ} (hk0 : k0 < 5) (hv : vals k0 = -1) :
    ∃ (s : Seq.St K 7) (st0 st' : St ℝ (Seq.St K 7 × Prop)) (st1 : St ℝ (Seq.St K 7)),
      s.H = exDiag K ∧ s.C = exMix K ∧
      initState (realPlat 1 id) (watch bad (Seq.ops (exEnv K))) (exCfg 4) vals (fun _ => 0) (s, False) = .ok st0 ∧
      ¬ st0.be.2 ∧ Step (realPlat 1 id) (watch bad (Seq.ops (exEnv K))) (exCfg 4) st0 st' ∧
      FilterStarts (realPlat 1 id) (Seq.ops (exEnv K)) (exCfg 4) st0.bare st1 ∧
      st1.be.C = exMix K ∧ st1.locked = 0 ∧ st1.ritzv = vals ∧ IsSmallest vals 5 st1.lambda ∧ st1.lowerb = -1 ∧
      st1.lowerb < st1.upperb ∧ st1.degrees = fun _ => startDegree (exCfg 4) := by
  obtain ⟨s, hs, hC⟩ : ∃ s : Seq.St K 7, s.H = exDiag K ∧ s.C = exMix K :=
    ⟨⟨exDiag K, exMix K, fun _ _ => 0, fun _ _ => 0, fun _ _ => 0, .bAc, 0, true⟩, rfl, rfl⟩
  have hH : s.H.IsHermitian := by rw [hs]; exact exDiag_hermitian
  have hW := watch_sim bad (Seq.ops (N := 7) (exEnv K))
  obtain ⟨be0, st0, st', st1, e0, h0, h1, h2, b0, b1, c1, c2, c3, c4, c5, c6⟩ := exFirstAt (realPlat 1 id)
    (watch bad (Seq.ops (exEnv K))) (s, False) vals hle hk0 hv
    (C09_hermitian_accepted (exEnv K).lapack _ hH) (by
      rw [boundOf_sim hW (exCfg 4) (s' := (if (exCfg 4).symCheck then
        ((Seq.ops (exEnv K)).checkSymmetryEasy s).2 else s)) (by split_ifs <;> rfl)]
      exact (lanczosBound_nonneg _ _ _ _ _).trans_eq
        (Seq.boundOf_approx (N := 7) (cfg := exCfg 4) (exEnv K) rfl _).symm)
  obtain ⟨s0, he, hb⟩ : ∃ s0 : Seq.St K 7, be0 = (s0, False) ∧ s0.H = exDiag K ∧ s0.C = exMix K := by
    rw [e0, ← hs, ← hC]
    split_ifs
    · exact ⟨_, rfl, rfl, rfl⟩
    · exact ⟨_, rfl, rfl, rfl⟩
  subst he
  obtain ⟨z1, hz1, hr1⟩ := h2.sim hW (St.rel_bare st0)
  refine ⟨s0, st0, st', z1, hb.1, hb.2, h0, ?_, h1, hz1, ?_, ?_, ?_, ?_, ?_, ?_, ?_⟩
  · rw [b0]; exact id
  · rw [← hr1.be, b1, b0, ← hb.2]; rfl
  · rw [← hr1.locked]; exact c1
  · rw [← hr1.ritzv]; exact c2
  · rw [← hr1.lambda]; exact c3
  · rw [← hr1.lowerb]; exact c4
  · rw [← hr1.lowerb, ← hr1.upperb]; exact c5
  · rw [← hr1.degrees]; exact c6

theorem exVals_ge (k : ℕ) : -7 ≤ exVals k := by
  unfold exVals
  split_ifs
  · norm_num
  · have : (0 : ℝ) ≤ (k : ℝ) := Nat.cast_nonneg k
    linarith

/-- The first round is settled. -/
theorem exSettled {S : Type*} {st1 : St ℝ S} (d2 : st1.locked = 0) (d3 : st1.ritzv = exVals)
    (d4 : IsSmallest exVals 5 st1.lambda) (d5 : st1.lowerb = -1) (d6 : st1.lowerb < st1.upperb)
    (d7 : st1.degrees = fun _ => startDegree (exCfg 4)) :
    SettledRound (exDiag K) 5 st1 (exMix K) (exEig K) exVals := by
  have e0 : exVals 0 = -7 := by unfold exVals; norm_num
  refine ⟨d6, ?_, ?_, ?_, ?_, ?_, Or.inr ⟨?_, ?_, ?_⟩⟩
  · rw [d3, e0]
    obtain ⟨⟨i, -, hi⟩, -⟩ := d4
    rw [← hi]
    exact exVals_ge i
  · rw [d2, d3]
    exact d4.2 0 (by omega)
  · intro j _ hj
    rw [d2, d3, e0, d5]
    exact ⟨exVals_ge j, exVals_le j hj⟩
  · intro i j _ hi _ hj
    exact exEig_ortho i j hi hj
  · intro j _ _
    exact exEig_eigen j
  · intro j _ _
    rw [d7]
  · intro i j _ hi _ hj
    exact exMix_ortho i j hi hj
  · intro j _ hj
    rw [d2]
    exact exMix_span j hj

/-- **C88** on the single process backend: a first round that meets the hypotheses, with columns that are no
eigenvectors and from which the Lanczos process is defined. -/
example : ∃ (s : Seq.St K 7) (st0 st' : St ℝ (Seq.St K 7 × Prop)) (st1 : St ℝ (Seq.St K 7)),
    s.H = exDiag K ∧
    initState (realPlat 1 id) (watch (Underestimates Seq.St.C 5) (Seq.ops (exEnv K))) (exCfg 4) exVals
      (fun _ => 0) (s, False) = .ok st0 ∧ ¬ st0.be.2 ∧
    Step (realPlat 1 id) (watch (Underestimates Seq.St.C 5) (Seq.ops (exEnv K))) (exCfg 4) st0 st' ∧
    FilterStarts (realPlat 1 id) (Seq.ops (exEnv K)) (exCfg 4) st0.bare st1 ∧
    SettledRound s.H 5 st1 st1.be.C (exEig K) exVals ∧ ¬ st'.be.2 ∧
    ∃ l, mLanczosChk axpyOwn s.H (min 5 (min (7 / 2) (exCfg 4).lanczosIter)) 1 false s.C = .ok l := by
  obtain ⟨s, st0, st', st1, hH, hC, h0, hn, hs, hf, d1, d2, d3, d4, d5, d6, d7⟩ := exMixRound (K := K)
    (Underestimates Seq.St.C 5) exVals exVals_le (k0 := 4) (by omega) (by unfold exVals; norm_num)
  have hR : SettledRound s.H 5 st1 st1.be.C (exEig K) exVals := by
    rw [hH, d1]
    exact exSettled d2 d3 d4 d5 d6 d7
  have hHe : s.H.IsHermitian := by rw [hH]; exact exDiag_hermitian
  refine ⟨s, st0, st', st1, hH, h0, hn, hs, hf, hR, ?_, ?_⟩
  · exact C88_seq_partial (cfg := exCfg 4) (N := 7) (exEnv K) (Lapack.ideal_ok _ _ _) rfl rfl rfl (by decide)
      (by decide) s hHe st0 st' (.init h0) hn hs st1 hf (exEig K) exVals hR
  · have h3 : min 5 (min (7 / 2) (exCfg 4).lanczosIter) = 3 := by decide
    rw [h3, C67_lanczos_partial axpyOwn _ hHe 3 1 (fun _ _ => rfl) (by omega), if_pos]
    · exact ⟨_, rfl⟩
    · intro i hi
      obtain rfl : i = 0 := by omega
      rw [hH, hC]
      exact exMix_krylov

/-- **C88** on a 3 x 2 grid of processes: a first round that meets the hypotheses. -/
example :
    let r := Mpi.cyclicLayout Mpi.exRow
    let c := Mpi.cyclicLayout Mpi.exCol
    ∃ (s : Mpi.Fam K r c) (g : Mpi.GSt K 7) (st0 st' : St ℝ (Mpi.Fam K r c × Prop)) (st1 : St ℝ (Mpi.Fam K r c)),
    Mpi.Rep s g ∧ g.H = exDiag K ∧
    initState (realPlat 1 id) (watch (Mpi.Underestimates r c 5) (Mpi.opsAt (Mpi.exMEnv K) (2 : Fin 3) (1 : Fin 2)))
      (exCfg 4) exVals (fun _ => 0) (s, False) = .ok st0 ∧ ¬ st0.be.2 ∧
    Step (realPlat 1 id) (watch (Mpi.Underestimates r c 5) (Mpi.opsAt (Mpi.exMEnv K) (2 : Fin 3) (1 : Fin 2)))
      (exCfg 4) st0 st' ∧
    FilterStarts (realPlat 1 id) (Mpi.opsAt (Mpi.exMEnv K) (2 : Fin 3) (1 : Fin 2)) (exCfg 4) st0.bare st1 ∧
    (∀ i j k a, (st1.be i j).C k a = exMix K k (r.glob i a)) ∧
    SettledRound g.H 5 st1 (exMix K) (exEig K) exVals ∧ ¬ st'.be.2 := by
  intro r c
  let g : Mpi.GSt K 7 :=
    ⟨⟨exDiag K, exMix K, fun _ _ => 0, fun _ _ => 0, fun _ _ => 0, .bAc, 0, true⟩, true⟩
  have hrep := Mpi.scatter_rep r c g
  have hS := Mpi.sim (Mpi.exRuns K).1 (Mpi.exRuns K).2 (2 : Fin 3) (1 : Fin 2)
  have hW := watch_sim (Mpi.Underestimates r c 5) (Mpi.opsAt (Mpi.exMEnv K) (2 : Fin 3) (1 : Fin 2))
  have hsym := Mpi.C09_mpi_hermitian_accepted (E := Mpi.exMEnv K) (Mpi.exRuns K).1 (Mpi.exRuns K).2
    (s := Mpi.scatter r c g) (fun _ _ _ _ => rfl) exDiag_hermitian (le_refl _)
  obtain ⟨be0, st0, st', st1, e0, h0, h1, h2, b0, b1, c1, c2, c3, c4, c5, c6⟩ := exFirstAt (realPlat 1 id)
    (watch (Mpi.Underestimates r c 5) (Mpi.opsAt (Mpi.exMEnv K) (2 : Fin 3) (1 : Fin 2)))
    (Mpi.scatter r c g, False) exVals exVals_le (k0 := 4) (by omega) (by unfold exVals; norm_num) hsym (by
      rw [boundOf_sim hW (exCfg 4) (s' := (if (exCfg 4).symCheck then
        ((Mpi.opsAt (Mpi.exMEnv K) (2 : Fin 3) (1 : Fin 2)).checkSymmetryEasy (Mpi.scatter r c g)).2
        else Mpi.scatter r c g)) (by split_ifs <;> rfl)]
      have hr : Mpi.Rep (if (exCfg 4).symCheck then
          ((Mpi.opsAt (Mpi.exMEnv K) (2 : Fin 3) (1 : Fin 2)).checkSymmetryEasy (Mpi.scatter r c g)).2
          else Mpi.scatter r c g)
          (if (exCfg 4).symCheck then ((Mpi.gOps ((Mpi.exMEnv K).glob r)).checkSymmetryEasy g).2 else g) := by
        split_ifs
        · exact (hS.checkSymmetryEasy _ _ hrep).2
        · exact hrep
      exact (lanczosBound_nonneg _ _ _ _ _).trans_eq ((boundOf_sim hS (exCfg 4) hr).trans
        (Mpi.boundOf_approx (N := 7) (cfg := exCfg 4) ((Mpi.exMEnv K).glob _) _ _ rfl _)).symm)
  obtain ⟨s0, g0, he, hg0, hgH, hgC⟩ : ∃ s0 g0, be0 = (s0, False) ∧ Mpi.Rep s0 g0 ∧ g0.H = exDiag K ∧
      g0.C = exMix K := by
    rw [e0]
    split_ifs
    · exact ⟨_, _, rfl, (hS.checkSymmetryEasy _ _ hrep).2, rfl, rfl⟩
    · exact ⟨_, g, rfl, hrep, rfl, rfl⟩
  subst he
  have hst : ∀ i j k a, (st0.be.1 i j).C k a = exMix K k (r.glob i a) := by
    have hr := (hS.lanczos1 3 _ _ (hS.initVecs false _ _ (hS.start _ _ hg0))).2
    intro i j k a
    rw [b0, ← hgC]
    exact hr.C i j k a
  obtain ⟨z1, hz1, hr1⟩ := h2.sim hW (St.rel_bare st0)
  have hX : ∀ i j k a, (z1.be i j).C k a = exMix K k (r.glob i a) := by
    intro i j k a
    rw [← hst i j k a, ← hr1.be, b1]
  have hn : ¬ st0.be.2 := by rw [b0]; exact id
  have hR : SettledRound g0.H 5 z1 (exMix K) (exEig K) exVals := by
    rw [hgH]
    refine (exSettled ?_ ?_ ?_ ?_ ?_ ?_ : SettledRound (exDiag K) 5 st1 (exMix K) (exEig K) exVals).rel hr1 <;>
      assumption
  refine ⟨s0, g0, st0, st', z1, hg0, hgH, h0, hn, h1, hz1, hX, hR, ?_⟩
  exact Mpi.C88_mpi_partial (cfg := exCfg 4) (N := 7) (Mpi.exRuns K).1 (Mpi.exRuns K).2 (Lapack.ideal_ok _ _ _)
    rfl rfl rfl (by decide) (by decide) hg0 (by rw [hgH]; exact exDiag_hermitian) (2 : Fin 3) (1 : Fin 2) st0 st'
    (.init h0) hn h1 z1 hz1 (exMix K) (exEig K) exVals hX hR

/-! ### Start values in another order -/

theorem nrm2_smul {N : ℕ} (a : K) (x : Fin N → K) : nrm2 (a • x) = ‖a‖ * nrm2 x := by
  have h : nrm2 (a • x) ^ 2 = (‖a‖ * nrm2 x) ^ 2 := by
    rw [mul_pow, nrm2_sq, nrm2_sq, Finset.mul_sum]
    refine Finset.sum_congr rfl fun i _ => ?_
    rw [Pi.smul_apply, smul_eq_mul, norm_mul, mul_pow]
  exact (sq_eq_sq₀ (nrm2_nonneg _) (mul_nonneg (norm_nonneg _) (nrm2_nonneg _))).mp h

/-- Coefficients of the first unit vector in the basis `exMix` ... -/
noncomputable def exCoef0 (K : Type*) [RCLike K] (j : ℕ) : K :=
  if j = 0 then 2 / 3 else if j = 1 then 2 / 3 else if j = 4 then -(1 / 3) else 0

/-- ... and of the last. -/
noncomputable def exCoef6 (K : Type*) [RCLike K] (j : ℕ) : K :=
  if j = 0 then 2 / 3 else if j = 1 then -(1 / 3) else if j = 4 then 2 / 3 else 0

theorem exCoef_norm : ∑ j ∈ Ico 0 5, ‖exCoef0 K j‖ ^ 2 = ∑ j ∈ Ico 0 5, ‖exCoef6 K j‖ ^ 2 := by
  rw [← Finset.range_eq_Ico]
  simp only [Finset.sum_range_succ, Finset.sum_range_zero]
  simp [exCoef0, exCoef6]
  ring

theorem exCoef0_sum : ∑ j ∈ Ico 0 5, exCoef0 K j • exMix K j = exU K 0 := by
  rw [← Finset.range_eq_Ico]
  simp only [Finset.sum_range_succ, Finset.sum_range_zero]
  funext i
  fin_cases i <;> simp [exCoef0, exMix, exU] <;> norm_num

theorem exCoef6_sum : ∑ j ∈ Ico 0 5, exCoef6 K j • exMix K j = exU K 6 := by
  rw [← Finset.range_eq_Ico]
  simp only [Finset.sum_range_succ, Finset.sum_range_zero]
  funext i
  fin_cases i <;> simp [exCoef6, exMix, exU] <;> norm_num

/-- The estimate for a first active value at the lower end of the interval. -/
theorem realCondEst_at_end {upper lower : ℝ} (h : lower < upper) (d m : ℕ) :
    realCondEst upper lower lower lower d m = 1 := by
  have e : (lower - (upper + lower) / 2) / ((upper - lower) / 2) = -1 := by
    rw [div_eq_iff (by linarith)]
    ring
  unfold realCondEst
  dsimp only
  rw [e]
  have : condRho (-1) = 1 := by
    unfold condRho
    norm_num
  rw [this, one_pow, one_pow, one_mul]

/-- **C88** fails for a caller whose start values are the eigenvalues of the start columns' space, with the
largest first: QR is told the number one although the filter has just scaled two orthogonal directions by
different factors. -/
theorem C88_refuted_order : ∃ (s : Seq.St K 7) (st0 st' : St ℝ (Seq.St K 7 × Prop)),
    s.H.IsHermitian ∧ (∀ i j, i < 5 → j < 5 → dotc (s.C i) (s.C j) = if i = j then 1 else 0) ∧
    (∃ (U : ℕ → Fin 7 → K) (σ : Equiv.Perm ℕ),
      (∀ j, j < 5 → s.H.mulVec (U j) = (exSwapped (σ j) : K) • U j) ∧
      (∀ i j, i < 5 → j < 5 → dotc (U i) (U j) = if i = j then 1 else 0) ∧
      ∀ j, j < 5 → s.C j ∈ Submodule.span K (U '' {i | i < 5})) ∧
    (∃ l, mLanczosChk axpyOwn s.H (min 5 (min (7 / 2) (exCfg 4).lanczosIter)) 1 false s.C = .ok l) ∧
    initState (realPlat 1 id) (watch (Underestimates Seq.St.C 5) (Seq.ops (exEnv K))) (exCfg 4) exSwapped
      (fun _ => 0) (s, False) = .ok st0 ∧ ¬ st0.be.2 ∧
    Step (realPlat 1 id) (watch (Underestimates Seq.St.C 5) (Seq.ops (exEnv K))) (exCfg 4) st0 st' ∧
    st'.be.2 := by
  have hle : ∀ k, k < 5 → exSwapped k ≤ -1 := by
    intro k hk
    unfold exSwapped
    split_ifs
    · norm_num
    · norm_num
    · have : (k : ℝ) ≤ 4 := by exact_mod_cast (by omega : k ≤ 4)
      linarith
  obtain ⟨s, st0, st', st1, hH, hC, h0, hn, hs, hf, d1, d2, d3, d4, d5, d6, d7⟩ := exMixRound (K := K)
    (Underestimates Seq.St.C 5) exSwapped hle (k0 := 0) (by omega) (by unfold exSwapped; norm_num)
  have hHe : s.H.IsHermitian := by rw [hH]; exact exDiag_hermitian
  refine ⟨s, st0, st', hHe, ?_, ⟨exEig K, Equiv.swap 0 4, ?_, exEig_ortho, ?_⟩, ?_, h0, hn, hs, ?_⟩
  · rw [hC]; exact exMix_ortho
  · intro j hj
    rw [hH, exEig_eigen]
    congr 2
    unfold exVals exSwapped
    interval_cases j <;> simp [Equiv.swap_apply_def] <;> norm_num
  · intro j hj
    rw [hC]
    have := exMix_span (K := K) j hj
    simpa using this
  · have h3 : min 5 (min (7 / 2) (exCfg 4).lanczosIter) = 3 := by decide
    rw [h3, C67_lanczos_partial axpyOwn _ hHe 3 1 (fun _ _ => rfl) (by omega), if_pos]
    · exact ⟨_, rfl⟩
    · intro i hi
      obtain rfl : i = 0 := by omega
      rw [hH, hC]
      exact exMix_krylov
  have hB := Seq.backs (N := 7) (E := exEnv K) (cfg := exCfg 4) (Lapack.ideal_ok _ _ _) rfl rfl rfl (by decide) hHe
  obtain ⟨Y, e3, -, hY⟩ := round_mark hB (by decide) rfl (.init h0) hn hs hf
  have hlam : st1.lambda = -7 := by
    refine le_antisymm ?_ ?_
    · have := d4.2 4 (by omega)
      rwa [show exSwapped 4 = -7 by unfold exSwapped; norm_num] at this
    · obtain ⟨⟨i, -, hi⟩, -⟩ := d4
      rw [← hi]
      unfold exSwapped
      split_ifs
      · norm_num
      · norm_num
      · have : (0 : ℝ) ≤ (i : ℝ) := Nat.cast_nonneg i
        linarith
  have hY := hY (by rw [hlam, d5]; norm_num) d6
  have er : st1.ritzv 0 = st1.lowerb := by
    rw [d3, d5]; unfold exSwapped; norm_num
  rw [d2, d7, d1] at hY
  beta_reduce at hY
  rw [d2, er, realCondEst_at_end d6] at e3
  rw [e3]
  intro hc
  generalize hA : aeval s.H (filterPoly st1.lambda st1.lowerb st1.upperb (startDegree (exCfg 4))) = A
  have hU : ∀ j, A.mulVec (exEig K j) = (((filterPoly st1.lambda st1.lowerb st1.upperb
      (startDegree (exCfg 4))).eval (exVals j) : ℝ) : K) • exEig K j := by
    intro j
    rw [← hA]
    exact aeval_mulVec_eigenvector s.H _ (by rw [hH]; exact exEig_eigen j)
  have hcomb : ∀ b : ℕ → K, ∑ j ∈ Ico 0 5, b j • Y j = A.mulVec (∑ j ∈ Ico 0 5, b j • exMix K j) := by
    intro b
    rw [← Matrix.mulVecLin_apply, map_sum]
    refine Finset.sum_congr rfl fun j hj => ?_
    rw [map_smul, Matrix.mulVecLin_apply, ← hA]
    exact congrArg _ (hY j (Nat.zero_le _) (Finset.mem_Ico.mp hj).2)
  have key : nrm2 (∑ j ∈ Ico 0 5, exCoef0 K j • Y j) ≤ 1 * nrm2 (∑ j ∈ Ico 0 5, exCoef6 K j • Y j) :=
    hc (exCoef0 K) (exCoef6 K) exCoef_norm
  have u0 : exU K 0 = exEig K 0 := rfl
  have u6 : exU K 6 = exEig K 4 := rfl
  have hn1 : ∀ j, j < 5 → nrm2 (exEig K j) = 1 := by
    intro j hj
    have := exEig_ortho (K := K) j j hj hj
    rw [if_pos rfl, dotc_self_nrm2] at this
    have h2 : nrm2 (exEig K j) ^ 2 = 1 := by exact_mod_cast this
    have h3 := nrm2_nonneg (exEig K j)
    nlinarith
  rw [hcomb, hcomb, exCoef0_sum, exCoef6_sum, u0, u6, hU, hU, nrm2_smul, nrm2_smul, hn1 0 (by omega),
    hn1 4 (by omega), RCLike.norm_ofReal, RCLike.norm_ofReal, filterPoly_eval, filterPoly_eval, abs_div, abs_div,
    hlam, show exVals 0 = -7 by unfold exVals; norm_num, show exVals 4 = -1 by unfold exVals; norm_num] at key
  have hg := one_lt_gain (I := ⟨-7, st1.lowerb, st1.upperb⟩) d6 (d := startDegree (exCfg 4)) (by decide)
    (lam := -7) (show (-7 : ℝ) < st1.lowerb by rw [d5]; norm_num)
  have hl := gain_le_one (I := ⟨-7, st1.lowerb, st1.upperb⟩) d6 (startDegree (exCfg 4)) (x := -1)
    (by rw [d5]) (by rw [← d5]; exact d6.le)
  rw [gain_eq] at hg hl
  dsimp only at hg hl
  rw [div_self (by linarith), mul_one, one_mul, mul_one, le_div_iff₀ (by linarith)] at key
  linarith

end Verif
