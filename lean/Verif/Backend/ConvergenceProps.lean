/-
C66: as long as nothing is locked, an eigenvector below the damped interval is approximated better in
every round, at a geometric rate, and so is the smallest eigenvalue.
-/
import Verif.Backend.SubspaceProps

open Polynomial

namespace Verif

variable {K : Type*} [RCLike K] {N : ℕ} {S : Type*}

/-- The factor by which a round of degree `d` on the interval `I` amplifies an eigenvector with the value
`lam` against the damped ones: `|T_d|` at the image of `lam` under the map of `I` onto `[-1, 1]`. -/
noncomputable def gain (I : Interval ℝ) (d : ℕ) (lam : ℝ) : ℝ :=
  |(Chebyshev.T ℝ d).eval ((lam - (I.lower + I.upper) / 2) / ((I.upper - I.lower) / 2))|

theorem gain_eq (I : Interval ℝ) (d : ℕ) (lam : ℝ) :
    gain I d lam = |(Chebyshev.T ℝ d).eval (normPoint lam I.lower I.upper)| := by
  unfold gain normPoint centre halfWidth
  rw [add_comm I.lower]

/-- Below the interval the factor exceeds one. -/
theorem one_lt_gain {I : Interval ℝ} (h : I.lower < I.upper) {d : ℕ} (hd : d ≠ 0) {lam : ℝ}
    (hl : lam < I.lower) : 1 < gain I d lam := by
  unfold gain
  refine Chebyshev.one_lt_abs_eval_T_real (by exact_mod_cast hd) ?_
  rw [lt_abs]
  right
  rw [← neg_div, lt_div_iff₀ (by linarith)]
  linarith

/-- In the interval it is at most one. -/
theorem gain_le_one {I : Interval ℝ} (h : I.lower < I.upper) (d : ℕ) {x : ℝ} (h1 : I.lower ≤ x)
    (h2 : x ≤ I.upper) : gain I d x ≤ 1 := by
  unfold gain
  refine Chebyshev.abs_eval_T_real_le_one _ ?_
  rw [abs_le]
  constructor
  · rw [le_div_iff₀ (by linarith)]; linarith
  · rw [div_le_iff₀ (by linarith)]; linarith

section Generic
variable {ops : Chase ℝ S} {cols user : S → ℕ → Fin N → K} {nl : S → ℕ} {ph : Phases S}
  {cfg : Config ℝ} {H : Matrix (Fin N) (Fin N) K} {P : Plat ℝ}

theorem step_locked_le {st st' : St ℝ S} (hs : Step P ops cfg st st') : st.locked ≤ st'.locked := by
  obtain ⟨st1, av, be2, g1, -, rfl⟩ := iter_ok hs.2
  have : st1.locked = st.locked := by
    rcases optimise_ok g1 with ⟨rfl, -⟩ | ⟨deg, p, -, rfl⟩ <;> rfl
  rw [← this]
  exact Nat.le_add_right _ _

theorem interval_unlocked {st : St ℝ S} (hacc : st.locked + st.unconverged = cfg.nev + cfg.nex)
    (hl : st.locked = 0) {I : Interval ℝ} (hI : FilterRuns P ops cfg st I) :
    I = ⟨st.lambda, min st.lowerb st.upperb, st.upperb⟩ := by
  obtain ⟨h1, h2, h3⟩ := filterRuns_eq hI
  have clamp : ∀ x : ℝ, (if x > st.upperb then st.upperb else x) = min x st.upperb := fun x => by
    split_ifs with hg
    · exact (min_eq_right hg.le).symm
    · exact (min_eq_left (not_lt.mp hg)).symm
  have e1 : I.lambda = st.lambda := by
    rw [h1]
    show (if _ then _ else _) = _
    rw [if_neg (by omega)]
  have e2 : I.lower = min st.lowerb st.upperb := by
    have hl : I.lower = if (if st.unconverged < cfg.nev + cfg.nex ∧
        (List.range st.unconverged).all (fun i => !decide (st.resid (st.locked + i) > 1 / 2)) then
        st.ritzv (st.locked + (st.unconverged - 1)) else st.lowerb) > st.upperb then st.upperb else
        (if st.unconverged < cfg.nev + cfg.nex ∧
        (List.range st.unconverged).all (fun i => !decide (st.resid (st.locked + i) > 1 / 2)) then
        st.ritzv (st.locked + (st.unconverged - 1)) else st.lowerb) := h2
    rw [hl, clamp, if_neg (fun h => by omega)]
  rw [← e1, ← e2, ← h3]

/-- The interval does not change before the first pair is locked. -/
theorem interval_constant {ritzv0 resid0 : ℕ → ℝ} {be : S} {st0 st : St ℝ S}
    (h0 : initState P ops cfg ritzv0 resid0 be = .ok st0) {I I' : Interval ℝ}
    (hI : FilterRuns P ops cfg st0 I) (h : Reach P ops cfg ritzv0 resid0 be st) (hl : st.locked = 0)
    (hI' : FilterRuns P ops cfg st I') : I' = I := by
  have hl0 : st0.locked = 0 := by
    obtain ⟨be1, l, -, -, -, rfl⟩ := initState_ok h0; rfl
  have e0 := interval_unlocked (reach_acc (.init h0)).1 hl0 hI
  have key : st.locked = 0 → st.lambda = st0.lambda ∧ min st.lowerb st.upperb = min st0.lowerb st0.upperb ∧
      st.upperb = st0.upperb := by
    refine reach_inv (fun st => st.locked = 0 → st.lambda = st0.lambda ∧
      min st.lowerb st.upperb = min st0.lowerb st0.upperb ∧ st.upperb = st0.upperb) ?_ ?_ h
    · intro st h _
      have := h.symm.trans h0
      cases this
      exact ⟨rfl, rfl, rfl⟩
    · intro st st' hr hi hs hl'
      have hl : st.locked = 0 := by have := step_locked_le hs; omega
      obtain ⟨a1, a2, a3⟩ := hi hl
      obtain ⟨J, -, -, -, hJ, -⟩ := filterRuns_of_iter hs.1 hs.2
      have eJ := interval_unlocked (reach_acc hr).1 hl hJ
      obtain ⟨-, st1, g1, hJe⟩ := hJ
      obtain ⟨st1', av, be2, g1', -, rfl⟩ := iter_ok hs.2
      have : st1' = st1 := by have := g1'.symm.trans g1; cases this; rfl
      subst this
      rw [hJe] at eJ
      injection eJ with c1 c2 c3
      show st1'.lambda = _ ∧ min st1'.lowerb st1'.upperb = _ ∧ st1'.upperb = _
      rw [c1, c2, c3]
      refine ⟨a1, ?_, a3⟩
      rw [min_assoc, min_self, a2]
  obtain ⟨a1, a2, a3⟩ := key hl
  rw [interval_unlocked (reach_acc h).1 hl hI', e0, a1, a2, a3]

/-- The search space after a number of rounds: an eigenvector `u` is in it up to an error in the damped
part of the spectrum. -/
structure Near (H : Matrix (Fin N) (Fin N) K) (I : Interval ℝ) (n : ℕ) (V : ℕ → Fin N → K)
    (u : Fin N → K) (bound : ℝ) (g : ℝ) : Prop where
  indep : LinearIndependent K (fun j : Fin n => V j)
  near : ∃ e : Fin N → K, u + e ∈ prefixSpan n V ∧ SupportedIn H I.lower I.upper e ∧ nrm2 e * g ≤ bound

/-- One round with nothing locked. -/
theorem near_step (hP : SortsIndices P) (hB : Backs ops cols user nl ph cfg H) (hH : H.IsHermitian)
    (hmax : Even cfg.maxDeg) (hno : cfg.optimization = false) {ritzv0 resid0 : ℕ → ℝ} {be : S}
    (hpre : ph.pre be) {st st' : St ℝ S}
    (h : Reach P ops cfg ritzv0 resid0 be st) (hl : st.locked = 0) (hs : Step P ops cfg st st')
    {I : Interval ℝ} (hI : FilterRuns P ops cfg st I) (hI1 : I.lambda ≤ I.lower) (hI2 : I.lower < I.upper)
    (hT : ∀ μ, IsEigenvalue H μ → gain I (startDegree cfg) μ ≠ 0)
    {u : Fin N → K} {lam : ℝ} (hu : H.mulVec u = (lam : K) • u) (hlam : lam < I.lower) {bound g : ℝ}
    (hg : 0 ≤ g) (hn : Near H I (cfg.nev + cfg.nex) (cols st.be) u bound g) :
    Near H I (cfg.nev + cfg.nex) (cols st'.be) u bound (g * gain I (startDegree cfg) lam) ∧
    ∃ (θ : ℕ → ℝ) (Y : ℕ → Fin N → K) (σ : Equiv.Perm ℕ), PermOn 0 (cfg.nev + cfg.nex) σ ∧
      OrthoOn (cfg.nev + cfg.nex) Y ∧
      (∀ i j, i < cfg.nev + cfg.nex → j < cfg.nev + cfg.nex →
        dotc (Y i) (H.mulVec (Y j)) = if i = j then (θ i : K) else 0) ∧
      (∀ i j, i ≤ j → j < cfg.nev + cfg.nex → θ i ≤ θ j) ∧
      (∀ i, i < cfg.nev + cfg.nex → st'.ritzv i = θ (σ i)) ∧
      prefixSpan (cfg.nev + cfg.nex) (cols st'.be) = prefixSpan (cfg.nev + cfg.nex) Y := by
  set n := cfg.nev + cfg.nex with hnd
  have hi := reach_loopInv hP hB.frame hmax hB.space.swap_cols hpre h
  have hacc := (reach_acc h).1
  obtain ⟨d, q, st3, hr, rfl, -, hd, hsp⟩ := round_space hP hB.frame hB.space hmax hi hs hI hI1 hI2
  have hd' : d = fun _ => startDegree cfg := (hd (Or.inl hno)).trans (reach_degrees h (Or.inl hno))
  set p := filterPoly I.lambda I.lower I.upper (startDegree cfg) with hp
  have hf : ∀ j, filtered H I st.locked d (cols st.be) j = (aeval H p).mulVec (cols st.be j) := by
    intro j
    unfold filtered
    rw [if_neg (by omega), hd']
  set t1 := (Chebyshev.T ℝ (startDegree cfg)).eval (normPoint I.lambda I.lower I.upper) with ht1
  have ht1z : t1 ≠ 0 := C10_outside _ _ _ hI2 (Or.inl hI1) _
  have hpe : ∀ x, p.eval x = (Chebyshev.T ℝ (startDegree cfg)).eval (normPoint x I.lower I.upper) / t1 :=
    fun x => filterPoly_eval _ _ _ _ _
  have hpz : ∀ μ, IsEigenvalue H μ → p.eval μ ≠ 0 := by
    intro μ hμ
    rw [hpe]
    have := hT μ hμ
    rw [gain_eq] at this
    exact div_ne_zero (fun h0 => this (by rw [h0, abs_zero])) ht1z
  have hfli : LinearIndependent K (fun j : Fin n => filtered H I st.locked d (cols st.be) j) := by
    simp only [hf]
    exact linearIndependent_mulVec hn.indep fun x _ h0 => aeval_inj hH hpz h0
  have hmap : ∀ x ∈ prefixSpan n (cols st.be), (aeval H p).mulVec x ∈
      prefixSpan n (filtered H I st.locked d (cols st.be)) := by
    intro x hx
    obtain ⟨c, rfl⟩ := mem_prefixSpan_iff.mp hx
    refine mem_prefixSpan_iff.mpr ⟨c, ?_⟩
    rw [Matrix.mulVec_sum]
    exact Finset.sum_congr rfl fun j _ => by rw [Matrix.mulVec_smul, hf]
  obtain ⟨h3, h4⟩ := hsp hfli
  obtain ⟨e, he1, he2, he3⟩ := hn.near
  set tl := (Chebyshev.T ℝ (startDegree cfg)).eval (normPoint lam I.lower I.upper) with htl
  have htlz : tl ≠ 0 := C10_outside _ _ _ hI2 (Or.inl hlam.le) _
  have hgain : gain I (startDegree cfg) lam = |tl| := gain_eq _ _ _
  have hpl : p.eval lam ≠ 0 := by rw [hpe]; exact div_ne_zero htlz ht1z
  refine ⟨⟨?_, ?_⟩, ?_⟩
  · exact linearIndependent_of_span_eq hfli h4
  · refine ⟨(((p.eval lam)⁻¹ : ℝ) : K) • (aeval H p).mulVec e, ?_, (he2.aeval hH p).smul _, ?_⟩
    · rw [h4]
      have := Submodule.smul_mem _ ((((p.eval lam)⁻¹ : ℝ) : K)) (hmap _ he1)
      rw [Matrix.mulVec_add, aeval_mulVec_eigenvector H p hu, smul_add, smul_smul, ← RCLike.ofReal_mul,
        inv_mul_cancel₀ hpl, RCLike.ofReal_one, one_smul] at this
      exact this
    · have hle := he2.norm_le hH (p := p) (c := |t1|⁻¹) (fun x hx1 hx2 => by
        rw [hpe, abs_div, div_eq_mul_inv]
        have := gain_le_one hI2 (startDegree cfg) hx1 hx2
        rw [gain_eq] at this
        calc _ ≤ 1 * |t1|⁻¹ := mul_le_mul_of_nonneg_right this (inv_nonneg.mpr (abs_nonneg _))
          _ = _ := one_mul _) (inv_nonneg.mpr (abs_nonneg _))
      have hns : nrm2 ((((p.eval lam)⁻¹ : ℝ) : K) • (aeval H p).mulVec e) =
          |p.eval lam|⁻¹ * nrm2 ((aeval H p).mulVec e) := by
        have h1 : nrm2 ((((p.eval lam)⁻¹ : ℝ) : K) • (aeval H p).mulVec e) ^ 2 =
            (|p.eval lam|⁻¹ * nrm2 ((aeval H p).mulVec e)) ^ 2 := by
          rw [mul_pow, nrm2_sq, nrm2_sq, Finset.mul_sum]
          refine Finset.sum_congr rfl fun k _ => ?_
          rw [Pi.smul_apply, smul_eq_mul, norm_mul, mul_pow, RCLike.norm_ofReal, abs_inv]
        exact (sq_eq_sq₀ (nrm2_nonneg _)
          (mul_nonneg (inv_nonneg.mpr (abs_nonneg _)) (nrm2_nonneg _))).mp h1
      rw [hns, hgain]
      refine le_trans ?_ he3
      have e1 : |p.eval lam|⁻¹ = |t1| * |tl|⁻¹ := by
        rw [hpe, abs_div, inv_div, div_eq_mul_inv]
      rw [e1]
      have hz1 : 0 < |t1| := abs_pos.mpr ht1z
      have hzl : 0 < |tl| := abs_pos.mpr htlz
      calc |t1| * |tl|⁻¹ * nrm2 ((aeval H p).mulVec e) * (g * |tl|)
          = (|t1| * nrm2 ((aeval H p).mulVec e)) * g * (|tl|⁻¹ * |tl|) := by ring
        _ = (|t1| * nrm2 ((aeval H p).mulVec e)) * g := by rw [inv_mul_cancel₀ hzl.ne', mul_one]
        _ ≤ nrm2 e * g := by
            refine mul_le_mul_of_nonneg_right ?_ hg
            calc _ ≤ |t1| * (|t1|⁻¹ * nrm2 e) := mul_le_mul_of_nonneg_left hle hz1.le
              _ = nrm2 e := by rw [← mul_assoc, mul_inv_cancel₀ hz1.ne', one_mul]
  · have hlq : nl q = 0 := hr.nlq.trans hl
    have hYs : cols st3.be = cols (ops.rr (n - nl q) q).2 := hr.columns
    have hvals : ∀ i, i < n → st3.ritzv i = (ops.rr (n - nl q) q).1 i := by
      intro i hi
      have := hr.values i (by omega)
      rwa [hl, Nat.zero_add] at this
    have hu3 : st3.unconverged = n := by have := hr.unconverged; omega
    have hl3 : st3.locked = 0 := hr.locked.trans hl
    obtain ⟨hix, -, -⟩ := hP (st3.unconverged - cfg.nex) (fun i => st3.ritzv (st3.locked + i))
    obtain ⟨τ, hτ, t1, -, -, -⟩ := lockLoop_perm (ops := ops) (cols := fun _ _ => ()) (tol := cfg.tol)
      (index := P.sortIdx (st3.unconverged - cfg.nex) (fun i => st3.ritzv (st3.locked + i)))
      (locked := st3.locked) (u := st3.unconverged - cfg.nex) (fun _ _ _ _ _ => rfl) hix
      (st3.unconverged - cfg.nex) 0
      { ritzv := st3.ritzv, resid := st3.resid, residLast := st3.residLast, be := st3.be,
        converged := 0 } (by omega) rfl
    have hτ' : PermOn 0 n τ := by
      rw [hl3, Nat.zero_add] at hτ
      exact hτ.widen le_rfl (by omega)
    refine ⟨(ops.rr (n - nl q) q).1, cols (ops.rr (n - nl q) q).2, τ, hτ', ?_, ?_, ?_, ?_, ?_⟩
    · exact hYs ▸ hB.space.ortho _ hr.synced
    · intro i j hi hj
      have := hB.space.rr_galerkin q hr.ready (by omega) i j (by omega) (by omega)
      rw [hlq, Nat.zero_add, Nat.zero_add, ← hlq] at this
      exact this
    · intro i j hij hj
      exact hB.space.rr_asc q hr.ready i j hij (by omega)
    · intro i hi
      show (lockLoop _ _ _ _ _ _ _).ritzv i = _
      rw [t1]
      exact hvals _ (hτ'.lt hi)
    · rw [h4, ← h3, hYs]

/-- **C66**, for every backend with the contracts.  Degrees are not optimised, the first round filters the
interval `I`, the start columns are independent and the filter polynomial has no zero at an eigenvalue.
If the start space contains `u + e`, with `u` an eigenvector below the interval and `e` in the damped part
of the spectrum, then after every further round begun with nothing locked the space contains `u + e'` with
`‖e'‖ ≤ ‖e‖ / gain ^ rounds`; one of the values is below `lam + (upper - lam) (‖e‖ / ‖u‖)² / gain ^ (2 rounds)`;
and no value is below `lam` if `lam` is the smallest eigenvalue. -/
theorem C66_geometric (hP : SortsIndices P) (hB : Backs ops cols user nl ph cfg H) (hH : H.IsHermitian)
    (hmax : Even cfg.maxDeg) (hno : cfg.optimization = false) {ritzv0 resid0 : ℕ → ℝ} {be : S}
    (hpre : ph.pre be) {st0 st st' : St ℝ S} (h0 : initState P ops cfg ritzv0 resid0 be = .ok st0)
    {I : Interval ℝ} (hI : FilterRuns P ops cfg st0 I) (hI1 : I.lambda ≤ I.lower) (hI2 : I.lower < I.upper)
    (hli : LinearIndependent K (fun j : Fin (cfg.nev + cfg.nex) => cols st0.be j))
    (hT : ∀ μ, IsEigenvalue H μ → gain I (startDegree cfg) μ ≠ 0)
    {u e : Fin N → K} {lam : ℝ} (hu : H.mulVec u = (lam : K) • u) (hlam : lam < I.lower)
    (he : SupportedIn H I.lower I.upper e)
    (hmem : u + e ∈ prefixSpan (cfg.nev + cfg.nex) (cols st0.be))
    (h : Reach P ops cfg ritzv0 resid0 be st) (hl : st.locked = 0) (hs : Step P ops cfg st st') :
    (∃ e' : Fin N → K, u + e' ∈ prefixSpan (cfg.nev + cfg.nex) (cols st'.be) ∧
      SupportedIn H I.lower I.upper e' ∧
      (∑ k, ‖e' k‖ ^ 2) * gain I (startDegree cfg) lam ^ (2 * st'.iteration) ≤ ∑ k, ‖e k‖ ^ 2) ∧
    (∃ i, i < cfg.nev + cfg.nex ∧
      (st'.ritzv i - lam) * (∑ k, ‖u k‖ ^ 2) * gain I (startDegree cfg) lam ^ (2 * st'.iteration) ≤
        (I.upper - lam) * ∑ k, ‖e k‖ ^ 2) ∧
    ((∀ μ, IsEigenvalue H μ → lam ≤ μ) → ∀ i, i < cfg.nev + cfg.nex → lam ≤ st'.ritzv i) := by
  set n := cfg.nev + cfg.nex with hn
  set G := gain I (startDegree cfg) lam with hG
  have hG0 : 0 ≤ G := abs_nonneg _
  have hnear : st.locked = 0 → Near H I n (cols st.be) u (nrm2 e) (G ^ st.iteration) := by
    refine reach_inv (fun st => st.locked = 0 → Near H I n (cols st.be) u (nrm2 e) (G ^ st.iteration)) ?_ ?_ h
    · intro st h1 _
      have := h1.symm.trans h0
      cases this
      have hit : st0.iteration = 0 := by
        obtain ⟨be1, l, -, -, -, rfl⟩ := initState_ok h0; rfl
      exact ⟨hli, e, hmem, he, by rw [hit, pow_zero, mul_one]⟩
    · intro st st' hr ih hs hl'
      have hl : st.locked = 0 := by have := step_locked_le hs; omega
      obtain ⟨J, -, -, -, hJ, -⟩ := filterRuns_of_iter hs.1 hs.2
      have hJI := interval_constant h0 hI hr hl hJ
      subst hJI
      rw [iter_iteration _ _ _ _ _ hs.2, pow_succ]
      exact (near_step hP hB hH hmax hno hpre hr hl hs hJ hI1 hI2 hT hu hlam (pow_nonneg hG0 _)
        (ih hl)).1
  obtain ⟨J, -, -, -, hJ, -⟩ := filterRuns_of_iter hs.1 hs.2
  have hJI := interval_constant h0 hI h hl hJ
  rw [hJI] at hJ
  obtain ⟨hn', θ, Y, σ, hσ, ho, hgal, hasc, hval, hspan⟩ := near_step hP hB hH hmax hno hpre h hl hs hJ hI1
    hI2 hT hu hlam (pow_nonneg hG0 _) (hnear hl)
  have hit := iter_iteration _ _ _ _ _ hs.2
  rw [← pow_succ, ← hit] at hn'
  obtain ⟨e', he1, he2, he3⟩ := hn'.near
  have hsq : (∑ k, ‖e' k‖ ^ 2) * G ^ (2 * st'.iteration) ≤ ∑ k, ‖e k‖ ^ 2 := by
    rw [← nrm2_sq, ← nrm2_sq, mul_comm 2, pow_mul, ← mul_pow]
    exact pow_le_pow_left₀ (mul_nonneg (nrm2_nonneg _) (pow_nonneg hG0 _)) he3 2
  have hpos : 0 < n := by
    have := (reach_acc h).1
    have := hs.1.1
    omega
  refine ⟨⟨e', he1, he2, hsq⟩, ⟨σ.symm 0, hσ.symm.lt hpos, ?_⟩, ?_⟩
  · rw [hval _ (hσ.symm.lt hpos), Equiv.apply_symm_apply]
    have horth : dotc u e' = 0 := he2 lam u hu (Or.inl hlam)
    have horth' : dotc e' u = 0 := by rw [← dotc_star, horth, star_zero]
    have hmin := ritz_min ho hgal (fun i hi => hasc 0 i (Nat.zero_le _) hi) (hspan ▸ he1)
    have hxx : nrm2 (u + e') ^ 2 = nrm2 u ^ 2 + nrm2 e' ^ 2 := by
      have h1 : dotc (u + e') (u + e') = dotc u u + dotc e' e' := by
        rw [dotc_add_left, dotc_add_right, dotc_add_right, horth, horth']; ring
      rw [dotc_self, dotc_self, dotc_self, ← RCLike.ofReal_add] at h1
      rw [nrm2_sq, nrm2_sq, nrm2_sq]
      exact RCLike.ofReal_inj.mp h1
    have hxHx : RCLike.re (dotc (u + e') (H.mulVec (u + e'))) =
        lam * nrm2 u ^ 2 + RCLike.re (dotc e' (H.mulVec e')) := by
      have h2 : dotc u (H.mulVec e') = 0 := by
        rw [dotc_mulVec, hH.eq, hu, dotc_smul_left, horth, mul_zero]
      rw [Matrix.mulVec_add, dotc_add_left, dotc_add_right, dotc_add_right, h2, hu, dotc_smul_right,
        dotc_smul_right, horth', mul_zero, add_zero, zero_add, map_add, dotc_self, ← RCLike.ofReal_mul,
        RCLike.ofReal_re, nrm2_sq]
    rw [hxx, hxHx] at hmin
    have hen := he2.energy_le hH
    have hbase : (θ 0 - lam) * nrm2 u ^ 2 ≤ (I.upper - lam) * nrm2 e' ^ 2 := by
      by_cases hc : θ 0 ≤ lam
      · exact (mul_nonpos_of_nonpos_of_nonneg (by linarith) (sq_nonneg _)).trans
          (mul_nonneg (by linarith) (sq_nonneg _))
      · have := mul_le_mul_of_nonneg_right (not_le.mp hc).le (sq_nonneg (nrm2 e'))
        nlinarith
    rw [nrm2_sq, nrm2_sq] at hbase
    calc _ ≤ (I.upper - lam) * (∑ k, ‖e' k‖ ^ 2) * G ^ (2 * st'.iteration) :=
          mul_le_mul_of_nonneg_right hbase (pow_nonneg hG0 _)
      _ = (I.upper - lam) * ((∑ k, ‖e' k‖ ^ 2) * G ^ (2 * st'.iteration)) := by ring
      _ ≤ _ := mul_le_mul_of_nonneg_left hsq (by linarith)
  · intro hmin i hi
    rw [hval i hi]
    have hj := hσ.lt hi
    obtain ⟨μ₁, -, h1, -, h2, -⟩ := C28_rayleigh_within_spectrum H hH (Y (σ i)) (by
      have := ho (σ i) (σ i) hj hj
      rw [if_pos rfl, dotc_self] at this
      exact_mod_cast this) (θ (σ i)) (by
      have := hgal (σ i) (σ i) hj hj
      rwa [if_pos rfl] at this)
    exact (hmin _ h1).trans h2

end Generic

end Verif
