/-
C64: a round is one step of filtered subspace iteration.  C65: a start space that is invariant under the
matrix is finished in one round.  C66: while nothing is locked, an eigenvector below the damped interval
is approximated better in every round, at a geometric rate.
-/
import Verif.Backend.SubspaceContracts
import Verif.Backend.SubspaceLin

open Polynomial

namespace Verif

variable {K : Type*} [RCLike K] {N : ℕ} {S : Type*}

/-- A backend as the theorems below use it: `cols` are the columns of the search space, `user` those the
caller passed, `H` the matrix. -/
structure Backs (ops : Chase ℝ S) (cols user : S → ℕ → Fin N → K) (nl : S → ℕ) (ph : Phases S)
    (cfg : Config ℝ) (H : Matrix (Fin N) (Fin N) K) : Prop where
  frame : Frame ops cols nl ph cfg.N (cfg.nev + cfg.nex)
  space : SpaceContract ops cols nl ph (cfg.nev + cfg.nex) H
  /-- with start vectors of the caller nothing is done to them before the first round -/
  approx : ∀ m s j, j < cfg.nev + cfg.nex →
    cols (ops.lanczos1 m (ops.initVecs false (ops.start s))).2 j = user s j
  check : ∀ s, user (ops.checkSymmetryEasy s).2 = user s

section Generic
variable {ops : Chase ℝ S} {cols user : S → ℕ → Fin N → K} {nl : S → ℕ} {ph : Phases S}
  {cfg : Config ℝ} {H : Matrix (Fin N) (Fin N) K} {P : Plat ℝ}

/-- The degree every column starts with. -/
def startDegree (cfg : Config ℝ) : ℕ := min (cfg.deg + cfg.deg % 2) cfg.maxDeg

theorem reach_degrees {ritzv0 resid0 : ℕ → ℝ} {be : S} {st : St ℝ S}
    (h : Reach P ops cfg ritzv0 resid0 be st) (hno : cfg.optimization = false ∨ st.iteration = 0) :
    st.degrees = fun _ => startDegree cfg := by
  have hinit : ∀ {st}, initState P ops cfg ritzv0 resid0 be = .ok st →
      st.degrees = fun _ => startDegree cfg := by
    intro st h
    obtain ⟨be1, l, -, -, -, rfl⟩ := initState_ok h
    rfl
  rcases hno with hno | hno
  · refine reach_inv (fun st => st.degrees = fun _ => startDegree cfg) (fun _ h => hinit h) ?_ h
    rintro st st' - hi ⟨-, hit⟩
    obtain ⟨st1, av, be2, g1, -, rfl⟩ := iter_ok hit
    show st1.degrees = _
    unfold optimise at g1
    rw [if_neg (by simp [hno])] at g1
    cases g1
    exact hi
  · exact hinit (iteration_zero h hno)

theorem reach_degrees_le {ritzv0 resid0 : ℕ → ℝ} {be : S} {st : St ℝ S} (hmax : Even cfg.maxDeg)
    (h : Reach P ops cfg ritzv0 resid0 be st) :
    ∀ j, st.locked ≤ j → j < cfg.nev + cfg.nex → st.degrees j ≤ cfg.maxDeg := by
  refine reach_inv (fun st => ∀ j, st.locked ≤ j → j < cfg.nev + cfg.nex → st.degrees j ≤ cfg.maxDeg)
    ?_ ?_ h
  · intro st h j _ _
    obtain ⟨be1, l, -, -, -, rfl⟩ := initState_ok h
    exact min_le_right _ _
  · rintro st st' hr hi ⟨-, hit⟩ j hj1 hj2
    obtain ⟨st1, av, be2, g1, -, rfl⟩ := iter_ok hit
    show st1.degrees j ≤ _
    have hl : st1.locked ≤ j := le_trans (Nat.le_add_right _ _) hj1
    have hacc := (reach_acc hr).1
    rcases optimise_ok g1 with ⟨rfl, -⟩ | ⟨deg, p, hc, rfl⟩
    · exact hi j hl hj2
    · have hu : (updateBounds (cfg.nev + cfg.nex) st).locked +
          (updateBounds (cfg.nev + cfg.nex) st).unconverged = cfg.nev + cfg.nex := hacc
      exact ((C16_degrees_even_bounded_ascending P ops cfg hmax hc).1 j hl (by rw [hu]; exact hj2)).2

/-! ### C64 -/

/-- **C64**, for every backend with the contracts: a round replaces the search space by the space spanned
by the filtered columns: the locked columns as they were, every other column multiplied by the Chebyshev
polynomial of some even degree, the same for all columns if degrees are not optimised. -/
theorem C64_round (hP : SortsIndices P) (hB : Backs ops cols user nl ph cfg H) (hmax : Even cfg.maxDeg)
    {ritzv0 resid0 : ℕ → ℝ} {be : S} (hpre : ph.pre be) {st st' : St ℝ S}
    (h : Reach P ops cfg ritzv0 resid0 be st) (hs : Step P ops cfg st st') {I : Interval ℝ}
    (hI : FilterRuns P ops cfg st I) (hI1 : I.lambda ≤ I.lower) (hI2 : I.lower < I.upper) :
    ∃ d : ℕ → ℕ, (∀ j, st.locked ≤ j → j < cfg.nev + cfg.nex → Even (d j)) ∧
      (cfg.optimization = false ∨ st.iteration = 0 → d = fun _ => startDegree cfg) ∧
      (LinearIndependent K (fun j : Fin (cfg.nev + cfg.nex) => filtered H I st.locked d (cols st.be) j) →
        prefixSpan (cfg.nev + cfg.nex) (cols st'.be) =
          prefixSpan (cfg.nev + cfg.nex) (filtered H I st.locked d (cols st.be))) := by
  have hi := reach_loopInv hP hB.frame hmax hB.space.swap_cols hpre h
  obtain ⟨d, q, st3, -, -, h1, h2, h3⟩ := round_space hP hB.frame hB.space hmax hi hs hI hI1 hI2
  exact ⟨d, h1, fun hno => (h2 hno).trans (reach_degrees h hno), fun hli => (h3 hli).2⟩

/-! ### C65 -/

theorem lockLoop_all {R : Type*} [LinearOrder R] [Zero R] {ops : Chase R S} {tol : R} (ht : 0 ≤ tol)
    {index : ℕ → ℕ} {locked u : ℕ} (hidx : ∀ k, k < u → index k < u) (n k : ℕ) (st : LockSt R S)
    (hk : k + n = u) (hc : st.converged = k) (h0 : ∀ i, i < u → st.resid (locked + i) = 0) :
    (lockLoop ops tol index locked n k st).converged = u := by
  induction n generalizing k st with
  | zero => show st.converged = u; omega
  | succ n ih =>
    unfold lockLoop
    dsimp only
    have hik := hidx k (by omega)
    rw [if_neg (by rw [h0 _ hik]; exact fun h => absurd h.1 (not_lt.mpr ht))]
    refine ih (k + 1) _ (by omega) ?_ ?_
    · have e : (st.exchange ops locked (index k)).converged = st.converged := by
        unfold LockSt.exchange; split_ifs <;> rfl
      show (st.exchange ops locked (index k)).converged + 1 = k + 1
      rw [e, hc]
    · intro i hi
      show (st.exchange ops locked (index k)).resid (locked + i) = 0
      unfold LockSt.exchange
      split_ifs
      · show swapAt st.resid (locked + index k) (locked + st.converged) (locked + i) = 0
        rw [swapAt_apply]
        split_ifs
        · exact h0 _ (by omega)
        · exact h0 _ (by omega)
        · exact h0 _ hi
      · exact h0 _ hi

/-- The filter polynomial does not vanish outside the damped interval. -/
theorem filterPoly_ne_zero {I : Interval ℝ} (h1 : I.lambda ≤ I.lower) (h2 : I.lower < I.upper) {μ : ℝ}
    (hμ : μ ≤ I.lower ∨ I.upper ≤ μ) (d : ℕ) :
    (filterPoly I.lambda I.lower I.upper d).eval μ ≠ 0 := by
  rw [filterPoly_eval]
  exact div_ne_zero (C10_outside _ _ _ h2 hμ d) (C10_outside _ _ _ h2 (Or.inl h1) d)

/-- The first round of a solve on a start space spanned by eigenvectors. -/
theorem first_round_invariant (hP : SortsIndices P) (hB : Backs ops cols user nl ph cfg H)
    (hH : H.IsHermitian) (hmax : Even cfg.maxDeg) (htol : 0 ≤ cfg.tol)
    {ritzv0 resid0 : ℕ → ℝ} {be : S} (hpre : ph.pre be) {st st' : St ℝ S}
    (h0 : initState P ops cfg ritzv0 resid0 be = .ok st) (hs : Step P ops cfg st st') {I : Interval ℝ}
    (hI : FilterRuns P ops cfg st I) (hI1 : I.lambda ≤ I.lower) (hI2 : I.lower < I.upper)
    {U : ℕ → Fin N → K} {μ : ℕ → ℝ}
    (hli : LinearIndependent K (fun j : Fin (cfg.nev + cfg.nex) => U j))
    (hU : ∀ j, j < cfg.nev + cfg.nex → H.mulVec (U j) = (μ j : K) • U j)
    (hspan : prefixSpan (cfg.nev + cfg.nex) (cols st.be) = prefixSpan (cfg.nev + cfg.nex) U)
    (hμ : ∀ j, j < cfg.nev + cfg.nex → μ j ≤ I.lower ∨ I.upper ≤ μ j) :
    st'.locked = cfg.nev ∧ st'.iteration = 1 ∧ (∀ i, i < cfg.nev + cfg.nex → st'.resid i = 0) ∧
    prefixSpan (cfg.nev + cfg.nex) (cols st'.be) = prefixSpan (cfg.nev + cfg.nex) U ∧
    ∃ (θ : ℕ → ℝ) (σ : Equiv.Perm ℕ), PermOn 0 cfg.nev σ ∧
      (∀ i, i < cfg.nev + cfg.nex → st'.ritzv i = θ (σ i)) ∧
      SortedOn 0 (cfg.nev + cfg.nex) θ ∧
      ∃ e : Equiv.Perm (Fin (cfg.nev + cfg.nex)), ∀ i : Fin (cfg.nev + cfg.nex), θ i = μ (e i) := by
  set n := cfg.nev + cfg.nex with hn
  have hi := loopInv_init hB.frame hmax hpre h0
  have hst : st.locked = 0 ∧ st.unconverged = n ∧ st.iteration = 0 := by
    obtain ⟨be1, l, -, -, -, rfl⟩ := initState_ok h0
    exact ⟨rfl, rfl, rfl⟩
  obtain ⟨d, q, st3, hr, rfl, -, hd, hsp⟩ := round_space hP hB.frame hB.space hmax hi hs hI hI1 hI2
  have hd' : d = fun _ => startDegree cfg :=
    (hd (Or.inr hst.2.2)).trans (reach_degrees (.init h0) (Or.inr hst.2.2))
  set p := filterPoly I.lambda I.lower I.upper (startDegree cfg) with hp
  have hf : ∀ j, filtered H I st.locked d (cols st.be) j = (aeval H p).mulVec (cols st.be j) := by
    intro j
    unfold filtered
    rw [if_neg (by omega), hd']
  have hpz : ∀ j, j < n → p.eval (μ j) ≠ 0 := fun j hj => filterPoly_ne_zero hI1 hI2 (hμ j hj) _
  have hcli : LinearIndependent K (fun j : Fin n => cols st.be j) := linearIndependent_of_span_eq hli hspan
  have hfli : LinearIndependent K (fun j : Fin n => filtered H I st.locked d (cols st.be) j) := by
    simp only [hf]
    refine linearIndependent_mulVec hcli fun x hx => ?_
    rw [hspan] at hx
    exact (aeval_injOn hli hU hpz hx).2
  have hfs : prefixSpan n (filtered H I st.locked d (cols st.be)) = prefixSpan n U := by
    refine (prefixSpan_eq_of_le hfli (prefixSpan_le fun j hj => ?_)).symm
    rw [hf]
    exact (aeval_injOn hli hU hpz (hspan ▸ mem_prefixSpan hj)).1
  obtain ⟨h3, h4⟩ := hsp hfli
  rw [hfs] at h3 h4
  have hlq : nl q = 0 := hr.nlq.trans hst.1
  have hnq : n - nl q = n := by omega
  set θ : ℕ → ℝ := (ops.rr (n - nl q) q).1 with hθ
  set Y : ℕ → Fin N → K := cols (ops.rr (n - nl q) q).2 with hY
  have hYs : cols st3.be = Y := hr.columns
  have ho : OrthoOn n Y := hYs ▸ hB.space.ortho _ hr.synced
  have hgal : ∀ i j, i < n → j < n → dotc (Y i) (H.mulVec (Y j)) = if i = j then (θ i : K) else 0 := by
    intro i j hi hj
    have := hB.space.rr_galerkin q hr.ready (by omega) i j (by omega) (by omega)
    rw [hlq, Nat.zero_add, Nat.zero_add, ← hlq] at this
    exact this
  have hYU : prefixSpan n Y = prefixSpan n U := hYs ▸ h3
  have heig := eigen_of_invariant ho hgal (by rw [hYU]; exact invariant_of_eigen hU)
  have hvals : ∀ i, i < n → st3.ritzv i = θ i := by
    intro i hi
    have := hr.values i (by omega)
    rwa [hst.1, Nat.zero_add] at this
  have hres : ∀ i, i < n → st3.resid i = 0 := by
    intro i hi
    have h1 := hr.residuals i (by omega)
    have h2 := hB.space.resd (fun i => st3.ritzv (st.locked + i)) q hr.ready (by omega)
      (fun i hi => hr.values i (by omega)) i (by omega)
    rw [← h1] at h2
    unfold IsResidual at h2
    have e : ∀ k, H.mulVec (Y (nl q + i)) k - ((st3.ritzv (st.locked + i) : ℝ) : K) * Y (nl q + i) k = 0 := by
      intro k
      rw [hlq, hst.1, Nat.zero_add, heig i hi, hvals i hi]
      simp
    rw [hst.1, Nat.zero_add] at h2
    rw [h2]
    have e' : ∀ k, ‖H.mulVec (Y (nl q + i)) k - ((st3.ritzv i : ℝ) : K) * Y (nl q + i) k‖ ^ 2 = 0 := by
      intro k
      have := e k
      rw [hst.1, Nat.zero_add] at this
      rw [this]; simp
    rw [Finset.sum_congr rfl fun k _ => e' k]
    simp
  have hu3 : st3.unconverged = n := hr.unconverged.trans hst.2.1
  have hl3 : st3.locked = 0 := hr.locked.trans hst.1
  have hwant : st3.unconverged - cfg.nex = cfg.nev := by omega
  obtain ⟨hix, -, -⟩ := hP (st3.unconverged - cfg.nex) (fun i => st3.ritzv (st3.locked + i))
  have hconv := lockLoop_all (ops := ops) htol hix (locked := st3.locked) (st3.unconverged - cfg.nex) 0
    { ritzv := st3.ritzv, resid := st3.resid, residLast := st3.residLast, be := st3.be,
      converged := 0 } (by omega) rfl (fun i hi => hres _ (by omega))
  obtain ⟨τ, hτ, t1, t2, -, -⟩ := lockLoop_perm (ops := ops) (cols := fun _ _ => ()) (tol := cfg.tol)
    (index := P.sortIdx (st3.unconverged - cfg.nex) (fun i => st3.ritzv (st3.locked + i)))
    (locked := st3.locked) (u := st3.unconverged - cfg.nex) (fun _ _ _ _ _ => rfl) hix
    (st3.unconverged - cfg.nex) 0
    { ritzv := st3.ritzv, resid := st3.resid, residLast := st3.residLast, be := st3.be,
      converged := 0 } (by omega) rfl
  have hτ' : PermOn 0 cfg.nev τ := by
    rw [hl3, Nat.zero_add, hwant] at hτ; exact hτ
  refine ⟨?_, ?_, ?_, h4, θ, τ, hτ', ?_, ?_, ?_⟩
  · show st3.locked + (lockLoop _ _ _ _ _ _ _).converged = _
    rw [hconv, hl3, hwant, Nat.zero_add]
  · show st3.iteration + 1 = 1
    rw [hr.iteration, hst.2.2]
  · intro i hi
    show (lockLoop _ _ _ _ _ _ _).resid i = 0
    rw [t2]
    exact hres _ ((hτ'.widen le_rfl (by omega)).lt hi)
  · intro i hi
    show (lockLoop _ _ _ _ _ _ _).ritzv i = _
    rw [t1]
    exact hvals _ ((hτ'.widen le_rfl (by omega)).lt hi)
  · intro i j _ hij hj
    exact hB.space.rr_asc q hr.ready i j hij (by omega)
  · exact same_values hH hli ho hYU.symm hU heig

theorem steps_head {st0 st : St ℝ S} (h : Steps P ops cfg st0 st) :
    st = st0 ∨ ∃ st', Step P ops cfg st0 st' ∧ Steps P ops cfg st' st := by
  induction h with
  | refl => exact Or.inl rfl
  | tail h1 h2 ih =>
    rcases ih with rfl | ⟨st', g1, g2⟩
    · exact Or.inr ⟨_, h2, .refl _⟩
    · exact Or.inr ⟨st', g1, g2.tail h2⟩

theorem steps_of_not_running {st0 st : St ℝ S} (h : Steps P ops cfg st0 st) (hr : ¬ running cfg st0) :
    st = st0 := by
  rcases steps_head h with h | ⟨st', g, -⟩
  · exact h
  · exact absurd g.1 hr

theorem finalSort_cols
    (hsw : ∀ i j s, cols (ops.swap i j s) = swapAt (cols s) i j ∨ cols (ops.swap i j s) = cols s)
    (nev : ℕ) (ritzv : ℕ → ℝ) (be : S) :
    ∃ σ : Equiv.Perm ℕ, PermOn 0 nev σ ∧ cols (finalSort ops nev ritzv be).2 = cols be ∘ σ := by
  unfold finalSort
  refine forRange_pres _ (fun st : (ℕ → ℝ) × S => ∃ σ : Equiv.Perm ℕ, PermOn 0 nev σ ∧
    cols st.2 = cols be ∘ σ) ⟨1, fun _ _ => rfl, rfl⟩ ?_
  intro i s _ hi h
  refine forRange_pres _ (fun st : (ℕ → ℝ) × S => ∃ σ : Equiv.Perm ℕ, PermOn 0 nev σ ∧
    cols st.2 = cols be ∘ σ) h ?_
  intro j s _ hj h
  split_ifs
  · exact perm_of_swap hsw (Nat.zero_le _) (Nat.zero_le _) (by omega) hj h
  · exact h

/-- The interval of the first round of a solve with start values below the bound. -/
theorem first_interval {ritzv0 resid0 : ℕ → ℝ} {be : S} {st : St ℝ S} (happ : cfg.approx = true)
    (h0 : initState P ops cfg ritzv0 resid0 be = .ok st) {I : Interval ℝ}
    (hI : FilterRuns P ops cfg st I)
    (hbound : ∀ k, k < cfg.nev + cfg.nex → ritzv0 k < boundOf ops cfg be) :
    I.lambda ≤ I.lower ∧ I.lower < I.upper ∧ ∀ k, k < cfg.nev + cfg.nex → ritzv0 k ≤ I.lower := by
  have hr : Reach P ops cfg ritzv0 resid0 be st := .init h0
  have h00 : st.iteration = 0 ∧ st.ritzv = ritzv0 := by
    obtain ⟨be1, l, -, hl, -, rfl⟩ := initState_ok h0
    refine ⟨rfl, ?_⟩
    unfold lanczos at hl
    rw [happ] at hl
    split_ifs at hl with c1 c2
    · cases hl; rfl
    · exact absurd rfl c2
  obtain ⟨⟨k0, hk0, e0⟩, -⟩ := C63_scaling_point_partial P ops cfg ritzv0 resid0 be st hr (Or.inl h00.1) I hI
  obtain ⟨x, ⟨⟨k1, hk1, e1⟩, hx⟩, hl⟩ :=
    (C63_lower_end_partial P ops cfg ritzv0 resid0 be st hr I hI).1 h00.1
  obtain ⟨hu, -⟩ := C63_interval_partial P ops cfg ritzv0 resid0 be st hr I hI
  rw [h00.2] at e0 e1 hx
  have hxu : x < I.upper := by rw [hu, ← e1]; exact hbound _ hk1
  rw [min_eq_left hxu.le] at hl
  rw [hl]
  exact ⟨e0 ▸ hx _ hk0, hxu, hx⟩

/-- **C65**, for every backend with the contracts.  The caller's start columns span a space that is also
spanned by independent eigenvectors `U` with values `μ`; the largest start value is at least every `μ` and
all start values are below the bound of the Lanczos step.  Then the solve ends after one round with all
residuals zero, on the same space, and the values returned are the `μ` in ascending order. -/
theorem C65_restart (hP : SortsIndices P) (hB : Backs ops cols user nl ph cfg H) (hH : H.IsHermitian)
    (hmax : Even cfg.maxDeg) (htol : 0 ≤ cfg.tol) (happ : cfg.approx = true) (hit : 1 ≤ cfg.maxIter)
    {ritzv0 resid0 : ℕ → ℝ} {be be0 : S}
    (hsym : cfg.symCheck = true → (ops.checkSymmetryEasy be).1 = true)
    (hbe0 : be0 = if cfg.symCheck then (ops.checkSymmetryEasy be).2 else be) (hpre : ph.pre be)
    {U : ℕ → Fin N → K} {μ : ℕ → ℝ}
    (hli : LinearIndependent K (fun j : Fin (cfg.nev + cfg.nex) => U j))
    (hU : ∀ j, j < cfg.nev + cfg.nex → H.mulVec (U j) = (μ j : K) • U j)
    (hspan : prefixSpan (cfg.nev + cfg.nex) (user be) = prefixSpan (cfg.nev + cfg.nex) U)
    (hlow : ∃ k, k < cfg.nev + cfg.nex ∧ ∀ j, j < cfg.nev + cfg.nex → μ j ≤ ritzv0 k)
    (hbound : ∀ k, k < cfg.nev + cfg.nex → ritzv0 k < boundOf ops cfg be0) {out : Outcome ℝ S}
    (h : solve P ops cfg ritzv0 resid0 be = .ok out) :
    out.iterations = 1 ∧ out.locked = cfg.nev ∧ (∀ i, i < cfg.nev + cfg.nex → out.resid i = 0) ∧
    prefixSpan (cfg.nev + cfg.nex) (cols out.be) = prefixSpan (cfg.nev + cfg.nex) U ∧
    (∀ i j, i ≤ j → j < cfg.nev + cfg.nex → out.ritzv i ≤ out.ritzv j) ∧
    ∃ e : Equiv.Perm (Fin (cfg.nev + cfg.nex)), ∀ i : Fin (cfg.nev + cfg.nex),
      out.ritzv i = μ (e i) := by
  obtain ⟨be0', st0, st, hbe0', h0, hst, hnr, hnev, rfl⟩ := solve_ok h hsym
  have e0 : be0' = be0 := hbe0'.trans hbe0.symm
  subst e0
  have hpre0 : ph.pre be0' := by
    rw [hbe0]; split_ifs
    · exact hB.frame.check _ hpre
    · exact hpre
  have huser : user be0' = user be := by
    rw [hbe0]; split_ifs
    · exact hB.check _
    · rfl
  have hst0 : st0.unconverged = cfg.nev + cfg.nex ∧ st0.iteration = 0 ∧
      ∀ j, j < cfg.nev + cfg.nex → cols st0.be j = user be j := by
    obtain ⟨be1, l, hb1, hl, -, rfl⟩ := initState_ok h0
    refine ⟨rfl, rfl, ?_⟩
    rw [happ] at hl hb1
    simp only [Bool.not_true, Bool.false_eq_true, if_false] at hl hb1
    unfold lanczos at hl
    split_ifs at hl with c1 c2
    · cases hl
      intro j hj
      rw [hb1, ← huser]
      exact hB.approx _ _ j hj
    · exact absurd rfl c2
  rcases steps_head hst with rfl | ⟨st', hs, hst'⟩
  · exact absurd ⟨by omega, by omega⟩ hnr
  obtain ⟨I, -, -, -, hI, -⟩ := filterRuns_of_iter hs.1 hs.2
  obtain ⟨hI1, hI2, hI3⟩ := first_interval happ h0 hI hbound
  obtain ⟨k, hk, hk'⟩ := hlow
  obtain ⟨a1, a2, a3, a4, θ, σ, hσ, a5, a6, e, a7⟩ := first_round_invariant hP hB hH hmax htol hpre0 h0 hs
    hI hI1 hI2 hli hU (by rw [prefixSpan_congr hst0.2.2, hspan])
    (fun j hj => Or.inl ((hk' j hj).trans (hI3 k hk)))
  have hr' : Reach P ops cfg ritzv0 resid0 be0' st' := .step (.init h0) hs
  have hacc := (reach_acc hr').1
  have est := steps_of_not_running hst' (fun hr => absurd hr.1 (by omega))
  subst est
  obtain ⟨τ, hτ, eτ⟩ := finalSort_cols (cols := cols) hB.space.swap_cols cfg.nev st.ritzv st.be
  obtain ⟨f1, ρ, hρ, f2, -⟩ := finalSort_spec (ops := ops) (cols := fun _ _ => ()) (nev := cfg.nev)
    (fun _ _ _ _ _ => rfl) st.ritzv st.be
  have hval : ∀ i, i < cfg.nev + cfg.nex → (finalSort ops cfg.nev st.ritzv st.be).1 i = θ (σ (ρ i)) := by
    intro i hi
    rw [f2]
    exact a5 _ ((hρ.widen le_rfl (by omega)).lt hi)
  have hfix : ∀ i, cfg.nev ≤ i → σ (ρ i) = i := fun i hi => by rw [hρ i (Or.inr hi), hσ i (Or.inr hi)]
  refine ⟨a2, a1, a3, ?_, ?_, ?_⟩
  · show prefixSpan _ (cols (ops.finish _)) = _
    rw [hB.frame.finish, eτ, prefixSpan_perm (hτ.widen le_rfl (by omega)), a4]
  · intro i j hij hj
    show (finalSort ops cfg.nev st.ritzv st.be).1 i ≤ (finalSort ops cfg.nev st.ritzv st.be).1 j
    by_cases hjn : j < cfg.nev
    · exact f1 i j (Nat.zero_le _) hij hjn
    · rw [hval i (by omega), hval j hj, hfix j (by omega)]
      by_cases hin : i < cfg.nev
      · exact a6 _ _ (Nat.zero_le _) (by have := hσ.lt (hρ.lt hin); omega) hj
      · rw [hfix i (by omega)]; exact a6 _ _ (Nat.zero_le _) hij hj
  · have hp : ∀ i, i < cfg.nev + cfg.nex ↔ σ (ρ i) < cfg.nev + cfg.nex := by
      intro i
      refine ⟨fun hi => (hσ.widen le_rfl (by omega)).lt ((hρ.widen le_rfl (by omega)).lt hi), fun hi => ?_⟩
      by_contra hc
      rw [hfix i (by omega)] at hi
      omega
    let π : Equiv.Perm (Fin (cfg.nev + cfg.nex)) :=
      { toFun := fun i => ⟨σ (ρ i), (hp i).mp i.2⟩
        invFun := fun i => ⟨ρ.symm (σ.symm i), by rw [hp]; simp⟩
        left_inv := fun i => by simp
        right_inv := fun i => by simp }
    exact ⟨π.trans e, fun i => (hval i i.2).trans (a7 (π i))⟩

end Generic

end Verif
