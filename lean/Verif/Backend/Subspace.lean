/-
What one round of the solver does to the search space: the space spanned by the columns is replaced by
the space spanned by the filtered columns.  For every backend that meets a contract (`SpaceContract`).
-/
import Verif.Backend.FilterProps
import Verif.Backend.SolveProps
import Verif.Solver.IntervalProps
import Verif.Solver.NoSwap

open Polynomial

namespace Verif

variable {K : Type*} [RCLike K] {N : ℕ} {S : Type*}

/-- What a backend promises about the space spanned by the columns of the search space `cols`, for the
matrix `H`. -/
structure SpaceContract (ops : Chase ℝ S) (cols : S → ℕ → Fin N → K) (nl : S → ℕ) (ph : Phases S)
    (nevex : ℕ) (H : Matrix (Fin N) (Fin N) K) : Prop where
  /-- an exchange exchanges two columns or does nothing -/
  swap_cols : ∀ i j s, cols (ops.swap i j s) = swapAt (cols s) i j ∨ cols (ops.swap i j s) = cols s
  /-- the filter applies its polynomial to every active column -/
  filter_cols : ∀ (n deg av : ℕ) (degrees : ℕ → ℕ) (lambda lower upper : ℝ) (s s' : S),
    ph.inv s → Even deg → SortedOn (nl s) nevex degrees →
    (∀ i, nl s ≤ i → i < nevex → Even (degrees i) ∧ degrees i ≤ deg) →
    filter ops n (nevex - nl s) deg degrees nevex (nl s) lambda lower upper s = .ok (av, s') →
    (∀ i, i ≤ deg → tau lambda lower upper i ≠ 0) → ∀ j, nl s ≤ j → j < nevex →
    cols s' j = (aeval H (filterPoly lambda lower upper (degrees j))).mulVec (cols s j)
  /-- QR keeps the space spanned by independent columns -/
  qr_span : ∀ k c s, ph.inv s → LinearIndependent K (fun j : Fin nevex => cols s j) →
    prefixSpan nevex (cols (ops.qr k c s)) = prefixSpan nevex (cols s)
  /-- Rayleigh-Ritz keeps the space -/
  rr_span : ∀ s, ph.ready s → nl s ≤ nevex →
    prefixSpan nevex (cols (ops.rr (nevex - nl s) s).2) = prefixSpan nevex (cols s)
  /-- and diagonalises the projection of the matrix -/
  rr_galerkin : ∀ s, ph.ready s → nl s ≤ nevex → ∀ i j, i < nevex - nl s → j < nevex - nl s →
    dotc (cols (ops.rr (nevex - nl s) s).2 (nl s + i))
      (H.mulVec (cols (ops.rr (nevex - nl s) s).2 (nl s + j))) =
      if i = j then ((ops.rr (nevex - nl s) s).1 i : K) else 0
  /-- with ascending values -/
  rr_asc : MakesAscending ops nl ph nevex
  /-- the columns are orthonormal afterwards -/
  ortho : ∀ s, ph.synced s → OrthoOn nevex (cols s)
  /-- the residuals are those of the pairs -/
  resd : MakesResiduals ops cols nl ph (IsResidual H) nevex

/-! ### Permutations of columns -/

theorem PermOn.symm {lo hi : ℕ} {σ : Equiv.Perm ℕ} (h : PermOn lo hi σ) : PermOn lo hi σ.symm := by
  intro i hi'
  rw [Equiv.symm_apply_eq]
  exact (h i hi').symm

theorem PermOn.lt {lo hi : ℕ} {σ : Equiv.Perm ℕ} (h : PermOn lo hi σ) {i : ℕ} (hi' : i < hi) :
    σ i < hi := by
  by_contra hc
  have h1 := h (σ i) (Or.inr (not_lt.mp hc))
  have := σ.injective h1
  omega

theorem PermOn.ge {lo hi : ℕ} {σ : Equiv.Perm ℕ} (h : PermOn lo hi σ) {i : ℕ} (hi' : lo ≤ i) :
    lo ≤ σ i := by
  by_contra hc
  have h1 := h (σ i) (Or.inl (not_le.mp hc))
  have := σ.injective h1
  omega

theorem PermOn.widen {lo hi lo' hi' : ℕ} {σ : Equiv.Perm ℕ} (h : PermOn lo hi σ) (h1 : lo' ≤ lo)
    (h2 : hi ≤ hi') : PermOn lo' hi' σ := fun i hi => h i (by omega)

theorem prefixSpan_perm {n : ℕ} {σ : Equiv.Perm ℕ} (h : PermOn 0 n σ) (X : ℕ → Fin N → K) :
    prefixSpan n (X ∘ σ) = prefixSpan n X := by
  apply le_antisymm
  · exact prefixSpan_le fun j hj => mem_prefixSpan (h.lt hj)
  · refine prefixSpan_le fun j hj => ?_
    have := mem_prefixSpan (X := X ∘ σ) (h.symm.lt hj)
    simpa using this

/-- Exchanges between positions `lo .. hi - 1` are permutations of these. -/
theorem perm_of_swap {ops : Chase ℝ S} {cols : S → ℕ → Fin N → K}
    (hsw : ∀ i j s, cols (ops.swap i j s) = swapAt (cols s) i j ∨ cols (ops.swap i j s) = cols s)
    {lo hi i j : ℕ} (h1 : lo ≤ i) (h2 : lo ≤ j) (h3 : i < hi) (h4 : j < hi) {X : ℕ → Fin N → K} {s : S}
    (h : ∃ σ : Equiv.Perm ℕ, PermOn lo hi σ ∧ cols s = X ∘ σ) :
    ∃ σ : Equiv.Perm ℕ, PermOn lo hi σ ∧ cols (ops.swap i j s) = X ∘ σ := by
  obtain ⟨σ, hσ, e⟩ := h
  rcases hsw i j s with hs | hs
  · refine ⟨(Equiv.swap i j).trans σ, ?_, ?_⟩
    · intro k hk
      rw [Equiv.trans_apply, Equiv.swap_apply_of_ne_of_ne (by omega) (by omega), hσ k hk]
    · rw [hs, e, swapAt_eq_comp]
      rfl
  · exact ⟨σ, hσ, hs.trans e⟩

theorem optimise_cols {P : Plat ℝ} {ops : Chase ℝ S} {cols : S → ℕ → Fin N → K} {cfg : Config ℝ}
    (hsw : ∀ i j s, cols (ops.swap i j s) = swapAt (cols s) i j ∨ cols (ops.swap i j s) = cols s)
    {st st' : St ℝ S} (h : optimise P ops cfg st = .ok st') :
    ∃ σ : Equiv.Perm ℕ, PermOn st.locked (st.locked + st.unconverged) σ ∧
      cols st'.be = cols st.be ∘ σ ∧
      (cfg.optimization = false ∨ st.iteration = 0 → σ = 1 ∧ st'.degrees = st.degrees) := by
  by_cases hno : cfg.optimization = false ∨ st.iteration = 0
  · have e : st' = st := by
      unfold optimise at h
      rw [if_neg (by rcases hno with h | h <;> simp [h])] at h
      cases h; rfl
    exact ⟨1, fun _ _ => rfl, by rw [e]; rfl, fun _ => ⟨rfl, by rw [e]⟩⟩
  obtain ⟨σ, h1, h2⟩ := optimise_pres (P := P) (fun s => ∃ σ : Equiv.Perm ℕ,
      PermOn st.locked (st.locked + st.unconverged) σ ∧ cols s = cols st.be ∘ σ)
    (fun _ _ _ a1 a2 a3 a4 hs => perm_of_swap hsw a1 a2 a3 a4 hs) h ⟨1, fun _ _ => rfl, rfl⟩
  exact ⟨σ, h1, h2, fun h => absurd h hno⟩

/-- The lock step of a backend with the frame contract. -/
theorem lockStep_frame {P : Plat ℝ} {ops : Chase ℝ S} {cols : S → ℕ → Fin N → K} {nl : S → ℕ}
    {ph : Phases S} {cfg : Config ℝ} (hP : SortsIndices P)
    (hb : Frame ops cols nl ph cfg.N (cfg.nev + cfg.nex))
    (hsw : ∀ i j s, cols (ops.swap i j s) = swapAt (cols s) i j ∨ cols (ops.swap i j s) = cols s)
    {st : St ℝ S} (hacc : st.locked + st.unconverged = cfg.nev + cfg.nex) (hlk : st.locked ≤ cfg.nev)
    (hsy : ph.synced st.be) (hnl : nl st.be = st.locked) :
    nl (lockStep P ops cfg st).be = (lockStep P ops cfg st).locked ∧
    ph.inv (lockStep P ops cfg st).be ∧
    ∃ σ : Equiv.Perm ℕ, PermOn st.locked (cfg.nev + cfg.nex) σ ∧
      cols (lockStep P ops cfg st).be = cols st.be ∘ σ := by
  obtain ⟨hix, -, -⟩ := hP (st.unconverged - cfg.nex) (fun i => st.ritzv (st.locked + i))
  obtain ⟨a1, a2, -⟩ := lockStep_acc (P := P) (ops := ops) hacc hlk
  have hq := lockLoop_pres (ops := ops) (fun s => nl s = st.locked ∧ ph.synced s ∧
      ∃ σ : Equiv.Perm ℕ, PermOn st.locked (cfg.nev + cfg.nex) σ ∧ cols s = cols st.be ∘ σ)
    (tol := cfg.tol) hix (locked := st.locked)
    (fun i j s b1 b2 b3 b4 hs => ⟨(hb.swap_nl i j s).trans hs.1,
      hb.swap_synced i j s (by omega) (by omega) (by omega) (by omega) hs.2.1,
      perm_of_swap hsw b1 b2 (by omega) (by omega) hs.2.2⟩)
    (st.unconverged - cfg.nex) 0
    { ritzv := st.ritzv, resid := st.resid, residLast := st.residLast, be := st.be,
      converged := 0 } (by omega) rfl ⟨hnl, hsy, 1, fun _ _ => rfl, rfl⟩
  have hl := hb.lock _ _ hq.2.1 (by
    rw [hq.1]
    show (lockStep P ops cfg st).locked ≤ cfg.nev + cfg.nex
    omega)
  obtain ⟨σ, hσ, e⟩ := hq.2.2
  refine ⟨hl.1.trans ?_, hl.2.1, σ, hσ, hl.2.2.trans e⟩
  rw [hq.1]; rfl

/-- The invariant of the loop, for backends with the frame contract. -/
theorem loopInv_step_frame {P : Plat ℝ} {ops : Chase ℝ S} {cols : S → ℕ → Fin N → K} {nl : S → ℕ}
    {ph : Phases S} {cfg : Config ℝ} (hP : SortsIndices P)
    (hb : Frame ops cols nl ph cfg.N (cfg.nev + cfg.nex)) (hmax : Even cfg.maxDeg)
    (hsw : ∀ i j s, cols (ops.swap i j s) = swapAt (cols s) i j ∨ cols (ops.swap i j s) = cols s)
    {st st' : St ℝ S} (hi : LoopInv cfg nl ph st) (hs : Step P ops cfg st st') :
    LoopInv cfg nl ph st' := by
  obtain ⟨q, st3, hr, rfl⟩ := round_exists hb hmax hi hs
  have hacc3 : st3.locked + st3.unconverged = cfg.nev + cfg.nex := by
    rw [hr.locked, hr.unconverged]; exact hi.acc
  have hlk3 : st3.locked ≤ cfg.nev := by rw [hr.locked]; exact hi.lk
  obtain ⟨a1, a2, a3⟩ := lockStep_acc (P := P) (ops := ops) hacc3 hlk3
  obtain ⟨b1, b2, -⟩ := lockStep_frame (P := P) hP hb hsw hacc3 hlk3 hr.synced
    (hr.nl3.trans hr.locked.symm)
  have hl := hr.locked
  refine ⟨b2, a1, a2, b1, ?_, hr.deg.even, ?_, ?_, ?_⟩
  · show st3.iteration + 1 ≤ _
    have := hs.1.2
    rw [hr.iteration]
    omega
  · intro x y hx hxy hy
    exact hr.deg.sorted x y (by omega) hxy hy
  · intro x hx hx'
    exact hr.deg.degs x (by omega) hx'
  · intro hx
    exact hr.deg.last (by omega)

theorem reach_loopInv {P : Plat ℝ} {ops : Chase ℝ S} {cols : S → ℕ → Fin N → K} {nl : S → ℕ}
    {ph : Phases S} {cfg : Config ℝ} (hP : SortsIndices P)
    (hb : Frame ops cols nl ph cfg.N (cfg.nev + cfg.nex)) (hmax : Even cfg.maxDeg)
    (hsw : ∀ i j s, cols (ops.swap i j s) = swapAt (cols s) i j ∨ cols (ops.swap i j s) = cols s)
    {ritzv0 resid0 : ℕ → ℝ} {be : S} (hpre : ph.pre be) {st : St ℝ S}
    (h : Reach P ops cfg ritzv0 resid0 be st) : LoopInv cfg nl ph st :=
  reach_inv (fun st => LoopInv cfg nl ph st) (fun _ h => loopInv_init hb hmax hpre h)
    (fun _ _ _ hi hs => loopInv_step_frame hP hb hmax hsw hi hs) h

/-! ### One round -/

/-- The columns of a search space after filtering: the locked ones as they were, every other one
multiplied by the filter polynomial of its degree. -/
noncomputable def filtered (H : Matrix (Fin N) (Fin N) K) (I : Interval ℝ) (locked : ℕ) (d : ℕ → ℕ)
    (v : ℕ → Fin N → K) (j : ℕ) : Fin N → K :=
  if j < locked then v j else (aeval H (filterPoly I.lambda I.lower I.upper (d j))).mulVec (v j)

theorem tau_ne_zero_of_le {I : Interval ℝ} (h1 : I.lambda ≤ I.lower) (h2 : I.lower < I.upper) (i : ℕ) :
    tau I.lambda I.lower I.upper i ≠ 0 := C10_outside _ _ _ h2 (Or.inl h1) i

/-- **One round on the search space.**  `st3` is the state before locking. -/
theorem round_space {P : Plat ℝ} {ops : Chase ℝ S} {cols : S → ℕ → Fin N → K} {nl : S → ℕ}
    {ph : Phases S} {cfg : Config ℝ} {H : Matrix (Fin N) (Fin N) K} (hP : SortsIndices P)
    (hb : Frame ops cols nl ph cfg.N (cfg.nev + cfg.nex))
    (hc : SpaceContract ops cols nl ph (cfg.nev + cfg.nex) H) (hmax : Even cfg.maxDeg)
    {st st' : St ℝ S} (hi : LoopInv cfg nl ph st) (hs : Step P ops cfg st st')
    {I : Interval ℝ} (hI : FilterRuns P ops cfg st I) (hI1 : I.lambda ≤ I.lower)
    (hI2 : I.lower < I.upper) :
    ∃ (d : ℕ → ℕ) (q : S) (st3 : St ℝ S), Round P ops cols nl ph cfg st q st3 ∧
      st' = lockStep P ops cfg st3 ∧
      (∀ j, st.locked ≤ j → j < cfg.nev + cfg.nex → Even (d j)) ∧
      (cfg.optimization = false ∨ st.iteration = 0 → d = st.degrees) ∧
      (LinearIndependent K (fun j : Fin (cfg.nev + cfg.nex) => filtered H I st.locked d (cols st.be) j) →
        prefixSpan (cfg.nev + cfg.nex) (cols st3.be) =
          prefixSpan (cfg.nev + cfg.nex) (filtered H I st.locked d (cols st.be)) ∧
        prefixSpan (cfg.nev + cfg.nex) (cols st'.be) =
          prefixSpan (cfg.nev + cfg.nex) (filtered H I st.locked d (cols st.be))) := by
  obtain ⟨st1, be2, q, st3, hf, hr, rfl⟩ := round_exists_filter hb hmax hi hs
  obtain ⟨-, st1', h1', hIe⟩ := hI
  have e1 : st1' = st1 := by
    have := h1'.symm.trans hf.opt
    cases this; rfl
  subst e1
  obtain ⟨σ, hσ, eσ, hunif⟩ := optimise_cols (cols := cols) hc.swap_cols hf.opt
  have hacc := hi.acc
  have hlk := hi.lk
  have hσ' : PermOn st.locked (cfg.nev + cfg.nex) σ := by rw [← hacc]; exact hσ
  have eσ' : cols st1'.be = cols st.be ∘ σ := eσ
  obtain ⟨av, hfilt⟩ := hf.filt
  have hsort : SortedOn (nl st1'.be) (cfg.nev + cfg.nex) st1'.degrees := by
    rw [hf.nl1, ← hf.locked]; exact hf.deg.sorted
  have hdegs : ∀ i, nl st1'.be ≤ i → i < cfg.nev + cfg.nex →
      Even (st1'.degrees i) ∧ st1'.degrees i ≤ st1'.deg := by
    rw [hf.nl1, ← hf.locked]; exact hf.deg.degs
  have hf1 := hc.filter_cols _ _ _ _ _ _ _ _ _ hf.inv1 hf.deg.even hsort hdegs hfilt
    (fun i _ => by
      have := tau_ne_zero_of_le hI1 hI2 i
      rw [hIe] at this
      exact this)
  obtain ⟨-, -, hf2⟩ := hb.filter _ _ _ _ _ _ _ _ hf.inv1 hf.deg.even hsort hdegs hfilt
  set d : ℕ → ℕ := fun j => st1'.degrees (σ.symm j) with hd
  have hcols : ∀ j, j < cfg.nev + cfg.nex → cols be2 j = (filtered H I st.locked d (cols st.be) ∘ σ) j := by
    intro j hj
    show _ = filtered H I st.locked d (cols st.be) (σ j)
    unfold filtered
    by_cases hl : j < st.locked
    · have hj' : σ j = j := hσ' j (Or.inl hl)
      rw [hj', if_pos hl, hf2 j (by rw [hf.nl1]; exact hl), eσ']
      show cols st.be (σ j) = _
      rw [hj']
    · have := hσ'.ge (not_lt.mp hl)
      rw [if_neg (by omega), hf1 j (by rw [hf.nl1]; omega) hj, eσ', hIe, hd]
      simp
  have hspan : prefixSpan (cfg.nev + cfg.nex) (cols be2) =
      prefixSpan (cfg.nev + cfg.nex) (filtered H I st.locked d (cols st.be)) := by
    rw [prefixSpan_congr hcols, prefixSpan_perm (hσ'.widen (Nat.zero_le _) le_rfl)]
  refine ⟨d, q, st3, hr, rfl, ?_, ?_, ?_⟩
  · intro j h1 h2
    exact (hf.deg.degs _ (by rw [hf.locked]; exact hσ'.symm.ge h1) (hσ'.symm.lt h2)).1
  · intro hno
    obtain ⟨e1, e2⟩ := hunif hno
    rw [hd, e1]
    exact e2
  · intro hli
    obtain ⟨c, hq⟩ := hf.qr
    have h3 : prefixSpan (cfg.nev + cfg.nex) (cols st3.be) =
        prefixSpan (cfg.nev + cfg.nex) (filtered H I st.locked d (cols st.be)) := by
      rw [hr.columns, hc.rr_span q hr.ready (by rw [hr.nlq]; omega), hq,
        hc.qr_span _ _ _ hf.inv2 (linearIndependent_of_span_eq hli hspan), hspan]
    refine ⟨h3, ?_⟩
    obtain ⟨-, -, τ, hτ, eτ⟩ := lockStep_frame (P := P) hP hb hc.swap_cols
      (by rw [hr.locked, hr.unconverged]; exact hacc) (by rw [hr.locked]; exact hlk) hr.synced
      (hr.nl3.trans hr.locked.symm)
    rw [eτ, prefixSpan_perm (hτ.widen (Nat.zero_le _) le_rfl), h3]

end Verif
