/-
The solver on a backend whose `Swap` does nothing (the distributed backend, see Backend/Mpi): what is left
of C03, C05 and C06.
-/
import Verif.Solver.EndProof
import Mathlib.Data.Finset.Card
import Mathlib.Tactic.Linarith
import Mathlib.Order.Interval.Finset.Nat

set_option linter.unusedSectionVars false

namespace Verif

variable {R S V : Type*} [Add R] [Sub R] [Mul R] [Div R] [Neg R] [Zero R] [One R] [NatCast R] [LinearOrder R]

/-- `Swap` does nothing. -/
def SwapsNothing (ops : Chase R S) : Prop := ∀ i j s, ops.swap i j s = s

/-- The values come ascending out of Rayleigh-Ritz. -/
def MakesAscending (ops : Chase R S) (nl : S → ℕ) (ph : Phases S) (nevex : ℕ) : Prop :=
  ∀ s, ph.ready s → ∀ i j, i ≤ j → j < nevex - nl s →
    (ops.rr (nevex - nl s) s).1 i ≤ (ops.rr (nevex - nl s) s).1 j

/-- Sorting an ascending list moves only equal keys. -/
theorem sortIdx_of_sorted {P : Plat R} (hP : SortsIndices P) {u : ℕ} {key : ℕ → R}
    (h : SortedOn 0 u key) : ∀ k, k < u → key (P.sortIdx u key k) = key k := by
  obtain ⟨h1, h2, h3⟩ := hP u key
  intro k hk
  apply le_antisymm
  · -- one of the positions `k ..` holds an index at most `k`
    by_contra hcon
    have hall : ∀ l, k ≤ l → l < u → k < P.sortIdx u key l := by
      intro l hl1 hl2
      by_contra hc
      exact hcon ((h3 k l hl1 hl2).trans (h _ _ (Nat.zero_le _) (by omega) hk))
    have hinj := Finset.card_le_card_of_injOn (s := Finset.Ico k u) (t := Finset.Ico (k + 1) u)
      (P.sortIdx u key) (by
        intro l hl
        have hl := Finset.mem_Ico.mp hl
        exact Finset.mem_coe.mpr (Finset.mem_Ico.mpr ⟨hall l hl.1 hl.2, h1 l hl.2⟩)) (by
        intro a ha b hb hab
        have ha := Finset.mem_Ico.mp (Finset.mem_coe.mp ha)
        have hb := Finset.mem_Ico.mp (Finset.mem_coe.mp hb)
        exact h2 a b ha.2 hb.2 hab)
    rw [Nat.card_Ico, Nat.card_Ico] at hinj
    omega
  · by_contra hcon
    have hall : ∀ l, l < k + 1 → P.sortIdx u key l < k := by
      intro l hl
      by_contra hc
      exact hcon ((h _ _ (Nat.zero_le _) (by omega) (h1 l (by omega))).trans
        (h3 l k (by omega) hk))
    have hinj := Finset.card_le_card_of_injOn (s := Finset.range (k + 1)) (t := Finset.range k)
      (P.sortIdx u key) (by
        intro l hl
        exact Finset.mem_coe.mpr (Finset.mem_range.mpr (hall l (Finset.mem_range.mp hl)))) (by
        intro a ha b hb hab
        have ha := Finset.mem_range.mp (Finset.mem_coe.mp ha)
        have hb := Finset.mem_range.mp (Finset.mem_coe.mp hb)
        exact h2 a b (by omega) (by omega) hab)
    rw [Finset.card_range, Finset.card_range] at hinj
    omega

/-- The walk over an ascending window leaves values and backend alone. -/
theorem lockLoop_noSwap {ops : Chase R S} (hsw : SwapsNothing ops) {tol : R} {index : ℕ → ℕ}
    {locked u : ℕ} (n k : ℕ) (st : LockSt R S) (hk : k + n = u) (hc : st.converged = k)
    (hidx : ∀ k, k < u → st.ritzv (locked + index k) = st.ritzv (locked + k)) :
    (lockLoop ops tol index locked n k st).ritzv = st.ritzv ∧
    (lockLoop ops tol index locked n k st).be = st.be := by
  induction n generalizing k st with
  | zero => exact ⟨rfl, rfl⟩
  | succ n ih =>
    unfold lockLoop
    dsimp only
    split_ifs with h
    · exact ⟨rfl, rfl⟩
    · have e1 : (st.exchange ops locked (index k)).converged = st.converged := by
        unfold LockSt.exchange; split_ifs <;> rfl
      have e2 : (st.exchange ops locked (index k)).ritzv = st.ritzv := by
        unfold LockSt.exchange
        split_ifs
        · funext i
          show swapAt st.ritzv (locked + index k) (locked + st.converged) i = _
          have := hidx k (by omega)
          rw [swapAt_apply, hc]
          split_ifs with a b
          · rw [a]; exact this
          · rw [b]; exact this.symm
          · rfl
        · rfl
      have e3 : (st.exchange ops locked (index k)).be = st.be := by
        unfold LockSt.exchange
        split_ifs
        · exact hsw _ _ _
        · rfl
      obtain ⟨g1, g2⟩ := ih (k + 1)
        { st.exchange ops locked (index k) with
          converged := (st.exchange ops locked (index k)).converged + 1 } (by omega)
        (by show (st.exchange ops locked (index k)).converged + 1 = k + 1; omega)
        (by intro l hl; show (st.exchange ops locked (index k)).ritzv _ =
              (st.exchange ops locked (index k)).ritzv _; rw [e2]; exact hidx l hl)
      exact ⟨g1.trans e2, g2.trans e3⟩

/-- The walk never touches the residuals of locked pairs. -/
theorem lockLoop_resid_below {ops : Chase R S} {tol : R} {index : ℕ → ℕ} {locked : ℕ} (n k : ℕ)
    (st : LockSt R S) {i : ℕ} (hi : i < locked) :
    (lockLoop ops tol index locked n k st).resid i = st.resid i := by
  induction n generalizing k st with
  | zero => rfl
  | succ n ih =>
    unfold lockLoop
    dsimp only
    split_ifs with h
    · rfl
    · refine (ih _ _).trans ?_
      show (st.exchange ops locked (index k)).resid i = _
      unfold LockSt.exchange
      split_ifs
      · show swapAt st.resid (locked + index k) (locked + st.converged) i = _
        rw [swapAt_apply, if_neg (by omega), if_neg (by omega)]
      · rfl

/-- What holds at the head of a round when `Swap` does nothing. -/
structure NoSwapHead (cols : S → ℕ → V) (nl : S → ℕ) (ph : Phases S) (Pair : R → V → Prop)
    (Res : R → V → R → Prop) (keep : Prop) (cfg : Config R) (st : St R S) : Prop where
  inv : LoopInv cfg nl ph st
  zero : st.iteration = 0 → st.locked = 0
  space : 0 < st.iteration → ∃ s, ph.synced s ∧ cols st.be = cols s
  pairs : 0 < st.iteration → ∀ i, i < cfg.nev + cfg.nex → Pair (st.ritzv i) (cols st.be i)
  resid : keep → 0 < st.iteration →
    ∀ i, i < cfg.nev + cfg.nex → Res (st.ritzv i) (cols st.be i) (st.resid i)
  once : st.iteration = 1 → SortedOn 0 cfg.nev st.ritzv

/-- One round on a backend whose `Swap` does nothing. -/
theorem noSwap_step {P : Plat R} {ops : Chase R S} {cols : S → ℕ → V} {nl : S → ℕ}
    {ph : Phases S} {cfg : Config R} {Pair : R → V → Prop} {Res : R → V → R → Prop}
    (hP : SortsIndices P) (hb : Frame ops cols nl ph cfg.N (cfg.nev + cfg.nex))
    (hsw : SwapsNothing ops) (hmax : Even cfg.maxDeg)
    (hasc : MakesAscending ops nl ph (cfg.nev + cfg.nex))
    (hpair : MakesPairs ops cols nl ph Pair (cfg.nev + cfg.nex))
    (hres : MakesResiduals ops cols nl ph Res (cfg.nev + cfg.nex))
    {st st' : St R S} (hi : NoSwapHead cols nl ph Pair Res (SortKeepsSorted P) cfg st)
    (hs : Step P ops cfg st st') :
    NoSwapHead cols nl ph Pair Res (SortKeepsSorted P) cfg st' ∧ st.locked ≤ st'.locked ∧
    ∀ i, i < st.locked → st'.ritzv i = st.ritzv i ∧ st'.resid i = st.resid i ∧
      cols st'.be i = cols st.be i := by
  have hiter := iter_iteration _ _ _ _ _ hs.2
  have hi0 := hi.inv
  obtain ⟨q, st3, hr, rfl⟩ := round_exists hb hmax hi0 hs
  have hacc3 : st3.locked + st3.unconverged = cfg.nev + cfg.nex := by
    rw [hr.locked, hr.unconverged]; exact hi0.acc
  have hlk3 : st3.locked ≤ cfg.nev := by rw [hr.locked]; exact hi0.lk
  have hacc := hi0.acc
  have hnq := hr.nlq
  have hl := hr.locked
  have hu := hr.unconverged
  obtain ⟨a1, a2, a3⟩ := lockStep_acc (P := P) (ops := ops) hacc3 hlk3
  have hsorted : SortedOn 0 (st3.unconverged - cfg.nex) (fun i => st3.ritzv (st3.locked + i)) := by
    intro a b _ hab hb'
    show st3.ritzv (st3.locked + a) ≤ st3.ritzv (st3.locked + b)
    rw [hl, hr.values a (by omega), hr.values b (by omega)]
    exact hasc q hr.ready a b hab (by omega)
  obtain ⟨e1, e2⟩ := lockLoop_noSwap hsw (tol := cfg.tol) (locked := st3.locked)
    (st3.unconverged - cfg.nex) 0
    { ritzv := st3.ritzv, resid := st3.resid, residLast := st3.residLast, be := st3.be,
      converged := 0 } (by omega) rfl (sortIdx_of_sorted hP hsorted)
  have hbe : (lockStep P ops cfg st3).be =
      ops.lock ((lockStep P ops cfg st3).locked - st3.locked) st3.be := by
    show ops.lock _ (lockLoop ops cfg.tol _ st3.locked _ 0 _).be = _
    rw [e2]
    congr 1
    show _ = st3.locked + _ - st3.locked
    rw [Nat.add_sub_cancel_left]
  have hrz : (lockStep P ops cfg st3).ritzv = st3.ritzv := e1
  obtain ⟨l1, l2, l3⟩ := hb.lock ((lockStep P ops cfg st3).locked - st3.locked) st3.be hr.synced
    (by rw [hr.nl3]; omega)
  rw [← hbe] at l1 l2 l3
  have hpos : 0 < st.locked → 0 < st.iteration := by
    intro h
    rcases Nat.eq_zero_or_pos st.iteration with h0 | h0
    · have := hi.zero h0; omega
    · exact h0
  have hfr : ∀ i, i < st.locked → (lockStep P ops cfg st3).ritzv i = st.ritzv i ∧
      (lockStep P ops cfg st3).resid i = st.resid i ∧
      cols (lockStep P ops cfg st3).be i = cols st.be i := by
    intro i hil
    obtain ⟨g1, g2, g3⟩ := hr.frozen i hil
    rw [hrz, l3]
    exact ⟨g1, (lockLoop_resid_below _ _ _ (by omega)).trans g2, g3⟩
  refine ⟨⟨⟨l2, a1, a2, ?_, ?_, ?_⟩, ?_, fun _ => ⟨st3.be, hr.synced, l3⟩, ?_, ?_, ?_⟩, by omega, hfr⟩
  · rw [l1, hr.nl3]; omega
  · show st3.iteration + 1 ≤ _
    have := hs.1.2
    rw [hr.iteration]
    omega
  · refine ⟨hr.deg.even, ?_, ?_, ?_⟩
    · intro x y hx hxy hy
      exact hr.deg.sorted x y (by omega) hxy hy
    · intro x hx hx'
      exact hr.deg.degs x (by omega) hx'
    · intro hx
      exact hr.deg.last (by omega)
  · intro h; omega
  · intro _ j hj
    rcases Nat.lt_or_ge j st.locked with hlt | hge
    · obtain ⟨g1, -, g2⟩ := hfr j hlt
      rw [g1, g2]
      exact hi.pairs (hpos (by omega)) j hj
    · rw [hrz, l3]
      have := hpair q hr.ready (j - st.locked) (by omega)
      rw [← hr.values _ (by omega), ← hr.columns] at this
      rwa [show nl q + (j - st.locked) = j by omega,
        show st.locked + (j - st.locked) = j by omega] at this
  · intro hkeep _ j hj
    have hid := lockLoop_id (ops := ops) (tol := cfg.tol) (locked := st3.locked)
      (hkeep (st3.unconverged - cfg.nex) _ hsorted) (st3.unconverged - cfg.nex) 0
      { ritzv := st3.ritzv, resid := st3.resid, residLast := st3.residLast, be := st3.be,
        converged := 0 } (by omega) rfl
    have hrs : (lockStep P ops cfg st3).resid = st3.resid := hid.2.1
    rw [hrz, l3, hrs]
    rcases Nat.lt_or_ge j st.locked with hlt | hge
    · obtain ⟨b1, b2, b3⟩ := hr.frozen j hlt
      rw [b1, b2, b3]
      exact hi.resid hkeep (hpos (by omega)) j hj
    · have := hres (fun i => st3.ritzv (st.locked + i)) q hr.ready (by omega)
        (fun i hi => hr.values i (by omega)) (j - st.locked) (by omega)
      rw [← hr.residuals _ (by omega), ← hr.columns, hnq] at this
      rwa [show st.locked + (j - st.locked) = j by omega] at this
  · intro h1 a b ha hab hb'
    have h0 : st3.locked = 0 := by rw [hl]; exact hi.zero (by omega)
    have := hsorted a b ha hab (by omega)
    dsimp only at this
    rw [h0, Nat.zero_add, Nat.zero_add] at this
    rw [hrz]
    exact this

theorem noSwap_init {P : Plat R} {ops : Chase R S} {cols : S → ℕ → V} {nl : S → ℕ}
    {ph : Phases S} {cfg : Config R} {Pair : R → V → Prop} {Res : R → V → R → Prop}
    (hb : Frame ops cols nl ph cfg.N (cfg.nev + cfg.nex)) (hmax : Even cfg.maxDeg)
    {ritzv0 resid0 : ℕ → R} {be : S} (hpre : ph.pre be) {st : St R S}
    (h : initState P ops cfg ritzv0 resid0 be = .ok st) :
    NoSwapHead cols nl ph Pair Res (SortKeepsSorted P) cfg st := by
  have h' := h
  obtain ⟨be1, l, -, -, -, rfl⟩ := initState_ok h
  exact ⟨loopInv_init hb hmax hpre h', fun _ => rfl, by intro h; simp at h, by intro h; simp at h,
    by intro _ h; simp at h, by intro h; simp at h⟩

/-- **C03** on a backend whose `Swap` does nothing: locked pairs are never changed again. -/
theorem C03_locked_pairs_frozen_noSwap (P : Plat R) (ops : Chase R S) (cols : S → ℕ → V) (nl : S → ℕ)
    (ph : Phases S) (Pair : R → V → Prop) (Res : R → V → R → Prop) (cfg : Config R)
    (hP : SortsIndices P) (hb : Frame ops cols nl ph cfg.N (cfg.nev + cfg.nex))
    (hsw : SwapsNothing ops) (hmax : Even cfg.maxDeg)
    (hasc : MakesAscending ops nl ph (cfg.nev + cfg.nex))
    (hpair : MakesPairs ops cols nl ph Pair (cfg.nev + cfg.nex))
    (hres : MakesResiduals ops cols nl ph Res (cfg.nev + cfg.nex))
    (ritzv0 resid0 : ℕ → R) (be : S) (hpre : ph.pre be) (st st' : St R S)
    (h : Reach P ops cfg ritzv0 resid0 be st) (hs : Steps P ops cfg st st') :
    st.locked ≤ st'.locked ∧
    ∀ i, i < st.locked → st'.ritzv i = st.ritzv i ∧ st'.resid i = st.resid i ∧
      cols st'.be i = cols st.be i := by
  have key : ∀ st, Reach P ops cfg ritzv0 resid0 be st →
      NoSwapHead cols nl ph Pair Res (SortKeepsSorted P) cfg st := fun st => reach_inv (ops := ops)
    (fun st => NoSwapHead cols nl ph Pair Res (SortKeepsSorted P) cfg st)
    (fun st hi => noSwap_init hb hmax hpre hi)
    (fun st st' _ hinv hs => (noSwap_step hP hb hsw hmax hasc hpair hres hinv hs).1)
  induction hs with
  | refl => exact ⟨le_rfl, fun _ _ => ⟨rfl, rfl, rfl⟩⟩
  | tail hs1 hs2 ih =>
    have := (noSwap_step hP hb hsw hmax hasc hpair hres (key _ (steps_reach h hs1)) hs2).2
    refine ⟨ih.1.trans this.1, fun i hi => ?_⟩
    obtain ⟨g1, g2, g3⟩ := this.2 i (lt_of_lt_of_le hi ih.1)
    obtain ⟨k1, k2, k3⟩ := ih.2 i hi
    exact ⟨g1.trans k1, g2.trans k2, g3.trans k3⟩

/-- **C05** (partial), on a backend whose `Swap` does nothing: every returned value belongs to a column,
namely the one at position `σ i`, where `σ` is the rearrangement made by the final sort, and no
rearrangement if there was only one round, or if the values were ascending when the iteration ended.  If sorting keeps ascending lists, the residual of
that pair is the one at position `σ i`.  The full claim is false, see `C05_noop_swap_refuted`. -/
theorem C05_noSwap_partial (P : Plat R) (ops : Chase R S) (cols : S → ℕ → V)
    (nl : S → ℕ) (ph : Phases S) (Pair : R → V → Prop) (Res : R → V → R → Prop) (cfg : Config R)
    (hP : SortsIndices P) (hb : Frame ops cols nl ph cfg.N (cfg.nev + cfg.nex))
    (hsw : SwapsNothing ops) (hmax : Even cfg.maxDeg)
    (hasc : MakesAscending ops nl ph (cfg.nev + cfg.nex))
    (hpair : MakesPairs ops cols nl ph Pair (cfg.nev + cfg.nex))
    (hres : MakesResiduals ops cols nl ph Res (cfg.nev + cfg.nex))
    (ritzv0 resid0 : ℕ → R) (be : S) (hpre : ph.pre be) (out : Outcome R S)
    (hsym : cfg.symCheck = true → (ops.checkSymmetryEasy be).1 = true)
    (h : solve P ops cfg ritzv0 resid0 be = .ok out) (hit : 0 < out.iterations) :
    ∃ be0 st, be0 = (if cfg.symCheck then (ops.checkSymmetryEasy be).2 else be) ∧
      Reach P ops cfg ritzv0 resid0 be0 st ∧ ¬ running cfg st ∧
      (∃ s, ph.synced s ∧ cols out.be = cols s) ∧
      ∃ σ : Equiv.Perm ℕ, PermOn 0 cfg.nev σ ∧ out.ritzv = st.ritzv ∘ σ ∧
      (∀ i, i < cfg.nev + cfg.nex → Pair (out.ritzv i) (cols out.be (σ i))) ∧
      (SortedOn 0 cfg.nev st.ritzv → σ = 1) ∧ (out.iterations = 1 → σ = 1) ∧
      (SortKeepsSorted P →
        ∀ i, i < cfg.nev + cfg.nex → Res (out.ritzv i) (cols out.be (σ i)) (out.resid (σ i))) := by
  obtain ⟨be0, st0, st, hbe0, h0, hst, hnr, -, rfl⟩ := solve_ok h hsym
  have hpre : ph.pre be0 := by
    rw [hbe0]; split_ifs
    · exact hb.check _ hpre
    · exact hpre
  have key := reach_inv (ops := ops)
    (fun st => NoSwapHead cols nl ph Pair Res (SortKeepsSorted P) cfg st)
    (fun st hi => noSwap_init hb hmax hpre hi)
    (fun st st' _ hinv hs => (noSwap_step hP hb hsw hmax hasc hpair hres hinv hs).1)
    (steps_reach (.init h0) hst)
  obtain ⟨σ, hσ, g1, hid⟩ : ∃ σ : Equiv.Perm ℕ, PermOn 0 cfg.nev σ ∧
      (finalSort ops cfg.nev st.ritzv st.be).1 = st.ritzv ∘ σ ∧ (SortedOn 0 cfg.nev st.ritzv → σ = 1) := by
    by_cases hsorted : SortedOn 0 cfg.nev st.ritzv
    · exact ⟨1, fun _ _ => rfl, by rw [finalSort_of_sorted ops st.be hsorted]; rfl, fun _ => rfl⟩
    · obtain ⟨-, σ, hσ, g1, -⟩ := finalSort_spec (ops := ops) (cols := fun _ _ => ()) (nev := cfg.nev)
        (fun _ _ _ _ _ => rfl) st.ritzv st.be
      exact ⟨σ, hσ, g1, fun h => absurd h hsorted⟩
  have hbe : (finalSort ops cfg.nev st.ritzv st.be).2 = st.be := by
    unfold finalSort
    refine forRange_pres _ (fun s : (ℕ → R) × S => s.2 = st.be) rfl ?_
    intro i s _ _ h
    refine forRange_pres _ (fun s : (ℕ → R) × S => s.2 = st.be) h ?_
    intro j s _ _ h
    split_ifs
    · exact (hsw _ _ _).trans h
    · exact h
  have hc : cols (ops.finish (finalSort ops cfg.nev st.ritzv st.be).2) = cols st.be := by
    rw [hb.finish, hbe]
  have hσ' : ∀ i, i < cfg.nev + cfg.nex → σ i < cfg.nev + cfg.nex := fun i hi =>
    ((hσ.mono (Nat.le_refl 0) (by omega)).mem (Nat.zero_le _) hi).2
  refine ⟨be0, st, hbe0, steps_reach (.init h0) hst, hnr, ?_, σ, hσ, g1, ?_, hid, fun h1 => hid (key.once h1), ?_⟩
  · obtain ⟨s, h1, h2⟩ := key.space hit
    exact ⟨s, h1, hc.trans h2⟩
  · intro i hi
    dsimp only
    rw [hc, g1]
    exact key.pairs hit _ (hσ' i hi)
  · intro hkeep i hi
    dsimp only
    rw [hc, g1]
    exact key.resid hkeep hit _ (hσ' i hi)

/-- What holds at the head of every round and survives the final call holds at the end of a solve, if
`Swap` does nothing. -/
theorem noSwap_holds_at_end {P : Plat R} {ops : Chase R S} {cols : S → ℕ → V} {nl : S → ℕ}
    {ph : Phases S} {cfg : Config R} {Pair : R → V → Prop} {Res : R → V → R → Prop}
    (hP : SortsIndices P) (hb : Frame ops cols nl ph cfg.N (cfg.nev + cfg.nex))
    (hsw : SwapsNothing ops) (hmax : Even cfg.maxDeg)
    (hasc : MakesAscending ops nl ph (cfg.nev + cfg.nex))
    (hpair : MakesPairs ops cols nl ph Pair (cfg.nev + cfg.nex))
    (hres : MakesResiduals ops cols nl ph Res (cfg.nev + cfg.nex))
    {ritzv0 resid0 : ℕ → R} {be : S} (hpre : ph.pre be) {out : Outcome R S}
    (hsym : cfg.symCheck = true → (ops.checkSymmetryEasy be).1 = true)
    (h : solve P ops cfg ritzv0 resid0 be = .ok out) {Q : S → Prop} (hinv : ∀ s, ph.inv s → Q s)
    (hfin : ∀ s, Q s → Q (ops.finish s)) : Q out.be := by
  obtain ⟨be0, st0, st, hbe0, h0, hst, hnr, -, rfl⟩ := solve_ok h hsym
  have hpre : ph.pre be0 := by
    rw [hbe0]; split_ifs
    · exact hb.check _ hpre
    · exact hpre
  have key := reach_inv (ops := ops)
    (fun st => NoSwapHead cols nl ph Pair Res (SortKeepsSorted P) cfg st)
    (fun st hi => noSwap_init hb hmax hpre hi)
    (fun st st' _ hinv hs => (noSwap_step hP hb hsw hmax hasc hpair hres hinv hs).1)
    (steps_reach (.init h0) hst)
  refine hfin _ ?_
  unfold finalSort
  refine forRange_pres _ (fun st : (ℕ → R) × S => Q st.2) (hinv _ key.inv.inv) ?_
  intro i s _ _ h
  refine forRange_pres _ (fun st : (ℕ → R) × S => Q st.2) h ?_
  intro j s _ _ h
  split_ifs
  · show Q (ops.swap _ _ _); rw [hsw]; exact h
  · exact h

/-- The toy backend with a `Swap` that does nothing. -/
def Toy.opsStay (vals : ℕ → ℕ → ℚ) (resOf : ℚ → ℚ) (sym : Bool) : Chase ℚ Toy.TS :=
  { Toy.ops vals resOf sym with swap := fun _ _ s => s }

theorem Toy.opsStay_frame (vals : ℕ → ℕ → ℚ) (resOf : ℚ → ℚ) (sym : Bool) (N n : ℕ) :
    Frame (Toy.opsStay vals resOf sym) Toy.TS.cols Toy.TS.nl Toy.phases N n where
  swap_low := fun _ _ _ _ _ _ _ _ _ => rfl
  swap_nl := fun _ _ _ => rfl
  swap_inv := fun _ _ _ _ _ _ _ _ => trivial
  swap_synced := fun _ _ _ _ _ _ _ _ => trivial
  filter := by
    intro deg av degrees lambda lower upper s s' _ _ _ _ h
    have := filter_pres (ops := Toy.opsStay vals resOf sym) (fun t : Toy.TS => t = s)
      (fun _ _ _ h => h) (fun _ _ _ _ _ h => h) h rfl
    rw [this]; exact ⟨rfl, trivial, fun _ _ => rfl⟩
  qr := fun _ _ _ _ => ⟨rfl, trivial, trivial, fun _ _ => rfl⟩
  rr := (Toy.ops_bookkeeping vals resOf sym N n).rr
  resd := fun _ _ _ _ => ⟨rfl, trivial, rfl⟩
  lock := fun _ _ _ _ => ⟨rfl, trivial, rfl⟩
  start := fun _ _ => ⟨rfl, trivial⟩
  check := fun _ _ => trivial
  initVecs := fun _ _ _ h => ⟨h, trivial⟩
  lanczos1 := fun _ _ _ h => ⟨h, trivial⟩
  lanczosN := fun _ _ _ _ h => ⟨h, trivial⟩
  lanczosDos := fun _ _ _ _ _ h => ⟨h, trivial⟩
  finish := fun _ => rfl

theorem Toy.opsStay_pairs (n : ℕ) :
    MakesPairs (Toy.opsStay Toy.vals1 Toy.res1 true) Toy.TS.cols Toy.TS.nl Toy.phases
      (fun v x => v = x) n := by
  intro s _ i hi
  show Toy.vals1 _ i = writeAt s.cols s.nl (n - s.nl) _ (s.nl + i)
  rw [writeAt, if_pos (by omega), Nat.add_sub_cancel_left]

theorem Toy.opsStay_ascending (n : ℕ) :
    MakesAscending (Toy.opsStay Toy.vals1 Toy.res1 true) Toy.TS.nl Toy.phases n := by
  intro s _ i j hij _
  show Toy.vals1 _ i ≤ Toy.vals1 _ j
  have h : (i : ℚ) ≤ (j : ℚ) := by exact_mod_cast hij
  unfold Toy.vals1
  split_ifs <;> linarith

/-- **C05 is false for backends whose `Swap` does nothing**: such a backend, which keeps every other part
of the contract and whose Rayleigh-Ritz step returns matching values and columns in ascending order, on
which `Solve` returns the value 3 at position 0 and leaves the column of the value 5 there. -/
theorem C05_noop_swap_refuted :
    ∃ (ops : Chase ℚ Toy.TS) (out : Outcome ℚ Toy.TS),
      Frame ops Toy.TS.cols Toy.TS.nl Toy.phases 10 3 ∧ SwapsNothing ops ∧
      MakesAscending ops Toy.TS.nl Toy.phases 3 ∧
      MakesPairs ops Toy.TS.cols Toy.TS.nl Toy.phases (fun v x => v = x) 3 ∧
      solve Toy.plat ops Toy.cfg1 (fun _ => 0) (fun _ => 0) Toy.start = .ok out ∧
      0 < out.iterations ∧ out.ritzv 0 = 3 ∧ out.be.cols 0 = 5 := by
  obtain ⟨out, h, g⟩ := Toy.okAnd_elim (p := fun out : Outcome ℚ Toy.TS =>
      decide (0 < out.iterations) && decide (out.ritzv 0 = 3) && decide (out.be.cols 0 = 5))
    (x := solve Toy.plat (Toy.opsStay Toy.vals1 Toy.res1 true) Toy.cfg1 (fun _ => 0) (fun _ => 0)
      Toy.start) (by rw [Toy.solve_eq_solveE]; decide +kernel)
  simp only [Bool.and_eq_true, decide_eq_true_eq] at g
  exact ⟨_, out, Toy.opsStay_frame .., fun _ _ _ => rfl, Toy.opsStay_ascending 3,
    Toy.opsStay_pairs 3, h, g.1.1, g.1.2, g.2⟩

/-- Non-vacuity of `C03_locked_pairs_frozen_noSwap` and `C05_noSwap_partial`: the backend of
`C05_noop_swap_refuted` with its residuals meets all hypotheses. -/
example : SortsIndices Toy.plat ∧ SortKeepsSorted Toy.plat ∧
    Frame (Toy.opsStay Toy.vals1 Toy.res1 true) Toy.TS.cols Toy.TS.nl Toy.phases 10 3 ∧
    MakesResiduals (Toy.opsStay Toy.vals1 Toy.res1 true) Toy.TS.cols Toy.TS.nl Toy.phases
      (fun v _ r => r = Toy.res1 v) 3 ∧ Even Toy.cfg1.maxDeg :=
  ⟨Toy.plat_sorts, Toy.plat_keeps, Toy.opsStay_frame .., fun _ _ _ _ _ _ _ => rfl, by decide⟩

end Verif
