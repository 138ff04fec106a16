/-
Invariants of the iteration loop of `solve`.
-/
import Verif.Solver.LockProof
import Verif.Solver.DegreesProps

set_option linter.unusedSectionVars false

namespace Verif

variable {R S V : Type*} [Add R] [Sub R] [Mul R] [Div R] [Neg R] [Zero R] [One R] [NatCast R] [LT R] [DecidableLT R]

theorem SwapsColumns.mono {ops : Chase R S} {cols : S → ℕ → V} {n m : ℕ}
    (h : SwapsColumns ops cols n) (hm : m ≤ n) : SwapsColumns ops cols m :=
  fun i j s hi hj => h i j s (by omega) (by omega)

theorem iter_ok {P : Plat R} {ops : Chase R S} {cfg : Config R} {st st' : St R S}
    (h : iter P ops cfg st = .ok st') :
    ∃ st1 av be, optimise P ops cfg (updateBounds (cfg.nev + cfg.nex) st) = .ok st1 ∧
      filter ops cfg.N st1.unconverged st1.deg st1.degrees (cfg.nev + cfg.nex) st1.locked
        st1.lambda st1.lowerb st1.upperb st1.be = .ok (av, be) ∧
      st' = lockStep P ops cfg (project P ops cfg { st1 with be }) := by
  unfold iter at h
  split at h
  · cases h
  · rename_i st1 h1
    split at h
    · cases h
    · rename_i av be h2
      cases h
      exact ⟨st1, av, be, h1, h2, rfl⟩

/-- Either the degree optimisation does not run, or it is a successful `calcDegrees`. -/
theorem optimise_ok {P : Plat R} {ops : Chase R S} {cfg : Config R} {st st' : St R S}
    (h : optimise P ops cfg st = .ok st') :
    (st' = st ∧ ¬ (cfg.optimization ∧ st.iteration ≠ 0)) ∨
    (∃ deg p, calcDegrees P ops cfg st.unconverged cfg.nex st.upperb st.lowerb cfg.tol st.locked
        { degrees := st.degrees, ritzv := st.ritzv, resid := st.resid, residLast := st.residLast,
          be := st.be } = .ok (deg, p) ∧
      st' = { st with deg, degrees := p.degrees, ritzv := p.ritzv, resid := p.resid,
                      residLast := p.residLast, be := p.be }) := by
  unfold optimise at h
  split_ifs at h with hc
  · split at h
    · cases h
    · rename_i deg p h1
      cases h
      exact Or.inr ⟨deg, p, h1, rfl⟩
  · cases h
    exact Or.inl ⟨rfl, hc⟩

/-- The degree optimisation keeps everything that belongs to locked positions, and all counters. -/
theorem optimise_frame {P : Plat R} {ops : Chase R S} {cols : S → ℕ → V} {α : Type*} {nl : S → α}
    {cfg : Config R} {st st' : St R S} {nevex : ℕ} (hsw : SwapsColumns ops cols nevex)
    (hnl : ∀ i j s, nl (ops.swap i j s) = nl s) (hacc : st.locked + st.unconverged = nevex)
    (h : optimise P ops cfg st = .ok st') :
    st'.locked = st.locked ∧ st'.unconverged = st.unconverged ∧ st'.iteration = st.iteration ∧
    st'.lambda = st.lambda ∧ st'.lowerb = st.lowerb ∧ st'.upperb = st.upperb ∧
    nl st'.be = nl st.be ∧
    ∃ σ : Equiv.Perm ℕ, PermOn st.locked nevex σ ∧ st'.ritzv = st.ritzv ∘ σ ∧
      st'.resid = st.resid ∘ σ ∧ st'.residLast = st.residLast ∘ σ ∧
      cols st'.be = cols st.be ∘ σ := by
  rcases optimise_ok h with ⟨rfl, -⟩ | ⟨deg, p, h1, rfl⟩
  · exact ⟨rfl, rfl, rfl, rfl, rfl, rfl, rfl, 1, permOn_one, rfl, rfl, rfl, rfl⟩
  · refine ⟨rfl, rfl, rfl, rfl, rfl, rfl, ?_, ?_⟩
    · unfold calcDegrees at h1
      split_ifs at h1
      dsimp only at h1
      split at h1
      · cases h1
      · rename_i d hd
        cases h1
        show nl (sortDegrees _ _ _ _).be = _
        unfold sortDegrees
        refine forRange_pres _ (fun q : Pairs R S => nl q.be = nl st.be) rfl ?_
        intro j q _ _ hq
        refine forRange_pres _ (fun q : Pairs R S => nl q.be = nl st.be) hq ?_
        intro k q _ _ hq
        split_ifs
        · simp only [Pairs.exchange, hnl, hq]
        · exact hq
    · obtain ⟨σ, hσ, e1, e2, e3, e4, -, -⟩ :=
        C17_degrees_permute_pairs P ops cols cfg (hsw.mono (by omega)) h1
      rw [hacc] at hσ
      exact ⟨σ, hσ, e1, e2, e3, e4⟩

/-- Facts about degrees that hold at the head of every round. -/
structure DegInv (nevex : ℕ) (st : St R S) : Prop where
  even : Even st.deg
  sorted : SortedOn st.locked nevex st.degrees
  degs : ∀ i, st.locked ≤ i → i < nevex → Even (st.degrees i) ∧ st.degrees i ≤ st.deg
  last : st.locked < nevex → st.degrees (nevex - 1) = st.deg

theorem updateBounds_fields (nevex : ℕ) (st : St R S) :
    (updateBounds nevex st).locked = st.locked ∧
    (updateBounds nevex st).unconverged = st.unconverged ∧
    (updateBounds nevex st).iteration = st.iteration ∧
    (updateBounds nevex st).ritzv = st.ritzv ∧ (updateBounds nevex st).resid = st.resid ∧
    (updateBounds nevex st).residLast = st.residLast ∧
    (updateBounds nevex st).degrees = st.degrees ∧ (updateBounds nevex st).deg = st.deg ∧
    (updateBounds nevex st).be = st.be ∧ (updateBounds nevex st).upperb = st.upperb :=
  ⟨rfl, rfl, rfl, rfl, rfl, rfl, rfl, rfl, rfl, rfl⟩

theorem optimise_degInv {P : Plat R} {ops : Chase R S} {cfg : Config R} {st st' : St R S}
    {nevex : ℕ} (hmax : Even cfg.maxDeg) (hacc : st.locked + st.unconverged = nevex)
    (hd : DegInv nevex st) (h : optimise P ops cfg st = .ok st') : DegInv nevex st' := by
  rcases optimise_ok h with ⟨rfl, -⟩ | ⟨deg, p, h1, rfl⟩
  · exact hd
  · obtain ⟨g1, g2, g3, i, gi1, gi2, gi3⟩ := C16_degrees_even_bounded_ascending P ops cfg hmax h1
    rw [hacc] at g1 g2 g3 gi2
    refine ⟨?_, g2, ?_, ?_⟩
    · show Even deg
      rw [← gi3]; exact (g1 i gi1 gi2).1
    · intro j hj1 hj2
      exact ⟨(g1 j hj1 hj2).1, g3 j hj1 hj2⟩
    · intro hl
      have hl' : st.locked < nevex := hl
      refine le_antisymm (g3 _ (by omega) (by omega)) ?_
      show deg ≤ p.degrees (nevex - 1)
      rw [← gi3]
      exact g2 _ _ gi1 (by omega) (by omega)

/-- Accounting of a round. -/
theorem lockStep_acc {P : Plat R} {ops : Chase R S} {cfg : Config R} {st : St R S}
    (hacc : st.locked + st.unconverged = cfg.nev + cfg.nex) (hl : st.locked ≤ cfg.nev) :
    (lockStep P ops cfg st).locked + (lockStep P ops cfg st).unconverged = cfg.nev + cfg.nex ∧
    (lockStep P ops cfg st).locked ≤ cfg.nev ∧
    st.locked ≤ (lockStep P ops cfg st).locked := by
  have := lockLoop_converged_le ops cfg.tol
    (P.sortIdx (st.unconverged - cfg.nex) (fun i => st.ritzv (st.locked + i))) st.locked
    (st.unconverged - cfg.nex) 0
    { ritzv := st.ritzv, resid := st.resid, residLast := st.residLast, be := st.be, converged := 0 }
  simp only [lockStep, locking]
  generalize hg : (lockLoop ops cfg.tol
    (P.sortIdx (st.unconverged - cfg.nex) (fun i => st.ritzv (st.locked + i))) st.locked
    (st.unconverged - cfg.nex) 0
    { ritzv := st.ritzv, resid := st.resid, residLast := st.residLast, be := st.be,
      converged := 0 }).converged = cv at *
  dsimp only at this
  omega

theorem lockLoop_nl {ops : Chase R S} {α : Type*} {nl : S → α} (hnl : ∀ i j s, nl (ops.swap i j s) = nl s)
    (tol : R) (index : ℕ → ℕ) (locked n k : ℕ) (st : LockSt R S) :
    nl (lockLoop ops tol index locked n k st).be = nl st.be := by
  induction n generalizing k st with
  | zero => rfl
  | succ n ih =>
    unfold lockLoop
    dsimp only
    split_ifs with h
    · rfl
    · rw [ih]
      show nl (st.exchange ops locked (index k)).be = _
      unfold LockSt.exchange
      split_ifs
      · exact hnl _ _ _
      · rfl

/-- The invariant of the iteration loop. -/
structure LoopInv (cfg : Config R) (nl : S → ℕ) (ph : Phases S) (st : St R S) : Prop where
  inv : ph.inv st.be
  acc : st.locked + st.unconverged = cfg.nev + cfg.nex
  lk : st.locked ≤ cfg.nev
  nlk : nl st.be = st.locked
  it : st.iteration ≤ cfg.maxIter
  deg : DegInv (cfg.nev + cfg.nex) st

theorem intersperse_nl {ops : Chase R S} {α : Type*} {nl : S → α}
    (hsw : ∀ i j s, nl (ops.swap i j s) = nl s) {idx nevex : ℕ} {r r' : ℕ → R} {be be' : S}
    (h : intersperse ops idx nevex r be = .ok (r', be')) : nl be' = nl be := by
  refine forRangeM_pres_partial _ (fun s : (ℕ → R) × S => nl s.2 = nl be) rfl ?_ h
  intro i s s' _ _ hs hb
  dsimp only at hb
  split_ifs at hb
  cases hb
  show nl (ops.swap _ _ _) = _
  rw [hsw, hs]

theorem lanczos_nl {P : Plat R} {ops : Chase R S} {α : Type*} {nl : S → α}
    (hsw : ∀ i j s, nl (ops.swap i j s) = nl s) (h1 : ∀ m s, nl (ops.lanczos1 m s).2 = nl s)
    (h2 : ∀ m k s, nl (ops.lanczosN m k s).2 = nl s)
    (h3 : ∀ i m z s, nl (ops.lanczosDos i m z s) = nl s)
    {N numvec m nevex : ℕ} {random : Bool} {ritzv : ℕ → R} {be : S} {l : LanczosRes R S}
    (h : lanczos P ops N numvec m nevex random ritzv be = .ok l) : nl l.be = nl be := by
  unfold lanczos at h
  split_ifs at h
  · cases h; exact h1 _ _
  dsimp only at h
  split_ifs at h
  split at h
  · cases h
  · split at h
    · cases h
    · rename_i idx hidx
      split_ifs at h with hi hn
      all_goals
        split at h
        · cases h
        · rename_i r be' hint
          cases h
          have := intersperse_nl hsw hint
          simp only [this, h3, h2]

theorem initState_ok {P : Plat R} {ops : Chase R S} {cfg : Config R} {ritzv0 resid0 : ℕ → R}
    {be : S} {st : St R S} (h : initState P ops cfg ritzv0 resid0 be = .ok st) :
    ∃ be1 l, (be1 = (if (!cfg.approx) then ops.qr 0 1 (ops.initVecs (!cfg.approx) (ops.start be))
        else ops.initVecs (!cfg.approx) (ops.start be))) ∧
      lanczos P ops cfg.N cfg.numLanczos
        (min (cfg.nev + cfg.nex) (min (cfg.N / 2) cfg.lanczosIter)) (cfg.nev + cfg.nex)
        (!cfg.approx) ritzv0 be1 = .ok l ∧ cfg.nev + cfg.nex ≠ 0 ∧
      st = { ritzv := l.ritzv
             resid := writeAt resid0 0 (cfg.nev + cfg.nex) (fun _ => P.maxVal)
             residLast := fun _ => P.maxVal
             degrees := fun _ => min (cfg.deg + cfg.deg % 2) cfg.maxDeg
             deg := min (cfg.deg + cfg.deg % 2) cfg.maxDeg
             lowerb := maxElem l.ritzv 0 (cfg.nev + cfg.nex), upperb := l.upperb
             lambda := minElem l.ritzv 0 (cfg.nev + cfg.nex)
             locked := 0, unconverged := cfg.nev + cfg.nex, iteration := 0, be := l.be } := by
  unfold initState at h
  dsimp only at h
  split at h
  · cases h
  · rename_i l hl
    split_ifs at h with hn
    cases h
    exact ⟨_, l, rfl, hl, hn, rfl⟩

/-- A condition kept by exchanges inside `[lo, hi)` is kept by the degree optimisation. -/
theorem optimise_pres {P : Plat R} {ops : Chase R S} (Q : S → Prop) {cfg : Config R}
    {st st' : St R S}
    (hQ : ∀ i j s, st.locked ≤ i → st.locked ≤ j → i < st.locked + st.unconverged →
      j < st.locked + st.unconverged → Q s → Q (ops.swap i j s))
    (h : optimise P ops cfg st = .ok st') (h0 : Q st.be) : Q st'.be := by
  rcases optimise_ok h with ⟨rfl, -⟩ | ⟨deg, p, hc, rfl⟩
  · exact h0
  · unfold calcDegrees at hc
    split_ifs at hc
    dsimp only at hc
    split at hc
    · cases hc
    · cases hc
      show Q (sortDegrees _ _ _ _).be
      unfold sortDegrees
      refine forRange_pres _ (fun q : Pairs R S => Q q.be) h0 ?_
      intro j q _ hj hq
      refine forRange_pres _ (fun q : Pairs R S => Q q.be) hq ?_
      intro k q _ hk hq
      split_ifs
      · exact hQ _ _ _ (by omega) (by omega) (by omega) (by omega) hq
      · exact hq

/-- ... and by the locking walk. -/
theorem lockLoop_pres {ops : Chase R S} (Q : S → Prop) {tol : R} {index : ℕ → ℕ} {locked u : ℕ}
    (hidx : ∀ k, k < u → index k < u)
    (hQ : ∀ i j s, locked ≤ i → locked ≤ j → i < locked + u → j < locked + u → Q s →
      Q (ops.swap i j s)) :
    ∀ (n k : ℕ) (st : LockSt R S), k + n = u → st.converged = k → Q st.be →
      Q (lockLoop ops tol index locked n k st).be := by
  intro n
  induction n with
  | zero => intro k st _ _ h; exact h
  | succ n ih =>
    intro k st hk hc h
    unfold lockLoop
    dsimp only
    split_ifs with hcond
    · exact h
    · have hik := hidx k (by omega)
      refine ih (k + 1) _ (by omega) ?_ ?_
      · have e : (st.exchange ops locked (index k)).converged = st.converged := by
          unfold LockSt.exchange; split_ifs <;> rfl
        show (st.exchange ops locked (index k)).converged + 1 = k + 1
        rw [e, hc]
      · show Q (st.exchange ops locked (index k)).be
        unfold LockSt.exchange
        split_ifs
        · exact hQ _ _ _ (by omega) (by omega) (by omega) (by omega) h
        · exact h

/-- ... and by the initial Lanczos step. -/
theorem lanczos_pres {P : Plat R} {ops : Chase R S} (Q : S → Prop) {N numvec m nevex : ℕ}
    (hsw : ∀ i j s, i < nevex → j < nevex → Q s → Q (ops.swap i j s))
    (h1 : ∀ m s, Q s → Q (ops.lanczos1 m s).2) (h2 : ∀ m k s, Q s → Q (ops.lanczosN m k s).2)
    (h3 : ∀ i m z s, Q s → Q (ops.lanczosDos i m z s))
    {random : Bool} {ritzv : ℕ → R} {be : S} {l : LanczosRes R S}
    (h : lanczos P ops N numvec m nevex random ritzv be = .ok l) (h0 : Q be) : Q l.be := by
  unfold lanczos at h
  split_ifs at h
  · cases h; exact h1 _ _ h0
  dsimp only at h
  split_ifs at h
  split at h
  · cases h
  split at h
  · cases h
  split_ifs at h with hn
  all_goals
    split at h
    · cases h
    · rename_i hi
      cases h
      refine forRangeM_pres_partial _ (fun s : (ℕ → R) × S => Q s.2) ?_ ?_ hi
      · dsimp only
        first
          | exact h3 _ _ _ _ (h2 _ _ _ h0)
          | exact h2 _ _ _ h0
      · intro i s s' _ _ hs hb
        dsimp only at hb
        split_ifs at hb with hc
        cases hb
        exact hsw _ _ _ hc.2 hc.1 hs

/-- A backend whose `Swap` exchanges columns keeps the frame. -/
theorem Bookkeeping.frame {ops : Chase R S} {cols : S → ℕ → V} {nl : S → ℕ} {ph : Phases S} {N nevex : ℕ}
    (hb : Bookkeeping ops cols nl ph N nevex) : Frame ops cols nl ph N nevex where
  swap_low := by
    intro i j s h1 h2 h3 h4 k hk
    rw [hb.swap i j s h3 h4, swapAt_apply, if_neg (by omega), if_neg (by omega)]
  swap_nl := hb.swap_nl
  swap_inv := hb.swap_inv
  swap_synced := hb.swap_synced
  filter := hb.filter
  qr := hb.qr
  rr := hb.rr
  resd := hb.resd
  lock := hb.lock
  start := hb.start
  check := hb.check
  initVecs := hb.initVecs
  lanczos1 := hb.lanczos1
  lanczosN := hb.lanczosN
  lanczosDos := hb.lanczosDos
  finish := hb.finish

theorem loopInv_init {P : Plat R} {ops : Chase R S} {cols : S → ℕ → V} {nl : S → ℕ}
    {ph : Phases S} {cfg : Config R}
    (hb : Frame ops cols nl ph cfg.N (cfg.nev + cfg.nex)) (hmax : Even cfg.maxDeg)
    {ritzv0 resid0 : ℕ → R} {be : S} {st : St R S} (hpre : ph.pre be)
    (h : initState P ops cfg ritzv0 resid0 be = .ok st) : LoopInv cfg nl ph st := by
  obtain ⟨be1, l, hbe1, hl, hn, rfl⟩ := initState_ok h
  have hE : Even (min (cfg.deg + cfg.deg % 2) cfg.maxDeg) := by
    rw [Nat.even_iff] at *
    omega
  have h1 : nl be1 = 0 ∧ ph.inv be1 := by
    have g1 := hb.start be hpre
    have g2 := hb.initVecs (!cfg.approx) _ g1.2 g1.1
    rw [hbe1]
    split_ifs
    · obtain ⟨q1, q2, -, -⟩ := hb.qr 0 1 _ g2.2
      exact ⟨q1.trans g2.1, q2⟩
    · exact g2
  have h2 : nl l.be = 0 ∧ ph.inv l.be := by
    refine lanczos_pres (fun s => nl s = 0 ∧ ph.inv s) ?_ ?_ ?_ ?_ hl h1
    · intro i j s hi hj hs
      exact ⟨(hb.swap_nl i j s).trans hs.1,
        hb.swap_inv i j s (by omega) (by omega) hi hj hs.2⟩
    · exact fun m s hs => hb.lanczos1 m s hs.2 hs.1
    · exact fun m k s hs => hb.lanczosN m k s hs.2 hs.1
    · exact fun i m z s hs => hb.lanczosDos i m z s hs.2 hs.1
  refine ⟨h2.2, by simp, by simp, h2.1, by simp, ?_⟩
  exact ⟨hE, fun _ _ _ _ _ => le_rfl, fun _ _ _ => ⟨hE, le_rfl⟩, fun _ => rfl⟩

/-- Anatomy of a round up to locking: `q` is the backend after QR, `st3` the state before locking. -/
structure Round (P : Plat R) (ops : Chase R S) (cols : S → ℕ → V) (nl : S → ℕ) (ph : Phases S)
    (cfg : Config R) (st : St R S) (q : S) (st3 : St R S) : Prop where
  ready : ph.ready q
  nlq : nl q = st.locked
  locked : st3.locked = st.locked
  unconverged : st3.unconverged = st.unconverged
  iteration : st3.iteration = st.iteration
  deg : DegInv (cfg.nev + cfg.nex) st3
  synced : ph.synced st3.be
  nl3 : nl st3.be = st.locked
  values : ∀ i, i < st.unconverged →
    st3.ritzv (st.locked + i) = (ops.rr (cfg.nev + cfg.nex - nl q) q).1 i
  columns : cols st3.be = cols (ops.rr (cfg.nev + cfg.nex - nl q) q).2
  residuals : ∀ i, i < st.unconverged → st3.resid (st.locked + i) =
      (ops.resd (fun i => st3.ritzv (st.locked + i)) (nl q)
        (ops.rr (cfg.nev + cfg.nex - nl q) q).2).1 i
  last : ∃ τ : Equiv.Perm ℕ, PermOn st.locked (cfg.nev + cfg.nex) τ ∧
    ∀ i, i < st.unconverged → st3.residLast (st.locked + i) =
      stdMin (st.residLast (τ (st.locked + i))) (st.resid (τ (st.locked + i)))
  frozen : ∀ i, i < st.locked → st3.ritzv i = st.ritzv i ∧ st3.resid i = st.resid i ∧
    cols st3.be i = cols st.be i
  be3 : st3.be = (ops.resd (fun i => st3.ritzv (st.locked + i)) (nl q)
        (ops.rr (cfg.nev + cfg.nex - nl q) q).2).2

/-- The first half of a round: `st1` is the state after the choice of the degrees, `be2` the backend
after the filter and `q` after QR. -/
structure FilterQr (P : Plat R) (ops : Chase R S) (nl : S → ℕ) (ph : Phases S)
    (cfg : Config R) (st st1 : St R S) (be2 q : S) : Prop where
  opt : optimise P ops cfg (updateBounds (cfg.nev + cfg.nex) st) = .ok st1
  locked : st1.locked = st.locked
  nl1 : nl st1.be = st.locked
  inv1 : ph.inv st1.be
  deg : DegInv (cfg.nev + cfg.nex) st1
  filt : ∃ av, filter ops cfg.N (cfg.nev + cfg.nex - nl st1.be) st1.deg st1.degrees
    (cfg.nev + cfg.nex) (nl st1.be) st1.lambda st1.lowerb st1.upperb st1.be = .ok (av, be2)
  nl2 : nl be2 = st.locked
  inv2 : ph.inv be2
  qr : ∃ c, q = ops.qr st.locked c be2

theorem round_exists_filter {P : Plat R} {ops : Chase R S} {cols : S → ℕ → V} {nl : S → ℕ}
    {ph : Phases S} {cfg : Config R}
    (hb : Frame ops cols nl ph cfg.N (cfg.nev + cfg.nex)) (hmax : Even cfg.maxDeg)
    {st st' : St R S} (hi : LoopInv cfg nl ph st) (hs : Step P ops cfg st st') :
    ∃ st1 be2 q st3, FilterQr P ops nl ph cfg st st1 be2 q ∧
      Round P ops cols nl ph cfg st q st3 ∧ st' = lockStep P ops cfg st3 := by
  obtain ⟨hrun, hit⟩ := hs
  obtain ⟨st1, av, be2, h1, h2, rfl⟩ := iter_ok hit
  have hacc0 : (updateBounds (cfg.nev + cfg.nex) st).locked +
      (updateBounds (cfg.nev + cfg.nex) st).unconverged = cfg.nev + cfg.nex := hi.acc
  obtain ⟨o1, o2, o3, -, -, -, o4, σ, hσ, e1, e2, e3, -⟩ :=
    optimise_frame (cols := fun _ _ => ()) (fun _ _ _ _ _ => rfl) hb.swap_nl hacc0 h1
  have hd1 : DegInv (cfg.nev + cfg.nex) st1 := optimise_degInv hmax hacc0
    ⟨hi.deg.even, hi.deg.sorted, hi.deg.degs, hi.deg.last⟩ h1
  have o1' : st1.locked = st.locked := o1
  have o2' : st1.unconverged = st.unconverged := o2
  have o3' : st1.iteration = st.iteration := o3
  have hσ' : PermOn st.locked (cfg.nev + cfg.nex) σ := hσ
  have e1' : st1.ritzv = st.ritzv ∘ σ := e1
  have e2' : st1.resid = st.resid ∘ σ := e2
  have e3' : st1.residLast = st.residLast ∘ σ := e3
  have o4' : nl st1.be = st1.locked := by rw [o4, o1']; exact hi.nlk
  have hacc := hi.acc
  have hlk := hi.lk
  have hnlk := hi.nlk
  obtain ⟨-, hinv1, e4'⟩ : nl st1.be = st.locked ∧ ph.inv st1.be ∧
      ∀ k, k < st.locked → cols st1.be k = cols st.be k :=
    optimise_pres (P := P) (fun s => nl s = st.locked ∧ ph.inv s ∧
        ∀ k, k < st.locked → cols s k = cols st.be k) (st := updateBounds _ st)
      (fun i j s a1 a2 a3 a4 hs => ⟨(hb.swap_nl i j s).trans hs.1,
        hb.swap_inv i j s (by rw [hs.1]; exact a1) (by rw [hs.1]; exact a2)
          (by rw [hacc0] at a3; exact a3) (by rw [hacc0] at a4; exact a4) hs.2.1,
        fun k hk => (hb.swap_low i j s (by rw [hs.1]; exact a1) (by rw [hs.1]; exact a2)
          (by rw [hacc0] at a3; exact a3) (by rw [hacc0] at a4; exact a4) k
          (by rw [hs.1]; exact hk)).trans (hs.2.2 k hk)⟩) h1
      ⟨hnlk, hi.inv, fun _ _ => rfl⟩
  rw [show st1.unconverged = cfg.nev + cfg.nex - nl st1.be by omega, ← o4'] at h2
  obtain ⟨f1, f3, f2⟩ := hb.filter st1.deg av st1.degrees st1.lambda st1.lowerb st1.upperb st1.be
    be2 hinv1 hd1.even (by rw [o4']; exact hd1.sorted) (by rw [o4']; exact hd1.degs) h2
  set st2 : St R S := { st1 with be := be2 } with hst2
  set q := ops.qr st2.locked (P.condEst st2.upperb st2.lowerb (st2.ritzv 0) (st2.ritzv st2.locked)
    (st2.degrees st2.locked)
    (maxElem st2.degrees st2.locked (cfg.nev + cfg.nex - st2.locked))) st2.be with hq
  obtain ⟨q1, -, q2, q3⟩ := hb.qr st2.locked (P.condEst st2.upperb st2.lowerb (st2.ritzv 0)
    (st2.ritzv st2.locked) (st2.degrees st2.locked)
    (maxElem st2.degrees st2.locked (cfg.nev + cfg.nex - st2.locked))) st2.be f3
  rw [← hq] at q1 q2 q3
  have hnq : nl q = st1.locked := by rw [q1]; show nl be2 = _; rw [f1, o4']
  obtain ⟨r1, r3, r2⟩ := hb.rr q q2 (by omega)
  have hu : cfg.nev + cfg.nex - nl q = st2.unconverged := by
    rw [hnq]; show _ = st1.unconverged; omega
  rw [hu] at r1 r2 r3
  have hproj : project P ops cfg st2 = { st2 with
      ritzv := writeAt st2.ritzv st2.locked st2.unconverged (ops.rr st2.unconverged q).1
      residLast := forRange 0 st2.unconverged (fun i rl => Function.update rl (st2.locked + i)
        (stdMin (rl (st2.locked + i)) (st2.resid (st2.locked + i)))) st2.residLast
      resid := writeAt st2.resid st2.locked (cfg.nev + cfg.nex - st2.locked)
        (ops.resd (fun i => writeAt st2.ritzv st2.locked st2.unconverged
          (ops.rr st2.unconverged q).1 (st2.locked + i)) st2.locked
          (ops.rr st2.unconverged q).2).1
      be := (ops.resd (fun i => writeAt st2.ritzv st2.locked st2.unconverged
          (ops.rr st2.unconverged q).1 (st2.locked + i)) st2.locked
          (ops.rr st2.unconverged q).2).2 } := rfl
  refine ⟨st1, be2, q, project P ops cfg st2,
    ⟨h1, o1', o4'.trans o1', hinv1, hd1, ⟨av, h2⟩, by rw [f1, o4', o1'], f3, _, by rw [← o1']⟩,
    ⟨q2, by rw [hnq, o1'], by rw [hproj]; exact o1',
    by rw [hproj]; exact o2', by rw [hproj]; exact o3', ?_, ?_, ?_, ?_, ?_, ?_, ?_, ?_, ?_⟩, rfl⟩
  · rw [hproj]; exact ⟨hd1.even, hd1.sorted, hd1.degs, hd1.last⟩
  · rw [hproj]; exact (hb.resd _ _ _ r3).2.1
  · rw [hproj]
    show nl (ops.resd _ _ _).2 = _
    rw [(hb.resd _ _ _ r3).1, r1, hnq, o1']
  · intro i hi'
    rw [hproj, hu]
    show writeAt st1.ritzv st1.locked st1.unconverged _ (st.locked + i) = _
    rw [writeAt, if_pos (by omega), o1', Nat.add_sub_cancel_left]
  · rw [hproj, hu]
    show cols (ops.resd _ _ _).2 = _
    rw [(hb.resd _ _ _ r3).2.2]
  · intro i hi'
    rw [hproj, hu, hnq]
    show writeAt _ st1.locked _ _ _ = _
    rw [writeAt, if_pos (by
      show _ ∧ _ < st1.locked + (cfg.nev + cfg.nex - st1.locked); omega), ← o1',
      Nat.add_sub_cancel_left]
  · refine ⟨σ, hσ', ?_⟩
    intro i hi'
    rw [hproj]
    show forRange 0 st1.unconverged (fun i rl => Function.update rl (st1.locked + i)
        (stdMin (rl (st1.locked + i)) (st1.resid (st1.locked + i)))) st1.residLast (st.locked + i) = _
    have := forRange_inv (Nat.zero_le st1.unconverged)
      (fun i rl => Function.update rl (st1.locked + i)
        (stdMin (rl (st1.locked + i)) (st1.resid (st1.locked + i))))
      (fun n rl => (∀ i, i < n → rl (st1.locked + i) =
          stdMin (st1.residLast (st1.locked + i)) (st1.resid (st1.locked + i))) ∧
        ∀ i, n ≤ i → rl (st1.locked + i) = st1.residLast (st1.locked + i))
      (s := st1.residLast) ⟨by intro i hi; omega, fun _ _ => rfl⟩ (by
        rintro n rl - - ⟨p1, p2⟩
        constructor
        · intro i hin
          rcases Nat.lt_succ_iff_lt_or_eq.mp hin with hin | rfl
          · rw [Function.update_of_ne (by omega)]; exact p1 i hin
          · rw [Function.update_self, p2 _ le_rfl]
        · intro i hin
          rw [Function.update_of_ne (by omega)]; exact p2 i (by omega))
    rw [← o1', this.1 i (by omega), e3', e2']
    rfl
  · intro i hil
    have hσi : σ i = i := hσ' i (Or.inl hil)
    refine ⟨?_, ?_, ?_⟩
    · rw [hproj]
      show writeAt st1.ritzv st1.locked _ _ i = _
      rw [writeAt, if_neg (by omega), e1', Function.comp, hσi]
    · rw [hproj]
      show writeAt st1.resid st1.locked _ _ i = _
      rw [writeAt, if_neg (by omega), e2', Function.comp, hσi]
    · rw [hproj]
      show cols (ops.resd _ _ _).2 i = _
      rw [(hb.resd _ _ _ r3).2.2, r2 i (by omega), q3 i (by show i < nl be2; omega)]
      show cols be2 i = _
      rw [f2 i (by omega), e4' i hil]
  · rw [hproj, hu, hnq, ← o1']

theorem round_exists {P : Plat R} {ops : Chase R S} {cols : S → ℕ → V} {nl : S → ℕ}
    {ph : Phases S} {cfg : Config R}
    (hb : Frame ops cols nl ph cfg.N (cfg.nev + cfg.nex)) (hmax : Even cfg.maxDeg)
    {st st' : St R S} (hi : LoopInv cfg nl ph st) (hs : Step P ops cfg st st') :
    ∃ q st3, Round P ops cols nl ph cfg st q st3 ∧ st' = lockStep P ops cfg st3 := by
  obtain ⟨-, -, q, st3, -, h1, h2⟩ := round_exists_filter hb hmax hi hs
  exact ⟨q, st3, h1, h2⟩

/-- The lock step permutes whole pairs of the unlocked, wanted part. -/
theorem lockStep_perm {P : Plat R} {ops : Chase R S} {cols : S → ℕ → V} {nl : S → ℕ}
    {ph : Phases S} {cfg : Config R} (hP : PermutesIndices P)
    (hb : Bookkeeping ops cols nl ph cfg.N (cfg.nev + cfg.nex)) {st : St R S}
    (hacc : st.locked + st.unconverged = cfg.nev + cfg.nex) (hlk : st.locked ≤ cfg.nev)
    (hsy : ph.synced st.be) (hnl : nl st.be = st.locked) :
    nl (lockStep P ops cfg st).be = (lockStep P ops cfg st).locked ∧
    ph.inv (lockStep P ops cfg st).be ∧
    ∃ σ : Equiv.Perm ℕ, PermOn st.locked (st.locked + (st.unconverged - cfg.nex)) σ ∧
      (lockStep P ops cfg st).ritzv = st.ritzv ∘ σ ∧
      (lockStep P ops cfg st).resid = st.resid ∘ σ ∧
      (lockStep P ops cfg st).residLast = st.residLast ∘ σ ∧
      cols (lockStep P ops cfg st).be = cols st.be ∘ σ := by
  obtain ⟨hix, -⟩ := hP (st.unconverged - cfg.nex) (fun i => st.ritzv (st.locked + i))
  obtain ⟨a1, a2, -⟩ := lockStep_acc (P := P) (ops := ops) hacc hlk
  have hq := lockLoop_pres (ops := ops) (fun s => nl s = st.locked ∧ ph.synced s) (tol := cfg.tol)
    hix (locked := st.locked)
    (fun i j s b1 b2 b3 b4 hs => ⟨(hb.swap_nl i j s).trans hs.1,
      hb.swap_synced i j s (by omega) (by omega) (by omega) (by omega) hs.2⟩)
    (st.unconverged - cfg.nex) 0
    { ritzv := st.ritzv, resid := st.resid, residLast := st.residLast, be := st.be,
      converged := 0 } (by omega) rfl ⟨hnl, hsy⟩
  obtain ⟨τ, hτ, t1, t2, t3, t4⟩ := lockLoop_perm (ops := ops) (cols := cols) (tol := cfg.tol)
    (index := P.sortIdx (st.unconverged - cfg.nex) (fun i => st.ritzv (st.locked + i)))
    (locked := st.locked) (u := st.unconverged - cfg.nex)
    (hb.swap.mono (by omega)) hix (st.unconverged - cfg.nex) 0
    { ritzv := st.ritzv, resid := st.resid, residLast := st.residLast, be := st.be,
      converged := 0 } (by omega) rfl
  have hl := hb.lock _ _ hq.2 (by
    rw [hq.1]
    show (lockStep P ops cfg st).locked ≤ cfg.nev + cfg.nex
    omega)
  refine ⟨hl.1.trans ?_, hl.2.1, τ, hτ, t1, t2, t3, hl.2.2.trans t4⟩
  rw [hq.1]; rfl

/-- One round keeps the invariant and does not touch what is locked. -/
theorem loopInv_step {P : Plat R} {ops : Chase R S} {cols : S → ℕ → V} {nl : S → ℕ}
    {ph : Phases S} {cfg : Config R} (hP : PermutesIndices P)
    (hb : Bookkeeping ops cols nl ph cfg.N (cfg.nev + cfg.nex)) (hmax : Even cfg.maxDeg)
    {st st' : St R S} (hi : LoopInv cfg nl ph st) (hs : Step P ops cfg st st') :
    LoopInv cfg nl ph st' ∧ st.locked ≤ st'.locked ∧
    ∀ i, i < st.locked → st'.ritzv i = st.ritzv i ∧ st'.resid i = st.resid i ∧
      cols st'.be i = cols st.be i := by
  obtain ⟨q, st3, hr, rfl⟩ := round_exists hb.frame hmax hi hs
  have hacc3 : st3.locked + st3.unconverged = cfg.nev + cfg.nex := by
    rw [hr.locked, hr.unconverged]; exact hi.acc
  have hlk3 : st3.locked ≤ cfg.nev := by rw [hr.locked]; exact hi.lk
  obtain ⟨a1, a2, a3⟩ := lockStep_acc (P := P) (ops := ops) hacc3 hlk3
  obtain ⟨b1, b2, σ, hσ, s1, s2, s3, s4⟩ := lockStep_perm (P := P) hP hb hacc3 hlk3 hr.synced
    (hr.nl3.trans hr.locked.symm)
  have hl := hr.locked
  refine ⟨⟨b2, a1, a2, b1, ?_, ?_⟩, by omega, ?_⟩
  · show st3.iteration + 1 ≤ _
    have := hs.1.2
    rw [hr.iteration]
    omega
  · refine ⟨hr.deg.even, ?_, ?_, ?_⟩
    · intro x y hx hxy hy
      exact hr.deg.sorted x y (by omega) hxy hy
    · intro x hx hx'
      exact hr.deg.degs x (by omega) hx'
    · intro hx
      exact hr.deg.last (by omega)
  · intro i hil
    obtain ⟨g1, g2, g3⟩ := hr.frozen i hil
    have hσi : σ i = i := hσ i (Or.inl (by omega))
    rw [s1, s2, s4]
    simp only [Function.comp, hσi]
    exact ⟨g1, g2, g3⟩

end Verif
