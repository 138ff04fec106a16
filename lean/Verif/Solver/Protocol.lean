/-
The protocol of a solve: in which order, and with which sizes and positions, the solver calls the
backend.  `Next` is the specification, a transition system written without reference to the
solver; the theorem says that the calls of every solve that returns form a path through it.
-/
import Verif.Solver.DosProps
import Verif.Solver.Count

set_option linter.unusedSectionVars false

namespace Verif

variable {R S : Type*}

/-- Where a solve is, for an observer of the calls.  `n` counts the finished rounds, `L` the locked
columns, `x` is the value subtracted from the diagonal of the matrix. -/
inductive Phase (R : Type*) where
  | fresh | checked | begun | random | given | orth
  | dos (m : ℕ)
  | ready (n L : ℕ)
  | shifted (n L : ℕ) (x : R)
  | mult (n L : ℕ) (x : R)
  | filtered (n L : ℕ)
  | orthed (n L : ℕ)
  | projected (n L : ℕ)
  | measured (n L : ℕ)
  | sorted (n L : ℕ)
  | done (n L : ℕ)

/-- The calls a backend must be prepared to see in each phase.  `N` is the dimension of the matrix,
`nev + nex` the number of columns of the block of vectors, `nl` the configured number of Lanczos
runs. -/
inductive Next [Neg R] [Zero R] [One R] (N nev nex nl : ℕ) : Phase R → Call R → Phase R → Prop
  | check : Next N nev nex nl .fresh .checkSymmetryEasy .checked
  | start : Next N nev nex nl .fresh .start .begun
  | startChecked : Next N nev nex nl .checked .start .begun
  | initRandom : Next N nev nex nl .begun (.initVecs true) .random
  | initGiven : Next N nev nex nl .begun (.initVecs false) .given
  | qr0 : Next N nev nex nl .random (.qr 0 1) .orth
  /-- the Lanczos runs are never longer than half the dimension or the block of vectors -/
  | lanczos1 {m} : 1 ≤ m → m ≤ nev + nex → m ≤ N / 2 →
      Next N nev nex nl .given (.lanczos1 m) (.ready 0 0)
  | lanczosN {m} : 1 ≤ m → m ≤ nev + nex → m ≤ N / 2 → 1 ≤ nl →
      Next N nev nex nl .orth (.lanczosN m nl) (.dos m)
  | lanczosDos {m i} : 1 ≤ i → i < m →
      Next N nev nex nl (.dos m) (.lanczosDos i m) (.ready 0 0)
  /-- no column is replaced: the first filter follows at once -/
  | skipDos {m c q} : Next N nev nex nl (.ready 0 0) c q → Next N nev nex nl (.dos m) c q
  /-- unlocked columns are exchanged -/
  | swap {n L i j} : L ≤ i → i < nev + nex → L ≤ j → j < nev + nex →
      Next N nev nex nl (.ready n L) (.swap i j) (.ready n L)
  | shift {n L x} : L < nev → Next N nev nex nl (.ready n L) (.shift (-x) false) (.shifted n L x)
  /-- the first multiplication is applied to all unlocked columns -/
  | hemm0 {n L x a b k} : L + k = nev + nex →
      Next N nev nex nl (.shifted n L x) (.hemm k a b 0) (.mult n L x)
  /-- later ones to the rear of the unlocked columns -/
  | hemm {n L x a b k o} : L + o + k = nev + nex →
      Next N nev nex nl (.mult n L x) (.hemm k a b o) (.mult n L x)
  /-- the shift is undone -/
  | unshift {n L x} : Next N nev nex nl (.mult n L x) (.shift x true) (.filtered n L)
  | qr {n L c} : Next N nev nex nl (.filtered n L) (.qr L c) (.orthed n L)
  | rr {n L k} : L + k = nev + nex → Next N nev nex nl (.orthed n L) (.rr k) (.projected n L)
  | resd {n L} : Next N nev nex nl (.projected n L) (.resd L) (.measured n L)
  /-- converged columns are moved to the front of the unlocked ones; the last `nex` stay -/
  | swapLock {n L i j} : L ≤ i → i < nev → L ≤ j → j < nev →
      Next N nev nex nl (.measured n L) (.swap i j) (.measured n L)
  | lock {n L k} : L + k ≤ nev → Next N nev nex nl (.measured n L) (.lock k) (.ready (n + 1) (L + k))
  /-- the final sort exchanges wanted columns -/
  | sort {n L i j} : i < nev → j < nev → Next N nev nex nl (.ready n L) (.swap i j) (.sorted n L)
  | sorts {n L i j} : i < nev → j < nev → Next N nev nex nl (.sorted n L) (.swap i j) (.sorted n L)
  | finish {n L} : Next N nev nex nl (.ready n L) .finish (.done n L)
  | finishSorted {n L} : Next N nev nex nl (.sorted n L) .finish (.done n L)

section
variable [Neg R] [Zero R] [One R] {N nev nex nl : ℕ}

/-- The calls `tr` lead from phase `p` to phase `q`. -/
inductive Path (N nev nex nl : ℕ) (p : Phase R) : List (Call R) → Phase R → Prop
  | nil : Path N nev nex nl p [] p
  | snoc {tr q c q'} : Path N nev nex nl p tr q → Next N nev nex nl q c q' →
      Path N nev nex nl p (tr ++ [c]) q'

end

section
variable [Add R] [Sub R] [Mul R] [Div R] [Neg R] [Zero R] [One R] [NatCast R] [LT R] [DecidableLT R] {ops : Chase R S} {P : Plat R} {cfg : Config R}

/-- the state of the recorder is at phase `q` -/
def At (N nev nex nl : ℕ) (q : Phase R) (s : S × List (Call R)) : Prop :=
  Path N nev nex nl .fresh s.2 q

variable {N nev nex nl : ℕ}

/-- at the head of the loop: ready, possibly right after a Lanczos step that replaced no column -/
def AtReady (N nev nex nl n L : ℕ) (s : S × List (Call R)) : Prop :=
  At N nev nex nl (.ready n L) s ∨ n = 0 ∧ L = 0 ∧ ∃ m, At N nev nex nl (.dos m) s

theorem AtReady.snoc {n L : ℕ} {s : S × List (Call R)} {c : Call R} {q : Phase R}
    (h : AtReady N nev nex nl n L s) (hn : Next N nev nex nl (.ready n L) c q) :
    Path N nev nex nl .fresh (s.2 ++ [c]) q := by
  rcases h with h | ⟨rfl, rfl, m, h⟩
  · exact Path.snoc h hn
  · exact Path.snoc h (.skipDos hn)

theorem walk_sum (degrees : ℕ → ℕ) {dsize n m : ℕ} :
    ∀ u p off r, walk degrees dsize n m p u (off * n) = .ok r →
      ∃ k, k ≤ u ∧ r = (p + k, u - k, (off + k) * n) := by
  intro u
  induction u with
  | zero => intro p off r h; cases h; exact ⟨0, le_refl _, rfl⟩
  | succ u ih =>
    intro p off r h
    unfold walk at h
    split_ifs at h
    · rw [show off * n + n = (off + 1) * n by ring] at h
      obtain ⟨k, hk, rfl⟩ := ih _ _ _ h
      refine ⟨k + 1, by omega, ?_⟩
      rw [show p + 1 + k = p + (k + 1) by omega, show u + 1 - (k + 1) = u - k by omega,
        show off + 1 + k = off + (k + 1) by omega]
    · cases h; exact ⟨0, by omega, rfl⟩

theorem walkFirst_sum (degrees : ℕ → ℕ) {dsize n m : ℕ} :
    ∀ u p off r, walkFirst degrees dsize n m p u (off * n) = .ok r →
      ∃ k, k ≤ u ∧ r = (p + k, u - k, (off + k) * n) := by
  intro u
  induction u with
  | zero =>
    intro p off r h
    unfold walkFirst at h
    split_ifs at h
    cases h; exact ⟨0, le_refl _, rfl⟩
  | succ u ih =>
    intro p off r h
    unfold walkFirst at h
    split_ifs at h
    · rw [show off * n + n = (off + 1) * n by ring] at h
      obtain ⟨k, hk, rfl⟩ := ih _ _ _ h
      refine ⟨k + 1, by omega, ?_⟩
      rw [show p + 1 + k = p + (k + 1) by omega, show u + 1 - (k + 1) = u - k by omega,
        show off + 1 + k = off + (k + 1) by omega]
    · cases h; exact ⟨0, by omega, rfl⟩

theorem filter_path {k L n u deg : ℕ} {degrees : ℕ → ℕ} {dsize p0 : ℕ} {l lo up : R}
    {s s' : S × List (Call R)} {av : ℕ}
    (h : filter (traced ops) n u deg degrees dsize p0 l lo up s = .ok (av, s'))
    (hL : L < nev) (hu : L + u = nev + nex) (h0 : AtReady N nev nex nl k L s) :
    At N nev nex nl (.filtered k L) s' := by
  unfold filter at h
  split_ifs at h with hn
  dsimp only at h
  split at h
  · cases h
  · rename_i p1 u1 o1 hw
    have hw' := walkFirst_sum degrees u p0 0 _ (by rw [zero_mul]; exact hw)
    obtain ⟨d, hd, e⟩ := hw'
    simp only [Prod.mk.injEq, zero_add] at e
    obtain ⟨-, rfl, rfl⟩ := e
    split at h
    · cases h
    · rename_i st hst
      cases h
      have key := forRangeM_pres_partial _ (fun st : FilterSt R (S × List (Call R)) =>
        (∃ o, st.offset = o * n ∧ L + o + st.unprocessed = nev + nex) ∧
        At N nev nex nl (.mult k L ((up + lo) / 2)) st.be) ?_ ?_ hst
      · have := Path.snoc key.2 (Next.unshift (N := N) (nev := nev) (nex := nex))
        exact this
      · refine ⟨⟨d, rfl, by show L + d + (u - d) = _; omega⟩, ?_⟩
        refine .snoc (h0.snoc (.shift hL)) ?_
        rw [Nat.zero_div]
        exact .hemm0 hu
      · intro i st1 st2 _ _ ⟨⟨o, ho, hsum⟩, h1⟩ h2
        unfold filterStep at h2
        split_ifs at h2
        dsimp only at h2
        split at h2
        · cases h2
        · rename_i p2 u2 o2 hw2
          rw [ho] at hw2
          obtain ⟨d2, hd2, e2⟩ := walk_sum degrees _ _ _ _ hw2
          simp only [Prod.mk.injEq] at e2
          obtain ⟨-, rfl, rfl⟩ := e2
          cases h2
          refine ⟨⟨o + d2, rfl, by show L + (o + d2) + (st1.unprocessed - d2) = _; omega⟩, ?_⟩
          refine .snoc h1 ?_
          rw [ho, Nat.mul_div_cancel _ (Nat.pos_of_ne_zero hn)]
          exact .hemm hsum

theorem iter_path (hP : PermutesIndices P) {st st' : St R (S × List (Call R))}
    (hacc : st.locked + st.unconverged = cfg.nev + cfg.nex) (hrun : running cfg st)
    (h : iter P (traced ops) cfg st = .ok st')
    (h0 : AtReady cfg.N cfg.nev cfg.nex cfg.numLanczos st.iteration st.locked st.be) :
    At cfg.N cfg.nev cfg.nex cfg.numLanczos (.ready st'.iteration st'.locked) st'.be := by
  have hL : st.locked < cfg.nev := by have := hrun.1; omega
  obtain ⟨st1, av, be2, h1, h2, rfl⟩ := iter_ok h
  have e : st1.locked = st.locked ∧ st1.unconverged = st.unconverged ∧
      st1.iteration = st.iteration := by
    rcases optimise_ok h1 with ⟨rfl, -⟩ | ⟨deg, p, hc, rfl⟩ <;> exact ⟨rfl, rfl, rfl⟩
  have e1 : AtReady cfg.N cfg.nev cfg.nex cfg.numLanczos st.iteration st.locked st1.be := by
    refine optimise_pres (AtReady cfg.N cfg.nev cfg.nex cfg.numLanczos st.iteration st.locked) ?_ h1 h0
    intro i j s hi hj hi' hj' hs
    refine .inl (hs.snoc (.swap hi ?_ hj ?_))
    · exact lt_of_lt_of_eq hi' hacc
    · exact lt_of_lt_of_eq hj' hacc
  have e2 := filter_path h2 hL (by rw [e.2.1]; exact hacc) e1
  have e3 : At cfg.N cfg.nev cfg.nex cfg.numLanczos (.measured st.iteration st.locked)
      (project P (traced ops) cfg { st1 with be := be2 }).be := by
    refine Path.snoc (q := .projected st.iteration st.locked)
      (Path.snoc (q := .orthed st.iteration st.locked) (Path.snoc e2 ?_) ?_) ?_
    · show Next _ _ _ _ _ (.qr st1.locked _) _
      rw [e.1]; exact .qr
    · show Next _ _ _ _ _ (.rr st1.unconverged) _
      rw [e.2.1]; exact .rr hacc
    · show Next _ _ _ _ _ (.resd st1.locked) _
      rw [e.1]; exact .resd
  have hacc1 : st1.locked + st1.unconverged = cfg.nev + cfg.nex := by omega
  have hlk := lockStep_acc (P := P) (ops := traced ops) (cfg := cfg)
      (st := project P (traced ops) cfg { st1 with be := be2 }) hacc1
      (by show st1.locked ≤ _; omega)
  have e4 : At cfg.N cfg.nev cfg.nex cfg.numLanczos (.measured st.iteration st.locked)
      (locking P (traced ops) (st1.unconverged - cfg.nex) cfg.tol st1.locked
        (project P (traced ops) cfg { st1 with be := be2 }).ritzv
        (project P (traced ops) cfg { st1 with be := be2 }).resid
        (project P (traced ops) cfg { st1 with be := be2 }).residLast
        (project P (traced ops) cfg { st1 with be := be2 }).be).be := by
    unfold locking
    refine lockLoop_pres (At cfg.N cfg.nev cfg.nex cfg.numLanczos (.measured st.iteration st.locked)) ?_ ?_ _ _ _
      (Nat.zero_add _) rfl e3
    · intro k hk
      exact (hP _ _).1 k hk
    · intro i j s hi hj hi' hj' hs
      refine .snoc hs (.swapLock ?_ ?_ ?_ ?_) <;> omega
  have e5 := Path.snoc e4 (Next.lock (N := cfg.N) (nev := cfg.nev) (nex := cfg.nex)
    (n := st.iteration) (L := st.locked)
    (k := (locking P (traced ops) (st1.unconverged - cfg.nex) cfg.tol st1.locked
        (project P (traced ops) cfg { st1 with be := be2 }).ritzv
        (project P (traced ops) cfg { st1 with be := be2 }).resid
        (project P (traced ops) cfg { st1 with be := be2 }).residLast
        (project P (traced ops) cfg { st1 with be := be2 }).be).converged)
    (by have := hlk.2.1; rw [← e.1]; exact this))
  have e6 : (lockStep P (traced ops) cfg (project P (traced ops) cfg { st1 with be := be2 })).iteration
      = st.iteration + 1 := by show st1.iteration + 1 = _; rw [e.2.2]
  have e7 : (lockStep P (traced ops) cfg (project P (traced ops) cfg { st1 with be := be2 })).locked
      = st.locked + (locking P (traced ops) (st1.unconverged - cfg.nex) cfg.tol st1.locked
        (project P (traced ops) cfg { st1 with be := be2 }).ritzv
        (project P (traced ops) cfg { st1 with be := be2 }).resid
        (project P (traced ops) cfg { st1 with be := be2 }).residLast
        (project P (traced ops) cfg { st1 with be := be2 }).be).converged := by
    rw [← e.1]; rfl
  rw [e6, e7]
  exact e5

/-- After the initial Lanczos step: ready, or no column was replaced. -/
theorem initState_path {ritzv0 resid0 : ℕ → R} {s : S × List (Call R)}
    (hs : At cfg.N cfg.nev cfg.nex cfg.numLanczos .fresh s ∨ At cfg.N cfg.nev cfg.nex cfg.numLanczos .checked s)
    {st : St R (S × List (Call R))}
    (h : initState P (traced ops) cfg ritzv0 resid0 s = .ok st) :
    AtReady cfg.N cfg.nev cfg.nex cfg.numLanczos 0 0 st.be := by
  obtain ⟨be1, l, hbe1, hl, hn, rfl⟩ := initState_ok h
  have hb : At cfg.N cfg.nev cfg.nex cfg.numLanczos .begun ((traced ops).start s) := by
    rcases hs with hs | hs
    · exact .snoc hs .start
    · exact .snoc hs .startChecked
  show AtReady _ _ _ _ _ _ l.be
  unfold lanczos at hl
  split_ifs at hl with hm hr
  · cases hl
    left
    rw [hr] at hbe1
    rw [hbe1]
    exact .snoc (.snoc hb .initGiven) (.lanczos1 (by omega) (by omega) (by omega))
  · have hr' : (!cfg.approx) = true := by simpa using hr
    rw [hr', if_pos rfl] at hbe1
    have h1 : At cfg.N cfg.nev cfg.nex cfg.numLanczos .orth be1 := by
      rw [hbe1]; exact .snoc (.snoc hb .initRandom) .qr0
    dsimp only at hl
    split_ifs at hl with htot
    have hk : 1 ≤ cfg.numLanczos := by
      rcases Nat.eq_zero_or_pos cfg.numLanczos with h0 | h0
      · rw [h0, zero_mul] at htot; exact absurd rfl htot
      · exact h0
    have h2 := Path.snoc h1 (Next.lanczosN (N := cfg.N) (nev := cfg.nev) (nex := cfg.nex)
      (m := min (cfg.nev + cfg.nex) (min (cfg.N / 2) cfg.lanczosIter)) (nl := cfg.numLanczos)
      (by omega) (by omega) (by omega) hk)
    split at hl
    · cases hl
    split at hl
    · cases hl
    rename_i lowerb _ idx hidx
    by_cases hidx0 : idx > 0
    · rw [if_pos hidx0] at hl
      split_ifs at hl with hne
      split at hl
      · cases hl
      rename_i r2 be2 hint
      cases hl
      left
      have h3 := Path.snoc h2 (Next.lanczosDos (N := cfg.N) (nev := cfg.nev) (nex := cfg.nex)
        (m := min (cfg.nev + cfg.nex) (min (cfg.N / 2) cfg.lanczosIter)) (i := idx) hidx0
        (by have := dosIdx_lt _ _ _ _ idx hidx; omega))
      unfold intersperse at hint
      refine forRangeM_pres_partial _
        (fun t : (ℕ → R) × (S × List (Call R)) => At cfg.N cfg.nev cfg.nex cfg.numLanczos (.ready 0 0) t.2)
        ?_ ?_ hint
      · exact h3
      · intro i s s' _ _ hs hb
        dsimp only at hb
        split_ifs at hb with hc
        cases hb
        exact .snoc hs (.swap (Nat.zero_le _) hc.2 (Nat.zero_le _) hc.1)
    · rw [if_neg hidx0] at hl
      split_ifs at hl with hne
      split at hl
      · cases hl
      rename_i r2 be2 hint
      cases hl
      right
      refine ⟨rfl, rfl, min (cfg.nev + cfg.nex) (min (cfg.N / 2) cfg.lanczosIter), ?_⟩
      unfold intersperse at hint
      rw [forRangeM_of_le (by omega)] at hint
      cases hint
      exact h2

theorem finalSort_path {nev n L : ℕ} {ritzv : ℕ → R} {s : S × List (Call R)}
    (h : AtReady N nev nex nl n L s) :
    AtReady N nev nex nl n L (finalSort (traced ops) nev ritzv s).2 ∨
      At N nev nex nl (.sorted n L) (finalSort (traced ops) nev ritzv s).2 := by
  unfold finalSort
  refine forRange_pres _ (fun t : (ℕ → R) × (S × List (Call R)) =>
    AtReady N nev nex nl n L t.2 ∨ At N nev nex nl (.sorted n L) t.2) (.inl h) ?_
  intro i t _ hi ht
  refine forRange_pres _ (fun t : (ℕ → R) × (S × List (Call R)) =>
    AtReady N nev nex nl n L t.2 ∨ At N nev nex nl (.sorted n L) t.2) ht ?_
  intro j t _ hj ht
  split_ifs
  · right
    rcases ht with ht | ht
    · exact ht.snoc (.sort (by omega) hj)
    · exact .snoc ht (.sorts (by omega) hj)
  · exact ht

/-- C57: the calls of every solve that returns, for every backend, follow the protocol. -/
theorem C57_call_protocol (hP : PermutesIndices P) (ritzv0 resid0 : ℕ → R) (s : S)
    (out : Outcome R (S × List (Call R)))
    (h : solve P (traced ops) cfg ritzv0 resid0 (s, []) = .ok out)
    (hsym : cfg.symCheck = true → (ops.checkSymmetryEasy s).1 = true) :
    Path cfg.N cfg.nev cfg.nex cfg.numLanczos .fresh out.be.2 (.done out.iterations out.locked) := by
  obtain ⟨be0, st0, st, hbe0, hinit, hsteps, -, -, rfl⟩ := solve_ok h hsym
  have h0 : At cfg.N cfg.nev cfg.nex cfg.numLanczos .fresh be0 ∨ At cfg.N cfg.nev cfg.nex cfg.numLanczos .checked be0 := by
    rw [hbe0]
    split_ifs
    · right; exact .snoc .nil .check
    · left; exact .nil
  have h1 := initState_path h0 hinit
  have h2 : AtReady cfg.N cfg.nev cfg.nex cfg.numLanczos st.iteration st.locked st.be := by
    have hr : Reach P (traced ops) cfg ritzv0 resid0 be0 st := steps_reach (.init hinit) hsteps
    refine reach_inv (fun st => AtReady cfg.N cfg.nev cfg.nex cfg.numLanczos st.iteration st.locked st.be) ?_ ?_ hr
    · intro st1 h3
      rw [hinit] at h3
      cases h3
      obtain ⟨_, _, -, -, -, rfl⟩ := initState_ok hinit
      exact h1
    · intro st1 st2 hr1 hi hs
      exact .inl (iter_path hP (reach_acc hr1).1 hs.1 hs.2 hi)
  rcases finalSort_path (ops := ops) (ritzv := st.ritzv) h2 with h3 | h3
  · exact h3.snoc .finish
  · exact .snoc h3 .finishSorted

end
end Verif
