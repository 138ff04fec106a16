/-
The performance data as a function of the calls, and its invariant along the protocol of a solve.
-/
import Verif.Perf.Model
import Verif.Solver.Protocol

namespace Verif.Perf

variable {D R S : Type*}

/-- What one call does to the performance data. -/
def record [Zero D] (np : ℕ) (p : Data D) : Call R → Data D
  | .checkSymmetryEasy => p
  | .start => ((p.reset).startClock .all).setNprocs np
  | .finish => p.endClock .all
  | .initVecs _ => (p.startClock .initVecs).endClock .initVecs
  | .qr _ _ => (p.startClock .qr).endClock .qr
  | .lanczos1 _ => (p.startClock .lanczos).endClock .lanczos
  | .lanczosN _ _ => (p.startClock .lanczos).endClock .lanczos
  | .lanczosDos _ _ => (p.startClock .lanczos).endClock .lanczos
  | .shift _ b => if b then p.endClock .filter else p.startClock .filter
  | .hemm n _ _ _ => p.addFiltered n
  | .rr b => ((p.startClock .rr).addBlocksize b).endClock .rr
  | .resd _ => p.startClock .resid
  | .lock _ => (p.endClock .resid).addIterCount 1
  | .swap _ _ => p

/-- The decorated backend runs like the recorded one, its data are a function of the record. -/
theorem decorate_sim [Zero D] (np : ℕ) (ops : Chase R S) (p0 : Data D) :
    Sim (decorate np ops) (traced ops)
      (fun s t => s.1 = t.1 ∧ s.2 = t.2.foldl (record np) p0) := by
  constructor <;> intros <;> rename_i h <;> obtain ⟨h1, h2⟩ := h <;>
    simp [decorate, traced, List.foldl_append, record, h1, h2]

/-! ### Intervals -/

/-- A closed interval of a clock: the clock, the reading at its start and at its end. -/
abbrev Interval := Clock × ℕ × ℕ

/-- starts of the intervals of clock `c` -/
def startsOf (c : Clock) (h : List Interval) : List ℕ :=
  (h.filter (fun i => i.1 = c)).map (fun i => i.2.1)

/-- ends of the intervals of clock `c` -/
def endsOf (c : Clock) (h : List Interval) : List ℕ :=
  (h.filter (fun i => i.1 = c)).map (fun i => i.2.2)

/-- all end points in order -/
def points (h : List Interval) : List ℕ := h.flatMap (fun i => [i.2.1, i.2.2])

/-- the start of a running clock -/
def openPt : Option (Clock × ℕ) → List ℕ
  | none => []
  | some (_, t) => [t]

def openOf (c : Clock) : Option (Clock × ℕ) → List ℕ
  | none => []
  | some (c', t) => if c' = c then [t] else []

structure ClockInv (op : Option (Clock × ℕ)) (t0 : ℕ) (h : List Interval) (p : Data D) : Prop where
  startAll : p.starts .all = [t0]
  endAll : p.ends .all = []
  incr : (t0 :: (points h ++ openPt op)).Pairwise (· < ·)
  past : ∀ x ∈ t0 :: (points h ++ openPt op), x < p.tick
  starts : ∀ c, c ≠ .all → p.starts c = startsOf c h ++ openOf c op
  ends : ∀ c, c ≠ .all → p.ends c = endsOf c h
  phases : ∀ i ∈ h, i.1 ≠ .all

theorem pairwise_snoc {l : List ℕ} {x : ℕ} (h : l.Pairwise (· < ·)) (hx : ∀ y ∈ l, y < x) :
    (l ++ [x]).Pairwise (· < ·) := by
  rw [List.pairwise_append]
  refine ⟨h, List.pairwise_singleton _ _, ?_⟩
  intro a ha b hb
  rw [List.mem_singleton] at hb
  subst hb
  exact hx a ha

theorem ClockInv.startClock {t0 : ℕ} {h : List Interval} {p : Data D} (hi : ClockInv none t0 h p)
    {c : Clock} (hc : c ≠ .all) : ClockInv (some (c, p.tick)) t0 h (p.startClock c) where
  startAll := by
    show Function.update p.starts c _ .all = _
    rw [Function.update_of_ne (Ne.symm hc)]; exact hi.startAll
  endAll := hi.endAll
  incr := by
    have := pairwise_snoc hi.incr hi.past
    simpa [openPt] using this
  past := by
    intro x hx
    show x < p.tick + 1
    have hp := hi.past
    simp only [openPt, List.append_nil, List.mem_cons, List.mem_append] at hx hp
    rcases hx with hx | hx | hx
    · have := hp x (.inl hx); omega
    · have := hp x (.inr hx); omega
    · simp only [List.not_mem_nil, or_false] at hx; omega
  starts := by
    intro c' hc'
    show Function.update p.starts c _ c' = _
    by_cases e : c = c'
    · subst e
      rw [Function.update_self, hi.starts c hc]
      simp [openOf]
    · rw [Function.update_of_ne (Ne.symm e), hi.starts c' hc']
      simp [openOf, e]
  ends := hi.ends
  phases := hi.phases

theorem ClockInv.endClock {t0 t : ℕ} {h : List Interval} {p : Data D} {c : Clock} (hc : c ≠ .all)
    (hi : ClockInv (some (c, t)) t0 h p) :
    ClockInv none t0 (h ++ [(c, t, p.tick)]) (p.endClock c) where
  startAll := hi.startAll
  endAll := by
    show Function.update p.ends c _ .all = _
    rw [Function.update_of_ne (Ne.symm hc)]; exact hi.endAll
  incr := by
    have := pairwise_snoc hi.incr hi.past
    simpa [openPt, points] using this
  past := by
    intro x hx
    show x < p.tick + 1
    have hp := hi.past
    simp only [openPt, points, List.append_nil, List.mem_cons, List.mem_append, List.flatMap_append,
      List.flatMap_cons, List.flatMap_nil, List.not_mem_nil, or_false] at hx hp
    rcases hx with hx | hx | hx | hx
    · have := hp x (.inl hx); omega
    · have := hp x (.inr (.inl hx)); omega
    · have := hp x (.inr (.inr hx)); omega
    · omega
  starts := by
    intro c' hc'
    show p.starts c' = _
    rw [hi.starts c' hc']
    by_cases e : c = c' <;> simp [openOf, startsOf, e, List.filter_append]
  ends := by
    intro c' hc'
    show Function.update p.ends c _ c' = _
    by_cases e : c = c'
    · subst e
      rw [Function.update_self, hi.ends c hc]
      simp [endsOf, List.filter_append]
    · rw [Function.update_of_ne (Ne.symm e), hi.ends c' hc']
      simp [endsOf, e, List.filter_append]
  phases := by
    intro i hi'
    rw [List.mem_append, List.mem_singleton] at hi'
    rcases hi' with hi' | rfl
    · exact hi.phases i hi'
    · exact hc

/-- a change of the counters only -/
theorem ClockInv.congr {op : Option (Clock × ℕ)} {t0 : ℕ} {h : List Interval} {p q : Data D}
    (hi : ClockInv op t0 h p) (h1 : q.starts = p.starts) (h2 : q.ends = p.ends)
    (h3 : q.tick = p.tick) : ClockInv op t0 h q where
  startAll := by rw [h1]; exact hi.startAll
  endAll := by rw [h2]; exact hi.endAll
  incr := hi.incr
  past := by rw [h3]; exact hi.past
  starts := by rw [h1]; exact hi.starts
  ends := by rw [h2]; exact hi.ends
  phases := hi.phases

/-! ### The invariant along the protocol -/

/-- block sizes of the Rayleigh-Ritz calls, in order -/
def rrBlocks (tr : List (Call R)) : List ℕ :=
  tr.filterMap (fun c => match c with | .rr b => some b | _ => none)

/-- Between `Start` and `End`: `n` finished rounds, `f` finished filter intervals, `r` finished
Rayleigh-Ritz intervals, clock `o` running. -/
structure Live [Zero D] (np n f r : ℕ) (o : Option Clock) (tr : List (Call R)) (p : Data D) : Prop where
  clocks : ∃ op t0 h, ClockInv op t0 h p ∧ op.map Prod.fst = o ∧
    (endsOf .filter h).length = f ∧ (endsOf .rr h).length = r ∧ (endsOf .resid h).length = n
  iter : p.iterCount = n
  vecs : p.filteredVecs = hemmSum tr
  blocks : p.blocksizes = rrBlocks tr
  zero : p.timings = fun _ => 0
  procs : p.nprocs = some np

/-- After `End`. -/
structure Done [Zero D] (np n : ℕ) (tr : List (Call R)) (p : Data D) : Prop where
  clocks : ∃ t0 t1 h, p.starts .all = [t0] ∧ p.ends .all = [t1] ∧
    (t0 :: (points h ++ [t1])).Pairwise (· < ·) ∧
    (∀ c, c ≠ .all → p.starts c = startsOf c h ∧ p.ends c = endsOf c h) ∧ (∀ i ∈ h, i.1 ≠ .all) ∧
    (endsOf .filter h).length = n ∧ (endsOf .rr h).length = n ∧ (endsOf .resid h).length = n
  iter : p.iterCount = n
  vecs : p.filteredVecs = hemmSum tr
  blocks : p.blocksizes = rrBlocks tr
  zero : p.timings = fun _ => 0
  procs : p.nprocs = some np

def Inv [Zero D] (np : ℕ) (p0 : Data D) (tr : List (Call R)) (p : Data D) : Phase R → Prop
  | .fresh => p = p0 ∧ tr = []
  | .checked => p = p0 ∧ tr = [.checkSymmetryEasy]
  | .begun => Live np 0 0 0 none tr p
  | .random => Live np 0 0 0 none tr p
  | .given => Live np 0 0 0 none tr p
  | .orth => Live np 0 0 0 none tr p
  | .dos _ => Live np 0 0 0 none tr p
  | .ready n _ => Live np n n n none tr p
  | .shifted n _ _ => Live np n n n (some .filter) tr p
  | .mult n _ _ => Live np n n n (some .filter) tr p
  | .filtered n _ => Live np n (n + 1) n none tr p
  | .orthed n _ => Live np n (n + 1) n none tr p
  | .projected n _ => Live np n (n + 1) (n + 1) none tr p
  | .measured n _ => Live np n (n + 1) (n + 1) (some .resid) tr p
  | .sorted n _ => Live np n n n none tr p
  | .done n _ => Done np n tr p

section
variable [Zero D] {np : ℕ} {tr : List (Call R)} {p p0 : Data D} {n f r : ℕ} {o : Option Clock}

theorem rrBlocks_snoc (tr : List (Call R)) (c : Call R) :
    rrBlocks (tr ++ [c]) = rrBlocks tr ++ rrBlocks [c] := by
  unfold rrBlocks; rw [List.filterMap_append]

/-- a call that starts and stops clock `k`, none of the counted ones -/
theorem Live.timed (h : Live np n f r none tr p) {c : Call R} (hc : hemmSum [c] = 0)
    (hb : rrBlocks [c] = []) {k : Clock} (hk : k = .initVecs ∨ k = .lanczos ∨ k = .qr) :
    Live np n f r none (tr ++ [c]) ((p.startClock k).endClock k) := by
  obtain ⟨op, t0, hs, hi, ho, h1, h2, h3⟩ := h.clocks
  obtain rfl : op = none := by simpa using ho
  have hk' : k ≠ .all ∧ k ≠ .filter ∧ k ≠ .rr ∧ k ≠ .resid := by
    rcases hk with rfl | rfl | rfl <;> decide
  refine ⟨⟨none, t0, _, (hi.startClock hk'.1).endClock hk'.1, rfl, ?_, ?_, ?_⟩, h.iter, ?_, ?_,
    h.zero, h.procs⟩
  · simpa [endsOf, List.filter_append, hk'] using h1
  · simpa [endsOf, List.filter_append, hk'] using h2
  · simpa [endsOf, List.filter_append, hk'] using h3
  · show p.filteredVecs = _
    rw [hemmSum_append, hc, h.vecs, add_zero]
  · show p.blocksizes = _
    rw [rrBlocks_snoc, hb, h.blocks, List.append_nil]

/-- a call that leaves the data alone -/
theorem Live.quiet (h : Live np n f r o tr p) {c : Call R} (hc : hemmSum [c] = 0)
    (hb : rrBlocks [c] = []) : Live np n f r o (tr ++ [c]) p := by
  refine ⟨h.clocks, h.iter, ?_, ?_, h.zero, h.procs⟩
  · rw [hemmSum_append, hc, h.vecs, add_zero]
  · rw [rrBlocks_snoc, hb, h.blocks, List.append_nil]

theorem Live.opens (h : Live np n f r none tr p) {c : Call R} (hc : hemmSum [c] = 0)
    (hb : rrBlocks [c] = []) {k : Clock} (hk : k ≠ .all) :
    Live np n f r (some k) (tr ++ [c]) (p.startClock k) := by
  obtain ⟨op, t0, hs, hi, ho, h1, h2, h3⟩ := h.clocks
  obtain rfl : op = none := by simpa using ho
  refine ⟨⟨_, t0, hs, hi.startClock hk, rfl, h1, h2, h3⟩, h.iter, ?_, ?_, h.zero, h.procs⟩
  · show p.filteredVecs = _
    rw [hemmSum_append, hc, h.vecs, add_zero]
  · show p.blocksizes = _
    rw [rrBlocks_snoc, hb, h.blocks, List.append_nil]

theorem Live.finish (h : Live np n n n none tr p) :
    Done np n (tr ++ [.finish]) (p.endClock .all) := by
  obtain ⟨op, t0, hs, hi, ho, h1, h2, h3⟩ := h.clocks
  obtain rfl : op = none := by simpa using ho
  refine ⟨⟨t0, p.tick, hs, hi.startAll, ?_, ?_, ?_, hi.phases, h1, h2, h3⟩, h.iter, ?_, ?_, h.zero,
    h.procs⟩
  · show Function.update p.ends .all (p.ends .all ++ [p.tick]) .all = _
    rw [Function.update_self, hi.endAll, List.nil_append]
  · have := pairwise_snoc hi.incr hi.past
    simpa [openPt] using this
  · intro c hc
    refine ⟨?_, ?_⟩
    · show p.starts c = _
      rw [hi.starts c hc]; simp [openOf]
    · show Function.update p.ends .all _ c = _
      rw [Function.update_of_ne hc]; exact hi.ends c hc
  · show p.filteredVecs = _
    rw [hemmSum_append, h.vecs]; rfl
  · show p.blocksizes = _
    rw [rrBlocks_snoc, h.blocks]; simp [rrBlocks]

theorem start_live (hs : hemmSum tr = 0) (hb : rrBlocks tr = []) :
    Live np 0 0 0 none (tr ++ [.start]) (((p.reset).startClock .all).setNprocs np) := by
  refine ⟨⟨none, p.tick, [], ?_, rfl, rfl, rfl, rfl⟩, rfl, ?_, ?_, rfl, rfl⟩
  · refine ⟨?_, rfl, ?_, ?_, ?_, ?_, ?_⟩
    · show Function.update (fun _ => []) Clock.all _ .all = _
      rw [Function.update_self]; rfl
    · simp [points, openPt]
    · intro x hx
      simp only [points, openPt, List.flatMap_nil, List.append_nil, List.mem_singleton] at hx
      subst hx
      exact Nat.lt_succ_self _
    · intro c hc
      show Function.update (fun _ => []) Clock.all _ c = _
      rw [Function.update_of_ne hc]; rfl
    · intro c _; rfl
    · intro i hi; cases hi
  · rw [hemmSum_append, hs]; rfl
  · rw [rrBlocks_snoc, hb]; rfl

variable [Neg R] [Zero R] [One R] {N nev nex nl : ℕ}

theorem Inv.next {q q' : Phase R} {c : Call R} (hn : Next N nev nex nl q c q')
    (h : Inv np p0 tr p q) : Inv np p0 (tr ++ [c]) (record np p c) q' := by
  induction hn with
  | check => obtain ⟨rfl, rfl⟩ := h; exact ⟨rfl, rfl⟩
  | start => obtain ⟨rfl, rfl⟩ := h; exact start_live rfl rfl
  | startChecked => obtain ⟨rfl, rfl⟩ := h; exact start_live rfl rfl
  | initRandom => exact Live.timed h rfl rfl (.inl rfl)
  | initGiven => exact Live.timed h rfl rfl (.inl rfl)
  | qr0 => exact Live.timed h rfl rfl (.inr (.inr rfl))
  | lanczos1 => exact Live.timed h rfl rfl (.inr (.inl rfl))
  | lanczosN => exact Live.timed h rfl rfl (.inr (.inl rfl))
  | lanczosDos => exact Live.timed h rfl rfl (.inr (.inl rfl))
  | skipDos _ ih => exact ih h
  | swap => exact Live.quiet h rfl rfl
  | shift => exact Live.opens h rfl rfl (by decide)
  | hemm0 _ | hemm _ =>
    refine ⟨?_, h.iter, ?_, ?_, h.zero, h.procs⟩
    · obtain ⟨op, t0, hs, hi, hr⟩ := h.clocks
      exact ⟨op, t0, hs, hi.congr rfl rfl rfl, hr⟩
    · show p.filteredVecs + _ = _
      rw [hemmSum_append, h.vecs]; simp [hemmSum]
    · show p.blocksizes = _
      rw [rrBlocks_snoc, h.blocks]; simp [rrBlocks]
  | unshift =>
    obtain ⟨op, t0, hs, hi, ho, h1, h2, h3⟩ := h.clocks
    obtain ⟨⟨k, t⟩, rfl, hk⟩ : ∃ x, op = some x ∧ x.1 = .filter := by simpa using ho
    simp only at hk
    subst hk
    refine ⟨⟨none, t0, _, hi.endClock (by decide), rfl, ?_, ?_, ?_⟩, h.iter, ?_, ?_, h.zero, h.procs⟩
    · simp [endsOf, List.filter_append] at h1 ⊢; omega
    · simpa [endsOf, List.filter_append] using h2
    · simpa [endsOf, List.filter_append] using h3
    · show p.filteredVecs = _
      rw [hemmSum_append, h.vecs]; simp [hemmSum]
    · show p.blocksizes = _
      rw [rrBlocks_snoc, h.blocks]; simp [rrBlocks]
  | qr => exact Live.timed h rfl rfl (.inr (.inr rfl))
  | rr _ =>
    obtain ⟨op, t0, hs, hi, ho, h1, h2, h3⟩ := h.clocks
    obtain rfl : op = none := by simpa using ho
    refine ⟨⟨none, t0, _, ((hi.startClock (c := .rr) (by decide)).congr
      (q := (p.startClock .rr).addBlocksize _) rfl rfl rfl).endClock (by decide), rfl, ?_, ?_, ?_⟩,
      h.iter, ?_, ?_, h.zero, h.procs⟩
    · simpa [endsOf, List.filter_append] using h1
    · simp [endsOf, List.filter_append] at h2 ⊢; omega
    · simpa [endsOf, List.filter_append] using h3
    · show p.filteredVecs = _
      rw [hemmSum_append, h.vecs]; simp [hemmSum]
    · show p.blocksizes ++ _ = _
      rw [rrBlocks_snoc, h.blocks]; simp [rrBlocks]
  | resd => exact Live.opens h rfl rfl (by decide)
  | swapLock => exact Live.quiet h rfl rfl
  | lock _ =>
    obtain ⟨op, t0, hs, hi, ho, h1, h2, h3⟩ := h.clocks
    obtain ⟨⟨k, t⟩, rfl, hk⟩ : ∃ x, op = some x ∧ x.1 = .resid := by simpa using ho
    simp only at hk
    subst hk
    refine ⟨⟨none, t0, _, (hi.endClock (by decide)).congr rfl rfl rfl, rfl, ?_, ?_, ?_⟩, ?_, ?_, ?_,
      h.zero, h.procs⟩
    · simpa [endsOf, List.filter_append] using h1
    · simpa [endsOf, List.filter_append] using h2
    · simp [endsOf, List.filter_append] at h3 ⊢; omega
    · show p.iterCount + 1 = _
      rw [h.iter]
    · show p.filteredVecs = _
      rw [hemmSum_append, h.vecs]; simp [hemmSum]
    · show p.blocksizes = _
      rw [rrBlocks_snoc, h.blocks]; simp [rrBlocks]
  | sort => exact Live.quiet h rfl rfl
  | sorts => exact Live.quiet h rfl rfl
  | finish => exact Live.finish h
  | finishSorted => exact Live.finish h

theorem Inv.path {q : Phase R} (h : Path N nev nex nl .fresh tr q) :
    Inv np p0 tr (tr.foldl (record np) p0) q := by
  induction h with
  | nil => exact ⟨rfl, rfl⟩
  | snoc _ hn ih =>
    rw [List.foldl_append]
    exact Inv.next hn ih

end
end Verif.Perf
