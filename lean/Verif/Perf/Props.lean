/-
Properties C39, C40 and C58: performance counters, clocks and operation counts.
-/
import Verif.Perf.Proof
import Verif.Solver.ToyProof
import Mathlib.Data.Real.Basic
import Mathlib.Algebra.BigOperators.Group.List.Basic
import Mathlib.Tactic.Linarith

namespace Verif.Perf

variable {R S D : Type*} [Add R] [Sub R] [Mul R] [Div R] [Neg R] [Zero R] [One R] [NatCast R] [LT R] [DecidableLT R]

/-! ### C39: counters -/

/-- **C39** Measuring does not influence the result: a solve through the performance decorator
returns, or fails, exactly like the same solve without it. -/
theorem C39_transparent [Zero D] (P : Plat R) (ops : Chase R S) (cfg : Config R) (np : ℕ)
    (ritzv0 resid0 : ℕ → R) (s : S) (p0 : Data D) :
    (solve P (decorate np ops) cfg ritzv0 resid0 (s, p0)).map (fun o => Outcome.mk o.ritzv o.resid
      o.iterations o.locked o.be.1) = solve P ops cfg ritzv0 resid0 s := by
  have hs : Sim (decorate (D := D) np ops) ops (fun a b => a.1 = b) := by
    constructor <;> intros <;> subst_vars <;> simp [decorate]
  have h := solve_sim hs P cfg ritzv0 resid0 (be := (s, p0)) (be' := s) rfl
  generalize solve P (decorate np ops) cfg ritzv0 resid0 (s, p0) = x at h ⊢
  generalize solve P ops cfg ritzv0 resid0 s = y at h ⊢
  cases h with
  | error => rfl
  | ok h =>
    rename_i a b
    obtain ⟨r, e, i, l, be⟩ := b
    obtain ⟨h1, h2, h3, h4, h5⟩ := h
    dsimp only at h1 h2 h3 h4 h5
    show Except.ok (Outcome.mk a.ritzv a.resid a.iterations a.locked a.be.1) = _
    rw [h1, h2, h3, h4, h5]

/-- The record of the calls of the same solve. -/
theorem trace_exists [Zero D] {P : Plat R} {ops : Chase R S} {cfg : Config R} {np : ℕ}
    {ritzv0 resid0 : ℕ → R} {s : S} {p0 : Data D} {out : Outcome R (S × Data D)}
    (h : solve P (decorate np ops) cfg ritzv0 resid0 (s, p0) = .ok out) :
    ∃ out', solve P (traced ops) cfg ritzv0 resid0 (s, []) = .ok out' ∧
      out.iterations = out'.iterations ∧ out.locked = out'.locked ∧
      out.be.2 = out'.be.2.foldl (record np) p0 := by
  have h' := solve_sim (decorate_sim np ops p0) P cfg ritzv0 resid0 (be := (s, p0)) (be' := (s, []))
    ⟨rfl, rfl⟩
  rw [h] at h'
  generalize solve P (traced ops) cfg ritzv0 resid0 (s, []) = y at h' ⊢
  cases h' with
  | ok h' => exact ⟨_, rfl, h'.iterations, h'.locked, h'.be.2⟩

theorem done_of_solve [Zero D] {P : Plat R} (hP : PermutesIndices P) {ops : Chase R S} {cfg : Config R}
    {np : ℕ} {ritzv0 resid0 : ℕ → R} {s : S} {p0 : Data D} {out : Outcome R (S × Data D)}
    (h : solve P (decorate np ops) cfg ritzv0 resid0 (s, p0) = .ok out)
    (hsym : cfg.symCheck = true → (ops.checkSymmetryEasy s).1 = true) :
    ∃ out', solve P (traced ops) cfg ritzv0 resid0 (s, []) = .ok out' ∧
      Done np out.iterations out'.be.2 out.be.2 := by
  obtain ⟨out', h1, h2, h3, h4⟩ := trace_exists h
  refine ⟨out', h1, ?_⟩
  have := Inv.path (np := np) (p0 := p0)
    (C57_call_protocol hP ritzv0 resid0 s out' h1 hsym)
  rw [← h4, ← h2] at this
  exact this

/-- **C39** After every solve, whatever the counters were before (for example those of an earlier
solve), the iteration count is the number of rounds, the number of filtered vectors is the sum of the
block sizes of the `HEMM` calls, and the block sizes are those of the Rayleigh-Ritz calls, one per
round.  The calls are those of the undecorated solve. -/
theorem C39_counters [Zero D] (P : Plat R) (hP : PermutesIndices P) (ops : Chase R S) (cfg : Config R)
    (np : ℕ) (ritzv0 resid0 : ℕ → R) (s : S) (p0 : Data D) (out : Outcome R (S × Data D))
    (h : solve P (decorate np ops) cfg ritzv0 resid0 (s, p0) = .ok out)
    (hsym : cfg.symCheck = true → (ops.checkSymmetryEasy s).1 = true) :
    ∃ out', solve P (traced ops) cfg ritzv0 resid0 (s, []) = .ok out' ∧
      out.be.2.iterCount = out.iterations ∧ out.be.2.filteredVecs = hemmSum out'.be.2 ∧
      out.be.2.blocksizes = rrBlocks out'.be.2 ∧ out.be.2.nprocs = some np := by
  obtain ⟨out', h1, h2⟩ := done_of_solve hP h hsym
  exact ⟨out', h1, h2.iter, h2.vecs, h2.blocks, h2.procs⟩

/-- **C39** A solve refused by the symmetry check leaves all performance data as they were. -/
theorem C39_refused [Zero D] (P : Plat R) (ops : Chase R S) (cfg : Config R) (np : ℕ)
    (ritzv0 resid0 : ℕ → R) (s : S) (p0 : Data D) (hc : cfg.symCheck = true)
    (hf : (ops.checkSymmetryEasy s).1 = false) :
    ∃ out, solve P (decorate np ops) cfg ritzv0 resid0 (s, p0) = .ok out ∧ out.be.2 = p0 := by
  unfold solve
  rw [if_pos hc]
  show ∃ out, (if (ops.checkSymmetryEasy s).1 = false then _ else _) = _ ∧ _
  rw [if_pos hf]
  exact ⟨_, rfl, rfl⟩

/-- Non-vacuity: a run of two rounds after an earlier solve with other counts. -/
example : Toy.okAnd (fun out => out.iterations == 2 && out.be.2.iterCount == 2 &&
      out.be.2.filteredVecs == 20 && out.be.2.blocksizes == [3, 2] && out.be.2.nprocs == some 4)
    (solve Toy.plat (decorate (D := ℚ) 4 (Toy.ops Toy.vals1 Toy.res1 true)) Toy.cfg1 (fun _ => 0)
      (fun _ => 0) (Toy.start, { Data.new 7 with iterCount := 9, blocksizes := [1, 1] })) = true := by
  rw [Toy.solve_eq_solveE]; decide +kernel

/-! ### C40: clocks -/

/-- **C40** After every solve the clock of the whole solve ran exactly once, and the intervals of the
six phase clocks lie inside, pairwise disjoint: every clock was stopped exactly as often as it was
started, always after it was started.  The filter, Rayleigh-Ritz and residual clocks ran once per
round. -/
theorem C40_clocks_balanced [Zero D] (P : Plat R) (hP : PermutesIndices P) (ops : Chase R S)
    (cfg : Config R) (np : ℕ) (ritzv0 resid0 : ℕ → R) (s : S) (p0 : Data D)
    (out : Outcome R (S × Data D))
    (h : solve P (decorate np ops) cfg ritzv0 resid0 (s, p0) = .ok out)
    (hsym : cfg.symCheck = true → (ops.checkSymmetryEasy s).1 = true) :
    ∃ (t0 t1 : ℕ) (hist : List Interval),
      out.be.2.starts .all = [t0] ∧ out.be.2.ends .all = [t1] ∧
      (t0 :: (points hist ++ [t1])).Pairwise (· < ·) ∧
      (∀ c, c ≠ .all → out.be.2.starts c = startsOf c hist ∧ out.be.2.ends c = endsOf c hist) ∧
      (∀ i ∈ hist, i.1 ≠ .all) ∧
      (out.be.2.ends .filter).length = out.iterations ∧ (out.be.2.ends .rr).length = out.iterations ∧
      (out.be.2.ends .resid).length = out.iterations := by
  obtain ⟨out', h1, h2⟩ := done_of_solve hP h hsym
  obtain ⟨t0, t1, hist, g1, g2, g3, g4, g5, g6, g7, g8⟩ := h2.clocks
  refine ⟨t0, t1, hist, g1, g2, g3, g4, g5, ?_, ?_, ?_⟩
  · rw [(g4 .filter (by decide)).2, g6]
  · rw [(g4 .rr (by decide)).2, g7]
  · rw [(g4 .resid (by decide)).2, g8]

/-- time spent in intervals with the given starts and ends -/
def elapsed [AddCommGroup D] (clk : ℕ → D) (s e : List ℕ) : D :=
  ((s.zip e).map (fun x => clk x.2 - clk x.1)).sum

theorem addPoints_eq [AddCommGroup D] (clk : ℕ → D) : ∀ (s e : List ℕ) (t : D),
    s.length = e.length → addPoints clk s e t = .ok (t + elapsed clk s e)
  | [], e, t, _ => by simp [addPoints, elapsed]
  | a :: s, [], t, h => by simp at h
  | a :: s, b :: e, t, h => by
    rw [addPoints, addPoints_eq clk s e _ (by simpa using h)]
    simp [elapsed, add_assoc]

theorem addClocks_eq [AddCommGroup D] (clk : ℕ → D) : ∀ (cs : List Clock) (p : Data D), cs.Nodup →
    (∀ c ∈ cs, (p.starts c).length = (p.ends c).length) →
    addClocks clk cs p = .ok { p with
      timings := fun c => p.timings c + (if c ∈ cs then elapsed clk (p.starts c) (p.ends c) else 0) }
  | [], p, _, _ => by simp [addClocks]
  | c :: cs, p, hn, h => by
    rw [List.nodup_cons] at hn
    rw [addClocks, addPoints_eq clk _ _ _ (h c (by simp))]
    dsimp only
    have ih := addClocks_eq clk cs
      { p with timings := Function.update p.timings c
                 (p.timings c + elapsed clk (p.starts c) (p.ends c)) } hn.2
      (fun c' hc' => h c' (by simp [hc']))
    rw [ih]
    congr 2
    funext c'
    by_cases e : c' = c
    · subst e
      simp [hn.1]
    · simp [e, Function.update_of_ne e]

/-- `print` on balanced clocks. -/
theorem print_eq [AddCommGroup D] (clk : ℕ → D) (ratio N np : ℕ) (p : Data D)
    (h : ∀ c, (p.starts c).length = (p.ends c).length) (hn : p.nprocs = some np) :
    p.print clk ratio N =
      .ok ({ nprocs := np, iterations := p.iterCount, vecs := p.filteredVecs
             timings := clocks.map (fun c => p.timings c + elapsed clk (p.starts c) (p.ends c))
             flops := if N ≠ 0 then some (p.getFlops ratio N, p.getFilterFlops ratio N) else none },
        { p with timings := fun c => p.timings c + elapsed clk (p.starts c) (p.ends c) }) := by
  have hall : ∀ c, c ∈ clocks := by intro c; cases c <;> decide
  unfold Data.print
  rw [addClocks_eq clk clocks p (by decide) (fun c _ => h c)]
  simp only [hall, if_true, hn]
  rfl

theorem Done.lengths [Zero D] {np n : ℕ} {tr : List (Call R)} {p : Data D} (h : Done np n tr p)
    (c : Clock) : (p.starts c).length = (p.ends c).length := by
  obtain ⟨t0, t1, hist, g1, g2, g3, g4, -⟩ := h.clocks
  by_cases hc : c = .all
  · subst hc; rw [g1, g2]; rfl
  · rw [(g4 c hc).1, (g4 c hc).2]; simp [startsOf, endsOf]

/-- **C40** The first `print` after a solve succeeds and reports for each clock the time spent in its
intervals. -/
theorem C40_print_first [AddCommGroup D] (P : Plat R) (hP : PermutesIndices P) (ops : Chase R S)
    (cfg : Config R) (np : ℕ) (ritzv0 resid0 : ℕ → R) (s : S) (p0 : Data D)
    (out : Outcome R (S × Data D))
    (h : solve P (decorate np ops) cfg ritzv0 resid0 (s, p0) = .ok out)
    (hsym : cfg.symCheck = true → (ops.checkSymmetryEasy s).1 = true)
    (clk : ℕ → D) (ratio N : ℕ) :
    ∃ tab p, out.be.2.print clk ratio N = .ok (tab, p) ∧ tab.nprocs = np ∧
      tab.iterations = out.iterations ∧ tab.vecs = out.be.2.filteredVecs ∧
      tab.timings = clocks.map (fun c => elapsed clk (out.be.2.starts c) (out.be.2.ends c)) := by
  obtain ⟨out', h1, h2⟩ := done_of_solve hP h hsym
  refine ⟨_, _, print_eq clk ratio N np _ h2.lengths h2.procs, rfl, h2.iter, rfl, ?_⟩
  rw [h2.zero]
  simp

/-- sum over a list of consecutive intervals inside `[t0, t1]` -/
theorem telescope (clk : ℕ → ℝ) (hm : ∀ a b, a ≤ b → clk a ≤ clk b) :
    ∀ (hist : List Interval) (t0 t1 : ℕ), (t0 :: (points hist ++ [t1])).Pairwise (· < ·) →
      (hist.map (fun i => clk i.2.2 - clk i.2.1)).sum ≤ clk t1 - clk t0
  | [], t0, t1, h => by
    simp only [points, List.flatMap_nil, List.nil_append, List.pairwise_cons, List.mem_singleton,
      forall_eq] at h
    have := hm t0 t1 h.1.le
    simp; linarith
  | (c, a, b) :: hist, t0, t1, h => by
    have h' : (t0 :: a :: b :: (points hist ++ [t1])).Pairwise (· < ·) := by
      simpa [points] using h
    rw [List.pairwise_cons, List.pairwise_cons] at h'
    have ih := telescope clk hm hist b t1 h'.2.2
    have := hm t0 a (h'.1 a (by simp)).le
    simp only [List.map_cons, List.sum_cons]
    linarith

theorem elapsed_hist (clk : ℕ → ℝ) (c : Clock) (hist : List Interval) :
    elapsed clk (startsOf c hist) (endsOf c hist) =
      ((hist.filter (fun i => i.1 = c)).map (fun i => clk i.2.2 - clk i.2.1)).sum := by
  unfold elapsed startsOf endsOf
  rw [List.zip_map', List.map_map]
  rfl

theorem sum_phases (clk : ℕ → ℝ) : ∀ (hist : List Interval), (∀ i ∈ hist, i.1 ≠ .all) →
    (([.initVecs, .lanczos, .filter, .qr, .rr, .resid] : List Clock).map
      (fun c => elapsed clk (startsOf c hist) (endsOf c hist))).sum =
    (hist.map (fun i => clk i.2.2 - clk i.2.1)).sum
  | [], _ => by simp [elapsed, startsOf]
  | (c, a, b) :: hist, h => by
    have ih := sum_phases clk hist (fun i hi => h i (by simp [hi]))
    have hc : c ≠ .all := h (c, a, b) (by simp)
    simp only [elapsed_hist, List.map_cons, List.map_nil, List.sum_cons, List.sum_nil] at ih ⊢
    rw [← ih]
    cases c <;> first | exact absurd rfl hc | (simp [List.filter_cons]; try ring)

theorem elapsed_nonneg (clk : ℕ → ℝ) (hm : ∀ a b, a ≤ b → clk a ≤ clk b) :
    ∀ (hist : List Interval) (t0 t1 : ℕ), (t0 :: (points hist ++ [t1])).Pairwise (· < ·) →
      ∀ c, 0 ≤ elapsed clk (startsOf c hist) (endsOf c hist)
  | [], _, _, _, _ => by simp [elapsed, startsOf]
  | (k, a, b) :: hist, t0, t1, h, c => by
    have h' : (t0 :: a :: b :: (points hist ++ [t1])).Pairwise (· < ·) := by
      simpa [points] using h
    rw [List.pairwise_cons, List.pairwise_cons] at h'
    have ih := elapsed_nonneg clk hm hist b t1 h'.2.2 c
    have := hm a b (h'.2.1 b (by simp)).le
    rw [elapsed_hist] at ih ⊢
    by_cases e : k = c
    · simp [List.filter_cons, e]; linarith
    · simp [List.filter_cons, e]; linarith

/-- **C40** With a clock that never runs backwards no reported time is negative, and the times of the
phases together do not exceed the time of the whole solve. -/
theorem C40_phases_within_total (P : Plat R) (hP : PermutesIndices P) (ops : Chase R S)
    (cfg : Config R) (np : ℕ) (ritzv0 resid0 : ℕ → R) (s : S) (p0 : Data ℝ)
    (out : Outcome R (S × Data ℝ))
    (h : solve P (decorate np ops) cfg ritzv0 resid0 (s, p0) = .ok out)
    (hsym : cfg.symCheck = true → (ops.checkSymmetryEasy s).1 = true)
    (clk : ℕ → ℝ) (hm : ∀ a b, a ≤ b → clk a ≤ clk b) (ratio N : ℕ) :
    ∃ tab p, out.be.2.print clk ratio N = .ok (tab, p) ∧
      (∃ total phases, tab.timings = total :: phases ∧ phases.sum ≤ total) ∧
      (∀ t ∈ tab.timings, 0 ≤ t) := by
  obtain ⟨tab, p, h1, -, -, -, h2⟩ := C40_print_first P hP ops cfg np ritzv0 resid0 s p0 out h hsym
    clk ratio N
  obtain ⟨t0, t1, hist, g1, g2, g3, g4, g5, -⟩ :=
    C40_clocks_balanced P hP ops cfg np ritzv0 resid0 s p0 out h hsym
  have e0 : elapsed clk (out.be.2.starts .all) (out.be.2.ends .all) = clk t1 - clk t0 := by
    rw [g1, g2]; simp [elapsed]
  have e1 : ∀ c, c ≠ .all → elapsed clk (out.be.2.starts c) (out.be.2.ends c) =
      elapsed clk (startsOf c hist) (endsOf c hist) := fun c hc => by rw [(g4 c hc).1, (g4 c hc).2]
  refine ⟨tab, p, h1, ⟨_, _, h2, ?_⟩, ?_⟩
  · show _ ≤ elapsed clk (out.be.2.starts .all) (out.be.2.ends .all)
    rw [e0]
    refine le_trans (le_of_eq ?_) (telescope clk hm hist t0 t1 g3)
    rw [← sum_phases clk hist g5]
    simp [e1]
  · intro t ht
    rw [h2] at ht
    obtain ⟨c, -, rfl⟩ := List.mem_map.1 ht
    by_cases hc : c = .all
    · subst hc
      rw [e0]
      have : t0 < t1 := (List.pairwise_cons.1 g3).1 t1 (by simp)
      have := hm t0 t1 this.le
      linarith
    · rw [e1 c hc]
      exact elapsed_nonneg clk hm hist t0 t1 g3 c

/-- **C40** (negative) Printing is not repeatable: after every solve, the second `print` reports twice
the times of the first (`calculateTimings` adds to the sums of the first), so with a clock that
advances the two tables differ. -/
theorem C40_print_refuted (P : Plat R) (hP : PermutesIndices P) (ops : Chase R S)
    (cfg : Config R) (np : ℕ) (ritzv0 resid0 : ℕ → R) (s : S) (p0 : Data ℝ)
    (out : Outcome R (S × Data ℝ))
    (h : solve P (decorate np ops) cfg ritzv0 resid0 (s, p0) = .ok out)
    (hsym : cfg.symCheck = true → (ops.checkSymmetryEasy s).1 = true)
    (clk : ℕ → ℝ) (hm : ∀ a b, a < b → clk a < clk b) (ratio N : ℕ) :
    ∃ tab p tab' p', out.be.2.print clk ratio N = .ok (tab, p) ∧
      p.print clk ratio N = .ok (tab', p') ∧
      tab'.timings = tab.timings.map (fun t => 2 * t) ∧ tab'.timings ≠ tab.timings := by
  obtain ⟨out', h1, h2⟩ := done_of_solve hP h hsym
  obtain ⟨t0, t1, hist, g1, g2, g3, -⟩ := h2.clocks
  have e2 : (clocks.map (fun c => (out.be.2.timings c +
        elapsed clk (out.be.2.starts c) (out.be.2.ends c)) +
        elapsed clk (out.be.2.starts c) (out.be.2.ends c))) =
      (clocks.map (fun c => out.be.2.timings c +
        elapsed clk (out.be.2.starts c) (out.be.2.ends c))).map (fun t => 2 * t) := by
    rw [List.map_map, h2.zero]
    congr 1
    funext c
    simp only [Function.comp]
    ring
  refine ⟨_, _, _, _, print_eq clk ratio N np _ h2.lengths h2.procs,
    print_eq clk ratio N np _ h2.lengths h2.procs, e2, ?_⟩
  dsimp only
  rw [e2]
  intro hc
  have hlt := hm t0 t1 ((List.pairwise_cons.1 g3).1 t1 (by simp))
  have e0 : elapsed clk (out.be.2.starts .all) (out.be.2.ends .all) = clk t1 - clk t0 := by
    rw [g1, g2]; simp [elapsed]
  have h3 := congrArg List.head? hc
  simp only [clocks, List.map_cons, List.head?_cons, Option.some.injEq, e0, h2.zero] at h3
  linarith

/-- **C40** (negative) `print` before the first solve, also after a solve refused by the symmetry
check, reads the uninitialised number of processes. -/
theorem C40_print_before_solve [AddCommGroup D] (clk : ℕ → D) (ratio N tick : ℕ) :
    (Data.new tick : Data D).print clk ratio N = .error .uninit := by
  simp [Data.print, Data.new, clocks, addClocks, addPoints]

/-- Non-vacuity: the clocks of a run of two rounds. -/
example : Toy.okAnd (fun out => out.be.2.starts .all == [7] && out.be.2.ends .all == [32] &&
      out.be.2.starts .filter == [16, 24] && out.be.2.ends .filter == [17, 25] &&
      out.be.2.ends .lanczos == [13, 15])
    (solve Toy.plat (decorate (D := ℚ) 4 (Toy.ops Toy.vals1 Toy.res1 true)) Toy.cfg1 (fun _ => 0)
      (fun _ => 0) (Toy.start, Data.new 7)) = true := by
  rw [Toy.solve_eq_solveE]; decide +kernel

/-! ### C58: operation counts -/

/-- Operations of one round on a block of `b` vectors as documented in the comments of `get_flops`:
Cholesky QR, Rayleigh-Ritz, residuals. -/
def roundFlops (N b : ℕ) : ℕ :=
  (2 * N * b ^ 2 + 2 * b ^ 3 + 2 * N * b ^ 2) +          -- QR
  (2 * N ^ 2 * b + 2 * N * b ^ 2 + 4 * b ^ 3 + 2 * N * b ^ 2) +  -- RR
  (2 * N ^ 2 * b + 3 * N * b + N * b)                       -- residuals

theorem foldl_flops (N : ℕ) : ∀ (l : List ℕ) (a : ℕ),
    l.foldl (flopsStep N) a = a + (l.map (roundFlops N)).sum
  | [], a => by simp
  | b :: l, a => by
    rw [List.foldl_cons, foldl_flops N l, List.map_cons, List.sum_cons]
    unfold flopsStep roundFlops
    ring

/-- **C58** The reported operation count is the sum over the rounds plus `2 N²` operations per filtered
vector, four times as many for complex scalars, in units of 10^9 rounded down. -/
theorem C58_flops (p : Data D) (ratio N : ℕ) :
    p.getFlops ratio N =
      4 ^ (ratio - 1) * ((p.blocksizes.map (roundFlops N)).sum + 2 * N ^ 2 * p.filteredVecs) / 10 ^ 9 := by
  unfold Data.getFlops factor
  dsimp only
  rw [foldl_flops]
  congr 1
  ring

/-- **C58** The operations of the filter never exceed all operations. -/
theorem C58_filter_within_all (p : Data D) (ratio N : ℕ) :
    p.getFilterFlops ratio N ≤ p.getFlops ratio N := by
  rw [C58_flops]
  unfold Data.getFilterFlops factor
  refine Nat.div_le_div_right ?_
  rw [mul_add]
  refine le_trans (le_of_eq ?_) (Nat.le_add_left _ _)
  ring

/-- Non-vacuity. -/
example : (({ Data.new 0 with blocksizes := [100, 60], filteredVecs := 2000 } : Data ℚ).getFlops 2 10000,
    ({ Data.new 0 with blocksizes := [100, 60], filteredVecs := 2000 } : Data ℚ).getFilterFlops 2 10000)
    = (1860, 1600) := by decide +kernel

end Verif.Perf
