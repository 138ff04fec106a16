/-
Properties C46, C47 and C59: the kernels of the GPU backends, for every schedule of the threads.

`Runs K mem mem'` says that `mem'` is the memory after some complete schedule of the kernel `K` started with
memory `mem`; `RunsAll` is the same for several launches in one stream.
-/
import Verif.Gpu.ReduceProof
import Verif.Dist.FileProps
import Mathlib.Order.Bounds.Basic
import Mathlib.Algebra.Order.Group.Int

namespace Verif
namespace Gpu
open Finset

section
variable {V : Type*}

/-! ### C46: reductions -/

theorem reduceOnly_raceFree [AddCommMonoid V] (op : V → V → V) (n blocks : ℕ) :
    RaceFree (reduceOnly op n blocks) := by
  have cases : ∀ b, ∀ ph ∈ (reduceOnly op n blocks).body b, ∃ s, ph = reducePhase op n b s := by
    intro b ph hph
    obtain ⟨s, -, rfl⟩ := List.mem_map.1 hph
    exact ⟨s, rfl⟩
  refine raceFree_of (fun a => match a with
    | .sh b _ => b
    | _ => 0) (fun _ => False) ?_ ?_ ?_
  · intro b _ ph hph
    obtain ⟨s, rfl⟩ := cases b ph hph
    exact reducePhase_pairwise op n b s
  · intro b _ ph hph x hx y hy hxy
    obtain ⟨s, rfl⟩ := cases b ph hph
    obtain ⟨i, h1, h2, rfl⟩ := reducePhase_mem hx
    obtain ⟨j, h3, h4, rfl⟩ := reducePhase_mem hy
    rcases List.mem_cons.1 hxy with h | h
    · exact h
    · have h := List.mem_singleton.1 h
      injection h with _ h
      omega
  · intro b _ ph hph x hx
    obtain ⟨s, rfl⟩ := cases b ph hph
    obtain ⟨i, h1, h2, rfl⟩ := reducePhase_mem hx
    refine ⟨rfl, id, fun a ha => .inr ?_⟩
    rcases List.mem_cons.1 ha with rfl | ha
    · rfl
    · rw [List.mem_singleton.1 ha]

theorem reduceOnly_value [AddCommMonoid V] (op : V → V → V) {n blocks : ℕ} {mem mem' : Cell → V}
    (h : Runs (reduceOnly op n blocks) mem mem') {b : ℕ} (hb : b < blocks) :
    mem' (.sh b 0) = stages op n (halvings 10) (fun t => mem (.sh b t)) 0 := by
  obtain ⟨h1, h2⟩ := runs_unique (reduceOnly_raceFree op n blocks) h
  have e : runBlock ((reduceOnly op n blocks).body b) mem (.sh b 0) =
      stages op n (halvings 10) (fun t => mem (.sh b t)) 0 := by
    rw [← runBlock_reduce op n b (halvings 10), halvings_ten]
    rfl
  by_cases hw : WritesCell (reduceOnly op n blocks) b (.sh b 0)
  · rw [h1 b hb _ hw, e]
  · rw [h2 _ fun b' hb' hw' => ?_, ← e]
    · have : ∀ (l : List (List (Job Cell V))) (m : Cell → V), (∀ ph ∈ l, ∀ x ∈ ph, x.dst ≠ .sh b 0) →
          runBlock l m (.sh b 0) = m (.sh b 0) := by
        intro l
        induction l with
        | nil => intro m _; rfl
        | cons ph l ih =>
          intro m hl
          show runBlock l (runPhase ph m) _ = _
          rw [ih _ fun ph' h' => hl ph' (List.mem_cons_of_mem _ h'), runPhase_not_mem (hl ph List.mem_cons_self)]
      exact (this _ _ fun ph hph x hx hxa => hw ⟨ph, hph, x, hx, hxa⟩).symm
    · obtain ⟨ph, hph, x, hx, hxa⟩ := hw'
      obtain ⟨s, -, rfl⟩ := List.mem_map.1 hph
      obtain ⟨i, h3, h4, rfl⟩ := reducePhase_mem hx
      injection hxa with e1 e2
      subst e1
      exact hw ⟨_, hph, _, hx, by rw [e2]⟩

/-- **C46**, sum: whatever the schedule, thread 0 finds the sum of the values of all threads, for every block of at
most 2048 threads (CUDA allows 1024). -/
theorem C46_sum_reduce [AddCommMonoid V] {n blocks : ℕ} (hn : 0 < n) (hle : n ≤ 2048) {mem mem' : Cell → V}
    (h : Runs (reduceOnly (· + ·) n blocks) mem mem') {b : ℕ} (hb : b < blocks) :
    mem' (.sh b 0) = ∑ t ∈ range n, mem (.sh b t) := by
  have := sum_stages n 10 fun t => mem (.sh b t)
  rw [show min 1 n = 1 by omega, Finset.sum_range_one, show min (2 ^ (10 + 1)) n = n by omega] at this
  rw [reduceOnly_value _ h hb, this]

/-- **C46**, maximum: thread 0 finds the greatest of the values of the threads. -/
theorem C46_max_reduce [AddCommMonoid V] [LinearOrder V] {n blocks : ℕ} (hn : 0 < n) (hle : n ≤ 2048)
    {mem mem' : Cell → V} (h : Runs (reduceOnly max n blocks) mem mem') {b : ℕ} (hb : b < blocks) :
    IsGreatest {v | ∃ t < n, v = mem (.sh b t)} (mem' (.sh b 0)) := by
  obtain ⟨h1, h2⟩ := max_stages n 10 fun t => mem (.sh b t)
  rw [show min 1 n = 1 by omega, show min (2 ^ (10 + 1)) n = n by omega] at h1 h2
  rw [reduceOnly_value _ h hb]
  refine ⟨h2 0 (by omega), ?_⟩
  rintro v ⟨t, ht, rfl⟩
  obtain ⟨j, hj, hle⟩ := h1 t ht
  obtain rfl : j = 0 := by omega
  exact hle

/-- **C46**: the reduction always ends; no schedule deadlocks at a barrier. -/
theorem C46_reduce_ends [AddCommMonoid V] (op : V → V → V) (n blocks : ℕ) (mem : Cell → V) :
    ∃ mem', Runs (reduceOnly op n blocks) mem mem' := runs_exists (reduceOnly_raceFree op n blocks) mem

/-- The bound on the block size is needed: with more than 2048 threads the values of the threads from 2048 on are
lost. -/
theorem C46_sum_reduce_limit [AddCommMonoid V] {n blocks : ℕ} (hn : 2048 < n) {mem mem' : Cell → V}
    (h : Runs (reduceOnly (· + ·) n blocks) mem mem') {b : ℕ} (hb : b < blocks) :
    mem' (.sh b 0) = ∑ t ∈ range 2048, mem (.sh b t) := by
  have := sum_stages n 10 fun t => mem (.sh b t)
  rw [show min 1 n = 1 by omega, Finset.sum_range_one, show min (2 ^ (10 + 1)) n = 2048 by omega] at this
  rw [reduceOnly_value _ h hb, this]

example : ∃ mem', Runs (reduceOnly (V := ℕ) (· + ·) 300 2) (fun a => match a with
    | .sh b t => b * 1000 + t
    | _ => 0) mem' ∧ mem' (.sh 1 0) = ∑ t ∈ range 300, (1000 + t) := by
  obtain ⟨mem', h⟩ := C46_reduce_ends (V := ℕ) (· + ·) 300 2 (fun a => match a with
    | .sh b t => b * 1000 + t
    | _ => 0)
  exact ⟨mem', h, by rw [C46_sum_reduce (by decide) (by decide) h (by decide : 1 < 2)]⟩

/-- **C46**, strided loops: the threads of a block together visit every element of the vector exactly once, for
every number of threads and every length. -/
theorem C46_strided_once {threads : ℕ} (ht : 0 < threads) (m : ℕ) :
    ((List.range threads).flatMap fun t => strided threads m m t).Perm (List.range m) := strided_perm ht m

example : (List.range 3).flatMap (fun t => strided 3 8 8 t) = [0, 3, 6, 1, 4, 7, 2, 5] := by decide

theorem residuals_eq [AddCommMonoid V] (term : V → V → V → V) (root : V → V) (m n lda : ℕ) :
    residuals term root m n lda = reduceKernel (· + ·) nbx n (fun b tx =>
      ⟨.ritz b :: (strided nbx m m tx).flatMap fun i => [.A (b * lda + i), .B (b * lda + i)], .sh b tx,
        fun vs => accumulate term (vs.getD 0 0) vs.tail 0⟩) root := rfl

theorem residuals_reads (m lda b t : ℕ) (a : Cell)
    (ha : a ∈ Cell.ritz b :: (strided nbx m m t).flatMap fun i => [Cell.A (b * lda + i), Cell.B (b * lda + i)]) :
    Input a := by
  rcases List.mem_cons.1 ha with rfl | ha
  · trivial
  · obtain ⟨i, -, ha⟩ := List.mem_flatMap.1 ha
    simp only [List.mem_cons, List.not_mem_nil, or_false] at ha
    rcases ha with rfl | rfl <;> trivial

theorem residuals_value [AddCommMonoid V] {term : V → V → V → V} {root : V → V} {m n lda : ℕ}
    {mem mem' : Cell → V} (h : Runs (residuals term root m n lda) mem mem') :
    (∀ b < n, mem' (.out b) = root (∑ i ∈ range m,
      term (mem (.A (b * lda + i))) (mem (.B (b * lda + i))) (mem (.ritz b)))) ∧
    ∀ b, n ≤ b → mem' (.out b) = mem (.out b) := by
  rw [residuals_eq] at h
  obtain ⟨h1, -, h3⟩ := reduceKernel_out (fun b t => rfl) (fun b t => residuals_reads m lda b t) h
  refine ⟨fun b hb => ?_, h3⟩
  obtain ⟨x, hx, he⟩ := h1 b hb
  have := sum_stages nbx 10 x
  rw [show min 1 nbx = 1 by decide, Finset.sum_range_one, show min (2 ^ (10 + 1)) nbx = nbx by decide] at this
  rw [he, this, ← sum_strided (step := nbx) (by decide) m]
  congr 1
  refine Finset.sum_congr rfl fun t ht => ?_
  rw [hx t (mem_range.1 ht)]
  show accumulate term (mem (.ritz b)) (((strided nbx m m t).flatMap _).map mem) 0 = _
  rw [List.map_flatMap]
  exact (accumulate_eq term _ (fun i => mem (.A (b * lda + i))) (fun i => mem (.B (b * lda + i))) _ 0).trans
    (zero_add _)

/-- **C46**, residuals: whatever the schedule, the residual of column `b` is computed from every element of column
`b` of both arrays, each exactly once, and the corresponding Ritz value; nothing is written for other columns.
Missing for the full statement: leading dimensions of the two arrays that differ, see `C46_residual_ldb_refuted`
(all callers pass the same one), and vectors too large for 32-bit indices. -/
theorem C46_residual_partial [AddCommMonoid V] {term : V → V → V → V} {root : V → V} {m n lda ldb : ℕ}
    (hld : ldb = lda) {K : Kernel Cell V} (hK : residualGpu term root m n lda ldb = .ok K) {mem mem' : Cell → V}
    (h : Runs K mem mem') :
    (∀ b < n, mem' (.out b) = root (∑ i ∈ range m,
      term (mem (.A (b * lda + i))) (mem (.B (b * ldb + i))) (mem (.ritz b)))) ∧
    ∀ b, n ≤ b → mem' (.out b) = mem (.out b) := by
  unfold residualGpu at hK
  split_ifs at hK
  injection hK with hK
  subst hK
  subst hld
  exact residuals_value h

/-- The kernel always ends. -/
theorem C46_residual_ends [AddCommMonoid V] (term : V → V → V → V) (root : V → V) (m n lda : ℕ)
    (mem : Cell → V) : ∃ mem', Runs (residuals term root m n lda) mem mem' := by
  rw [residuals_eq]
  exact runs_exists (reduceKernel_raceFree (fun b t => rfl) fun b t => residuals_reads m lda b t) mem

example : ∃ (K : Kernel Cell ℤ) (mem' : Cell → ℤ),
    residualGpu (fun a b lam => (a - lam * b) ^ 2) id 1000 20 1000 1000 = .ok K ∧
      Runs K (fun a => match a with
        | .A i => i
        | .ritz i => i
        | _ => 1) mem' ∧ mem' (.out 7) = ∑ i ∈ range 1000, ((7 * 1000 + i : ℕ) - 7 * 1 : ℤ) ^ 2 := by
  obtain ⟨mem', h⟩ := C46_residual_ends (V := ℤ) (fun a b lam => (a - lam * b) ^ 2) id 1000 20 1000 (fun a => match a with
        | .A i => i
        | .ritz i => i
        | _ => 1)
  refine ⟨_, mem', if_pos (by decide), h, ?_⟩
  rw [(C46_residual_partial rfl (if_pos (by decide)) h).1 7 (by decide)]
  rw [id]
  refine Finset.sum_congr rfl fun i _ => ?_
  norm_num

/-- The offset of a column is an `unsigned int` and the index of a row, which grows in steps of 256, an `int`: the
residuals are defined exactly if the last column begins before 2^32 and a column is shorter than 2^31 - 256. -/
theorem C46_residual_overflow [AddCommMonoid V] (term : V → V → V → V) (root : V → V) {m n lda : ℕ} (ldb : ℕ) :
    residualGpu term root m n lda ldb = .error .overflow ↔ 4294967296 ≤ (n - 1) * lda ∨ 2147483648 - 256 ≤ m := by
  unfold residualGpu
  by_cases h : m + nbx ≤ intMax ∧ (n - 1) * lda ≤ 2 * intMax + 1
  · rw [if_pos h]
    refine ⟨fun h' => (by cases h'), fun h' => ?_⟩
    unfold nbx intMax at h
    omega
  · rw [if_neg h]
    refine ⟨fun _ => ?_, fun _ => rfl⟩
    unfold nbx intMax at h
    omega

example : 4294967296 ≤ (4296 - 1) * 1000001 := by decide

/-- With different leading dimensions the kernel reads the wrong column of the second array: `ldb` is an argument
but not used. -/
theorem C46_residual_ldb_refuted : ∃ (K : Kernel Cell ℤ) (mem mem' : Cell → ℤ),
    residualGpu (fun a b lam => (a - lam * b) ^ 2) id 1 2 1 2 = .ok K ∧ Runs K mem mem' ∧
      mem' (.out 1) ≠ ∑ i ∈ range 1, (mem (.A (1 * 1 + i)) - mem (.ritz 1) * mem (.B (1 * 2 + i))) ^ 2 := by
  obtain ⟨mem', h⟩ := C46_residual_ends (V := ℤ) (fun a b lam => (a - lam * b) ^ 2) id 1 2 1 (fun a => match a with
        | .B 2 => 1
        | .ritz _ => 1
        | _ => 0)
  refine ⟨_, _, mem', if_pos (by decide), h, ?_⟩
  rw [(residuals_value h).1 1 (by decide)]
  decide

theorem absTrace_eq [AddCommMonoid V] (abs : V → V) (n ld : ℕ) :
    absTrace abs n ld = reduceKernel (· + ·) nbx ((n + nbx - 1) / nbx) (fun b tx =>
      if tx + b * nbx < n then
        ⟨[.A ((tx + b * nbx) * ld + (tx + b * nbx))], .sh b tx, fun vs => abs (vs.getD 0 0)⟩
      else ⟨[], .sh b tx, fun _ => 0⟩) id := rfl

theorem absTrace_dst [AddCommMonoid V] (abs : V → V) (n ld b tx : ℕ) :
    (if tx + b * nbx < n then
        (⟨[.A ((tx + b * nbx) * ld + (tx + b * nbx))], .sh b tx, fun vs => abs (vs.getD 0 0)⟩ : Job Cell V)
      else ⟨[], .sh b tx, fun _ => 0⟩).dst = .sh b tx := by
  split_ifs <;> rfl

theorem absTrace_reads [AddCommMonoid V] (abs : V → V) (n ld b tx : ℕ) (a : Cell)
    (ha : a ∈ (if tx + b * nbx < n then
        (⟨[.A ((tx + b * nbx) * ld + (tx + b * nbx))], .sh b tx, fun vs => abs (vs.getD 0 0)⟩ : Job Cell V)
      else ⟨[], .sh b tx, fun _ => 0⟩).reads) : Input a := by
  split_ifs at ha
  · rw [List.mem_singleton.1 ha]
    trivial
  · exact absurd ha List.not_mem_nil

theorem absTrace_raceFree [AddCommMonoid V] (abs : V → V) (n ld : ℕ) : RaceFree (absTrace abs n ld) := by
  rw [absTrace_eq]
  exact reduceKernel_raceFree (absTrace_dst abs n ld) (absTrace_reads abs n ld)

theorem sum_blocks [AddCommMonoid V] (k : ℕ) (f : ℕ → V) (B : ℕ) :
    ∑ b ∈ range B, ∑ t ∈ range k, f (t + b * k) = ∑ i ∈ range (B * k), f i := by
  induction B with
  | zero => simp
  | succ B ih =>
    rw [Finset.sum_range_succ, ih, Nat.succ_mul, Finset.sum_range_add]
    congr 1
    exact Finset.sum_congr rfl fun i _ => by rw [Nat.add_comm]

theorem absTrace_sum [AddCommMonoid V] {abs : V → V} {n ld : ℕ} {mem mem' : Cell → V}
    (h : Runs (absTrace abs n ld) mem mem') :
    ∑ b ∈ range (absTrace abs n ld).blocks, mem' (.out b) = ∑ i ∈ range n, abs (mem (.A (i * ld + i))) := by
  have hblocks : (absTrace abs n ld).blocks = (n + nbx - 1) / nbx := rfl
  rw [hblocks]
  rw [absTrace_eq] at h
  obtain ⟨h1, -, -⟩ := reduceKernel_out (absTrace_dst abs n ld) (absTrace_reads abs n ld) h
  have e : ∀ b ∈ range ((n + nbx - 1) / nbx), mem' (.out b) = ∑ t ∈ range nbx,
      if t + b * nbx < n then abs (mem (.A ((t + b * nbx) * ld + (t + b * nbx)))) else 0 := by
    intro b hb
    obtain ⟨x, hx, he⟩ := h1 b (mem_range.1 hb)
    have := sum_stages nbx 10 x
    rw [show min 1 nbx = 1 by decide, Finset.sum_range_one, show min (2 ^ (10 + 1)) nbx = nbx by decide] at this
    rw [he]
    show stages _ _ _ _ _ = _
    rw [this]
    refine Finset.sum_congr rfl fun t ht => ?_
    rw [hx t (mem_range.1 ht)]
    split_ifs <;> rfl
  rw [Finset.sum_congr rfl e, sum_blocks nbx fun i => if i < n then abs (mem (.A (i * ld + i))) else 0,
    ← Finset.sum_filter]
  refine Finset.sum_congr ?_ fun _ _ => rfl
  ext i
  simp only [mem_filter, mem_range]
  unfold nbx
  omega

/-- The result of the sum of the absolute values of the diagonal, for every order of the atomic additions: what was
in the memory of the result before is added. -/
theorem absSum_value [AddCommMonoid V] {abs : V → V} {n ld : ℕ} {mem : Cell → V} {old sum : V}
    (h : DiagonalAbsSum abs n ld mem old sum) : sum = old + ∑ i ∈ range n, abs (mem (.A (i * ld + i))) := by
  obtain ⟨K, mem', hK, hr, order, hp, rfl⟩ := h
  unfold absTraceGpu at hK
  split_ifs at hK
  injection hK with hK
  subst hK
  rw [← absTrace_sum hr]
  have : ∀ (l : List ℕ) (s : V), atomicAdds mem' l s = s + (l.map fun b => mem' (.out b)).sum := by
    intro l
    induction l with
    | nil => intro s; exact (add_zero s).symm
    | cons b l ih =>
      intro s
      show atomicAdds mem' l (s + mem' (.out b)) = _
      rw [ih, List.map_cons, List.sum_cons, add_assoc]
  rw [this, (hp.map _).sum_eq, list_sum_range]

/-- **C46**, trace: if the memory of the result contains zero before the call, the result is the sum of the absolute
values of the `n` diagonal entries, each counted once, for every schedule of the threads and every order of the
atomic additions.  Missing: nothing sets that memory to zero, see `C46_trace_refuted`. -/
theorem C46_trace_partial [AddCommMonoid V] {abs : V → V} {n ld : ℕ} {mem : Cell → V} {sum : V}
    (h : DiagonalAbsSum abs n ld mem 0 sum) : sum = ∑ i ∈ range n, abs (mem (.A (i * ld + i))) := by
  rw [absSum_value h, zero_add]

theorem absSum_exists [AddCommMonoid V] (abs : V → V) {n ld : ℕ} (hn : n + nbx ≤ intMax)
    (hld : (n - 1) * ld + (n - 1) ≤ intMax) (mem : Cell → V) (old : V) :
    ∃ sum, DiagonalAbsSum abs n ld mem old sum := by
  obtain ⟨mem', h⟩ := runs_exists (absTrace_raceFree abs n ld) mem
  exact ⟨_, _, mem', if_pos ⟨hn, hld⟩, h, _, List.Perm.refl _, rfl⟩

example : ∃ sum, DiagonalAbsSum (V := ℤ) (fun x => |x|) 1000 1000 (fun a => match a with
    | .A i => -i
    | _ => 0) 0 sum ∧ sum = ∑ i ∈ range 1000, |-((i * 1000 + i : ℕ) : ℤ)| := by
  obtain ⟨sum, h⟩ := absSum_exists (V := ℤ) (fun x => |x|) (n := 1000) (ld := 1000) (by decide) (by decide)
    (fun a => match a with
      | .A i => -i
      | _ => 0) 0
  exact ⟨sum, h, (C46_trace_partial h).trans (Finset.sum_congr rfl fun i _ => rfl)⟩

/-- The index of a diagonal entry is an `int`: if the last one is 2^31 or more, the sum is not defined. -/
theorem C46_trace_overflow [AddCommMonoid V] (abs : V → V) {n ld : ℕ} (h : 2147483648 ≤ (n - 1) * ld + (n - 1))
    (mem : Cell → V) (old : V) : ¬ ∃ sum, DiagonalAbsSum abs n ld mem old sum := by
  rintro ⟨sum, K, mem', hK, -⟩
  unfold absTraceGpu at hK
  split_ifs at hK with h1
  have := h1.2
  unfold intMax at this
  omega

example : 2147483648 ≤ (46341 - 1) * 46341 + (46341 - 1) := by decide

/-- The multi-GPU backend uses the same memory for the result of every call: the second result contains the first
one, so that the second call returns twice the sum even if the memory is zero at the beginning. -/
theorem C46_trace_refuted : ∃ (mem : Cell → ℤ) (first second : ℤ),
    DiagonalAbsSum (fun x => |x|) 2 2 mem 0 first ∧ DiagonalAbsSum (fun x => |x|) 2 2 mem first second ∧
      first = ∑ i ∈ range 2, |mem (.A (i * 2 + i))| ∧ second ≠ ∑ i ∈ range 2, |mem (.A (i * 2 + i))| := by
  obtain ⟨s1, h1⟩ := absSum_exists (V := ℤ) (fun x => |x|) (n := 2) (ld := 2) (by decide) (by decide) (fun _ => 1) 0
  obtain ⟨s2, h2⟩ := absSum_exists (V := ℤ) (fun x => |x|) (n := 2) (ld := 2) (by decide) (by decide) (fun _ => 1) s1
  refine ⟨fun _ => 1, s1, s2, h1, h2, C46_trace_partial h1, ?_⟩
  rw [absSum_value h2, C46_trace_partial h1]
  decide

/-! ### C47: copy -/

/-- **C47**, copy: whatever the schedule, every entry of the `m x n` region is copied and nothing else is written,
for all sizes and leading dimensions.  Missing for the full statement: numbers of rows or columns that are multiples
of the super block of `65535 * 64 = 4194240`, see `C47_copy_refuted`, and matrices too large for 32-bit indices, see
`C47_copy_overflow`. -/
theorem C47_copy_partial [Zero V] {m n ldda lddb : ℕ} (hm : m % 4194240 ≠ 0) (hn : n % 4194240 ≠ 0)
    (hld : m ≤ lddb) {Ks : List (Kernel Cell V)} (hK : lacpyGpu 'A' m n ldda lddb = .ok Ks) {mem mem' : Cell → V}
    (h : RunsAll Ks mem mem') :
    (∀ r < m, ∀ c < n, mem' (.out (r + c * lddb)) = mem (.A (r + c * ldda))) ∧
    ∀ a, (∀ r < m, ∀ c < n, a ≠ .out (r + c * lddb)) → mem' a = mem a := by
  unfold lacpyGpu at hK
  split_ifs at hK
  injection hK with hK
  subst hK
  obtain ⟨h1, h2⟩ := launches_spec (by decide) 'A' hld h
  have em : cut superNB m = m := if_neg hm
  have en : cut superNB n = n := if_neg hn
  rw [em, en] at h1 h2
  refine ⟨fun r hr c hc => ?_, fun a ha => h2 a fun r c hr hc => ha r hr c hc⟩
  rw [h1 r c hr hc, if_pos ⟨fun h => absurd h (by decide), fun h => absurd h (by decide)⟩]

/-- The launches always end. -/
theorem C47_copy_ends [Zero V] (uplo : Char) {m n ldda lddb : ℕ} (hld : m ≤ lddb) {Ks : List (Kernel Cell V)}
    (hK : lacpyGpu uplo m n ldda lddb = .ok Ks) (mem : Cell → V) : ∃ mem', RunsAll Ks mem mem' := by
  unfold lacpyGpu at hK
  split_ifs at hK
  injection hK with hK
  subst hK
  exact runsAll_exists (fun K hK => launches_raceFree (by decide) uplo hld hK) mem

example : ∃ (Ks : List (Kernel Cell ℕ)) (mem' : Cell → ℕ), lacpyGpu 'A' 1000 70 1200 1000 = .ok Ks ∧
    RunsAll Ks (fun a => match a with
      | .A i => i + 1
      | _ => 0) mem' ∧ mem' (.out (999 + 69 * 1000)) = 999 + 69 * 1200 + 1 := by
  obtain ⟨mem', h⟩ := C47_copy_ends (V := ℕ) 'A' (m := 1000) (n := 70) (ldda := 1200) (lddb := 1000) (by decide)
    (if_pos (by decide)) (fun a => match a with
      | .A i => i + 1
      | _ => 0)
  refine ⟨_, mem', if_pos (by decide), h, ?_⟩
  rw [(C47_copy_partial (by decide) (by decide) (by decide) (if_pos (by decide)) h).1 999 (by decide) 69 (by decide)]

/-- Indices of 2^31 or more do not fit: exactly the copies whose last entry, or whose last row or column rounded up to
a super block, is there are not defined. -/
theorem C47_copy_overflow [Zero V] (uplo : Char) {m n ldda lddb : ℕ} :
    (lacpyGpu uplo m n ldda lddb : Except Err (List (Kernel Cell V))) = .error .overflow ↔
      2147483648 ≤ m + 4194240 ∨ 2147483648 ≤ n + 4194240 ∨ 2147483648 ≤ m + n * ldda ∨
        2147483648 ≤ m + n * lddb := by
  unfold lacpyGpu
  have e : superNB = 4194240 := by decide
  split
  · next h =>
    unfold intMax at h
    constructor
    · intro h'; cases h'
    · omega
  · next h =>
    unfold intMax at h
    refine ⟨fun _ => ?_, fun _ => rfl⟩
    omega

example : 2147483648 ≤ 30000 + 100000 * 30000 := by decide

/-- If the number of rows is exactly the super block, the call succeeds and copies nothing. -/
theorem C47_copy_refuted [Zero V] {mem mem' : Cell → V} : ∃ Ks : List (Kernel Cell V),
    lacpyGpu 'A' 4194240 1 4194240 4194240 = .ok Ks ∧ (RunsAll Ks mem mem' → mem' = mem) := by
  refine ⟨_, if_pos (by decide), fun h => funext fun a => ?_⟩
  refine (launches_spec (by decide) 'A' (le_refl _) h).2 a fun r c hr _ => ?_
  have e : cut superNB 4194240 = 0 := by decide
  rw [e] at hr
  exact absurd hr (Nat.not_lt_zero r)

/-- The copies of a triangle are interchanged: `'U'` copies the entries on and *below* the diagonal and sets the
others to zero, `'L'` those on and above. -/
theorem C47_triangles_interchanged [Zero V] {m n ldda lddb : ℕ} (hm : m < 4194240) (hn : n < 4194240)
    (hld : m ≤ lddb) {Us Ls : List (Kernel Cell V)} (hU : lacpyGpu 'U' m n ldda lddb = .ok Us)
    (hL : lacpyGpu 'L' m n ldda lddb = .ok Ls) {mem memU memL : Cell → V} (hu : RunsAll Us mem memU)
    (hl : RunsAll Ls mem memL) {r c : ℕ} (hr : r < m) (hc : c < n) :
    memU (.out (r + c * lddb)) = (if c ≤ r then mem (.A (r + c * ldda)) else 0) ∧
    memL (.out (r + c * lddb)) = if r ≤ c then mem (.A (r + c * ldda)) else 0 := by
  unfold lacpyGpu at hU hL
  split_ifs at hU hL
  injection hU with hU
  injection hL with hL
  subst hU
  subst hL
  change m < superNB at hm
  change n < superNB at hn
  have em : cut superNB m = m := if_neg (by rw [Nat.mod_eq_of_lt hm]; omega)
  have en : cut superNB n = n := if_neg (by rw [Nat.mod_eq_of_lt hn]; omega)
  have e1 : r / superNB = 0 := Nat.div_eq_of_lt (lt_trans hr hm)
  have e2 : c / superNB = 0 := Nat.div_eq_of_lt (lt_trans hc hn)
  constructor
  · rw [(launches_spec (by decide) 'U' hld hu).1 r c (em.symm ▸ hr) (en.symm ▸ hc)]
    have : Keeps superNB 'U' r c ↔ c ≤ r := by
      unfold Keeps
      rw [e1, e2]
      simp
    simp only [this]
  · rw [(launches_spec (by decide) 'L' hld hl).1 r c (em.symm ▸ hr) (en.symm ▸ hc)]
    have : Keeps superNB 'L' r c ↔ r ≤ c := by
      unfold Keeps
      rw [e1, e2]
      simp
    simp only [this]

/-- The copy of the upper triangle does not copy the upper triangle. -/
theorem C47_upper_refuted : ∃ (Ks : List (Kernel Cell ℕ)) (mem mem' : Cell → ℕ), lacpyGpu 'U' 2 2 2 2 = .ok Ks ∧
    RunsAll Ks mem mem' ∧ mem (.A (0 + 1 * 2)) = 1 ∧ mem' (.out (0 + 1 * 2)) = 0 := by
  obtain ⟨mem', h⟩ := C47_copy_ends (V := ℕ) 'U' (m := 2) (n := 2) (ldda := 2) (lddb := 2) (by decide)
    (if_pos (by decide)) (fun _ => 1)
  obtain ⟨mem'', h'⟩ := C47_copy_ends (V := ℕ) 'L' (m := 2) (n := 2) (ldda := 2) (lddb := 2) (by decide)
    (if_pos (by decide)) (fun _ => 1)
  refine ⟨_, fun _ => 1, mem', if_pos (by decide), h, rfl, ?_⟩
  rw [(C47_triangles_interchanged (by decide) (by decide) (by decide) (if_pos (by decide)) (if_pos (by decide)) h h'
    (by decide : 0 < 2) (by decide : 1 < 2)).1]
  rfl

/-! ### C47: shift -/

/-- **C47**, shift of the matrix of the single-GPU backend: whatever the schedule, the shift is added to every
diagonal entry exactly once and nothing else changes.  Missing for the full statement: matrices of order 46341 or
more, see `C47_shift_overflow_refuted`. -/
theorem C47_shift_partial [Zero V] {add : V → V} {n : ℕ} {K : Kernel Cell V} (hK : shiftMatrixGpu add n = .ok K)
    {mem mem' : Cell → V} (h : Runs K mem mem') :
    (∀ r < n, ∀ c < n, mem' (.A (r + c * n)) = if r = c then add (mem (.A (r + c * n))) else mem (.A (r + c * n))) ∧
    ∀ a, (∀ r < n, ∀ c < n, a ≠ .A (r + c * n)) → mem' a = mem a := by
  unfold shiftMatrixGpu at hK
  split_ifs at hK
  injection hK with hK
  subst hK
  have hrest : ∀ a, (∀ i < n, a ≠ .A (i * n + i)) → mem' a = mem a := by
    intro a ha
    refine (runs_unique (shift_raceFree add n) h).2 a fun b hb hw => ?_
    obtain ⟨ph, hph, x, hx, hxa⟩ := hw
    obtain ⟨i, hi, -, rfl⟩ := shift_mem hph hx
    exact ha i hi hxa.symm
  constructor
  · intro r hr c hc
    split_ifs with hrc
    · subst hrc
      obtain ⟨hb, ph, hph, hx⟩ := shift_job (add := add) hr
      have := single_written (shift_raceFree add n) h hb hph hx
      have this : mem' (.A (r * n + r)) = add (mem (.A (r * n + r))) := this
      rw [Nat.add_comm] at this
      exact this
    · refine hrest _ fun i hi he => hrc ?_
      injection he with he
      rw [Nat.add_comm (i * n)] at he
      obtain ⟨h1, h2⟩ := Dist.flat_inj hr hi he
      omega
  · intro a ha
    refine hrest a fun i hi he => ha i hi i hi ?_
    rw [he, Nat.add_comm]

/-- The kernel always ends. -/
theorem C47_shift_ends [Zero V] (add : V → V) (n : ℕ) (mem : Cell → V) :
    ∃ mem', Runs (shiftMatrix add n) mem mem' := runs_exists (shift_raceFree add n) mem

example : ∃ (K : Kernel Cell ℤ) (mem' : Cell → ℤ), shiftMatrixGpu (· + 5) 1000 = .ok K ∧
    Runs K (fun _ => 1) mem' ∧ mem' (.A (7 + 7 * 1000)) = 6 ∧ mem' (.A (7 + 8 * 1000)) = 1 := by
  obtain ⟨mem', h⟩ := C47_shift_ends (V := ℤ) (· + 5) 1000 (fun _ => 1)
  obtain ⟨h1, -⟩ := C47_shift_partial (if_pos (by decide)) h
  exact ⟨_, mem', if_pos (by decide), h, h1 7 (by decide) 7 (by decide), h1 7 (by decide) 8 (by decide)⟩

/-- The index `idx * n + idx` is an `int`: it overflows for every matrix of order 46341 or more. -/
theorem C47_shift_overflow_refuted [Zero V] (add : V → V) {n : ℕ} (hn : 46341 ≤ n) :
    shiftMatrixGpu add n = .error .overflow := by
  unfold shiftMatrixGpu
  rw [if_neg]
  rintro ⟨-, h⟩
  have h1 : 46340 * n ≤ (n - 1) * n := Nat.mul_le_mul_right n (by omega)
  unfold intMax at h
  omega

example : shiftMatrixGpu (V := ℤ) (· + 1) 46340 = .ok (shiftMatrix (· + 1) 46340) := if_pos (by decide)

/-! ### C47: shift of a distributed matrix -/

/-- Different places of the tables are different local indices. -/
def Injective (L : Dist.Local) : Prop :=
  ∀ k < L.blocks, ∀ t < L.lens k, ∀ k' < L.blocks, ∀ t' < L.lens k', L.offsL k + t = L.offsL k' + t' → k = k' ∧ t = t'

theorem mem_diagOffsets {r c : Dist.Local} {o : ℕ × ℕ} : o ∈ diagOffsets r c ↔
    ∃ j < c.blocks, ∃ i < r.blocks, ∃ q < c.lens j, ∃ p < r.lens i, q + c.offs j = p + r.offs i ∧
      o = (p + r.offsL i, q + c.offsL j) := by
  simp only [diagOffsets, List.mem_flatMap, List.mem_range, List.mem_filterMap]
  constructor
  · rintro ⟨j, hj, i, hi, q, hq, p, hp, h⟩
    split_ifs at h with he
    exact ⟨j, hj, i, hi, q, hq, p, hp, he, by simpa using h.symm⟩
  · rintro ⟨j, hj, i, hi, q, hq, p, hp, he, rfl⟩
    exact ⟨j, hj, i, hi, q, hq, p, hp, by rw [if_pos he]⟩

theorem diagOffsets_nodup {r c : Dist.Local} (hr : Injective r) (hc : Injective c) :
    (diagOffsets r c).Pairwise fun o o' => o ≠ o' := by
  have split : ∀ {i j q : ℕ} {o : ℕ × ℕ}, o ∈ (List.range (r.lens i)).filterMap (fun p =>
      if q + c.offs j = p + r.offs i then some (p + r.offsL i, q + c.offsL j) else none) →
      ∃ p < r.lens i, o = (p + r.offsL i, q + c.offsL j) := by
    intro i j q o ho
    obtain ⟨p, hp, h⟩ := List.mem_filterMap.1 ho
    split_ifs at h
    exact ⟨p, List.mem_range.1 hp, by simpa using h.symm⟩
  unfold diagOffsets
  rw [List.pairwise_flatMap]
  refine ⟨fun j hj => ?_, pairwise_range fun j j' hjj hj' o ho o' ho' h => ?_⟩
  · rw [List.mem_range] at hj
    rw [List.pairwise_flatMap]
    refine ⟨fun i hi => ?_, pairwise_range fun i i' hii hi' o ho o' ho' h => ?_⟩
    · rw [List.pairwise_flatMap]
      refine ⟨fun q _ => ?_, pairwise_range fun q q' hqq hq' o ho o' ho' h => ?_⟩
      · rw [List.pairwise_filterMap]
        refine pairwise_range fun p p' hpp hp' o ho o' ho' h => ?_
        split_ifs at ho
        split_ifs at ho'
        cases ho
        cases ho'
        injection h with h1 h2
        omega
      · obtain ⟨p, hp, rfl⟩ := split ho
        obtain ⟨p', hp', rfl⟩ := split ho'
        injection h with h1 h2
        omega
    · obtain ⟨q, hq, ho⟩ := List.mem_flatMap.1 ho
      obtain ⟨q', hq', ho'⟩ := List.mem_flatMap.1 ho'
      obtain ⟨p, hp, rfl⟩ := split ho
      obtain ⟨p', hp', rfl⟩ := split ho'
      injection h with h1 h2
      have := (hr i (by omega) p hp i' hi' p' hp' (by omega)).1
      omega
  · obtain ⟨i, hi, ho⟩ := List.mem_flatMap.1 ho
    obtain ⟨i', hi', ho'⟩ := List.mem_flatMap.1 ho'
    obtain ⟨q, hq, ho⟩ := List.mem_flatMap.1 ho
    obtain ⟨q', hq', ho'⟩ := List.mem_flatMap.1 ho'
    obtain ⟨p, hp, rfl⟩ := split ho
    obtain ⟨p', hp', rfl⟩ := split ho'
    injection h with h1 h2
    have := (hc j (by omega) q (List.mem_range.1 hq) j' hj' q' (List.mem_range.1 hq') (by omega)).1
    omega

theorem mgpu_nodup {N : ℕ} {row : ℕ → ℕ} {r c : Dist.Local} (hr : Dist.TablesFor N row r) (hri : Injective r)
    (hci : Injective c) : ((diagOffsets r c).map fun o => o.2 * r.size + o.1).Nodup := by
  rw [List.nodup_iff_pairwise_ne, List.pairwise_map]
  refine List.Pairwise.imp_of_mem (fun {o o'} ho ho' hne h => hne ?_) (diagOffsets_nodup hri hci)
  obtain ⟨j, hj, i, hi, q, hq, p, hp, -, rfl⟩ := mem_diagOffsets.1 ho
  obtain ⟨j', hj', i', hi', q', hq', p', hp', -, rfl⟩ := mem_diagOffsets.1 ho'
  have h1 := (hr.listed i hi p hp).1
  have h2 := (hr.listed i' hi' p' hp').1
  have h : p + r.offsL i + (q + c.offsL j) * r.size = p' + r.offsL i' + (q' + c.offsL j') * r.size := by
    rw [Nat.add_comm _ ((q + c.offsL j) * r.size), Nat.add_comm _ ((q' + c.offsL j') * r.size)]
    exact h
  obtain ⟨e1, e2⟩ := Dist.flat_inj (by omega) (by omega) h
  rw [e1, e2]

theorem shiftMgpu_value [Zero V] {add : V → V} {N : ℕ} {row col : ℕ → ℕ} {r c : Dist.Local}
    (hr : Dist.TablesFor N row r) (hc : Dist.TablesFor N col c) (hri : Injective r) (hci : Injective c)
    {mem mem' : Cell → V} (h : Runs (shiftMgpu add (diagOffsets r c) r.size) mem mem') :
    (∀ i < r.size, ∀ j < c.size, mem' (.A (i + j * r.size)) =
      if row i = col j then add (mem (.A (i + j * r.size))) else mem (.A (i + j * r.size))) ∧
    ∀ a, (∀ i < r.size, ∀ j < c.size, a ≠ .A (i + j * r.size)) → mem' a = mem a := by
  have hrf := shiftMgpu_raceFree add (mgpu_nodup hr hri hci)
  have hrest : ∀ a, (∀ o ∈ diagOffsets r c, a ≠ .A (o.2 * r.size + o.1)) → mem' a = mem a := by
    intro a ha
    refine (runs_unique hrf h).2 a fun b hb hw => ?_
    obtain ⟨ph, hph, x, hx, hxa⟩ := hw
    obtain ⟨i, o, ho, -, rfl⟩ := shiftMgpu_mem hph hx
    exact ha o (List.mem_of_getElem? ho) hxa.symm
  constructor
  · intro i hi j hj
    obtain ⟨ki, hki, ti, hti, rfl⟩ := hr.cover i hi
    obtain ⟨kj, hkj, tj, htj, rfl⟩ := hc.cover j hj
    have e1 := (hr.listed ki hki ti hti).2.1
    have e2 := (hc.listed kj hkj tj htj).2.1
    split_ifs with heq
    · have ho : (ti + r.offsL ki, tj + c.offsL kj) ∈ diagOffsets r c :=
        mem_diagOffsets.2 ⟨kj, hkj, ki, hki, tj, htj, ti, hti, by omega, rfl⟩
      obtain ⟨s, hs⟩ := List.mem_iff_getElem?.1 ho
      obtain ⟨hb, ph, hph, hx⟩ := shiftMgpu_job (add := add) (ld := r.size) hs
      have := single_written hrf h hb hph hx
      have e : (tj + c.offsL kj) * r.size + (ti + r.offsL ki) = r.offsL ki + ti + (c.offsL kj + tj) * r.size := by
        ring
      have this : mem' (.A ((tj + c.offsL kj) * r.size + (ti + r.offsL ki))) =
        add (mem (.A ((tj + c.offsL kj) * r.size + (ti + r.offsL ki)))) := this
      rw [e] at this
      exact this
    · refine hrest _ fun o ho he => heq ?_
      obtain ⟨j', hj', i', hi', q, hq, p, hp, hd, rfl⟩ := mem_diagOffsets.1 ho
      injection he with he
      have h1 := (hr.listed i' hi' p hp).1
      have he : r.offsL ki + ti + (c.offsL kj + tj) * r.size = p + r.offsL i' + (q + c.offsL j') * r.size := by
        rw [Nat.add_comm (p + r.offsL i')]
        exact he
      obtain ⟨f1, f2⟩ := Dist.flat_inj hi (by omega) he
      obtain ⟨rfl, rfl⟩ := hri ki hki ti hti i' hi' p hp (by omega)
      obtain ⟨rfl, rfl⟩ := hci kj hkj tj htj j' hj' q hq (by omega)
      omega
  · intro a ha
    refine hrest a fun o ho he => ?_
    obtain ⟨j, hj, i, hi, q, hq, p, hp, -, rfl⟩ := mem_diagOffsets.1 ho
    have h1 := (hr.listed i hi p hp).1
    have h2 := (hc.listed j hj q hq).1
    refine ha (p + r.offsL i) (by omega) (q + c.offsL j) (by omega) ?_
    rw [he, Nat.add_comm ((q + c.offsL j) * r.size)]

theorem injective_of_correct {N mb src dims p : ℕ} {L : Dist.Local} (hmb : 0 < mb) (hs : src < dims) (hp : p < dims)
    (h : Dist.TablesCorrect N mb src dims p L) : Injective L := by
  intro k hk t ht k' hk' t' ht' he
  have hl := ((h.tablesFor hmb hs hp).listed k hk t ht).1
  obtain ⟨kt, -, hu⟩ := h.local _ hl
  have h1 := hu (k, t) ⟨hk, ht, rfl⟩
  have h2 := hu (k', t') ⟨hk', ht', he.symm⟩
  have := h1.trans h2.symm
  injection this with e1 e2
  exact ⟨e1, e2⟩

/-- **C47**, shift of the distributed matrix of the multi-GPU backend, block-cyclic distribution: whatever the
schedule, on every process that owns rows and columns the shift is added exactly once to the entries whose global
row and column agree, and nothing else changes, for every matrix size, grid, block sizes and first process. -/
theorem C47_shift_mgpu [Zero V] {add : V → V} {N mb nb src0 src1 r c p q : ℕ} (hmb : 0 < mb) (hnb : 0 < nb)
    (hs0 : src0 < r) (hs1 : src1 < c) (hp : p < r) (hq : q < c)
    (hrow : (Dist.owned N mb src0 r p).Nonempty) (hcol : (Dist.owned N nb src1 c q).Nonempty) :
    ∃ R C, Dist.cyclicLocal N mb p src0 r = .ok R ∧ Dist.cyclicLocal N nb q src1 c = .ok C ∧
      (∀ mem : Cell → V, ∃ mem', Runs (shiftMgpu add (diagOffsets R C) R.size) mem mem') ∧
      ∀ mem mem' : Cell → V, Runs (shiftMgpu add (diagOffsets R C) R.size) mem mem' →
        (∀ g ∈ Dist.owned N mb src0 r p, ∀ g' ∈ Dist.owned N nb src1 c q,
          let at_ := Cell.A (Dist.position mb src0 r g + Dist.position nb src1 c g' * (Dist.owned N mb src0 r p).card)
          mem' at_ = if g = g' then add (mem at_) else mem at_) ∧
        ∀ a, (∀ g ∈ Dist.owned N mb src0 r p, ∀ g' ∈ Dist.owned N nb src1 c q,
          a ≠ .A (Dist.position mb src0 r g + Dist.position nb src1 c g' * (Dist.owned N mb src0 r p).card)) →
          mem' a = mem a := by
  obtain ⟨R, hR, tR⟩ := Dist.C30_tables_partial hmb hs0 hp hrow
  obtain ⟨C, hC, tC⟩ := Dist.C30_tables_partial hnb hs1 hq hcol
  have fR := tR.tablesFor hmb hs0 hp
  have fC := tC.tablesFor hnb hs1 hq
  have iR := injective_of_correct hmb hs0 hp tR
  have iC := injective_of_correct hnb hs1 hq tC
  refine ⟨R, C, hR, hC, fun mem => runs_exists (shiftMgpu_raceFree add (mgpu_nodup fR iR iC)) mem,
    fun mem mem' h => ?_⟩
  obtain ⟨h1, h2⟩ := shiftMgpu_value fR fC iR iC h
  rw [tR.size, tC.size] at h1 h2
  constructor
  · intro g hg g' hg'
    obtain ⟨l, hl, e1, e2⟩ := (Dist.mem_owned_iff hmb hs0 hp g).1 hg
    obtain ⟨l', hl', e3, e4⟩ := (Dist.mem_owned_iff hnb hs1 hq g').1 hg'
    have := h1 l hl l' hl'
    rw [e1, e3] at this
    rw [e2, e4]
    exact this
  · intro a ha
    refine h2 a fun l hl l' hl' => ?_
    have hg : Dist.toGlobal mb r (Dist.dist p src0 r) l ∈ Dist.owned N mb src0 r p := by
      refine (Dist.mem_owned_iff hmb hs0 hp _).2 ⟨l, hl, rfl, ?_⟩
      rw [Dist.position_eq hmb hs0, Dist.toLocal_toGlobal hmb (Dist.dist_lt (by omega))]
    have hg' : Dist.toGlobal nb c (Dist.dist q src1 c) l' ∈ Dist.owned N nb src1 c q := by
      refine (Dist.mem_owned_iff hnb hs1 hq _).2 ⟨l', hl', rfl, ?_⟩
      rw [Dist.position_eq hnb hs1, Dist.toLocal_toGlobal hnb (Dist.dist_lt (by omega))]
    have := ha _ hg _ hg'
    rw [Dist.position_eq hmb hs0, Dist.toLocal_toGlobal hmb (Dist.dist_lt (by omega)), Dist.position_eq hnb hs1,
      Dist.toLocal_toGlobal hnb (Dist.dist_lt (by omega))] at this
    exact this

example : (Dist.owned 10 2 0 2 1).Nonempty ∧ (Dist.owned 10 3 0 2 0).Nonempty := by decide

example : ∃ R C, Dist.cyclicLocal 10 2 1 0 2 = .ok R ∧ Dist.cyclicLocal 10 3 0 0 2 = .ok C ∧
    diagOffsets R C = [(0, 2), (2, 3), (3, 4)] := by
  refine ⟨_, _, rfl, rfl, by decide⟩

/-! ### C59: random start vectors -/

/-- **C59**: whatever the schedule, every entry of the start vectors is set, to its own number: thread
`i mod 8192` sets entry `i` to the `i div 8192`-th number of its generator; nothing else is written.  Missing for
the full statement: more than `INT_MAX` numbers, see `C59_overflow_refuted`. -/
theorem C59_random_partial {draw : ℕ → ℕ → V} {n : ℕ} {K : Kernel Cell V} (hK : randNormalGpu draw n = .ok K)
    {mem mem' : Cell → V} (h : Runs K mem mem') :
    (∀ i < n, mem' (.out i) = draw (i % 8192) (i / 8192)) ∧
    ∀ a, (∀ i < n, a ≠ .out i) → mem' a = mem a := by
  unfold randNormalGpu at hK
  split_ifs at hK
  injection hK with hK
  subst hK
  constructor
  · intro i hi
    obtain ⟨hb, ph, hph, hx⟩ := normal_job (draw := draw) hi
    exact single_written (normal_raceFree draw n) h hb hph hx
  · intro a ha
    refine (runs_unique (normal_raceFree draw n) h).2 a fun b hb hw => ?_
    obtain ⟨ph, hph, x, hx, hxa⟩ := hw
    obtain ⟨i, hi, -, he⟩ := normal_mem hph hx
    rw [he hb] at hxa
    exact ha i hi hxa.symm

/-- **C59**: different entries are set to different numbers of the generators: no thread uses a number twice and no
two entries share one. -/
theorem C59_random_distinct {i j : ℕ} (h : (i % 8192, i / 8192) = (j % 8192, j / 8192)) : i = j := by
  injection h with h1 h2
  omega

/-- The kernel always ends. -/
theorem C59_random_ends (draw : ℕ → ℕ → V) (n : ℕ) (mem : Cell → V) :
    ∃ mem', Runs (randNormal draw n) mem mem' := runs_exists (normal_raceFree draw n) mem

example : ∃ (K : Kernel Cell ℕ) (mem' : Cell → ℕ), randNormalGpu (fun t k => t + 10000 * k) 20000 = .ok K ∧
    Runs K (fun _ => 0) mem' ∧ mem' (.out 19999) = 23615 := by
  obtain ⟨mem', h⟩ := C59_random_ends (fun t k => t + 10000 * k) 20000 (fun _ => 0)
  exact ⟨_, mem', if_pos (by decide), h, (C59_random_partial (if_pos (by decide)) h).1 19999 (by decide)⟩

/-- The number of values is passed as an `int` and the loop variables of the threads run past it: they
overflow from `2^31 - 8191` values on, e.g. for 2000 vectors of 1100000 elements. -/
theorem C59_overflow_refuted (draw : ℕ → ℕ → V) {n : ℕ} (hn : 2 ^ 31 - 8191 ≤ n) :
    randNormalGpu draw n = .error .overflow := by
  unfold randNormalGpu
  rw [if_neg]
  unfold intMax gridDim blockDim
  omega

/-- Below that the kernel is run. -/
theorem C59_no_overflow (draw : ℕ → ℕ → V) {n : ℕ} (hn : n < 2 ^ 31 - 8191) :
    ∃ K, randNormalGpu draw n = .ok K := by
  unfold randNormalGpu
  rw [if_pos]
  · exact ⟨_, rfl⟩
  unfold intMax gridDim blockDim
  omega

/-- The loop variable of thread `t`, which runs over `t, t + 8192, …`, ends at the first of these values that is
not below `n`.  All these end values are representable exactly for the `n` the model accepts. -/
theorem C59_loop_variables (n : ℕ) :
    (∀ t < 8192, ∀ k, t + 8192 * k ≥ n → (∀ l < k, t + 8192 * l < n) → t + 8192 * k < 2 ^ 31) ↔
      n < 2 ^ 31 - 8191 := by
  constructor
  · intro h
    by_contra hn
    have := h ((n + 8191) % 8192) (by omega) ((n + 8191) / 8192) (by omega) (fun l hl => by omega)
    omega
  · intro hn t ht k hk hl
    by_contra hc
    have := hl (k - 1) (by omega)
    omega

end
end Gpu
end Verif
