/-
Execution of GPU kernels: blocks of threads that run concurrently, with barriers inside a block.

Between two barriers of its block a thread performs some jobs; a job reads some cells, one after the other, and
then writes one cell.  The model interleaves the reads and writes of *all* jobs of *all* blocks arbitrarily, also
those of one thread, so that every schedule of the device is one of the executions of the model.  A barrier
(`__syncthreads()`, or the end of the kernel) is passed when all jobs of the block before it are finished.
Memory is sequentially consistent per cell; caches and the weak memory model are not modelled, which makes no
difference for kernels without races.

Nothing in this file models a particular part of /repo; the kernels are in Model.lean.
-/
import Mathlib.Data.Nat.Notation
import Mathlib.Logic.Function.Basic
import Mathlib.Tactic.Common
import Mathlib.Logic.Relation
import Mathlib.Algebra.BigOperators.Group.Finset.Basic
import Mathlib.Algebra.Order.BigOperators.Group.Finset

namespace Verif
namespace Gpu

variable {α V : Type*}

/-- Reads of some cells followed by a write of one cell. -/
structure Job (α V : Type*) where
  reads : List α
  dst : α
  op : List V → V

/-- A kernel launch: number of blocks, and for every block the jobs between its barriers. -/
structure Kernel (α V : Type*) where
  blocks : ℕ
  body : ℕ → List (List (Job α V))

/-- How far a job is. -/
inductive Prog (V : Type*) where
  /-- the values read so far -/
  | reading (vs : List V)
  | done

/-- State of a running kernel. -/
structure State (α V : Type*) where
  mem : α → V
  /-- number of barriers a block has passed -/
  phase : ℕ → ℕ
  /-- progress of the jobs of a block since its last barrier -/
  prog : ℕ → ℕ → Prog V

/-- The state at the launch. -/
def State.init (mem : α → V) : State α V := ⟨mem, fun _ => 0, fun _ _ => .reading []⟩

/-- Set the progress of job `j` of block `b`. -/
def setProg (pr : ℕ → ℕ → Prog V) (b j : ℕ) (x : Prog V) : ℕ → ℕ → Prog V :=
  fun b' j' => if b' = b ∧ j' = j then x else pr b' j'

/-- One step of some job, or a barrier. -/
inductive Step [DecidableEq α] (K : Kernel α V) (st : State α V) : State α V → Prop
  /-- a job reads its next cell -/
  | read {b j : ℕ} {ph : List (Job α V)} {job : Job α V} {vs : List V} {a : α} (hb : b < K.blocks)
      (hp : (K.body b)[st.phase b]? = some ph) (hj : ph[j]? = some job) (hr : st.prog b j = .reading vs)
      (ha : job.reads[vs.length]? = some a) :
      Step K st { st with prog := setProg st.prog b j (.reading (vs ++ [st.mem a])) }
  /-- a job that has read everything writes -/
  | write {b j : ℕ} {ph : List (Job α V)} {job : Job α V} {vs : List V} (hb : b < K.blocks)
      (hp : (K.body b)[st.phase b]? = some ph) (hj : ph[j]? = some job) (hr : st.prog b j = .reading vs)
      (hl : vs.length = job.reads.length) :
      Step K st ⟨Function.update st.mem job.dst (job.op vs), st.phase, setProg st.prog b j .done⟩
  /-- all jobs of the block are finished, the block passes the barrier -/
  | barrier {b : ℕ} {ph : List (Job α V)} (hb : b < K.blocks) (hp : (K.body b)[st.phase b]? = some ph)
      (hd : ∀ j < ph.length, st.prog b j = .done) :
      Step K st ⟨st.mem, Function.update st.phase b (st.phase b + 1),
        Function.update st.prog b fun _ => .reading []⟩

/-- The kernel has ended. -/
def Finished (K : Kernel α V) (st : State α V) : Prop := ∀ b < K.blocks, (K.body b)[st.phase b]? = none

/-- `mem'` is a possible memory after the kernel was launched with memory `mem` and has ended. -/
def Runs [DecidableEq α] (K : Kernel α V) (mem mem' : α → V) : Prop :=
  ∃ st, Relation.ReflTransGen (Step K) (State.init mem) st ∧ Finished K st ∧ st.mem = mem'

/-- Launches in one stream: each starts when the previous one has ended. -/
inductive RunsAll [DecidableEq α] : List (Kernel α V) → (α → V) → (α → V) → Prop
  | nil (mem : α → V) : RunsAll [] mem mem
  | cons {K : Kernel α V} {Ks : List (Kernel α V)} {m m' m'' : α → V} :
      Runs K m m' → RunsAll Ks m' m'' → RunsAll (K :: Ks) m m''

/-- No job writes a cell that an unordered job reads or writes: neither jobs between the same two barriers of
one block nor jobs of different blocks. -/
structure RaceFree (K : Kernel α V) : Prop where
  within : ∀ b < K.blocks, ∀ ph ∈ K.body b, ∀ (i j : ℕ) (x y : Job α V), ph[i]? = some x → ph[j]? = some y → i ≠ j →
    x.dst ≠ y.dst ∧ x.dst ∉ y.reads
  across : ∀ b < K.blocks, ∀ b' < K.blocks, b ≠ b' → ∀ ph ∈ K.body b, ∀ ph' ∈ K.body b', ∀ x ∈ ph, ∀ y ∈ ph',
    x.dst ≠ y.dst ∧ x.dst ∉ y.reads

section
variable [DecidableEq α]

/-- All reads, then all writes. -/
def runPhase (ph : List (Job α V)) (mem : α → V) : α → V := fun a =>
  match ph.find? (fun job => job.dst = a) with
  | some job => job.op (job.reads.map mem)
  | none => mem a

/-- Phase after phase. -/
def runBlock (phs : List (List (Job α V))) (mem : α → V) : α → V := phs.foldl (fun m ph => runPhase ph m) mem

theorem runPhase_not_mem {ph : List (Job α V)} {mem : α → V} {a : α} (h : ∀ x ∈ ph, x.dst ≠ a) :
    runPhase ph mem a = mem a := by
  unfold runPhase
  rw [List.find?_eq_none.2 (fun x hx => by simpa using h x hx)]

theorem runPhase_mem {ph : List (Job α V)} {mem : α → V} {j : ℕ} {job : Job α V} (hj : ph[j]? = some job)
    (hu : ∀ i x, ph[i]? = some x → i ≠ j → x.dst ≠ job.dst) :
    runPhase ph mem job.dst = job.op (job.reads.map mem) := by
  unfold runPhase
  cases hf : ph.find? (fun x => x.dst = job.dst) with
  | none =>
    have := List.find?_eq_none.1 hf job (List.mem_of_getElem? hj)
    simp at this
  | some x =>
    have h1 : x.dst = job.dst := by simpa using List.find?_some hf
    obtain ⟨i, hi⟩ := List.mem_iff_getElem?.1 (List.mem_of_find?_eq_some hf)
    by_cases hij : i = j
    · subst hij
      rw [hj] at hi
      cases hi
      rfl
    · exact absurd h1 (hu i x hi hij)

/-- Block `b` uses cell `a`. -/
def Uses (K : Kernel α V) (b : ℕ) (a : α) : Prop :=
  ∃ ph ∈ K.body b, ∃ x ∈ ph, x.dst = a ∨ a ∈ x.reads

/-- Block `b` writes cell `a`. -/
def WritesCell (K : Kernel α V) (b : ℕ) (a : α) : Prop := ∃ ph ∈ K.body b, ∃ x ∈ ph, x.dst = a

/-- The memory of block `b` after its first `k` phases. -/
def after (K : Kernel α V) (mem : α → V) (b k : ℕ) : α → V := runBlock ((K.body b).take k) mem

theorem after_succ {K : Kernel α V} {mem : α → V} {b k : ℕ} {ph : List (Job α V)} (hp : (K.body b)[k]? = some ph) :
    after K mem b (k + 1) = runPhase ph (after K mem b k) := by
  unfold after runBlock
  rw [List.take_add_one, hp, Option.toList_some, List.foldl_append]
  rfl

/-- Invariant of all executions. -/
structure Inv (K : Kernel α V) (m0 : α → V) (st : State α V) : Prop where
  values : ∀ b < K.blocks, ∀ a, Uses K b a →
    (∀ ph j job, (K.body b)[st.phase b]? = some ph → ph[j]? = some job → job.dst = a →
      ∀ _ : (∃ vs, st.prog b j = .reading vs) → False, st.mem a = job.op (job.reads.map (after K m0 b (st.phase b)))) ∧
    ((∀ ph j job, (K.body b)[st.phase b]? = some ph → ph[j]? = some job → job.dst = a →
      ∃ vs, st.prog b j = .reading vs) → st.mem a = after K m0 b (st.phase b) a)
  seen : ∀ b < K.blocks, ∀ ph j job vs, (K.body b)[st.phase b]? = some ph → ph[j]? = some job →
    st.prog b j = .reading vs → vs = (job.reads.take vs.length).map (after K m0 b (st.phase b))
  rest : ∀ a, (∀ b < K.blocks, ¬ WritesCell K b a) → st.mem a = m0 a

theorem setProg_self (pr : ℕ → ℕ → Prog V) (b j : ℕ) (x : Prog V) : setProg pr b j x b j = x := by
  simp [setProg]

theorem setProg_ne (pr : ℕ → ℕ → Prog V) {b j b' j' : ℕ} (x : Prog V) (h : ¬ (b' = b ∧ j' = j)) :
    setProg pr b j x b' j' = pr b' j' := by
  simp [setProg, h]

theorem inv_init (K : Kernel α V) (m0 : α → V) : Inv K m0 (State.init m0) where
  values := fun b _ a _ => ⟨fun ph j job _ _ _ hn => (hn ⟨[], rfl⟩).elim, fun _ => rfl⟩
  seen := by
    intro b _ ph j job vs _ _ hr
    have : Prog.reading [] = Prog.reading vs := hr
    cases this
    rfl
  rest := fun _ _ => rfl

theorem inv_step {K : Kernel α V} {m0 : α → V} {st st' : State α V} (hK : RaceFree K) (h : Inv K m0 st)
    (hs : Step K st st') : Inv K m0 st' := by
  cases hs with
  | @read b j ph job vs a hb hp hj hr ha =>
    have hmem : st.mem a = after K m0 b (st.phase b) a := by
      refine (h.values b hb a ⟨ph, List.mem_of_getElem? hp, job, List.mem_of_getElem? hj,
        .inr (List.mem_of_getElem? ha)⟩).2 ?_
      intro ph' j' job' hp' hj' hd
      rw [hp] at hp'
      cases hp'
      by_cases hjj : j' = j
      · subst hjj
        exact ⟨vs, hr⟩
      · exact absurd (List.mem_of_getElem? ha)
          (hd ▸ (hK.within b hb ph (List.mem_of_getElem? hp) j' j job' job hj' hj hjj).2)
    refine ⟨fun b' hb' a' hu => ?_, fun b' hb' ph' j' job' vs' hp' hj' hr' => ?_, h.rest⟩
    · obtain ⟨h1, h2⟩ := h.values b' hb' a' hu
      refine ⟨fun ph' j' job' hp' hj' hd hn => h1 ph' j' job' hp' hj' hd fun ⟨vs', hr'⟩ => hn ?_,
        fun hall => h2 fun ph' j' job' hp' hj' hd => ?_⟩
      · by_cases hjj : b' = b ∧ j' = j
        · obtain ⟨rfl, rfl⟩ := hjj
          exact ⟨_, setProg_self _ _ _ _⟩
        · exact ⟨vs', (setProg_ne _ _ hjj).trans hr'⟩
      · obtain ⟨vs', hr'⟩ := hall ph' j' job' hp' hj' hd
        by_cases hjj : b' = b ∧ j' = j
        · obtain ⟨rfl, rfl⟩ := hjj
          exact ⟨vs, hr⟩
        · exact ⟨vs', (setProg_ne _ _ hjj).symm.trans hr'⟩
    · by_cases hjj : b' = b ∧ j' = j
      · obtain ⟨rfl, rfl⟩ := hjj
        have hp'' : (K.body b')[st.phase b']? = some ph' := hp'
        rw [hp] at hp''
        cases hp''
        rw [hj] at hj'
        cases hj'
        have h3 : Prog.reading (vs ++ [st.mem a]) = Prog.reading vs' := (setProg_self _ _ _ _).symm.trans hr'
        cases h3
        have h4 := h.seen b' hb' ph j' job vs hp hj hr
        have h5 : (vs ++ [st.mem a]).length = vs.length + 1 := by simp
        rw [h5, List.take_add_one, ha, Option.toList_some, List.map_append, ← h4, hmem]
        rfl
      · exact h.seen b' hb' ph' j' job' vs' hp' hj' ((setProg_ne _ _ hjj).symm.trans hr')
  | @write b j ph job vs hb hp hj hr hl =>
    have hvs : vs = job.reads.map (after K m0 b (st.phase b)) := by
      have := h.seen b hb ph j job vs hp hj hr
      rw [hl, List.take_length] at this
      exact this
    refine ⟨fun b' hb' a' hu => ?_, fun b' hb' ph' j' job' vs' hp' hj' hr' => ?_, fun a' ha' => ?_⟩
    · obtain ⟨h1, h2⟩ := h.values b' hb' a' hu
      by_cases hbb : b' = b
      · subst hbb
        by_cases had : a' = job.dst
        · subst had
          refine ⟨fun ph' j' job' hp' hj' hd _ => ?_, fun hall => ?_⟩
          · show Function.update st.mem job.dst (job.op vs) job.dst = _
            have hp'' : (K.body b')[st.phase b']? = some ph' := hp'
            rw [hp] at hp''
            cases hp''
            have hjj : j' = j := by
              by_contra hjj
              exact (hK.within b' hb ph (List.mem_of_getElem? hp) j' j job' job hj' hj hjj).1 hd
            subst hjj
            rw [hj] at hj'
            cases hj'
            rw [Function.update_self, hvs]
          · obtain ⟨vs', hv⟩ := hall ph j job hp hj rfl
            have hv : setProg st.prog b' j .done b' j = .reading vs' := hv
            rw [setProg_self] at hv
            cases hv
        · refine ⟨fun ph' j' job' hp' hj' hd hn => ?_, fun hall => ?_⟩
          · show Function.update st.mem job.dst (job.op vs) a' = _
            rw [Function.update_of_ne had]
            refine h1 ph' j' job' hp' hj' hd fun ⟨vs', hr'⟩ => hn ?_
            have hp'' : (K.body b')[st.phase b']? = some ph' := hp'
            rw [hp] at hp''
            cases hp''
            have hjj : j' ≠ j := by
              rintro rfl
              rw [hj] at hj'
              cases hj'
              exact had hd.symm
            exact ⟨vs', (setProg_ne _ _ fun hc => hjj hc.2).trans hr'⟩
          · show Function.update st.mem job.dst (job.op vs) a' = _
            rw [Function.update_of_ne had]
            refine h2 fun ph' j' job' hp' hj' hd => ?_
            obtain ⟨vs', hv⟩ := hall ph' j' job' hp' hj' hd
            by_cases hjj : j' = j
            · subst hjj
              exact ⟨vs, hr⟩
            · exact ⟨vs', (setProg_ne _ _ fun hc => hjj hc.2).symm.trans hv⟩
      · have had : a' ≠ job.dst := by
          rintro rfl
          obtain ⟨ph', hph', x, hx, hor⟩ := hu
          have := hK.across b hb b' hb' (Ne.symm hbb) ph (List.mem_of_getElem? hp) ph' hph' job
            (List.mem_of_getElem? hj) x hx
          rcases hor with h5 | h5
          · exact this.1 h5.symm
          · exact this.2 h5
        refine ⟨fun ph' j' job' hp' hj' hd hn => ?_, fun hall => ?_⟩
        · show Function.update st.mem job.dst (job.op vs) a' = _
          rw [Function.update_of_ne had]
          refine h1 ph' j' job' hp' hj' hd fun ⟨vs', hr'⟩ => hn ?_
          exact ⟨vs', (setProg_ne _ _ fun hc => hbb hc.1).trans hr'⟩
        · show Function.update st.mem job.dst (job.op vs) a' = _
          rw [Function.update_of_ne had]
          refine h2 fun ph' j' job' hp' hj' hd => ?_
          obtain ⟨vs', hv⟩ := hall ph' j' job' hp' hj' hd
          exact ⟨vs', (setProg_ne _ _ fun hc => hbb hc.1).symm.trans hv⟩
    · by_cases hjj : b' = b ∧ j' = j
      · obtain ⟨rfl, rfl⟩ := hjj
        have h3 : Prog.done = Prog.reading vs' := (setProg_self _ _ _ _).symm.trans hr'
        cases h3
      · exact h.seen b' hb' ph' j' job' vs' hp' hj' ((setProg_ne _ _ hjj).symm.trans hr')
    · show Function.update st.mem job.dst (job.op vs) a' = _
      rw [Function.update_of_ne, h.rest a' ha']
      rintro rfl
      exact ha' b hb ⟨ph, List.mem_of_getElem? hp, job, List.mem_of_getElem? hj, rfl⟩
  | @barrier b ph hb hp hd =>
    refine ⟨fun b' hb' a' hu => ?_, fun b' hb' ph' j' job' vs' hp' hj' hr' => ?_, h.rest⟩
    · obtain ⟨h1, h2⟩ := h.values b' hb' a' hu
      by_cases hbb : b' = b
      · subst hbb
        refine ⟨fun ph' j' job' _ _ _ hn => (hn ⟨[], ?_⟩).elim, fun _ => ?_⟩
        · show Function.update st.prog b' (fun _ => Prog.reading []) b' j' = _
          rw [Function.update_self]
        · show st.mem a' = after K m0 b' (Function.update st.phase b' (st.phase b' + 1) b') a'
          rw [Function.update_self, after_succ hp]
          by_cases hex : ∃ (j : ℕ) (job : Job α V), ph[j]? = some job ∧ job.dst = a'
          · obtain ⟨j, job, hj, rfl⟩ := hex
            rw [runPhase_mem hj fun i x hi hij =>
              (hK.within b' hb ph (List.mem_of_getElem? hp) i j x job hi hj hij).1]
            refine h1 ph j job hp hj rfl fun ⟨vs, hv⟩ => ?_
            rw [hd j (List.getElem?_eq_some_iff.1 hj).1] at hv
            cases hv
          · rw [runPhase_not_mem fun x hx hxa => ?_]
            · refine h2 fun ph' j' job' hp' hj' hd' => ?_
              rw [hp] at hp'
              cases hp'
              exact absurd ⟨j', job', hj', hd'⟩ hex
            · obtain ⟨i, hi⟩ := List.mem_iff_getElem?.1 hx
              exact hex ⟨i, x, hi, hxa⟩
      · have e1 : Function.update st.phase b (st.phase b + 1) b' = st.phase b' := Function.update_of_ne hbb _ _
        have e2 : Function.update st.prog b (fun _ => Prog.reading []) b' = st.prog b' := Function.update_of_ne hbb _ _
        simp only [e1, e2]
        exact ⟨h1, h2⟩
    · by_cases hbb : b' = b
      · subst hbb
        have : Function.update st.prog b' (fun _ => Prog.reading []) b' j' = .reading vs' := hr'
        rw [Function.update_self] at this
        cases this
        rfl
      · have e1 : Function.update st.phase b (st.phase b + 1) b' = st.phase b' := Function.update_of_ne hbb _ _
        have e2 : Function.update st.prog b (fun _ => Prog.reading []) b' = st.prog b' := Function.update_of_ne hbb _ _
        simp only [e1] at hp' ⊢
        simp only [e2] at hr'
        exact h.seen b' hb' ph' j' job' vs' hp' hj' hr'

theorem inv_reach {K : Kernel α V} {m0 : α → V} {st : State α V} (hK : RaceFree K)
    (hr : Relation.ReflTransGen (Step K) (State.init m0) st) : Inv K m0 st := by
  induction hr with
  | refl => exact inv_init K m0
  | tail _ hs ih => exact inv_step hK ih hs

/-- Without races, every schedule gives the same memory: the cells written by a block are those of its phases
run one after the other, the other cells are unchanged. -/
theorem runs_unique {K : Kernel α V} {mem mem' : α → V} (hK : RaceFree K) (h : Runs K mem mem') :
    (∀ b < K.blocks, ∀ a, WritesCell K b a → mem' a = runBlock (K.body b) mem a) ∧
      ∀ a, (∀ b < K.blocks, ¬ WritesCell K b a) → mem' a = mem a := by
  obtain ⟨st, hr, hf, rfl⟩ := h
  have hI := inv_reach hK hr
  refine ⟨fun b hb a hw => ?_, hI.rest⟩
  obtain ⟨ph, hph, x, hx, hxa⟩ := hw
  have hn := hf b hb
  rw [(hI.values b hb a ⟨ph, hph, x, hx, .inl hxa⟩).2]
  · unfold after
    rw [List.take_of_length_le (List.getElem?_eq_none_iff.1 hn)]
  · intro ph' j job hp'
    rw [hn] at hp'
    cases hp'

/-- Values of a job still to be read, plus one for the write. -/
def Job.left (job : Job α V) : Prog V → ℕ
  | .reading vs => job.reads.length + 1 - vs.length
  | .done => 0

/-- Every unfinished kernel can go on: there is no deadlock. -/
theorem progress {K : Kernel α V} {m0 : α → V} {st : State α V} (hK : RaceFree K)
    (hr : Relation.ReflTransGen (Step K) (State.init m0) st) (hn : ¬ Finished K st) : ∃ st', Step K st st' := by
  have hI := inv_reach hK hr
  unfold Finished at hn
  push Not at hn
  obtain ⟨b, hb, hne⟩ := hn
  obtain ⟨ph, hp⟩ := Option.ne_none_iff_exists'.1 hne
  by_cases hd : ∀ j < ph.length, st.prog b j = .done
  · exact ⟨_, .barrier hb hp hd⟩
  · push Not at hd
    obtain ⟨j, hj, hne⟩ := hd
    have hj' : ph[j]? = some ph[j] := List.getElem?_eq_getElem hj
    cases hpr : st.prog b j with
    | done => exact absurd hpr hne
    | reading vs =>
      have hlen : vs.length ≤ ph[j].reads.length := by
        have := congrArg List.length (hI.seen b hb ph j _ vs hp hj' hpr)
        rw [List.length_map, List.length_take] at this
        omega
      rcases Nat.lt_or_eq_of_le hlen with h1 | h1
      · exact ⟨_, .read hb hp hj' hpr (List.getElem?_eq_getElem h1)⟩
      · exact ⟨_, .write hb hp hj' hpr h1⟩

/-- Steps a block still has to do in phase `ph`. -/
def phaseLeft (ph : List (Job α V)) (pr : ℕ → Prog V) : ℕ :=
  1 + ∑ j ∈ Finset.range ph.length, (match ph[j]? with
    | some job => job.left (pr j)
    | none => 0)

/-- Steps a kernel still has to do. -/
def stepsLeft (K : Kernel α V) (st : State α V) : ℕ :=
  ∑ b ∈ Finset.range K.blocks, ((match (K.body b)[st.phase b]? with
    | some ph => phaseLeft ph (st.prog b)
    | none => 0) + (((K.body b).drop (st.phase b + 1)).map fun ph => phaseLeft ph fun _ => .reading []).sum)

omit [DecidableEq α] in
theorem phaseLeft_lt {ph : List (Job α V)} {pr pr' : ℕ → Prog V} {j : ℕ} {job : Job α V} (hj : ph[j]? = some job)
    (hne : ∀ i, i ≠ j → pr' i = pr i) (hlt : job.left (pr' j) < job.left (pr j)) :
    phaseLeft ph pr' < phaseLeft ph pr := by
  unfold phaseLeft
  refine Nat.add_lt_add_left (Finset.sum_lt_sum (fun i hi => ?_) ⟨j, ?_, ?_⟩) 1
  · by_cases hij : i = j
    · subst hij
      rw [hj]
      exact le_of_lt hlt
    · rw [hne i hij]
  · exact Finset.mem_range.2 (List.getElem?_eq_some_iff.1 hj).1
  · rw [hj]
    exact hlt

/-- Every step makes progress, so that every execution ends. -/
theorem steps_decrease {K : Kernel α V} {m0 : α → V} {st st' : State α V} (hK : RaceFree K)
    (hr : Relation.ReflTransGen (Step K) (State.init m0) st) (hs : Step K st st') :
    stepsLeft K st' < stepsLeft K st := by
  have hI := inv_reach hK hr
  unfold stepsLeft
  cases hs with
  | @read b j ph job vs a hb hp hj hr ha =>
    refine Finset.sum_lt_sum (fun b' _ => ?_) ⟨b, Finset.mem_range.2 hb, ?_⟩
    · by_cases hbb : b' = b
      · subst hbb
        refine Nat.add_le_add_right (le_of_lt ?_) _
        simp only [hp]
        refine phaseLeft_lt hj (fun i hi => setProg_ne _ _ fun hc => hi hc.2) ?_
        rw [setProg_self, hr]
        have := (List.getElem?_eq_some_iff.1 ha).1
        simp only [Job.left, List.length_append, List.length_singleton]
        omega
      · have e : setProg st.prog b j (.reading (vs ++ [st.mem a])) b' = st.prog b' :=
          funext fun i => setProg_ne _ _ fun hc => hbb hc.1
        simp only [e]
        exact le_refl _
    · refine Nat.add_lt_add_right ?_ _
      simp only [hp]
      refine phaseLeft_lt hj (fun i hi => setProg_ne _ _ fun hc => hi hc.2) ?_
      rw [setProg_self, hr]
      have := (List.getElem?_eq_some_iff.1 ha).1
      simp only [Job.left, List.length_append, List.length_singleton]
      omega
  | @write b j ph job vs hb hp hj hr hl =>
    refine Finset.sum_lt_sum (fun b' _ => ?_) ⟨b, Finset.mem_range.2 hb, ?_⟩
    · by_cases hbb : b' = b
      · subst hbb
        refine Nat.add_le_add_right (le_of_lt ?_) _
        simp only [hp]
        refine phaseLeft_lt hj (fun i hi => setProg_ne _ _ fun hc => hi hc.2) ?_
        rw [setProg_self, hr]
        simp only [Job.left]
        omega
      · have e : setProg st.prog b j .done b' = st.prog b' :=
          funext fun i => setProg_ne _ _ fun hc => hbb hc.1
        simp only [e]
        exact le_refl _
    · refine Nat.add_lt_add_right ?_ _
      simp only [hp]
      refine phaseLeft_lt hj (fun i hi => setProg_ne _ _ fun hc => hi hc.2) ?_
      rw [setProg_self, hr]
      simp only [Job.left]
      omega
  | @barrier b ph hb hp hd =>
    have key : (match (K.body b)[st.phase b + 1]? with
          | some ph => phaseLeft ph (fun _ => Prog.reading [])
          | none => 0) + (((K.body b).drop (st.phase b + 1 + 1)).map fun ph => phaseLeft ph fun _ => .reading []).sum =
        (((K.body b).drop (st.phase b + 1)).map fun ph => phaseLeft ph fun _ => .reading []).sum := by
      cases hq : (K.body b)[st.phase b + 1]? with
      | none =>
        have := List.getElem?_eq_none_iff.1 hq
        rw [List.drop_eq_nil_of_le this, List.drop_eq_nil_of_le (by omega)]
        rfl
      | some ph' =>
        obtain ⟨hlt, he⟩ := List.getElem?_eq_some_iff.1 hq
        rw [List.drop_eq_getElem_cons hlt, List.map_cons, List.sum_cons, he]
    have hpos : 0 < phaseLeft ph (st.prog b) := by
      unfold phaseLeft
      omega
    refine Finset.sum_lt_sum (fun b' _ => ?_) ⟨b, Finset.mem_range.2 hb, ?_⟩
    · by_cases hbb : b' = b
      · subst hbb
        simp only [Function.update_self, hp]
        rw [key]
        omega
      · simp only [Function.update_of_ne hbb]
        exact le_refl _
    · simp only [Function.update_self, hp]
      rw [key]
      omega

/-- Every kernel without races ends, whatever the schedule: some final memory exists. -/
theorem runs_exists {K : Kernel α V} (hK : RaceFree K) (mem : α → V) : ∃ mem', Runs K mem mem' := by
  have : ∀ n (st : State α V), stepsLeft K st ≤ n → Relation.ReflTransGen (Step K) (State.init mem) st →
      ∃ mem', Runs K mem mem' := by
    intro n
    induction n with
    | zero =>
      intro st hn hr
      by_cases hf : Finished K st
      · exact ⟨_, st, hr, hf, rfl⟩
      · obtain ⟨st', hs⟩ := progress hK hr hf
        have := steps_decrease hK hr hs
        omega
    | succ n ih =>
      intro st hn hr
      by_cases hf : Finished K st
      · exact ⟨_, st, hr, hf, rfl⟩
      · obtain ⟨st', hs⟩ := progress hK hr hf
        have := steps_decrease hK hr hs
        exact ih st' (by omega) (hr.tail hs)
  exact this _ (State.init mem) (le_refl _) .refl

end
end Gpu
end Verif
