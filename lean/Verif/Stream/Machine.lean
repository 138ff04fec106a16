/-
How the processes of a GPU run execute: every process has a host thread that hands work to its device and goes on,
and the device runs that work later, in an order that the rules of CUDA streams restrict but do not fix.

Nothing here models code of /repo; it is the machine on which the code of Stream/Model.lean runs.  The rules are
those of the CUDA programming guide: work handed to one stream runs in the order in which it was handed over; work
of the default stream (in its usual, "legacy" form) and work of a stream made by `cudaStreamCreate` run in the order
in which they were handed over; a program compiled with a default stream per thread has only the first rule.  Work
on two streams that no rule orders may run in either order (overlapping work is not distinguished from these).
-/
import Mathlib.Data.Fintype.Basic
import Mathlib.Tactic

namespace Verif
namespace Stream

/-- Arrays of a process (those on the device and those on the host have the same names).  `lan` stands for the work
vectors of `mLanczos`, `scal` for scalars and small vectors of local variables, `redund` for vectors of full length
on the host, `offs` for the index lists of the shift kernel. -/
inductive Arr
  | H | C | C2 | B | B2 | A | ritzv | resid | vv | pack | lan | dv | ritzVc
  | work | info | ret | states | sum | offs | scal | redund
  deriving DecidableEq, Repr

/-- Host or device memory. -/
inductive Side | host | dev
  deriving DecidableEq, Repr

/-- An array on one of the two sides. -/
abbrev Loc := Side × Arr

/-- Streams: the default stream, and those made by `cudaStreamCreate`. -/
inductive Queue | dflt | made (k : ℕ)
  deriving DecidableEq, Repr

/-- Which default stream the program was compiled with. -/
inductive Rule | legacy | perThread
  deriving DecidableEq, Repr

/-- Work of these two streams runs in the order in which it was handed over. -/
def Rule.Ordered (ρ : Rule) (q q' : Queue) : Prop := q = q' ∨ (ρ = .legacy ∧ (q = .dflt ∨ q' = .dflt))

/-- Who performs an operation and when: the host before it goes on, the device at some later time, or the device
while the host waits. -/
inductive When | host | later (q : Queue) | waits (q : Queue)
  deriving DecidableEq, Repr

/-- Communicators: the processes of a row and of a column of the grid. -/
inductive Comm | row | col
  deriving DecidableEq, Repr

/-- An operation.  `coll` tells whether it is performed together with the other processes of a communicator.
`args` is what is read from memory when the call is made, `reads` and `writes` what is read and written when the
operation is performed.  `label` tells apart operations that do different things to the same arrays. -/
structure Op where
  label : ℕ
  when : When
  coll : Option Comm
  args : List Loc
  reads : List Loc
  writes : List Loc
  deriving DecidableEq, Repr

/-- Contents of the arrays of a process. -/
abbrev Mem (V : Type*) := Loc → V

/-- Contents of some arrays. -/
abbrev Vals (L : List Loc) (V : Type*) := {l // l ∈ L} → V

/-- What is in these arrays. -/
def Mem.get {V : Type*} (m : Mem V) (L : List Loc) : Vals L V := fun l => m l.1

/-- Storing into these arrays. -/
def Mem.put {V : Type*} (m : Mem V) (L : List Loc) (v : Vals L V) : Mem V := fun l =>
  if h : l ∈ L then v ⟨l, h⟩ else m l

/-- What the host sees of the memory. -/
abbrev HostMem (V : Type*) := Arr → V

/-- The host arrays. -/
def Mem.host {V : Type*} (m : Mem V) : HostMem V := fun a => m (.host, a)

/-- The processes: their number, and the communicators they belong to. -/
structure Grid where
  procs : ℕ
  comm : Comm → Fin procs → ℕ

/-- The processes that perform an operation together with `i`. -/
def Grid.Mates (g : Grid) : Option Comm → Fin g.procs → Fin g.procs → Prop
  | none, i, j => i = j
  | some c, i, j => g.comm c i = g.comm c j

/-- What the operations do: what process `i` stores depends on what it and the processes it performs the operation
with have read. -/
structure Interp (g : Grid) (V : Type*) where
  eff : (o : Op) → (i : Fin g.procs) →
    ((j : {j // g.Mates o.coll i j}) → Vals o.args V × Vals o.reads V) → Vals o.writes V

/-- The host program of process `i`: its `k`-th operation may depend on the contents of the host arrays; `none` is
the end. -/
abbrev Prog (g : Grid) (V : Type*) := Fin g.procs → ℕ → HostMem V → Option Op

/-- Work handed to the device: the number of the operation, and the arguments read at the call. -/
structure Entry (V : Type*) where
  pos : ℕ
  op : Op
  args : Vals op.args V

/-- The state of a process: memory, number of the next operation, and the work its device has not yet run. -/
structure PState (V : Type*) where
  mem : Mem V
  pc : ℕ
  queue : List (Entry V)

/-- The states of all processes. -/
abbrev State (g : Grid) (V : Type*) := Fin g.procs → PState V

variable {g : Grid} {V : Type*}

/-- At the beginning. -/
def start (m : Fin g.procs → Mem V) : State g V := fun i => ⟨m i, 0, []⟩

/-- The next operation of a process. -/
def next (P : Prog g V) (i : Fin g.procs) (s : PState V) : Option Op := P i s.pc s.mem.host

/-- The stream on which an operation is performed. -/
def When.queue? : When → Option Queue
  | .host => none
  | .later q => some q
  | .waits q => some q

/-- Work on stream `q` handed over after the work `l` need not wait for any of it. -/
def Free (ρ : Rule) (q : Queue) (l : List (Entry V)) : Prop :=
  ∀ e ∈ l, ∀ q', e.op.when.queue? = some q' → ¬ ρ.Ordered q' q

/-- Handing work to the device: the host reads the arguments and goes on. -/
def Issue (P : Prog g V) (i : Fin g.procs) (σ τ : State g V) : Prop :=
  ∃ o q, next P i (σ i) = some o ∧ o.when = .later q ∧
    τ = Function.update σ i ⟨(σ i).mem, (σ i).pc + 1,
      (σ i).queue ++ [⟨(σ i).pc, o, (σ i).mem.get o.args⟩]⟩

/-- The host of process `i` (together with the hosts of the processes it communicates with) performs an operation
itself, or waits for work it has handed over: then the device must have run everything this work waits for. -/
def Direct (ρ : Rule) (I : Interp g V) (P : Prog g V) (i : Fin g.procs) (σ τ : State g V) : Prop :=
  ∃ o, (∀ j, g.Mates o.coll i j → (σ j).pc = (σ i).pc ∧ next P j (σ j) = some o ∧
      (o.when = .host ∨ ∃ q, o.when = .waits q ∧ Free ρ q (σ j).queue)) ∧
    (∀ j, g.Mates o.coll i j → τ j = ⟨(σ j).mem.put o.writes (I.eff o j fun k =>
        ((σ k.1).mem.get o.args, (σ k.1).mem.get o.reads)), (σ j).pc + 1, (σ j).queue⟩) ∧
    ∀ j, ¬ g.Mates o.coll i j → τ j = σ j

/-- The device of process `i` (together with the devices of the processes it communicates with) runs work handed
over to it that need not wait for other work. `e j` is that work, between `l j` and `r j` in the queue. -/
def Run (ρ : Rule) (I : Interp g V) (i : Fin g.procs) (σ τ : State g V) : Prop :=
  ∃ (p : ℕ) (o : Op) (q : Queue) (l r : Fin g.procs → List (Entry V)) (a : Fin g.procs → Vals o.args V),
    o.when = .later q ∧
    (∀ j, g.Mates o.coll i j → (σ j).queue = l j ++ ⟨p, o, a j⟩ :: r j ∧ Free ρ q (l j)) ∧
    (∀ j, g.Mates o.coll i j → τ j = ⟨(σ j).mem.put o.writes (I.eff o j fun k =>
        (a k.1, (σ k.1).mem.get o.reads)), (σ j).pc, l j ++ r j⟩) ∧
    ∀ j, ¬ g.Mates o.coll i j → τ j = σ j

/-- A step of the machine. -/
def Step (ρ : Rule) (I : Interp g V) (P : Prog g V) (σ τ : State g V) : Prop :=
  ∃ i, Issue P i σ τ ∨ Direct ρ I P i σ τ ∨ Run ρ I i σ τ

/-- All processes have come to the end and all devices have run everything. -/
def Finished (P : Prog g V) (σ : State g V) : Prop :=
  ∀ i, next P i (σ i) = none ∧ (σ i).queue = []

/-- Executing in the order of the program: every operation is finished before the next one begins. -/
def inOrder (I : Interp g V) (P : Prog g V) (m : Fin g.procs → Mem V) : ℕ → Fin g.procs → Mem V
  | 0 => m
  | k + 1 => fun i =>
    match P i k (inOrder I P m k i).host with
    | none => inOrder I P m k i
    | some o => (inOrder I P m k i).put o.writes (I.eff o i fun j =>
        ((inOrder I P m k j.1).get o.args, (inOrder I P m k j.1).get o.reads))

/-- Executed in order, the program ends after `n` operations, and processes that perform an operation together
do so with the same operation. -/
structure Lockstep (I : Interp g V) (P : Prog g V) (m : Fin g.procs → Mem V) (n : ℕ) : Prop where
  runs : ∀ k < n, ∀ i, ∃ o, P i k (inOrder I P m k i).host = some o ∧
    ∀ j, g.Mates o.coll i j → P j k (inOrder I P m k j).host = some o
  ends : ∀ i, P i n (inOrder I P m n i).host = none

/-- **Specification.** Whatever the devices do and however fast they are: every execution has at most `2 n` steps
for each process, an execution that cannot go on has finished, and then memory contains what executing in order
gives.  Moreover the host never sees a difference: when a process has come to its `k`-th operation, its host arrays
contain what executing in order has put there before operation `k`. -/
def TimingIrrelevant (ρ : Rule) (I : Interp g V) (P : Prog g V) (m : Fin g.procs → Mem V) (n : ℕ) : Prop :=
  (∀ (σ : ℕ → State g V) (len : ℕ), σ 0 = start m → (∀ t < len, Step ρ I P (σ t) (σ (t + 1))) →
    len ≤ 2 * n * g.procs) ∧
  (∀ σ, Relation.ReflTransGen (Step ρ I P) (start m) σ → (¬ ∃ τ, Step ρ I P σ τ) →
    Finished P σ ∧ ∀ i, (σ i).mem = inOrder I P m n i) ∧
  ∀ σ, Relation.ReflTransGen (Step ρ I P) (start m) σ → ∀ i,
    (σ i).mem.host = (inOrder I P m (σ i).pc i).host

end Stream
end Verif
