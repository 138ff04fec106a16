/-
C80: the results of the GPU backends do not depend on when the devices do their work.
-/
import Verif.Stream.Safe

namespace Verif
namespace Stream

/-! ### Which programs -/

/-- All the program does, on every process and whatever it finds in host memory, are calls of this kind. -/
def MadeOf {g : Grid} {V : Type*} (S : Setup) (A : Item → Prop) (P : Prog g V) : Prop :=
  ∀ i k hm o, P i k hm = some o → ∃ label x, A x ∧ o = Item.op S label x

/-- What the member functions of the single-GPU backend hand over. -/
def Cuda.Issued (x : Item) : Prop := ∃ V1 V2 c, x ∈ Cuda.items V1 V2 c

/-- What the member functions of the distributed backend on GPUs hand over. -/
def Mgpu.Issued (v : Mgpu.Variant) (x : Item) : Prop := ∃ c, x ∈ Mgpu.items v c

/-- One process. -/
abbrev single : Grid := ⟨1, fun _ _ => 0⟩

/-- Executed in order, the program ends after `n` operations. -/
def Ends {g : Grid} {V : Type*} (I : Interp g V) (P : Prog g V) (m : Fin g.procs → Mem V) (n : ℕ) : Prop :=
  (∀ k < n, ∀ i, (P i k (inOrder I P m k i).host).isSome) ∧ ∀ i, P i n (inOrder I P m n i).host = none

section
variable {g : Grid} {V : Type*}

theorem listProg_lockstep (I : Interp g V) (S : Setup) (l : List Item) (m : Fin g.procs → Mem V) :
    Lockstep I (listProg g V S l) m l.length where
  runs k hk i := ⟨Item.op S k l[k], by simp [listProg, hk], fun j _ => by simp [listProg, hk]⟩
  ends i := by simp [listProg]

theorem listProg_madeOf {S : Setup} {A : Item → Prop} {l : List Item} (h : ∀ x ∈ l, A x) :
    MadeOf S A (listProg g V S l) := by
  intro i k hm o ho
  obtain ⟨x, hx, rfl⟩ := Option.map_eq_some_iff.1 ho
  exact ⟨k, x, h x (List.mem_of_getElem? hx), rfl⟩

theorem MadeOf.good {S : Setup} {A : Item → Prop} {q : Queue} {P : Prog g V} (h : MadeOf S A P)
    (hA : ∀ x, A x → ItemSafe S {.dflt, q} x) {I : Interp g V} {m : Fin g.procs → Mem V} {n : ℕ}
    (hl : Lockstep I P m n) : Good .legacy {.dflt, q} I P m n where
  lock := hl
  safe i k o ho := by
    obtain ⟨label, x, hx, rfl⟩ := h i k _ o ho
    exact (hA x hx).safe label
  ordered := legacy_ordered

end

theorem Ends.lockstep {V : Type*} {I : Interp single V} {P : Prog single V} {m : Fin single.procs → Mem V} {n : ℕ}
    (h : Ends I P m n) : Lockstep I P m n where
  runs k hk i := by
    obtain ⟨o, ho⟩ := Option.isSome_iff_exists.1 (h.1 k hk i)
    refine ⟨o, ho, fun j _ => ?_⟩
    have : j = i := Subsingleton.elim (α := Fin 1) j i
    rw [this]; exact ho
  ends := h.2

theorem Cuda.script_issued (cs : List Cuda.Call) : ∀ V1 V2, ∀ x ∈ Cuda.script V1 V2 cs, Cuda.Issued x := by
  induction cs with
  | nil => intro V1 V2 x hx; cases hx
  | cons c cs ih =>
    intro V1 V2 x hx
    rw [Cuda.script, List.mem_append] at hx
    rcases hx with hx | hx
    · exact ⟨V1, V2, c, hx⟩
    · split at hx
      exacts [ih V2 V1 x hx, ih V1 V2 x hx]

theorem Mgpu.script_issued (v : Mgpu.Variant) (cs : List Mgpu.Call) :
    ∀ x ∈ Mgpu.script v cs, Mgpu.Issued v x := by
  intro x hx
  obtain ⟨c, -, hx⟩ := List.mem_flatMap.1 hx
  exact ⟨c, hx⟩

/-! ### The property -/

/-- **C80, one GPU.**  Any host program made of the calls of the single-GPU backend and host code, which may decide
what to do next from anything it finds in host memory, gives the same results however fast the device is, and never
gets stuck. -/
theorem C80_cuda {V : Type*} (I : Interp single V) (P : Prog single V) (m : Fin single.procs → Mem V) (n : ℕ)
    (hP : MadeOf Cuda.setup Cuda.Issued P) (hn : Ends I P m n) : TimingIrrelevant .legacy I P m n := by
  refine (hP.good (q := Cuda.stream) (fun x ⟨V1, V2, c, hx⟩ => ?_) hn.lockstep).timingIrrelevant
  exact (Cuda.items_safe V1 V2 c).safe x hx

/-- The same for any sequence of calls, without a hypothesis. -/
theorem C80_cuda_calls {V : Type*} (I : Interp single V) (cs : List Cuda.Call) (m : Fin single.procs → Mem V) :
    TimingIrrelevant .legacy I (listProg single V Cuda.setup (Cuda.script .C .B cs)) m
      (Cuda.script .C .B cs).length := by
  refine C80_cuda I _ m _ (listProg_madeOf (Cuda.script_issued cs .C .B)) ?_
  exact ⟨fun k hk i => by simp [listProg, hk], (listProg_lockstep I _ _ m).ends⟩

/-- **C80, several GPUs, communication through host memory.**  `hl`: executed in order, the processes of a
communicator call its operations together (C49). -/
theorem C80_mgpu_staged {g : Grid} {V : Type*} (w : Bool) (I : Interp g V) (P : Prog g V) (m : Fin g.procs → Mem V)
    (n : ℕ) (hP : MadeOf (Mgpu.setup w) (Mgpu.Issued .staged) P) (hl : Lockstep I P m n) :
    TimingIrrelevant .legacy I P m n := by
  refine (hP.good (q := Mgpu.stream1) (fun x ⟨c, hx⟩ => ?_) hl).timingIrrelevant
  exact (Mgpu.items_safe (Mgpu.commSafe_staged w) c).safe x hx

/-- **C80, several GPUs, communication on the devices with NCCL** (how the library is configured by default). -/
theorem C80_mgpu_nccl {g : Grid} {V : Type*} (w : Bool) (I : Interp g V) (P : Prog g V) (m : Fin g.procs → Mem V)
    (n : ℕ) (hP : MadeOf (Mgpu.setup w) (Mgpu.Issued .nccl) P) (hl : Lockstep I P m n) :
    TimingIrrelevant .legacy I P m n := by
  refine (hP.good (q := Mgpu.stream1) (fun x ⟨c, hx⟩ => ?_) hl).timingIrrelevant
  exact (Mgpu.items_safe (Mgpu.commSafe_nccl w) c).safe x hx

/-- **C80, several GPUs, MPI on device arrays**: only if MPI waits for the work of the device; missing is an MPI
library that does not (`C80_mgpu_mpi_refuted`). -/
theorem C80_mgpu_mpi_partial {g : Grid} {V : Type*} (I : Interp g V) (P : Prog g V) (m : Fin g.procs → Mem V)
    (n : ℕ) (hP : MadeOf (Mgpu.setup true) (Mgpu.Issued .mpi) P) (hl : Lockstep I P m n) :
    TimingIrrelevant .legacy I P m n := by
  refine (hP.good (q := Mgpu.stream1) (fun x ⟨c, hx⟩ => ?_) hl).timingIrrelevant
  exact (Mgpu.items_safe Mgpu.commSafe_mpi c).safe x hx

/-- Any sequence of calls that all processes make, on any grid; `w` is irrelevant without MPI on device arrays. -/
theorem C80_mgpu_calls {g : Grid} {V : Type*} (v : Mgpu.Variant) (w : Bool) (hv : v = .mpi → w = true)
    (I : Interp g V) (cs : List Mgpu.Call) (m : Fin g.procs → Mem V) :
    TimingIrrelevant .legacy I (listProg g V (Mgpu.setup w) (Mgpu.script v cs)) m (Mgpu.script v cs).length := by
  have hP := listProg_madeOf (g := g) (V := V) (S := Mgpu.setup w) (Mgpu.script_issued v cs)
  have hl := listProg_lockstep I (Mgpu.setup w) (Mgpu.script v cs) m
  rcases v with _ | _ | _
  · exact C80_mgpu_staged w I _ m _ hP hl
  · exact C80_mgpu_nccl w I _ m _ hP hl
  · obtain rfl := hv rfl
    exact C80_mgpu_mpi_partial I _ m _ hP hl

/-! ### The hypotheses can be met -/

/-- A host program that decides from what it finds in host memory: it makes a Cholesky QR, and if the factorisation
has failed a Householder QR (as chase_mpi.hpp 406-421 does). -/
def adaptive : Prog single ℕ := fun _ k hm =>
  if k < 4 then ((Cuda.items .C .B (.cholQR1 .fail1))[k]?).map (Item.op Cuda.setup k)
  else if hm .scal = 0 then if k = 4 then some (Item.op Cuda.setup k (lib [.A] [.C])) else none
  else ((Cuda.items .C .B .hhQR)[k - 4]?).map (Item.op Cuda.setup k)

/-- It is made of the calls of the backend. -/
theorem adaptive_madeOf : MadeOf Cuda.setup Cuda.Issued adaptive := by
  intro i k hm o ho
  unfold adaptive at ho
  split at ho
  · obtain ⟨x, hx, rfl⟩ := Option.map_eq_some_iff.1 ho
    exact ⟨k, x, ⟨.C, .B, .cholQR1 .fail1, List.mem_of_getElem? hx⟩, rfl⟩
  · split at ho
    · split at ho
      · obtain rfl := Option.some.inj ho
        exact ⟨k, _, ⟨.C, .B, .cholQR1 .ok, by simp [Cuda.items]⟩, rfl⟩
      · cases ho
    · obtain ⟨x, hx, rfl⟩ := Option.map_eq_some_iff.1 ho
      exact ⟨k, x, ⟨.C, .B, .hhQR, List.mem_of_getElem? hx⟩, rfl⟩

/-- A device on which the copy of `devInfo_` finds `b`. -/
def infoInterp (b : ℕ) : Interp single ℕ := ⟨fun _ _ _ _ => b⟩

/-- If the factorisation succeeds it makes five calls, otherwise seven; in both cases `C80_cuda` applies. -/
example : Ends (infoInterp 0) adaptive (fun _ _ => 0) 5 ∧ Ends (infoInterp 1) adaptive (fun _ _ => 0) 7 := by
  constructor
  · refine ⟨fun k hk i => ?_, fun i => ?_⟩
    · obtain rfl : i = (0 : Fin 1) := Subsingleton.elim (α := Fin 1) _ _
      interval_cases k <;> decide +kernel
    · obtain rfl : i = (0 : Fin 1) := Subsingleton.elim (α := Fin 1) _ _
      decide +kernel
  · refine ⟨fun k hk i => ?_, fun i => ?_⟩
    · obtain rfl : i = (0 : Fin 1) := Subsingleton.elim (α := Fin 1) _ _
      interval_cases k <;> decide +kernel
    · obtain rfl : i = (0 : Fin 1) := Subsingleton.elim (α := Fin 1) _ _
      decide +kernel

/-- A sequence of calls like that of a solve on one GPU. -/
example : (Cuda.script .C .B [.construct, .initRndVecs, .initVecs, .mLanczos 1 1 true, .lockVectorCopy, .shiftMatrix,
    .apply, .apply, .shiftMatrix, .cholQR1 .ok, .rr, .resd, .swap, .finish]).length = 46 := by decide

/-! ### Where it fails -/

/-- Two processes in a column. -/
abbrev pair : Grid := ⟨2, fun c i => match c with | .row => i | .col => 0⟩

instance {g : Grid} (c : Option Comm) (i j : Fin g.procs) : Decidable (g.Mates c i j) :=
  match c with
  | none => inferInstanceAs (Decidable (i = j))
  | some c => inferInstanceAs (Decidable (g.comm c i = g.comm c j))

/-- After the end nothing happens. -/
theorem Finished.stuck {g : Grid} {V : Type*} {ρ : Rule} {I : Interp g V} {P : Prog g V} {σ : State g V}
    (h : Finished P σ) : ¬ ∃ τ, Step ρ I P σ τ := by
  rintro ⟨τ, i, ⟨o, q, h1, -⟩ | ⟨o, h1, -⟩ | ⟨p, o, q, l, r, a, -, h1, -⟩⟩
  · rw [(h i).1] at h1; cases h1
  · have := (h1 i (Grid.Mates.refl _ i)).2.1
    rw [(h i).1] at this; cases this
  · have := (h1 i (Grid.Mates.refl _ i)).1
    rw [(h i).2] at this
    simp at this

/-- What the calls do in the counterexample: the first one puts 1, the second one the sum of what the processes have
in `B`. -/
def pairInterp : Interp pair ℕ where
  eff o i v _ := if o.label = 0 then 1 else
    ∑ j : Fin 2, if hj : pair.Mates o.coll i j then
      if hB : d .B ∈ o.reads then (v ⟨j, hj⟩).2 ⟨d .B, hB⟩ else 0 else 0

/-- **C80 refuted for MPI on device arrays** if MPI does not wait for the device: in `apply` the reduction may take
`B` before cuBLAS has put the product there.  An execution without a mistake by anybody ends with another result. -/
theorem C80_mgpu_mpi_refuted : ∃ (g : Grid) (I : Interp g ℕ) (m : Fin g.procs → Mem ℕ),
    ¬ TimingIrrelevant .legacy I (listProg g ℕ (Mgpu.setup false) (Mgpu.script .mpi [.apply true])) m
      (Mgpu.script .mpi [.apply true]).length := by
  refine ⟨pair, pairInterp, fun _ _ => 0, fun h => ?_⟩
  let o0 : Op := Item.op (Mgpu.setup false) 0 (lib [.H, .C] [.B])
  let o1 : Op := Item.op (Mgpu.setup false) 1 ⟨.mpi .col true, [], [d .B], [d .B]⟩
  have hP : ∀ i k hm, listProg pair ℕ (Mgpu.setup false) (Mgpu.script .mpi [.apply true]) i k hm =
      if k = 0 then some o0 else if k = 1 then some o1 else none := by
    intro i k hm
    match k with
    | 0 => rfl
    | 1 => rfl
    | k + 2 => simp [listProg, Mgpu.script, Mgpu.items, Mgpu.ifStaged, Mgpu.Variant.aware]
  have hm : ∀ i j : Fin pair.procs, pair.Mates o1.coll i j := fun i j => rfl
  let z : Mem ℕ := fun _ => 0
  let e : Entry ℕ := ⟨0, o0, z.get o0.args⟩
  let one : Mem ℕ := fun l => if l = d .B then 1 else 0
  let s0 : PState ℕ := ⟨z, 0, []⟩
  let s1 : PState ℕ := ⟨z, 1, [e]⟩
  let s2 : PState ℕ := ⟨z, 2, [e]⟩
  let s3 : PState ℕ := ⟨one, 2, []⟩
  let st : PState ℕ → PState ℕ → State pair ℕ := fun a b i => if i.val = 0 then a else b
  have st0 : ∀ a b, st a b (0 : Fin 2) = a := fun a b => rfl
  have st1 : ∀ a b, st a b (1 : Fin 2) = b := fun a b => rfl
  have up0 : ∀ a b c, Function.update (st a b) (0 : Fin 2) c = st c b := by
    intro a b c; funext i; fin_cases i <;> simp [st, Function.update]
  have up1 : ∀ a b c, Function.update (st a b) (1 : Fin 2) c = st a c := by
    intro a b c; funext i; fin_cases i <;> simp [st, Function.update]
  have hstart : start (g := pair) (fun _ _ => (0 : ℕ)) = st s0 s0 := by
    funext i; fin_cases i <;> rfl
  have t1 : Step .legacy pairInterp (listProg pair ℕ (Mgpu.setup false) (Mgpu.script .mpi [.apply true]))
      (st s0 s0) (st s1 s0) :=
    ⟨(0 : Fin 2), .inl ⟨o0, .dflt, hP _ 0 _, rfl, by rw [up0]; rfl⟩⟩
  have t2 : Step .legacy pairInterp (listProg pair ℕ (Mgpu.setup false) (Mgpu.script .mpi [.apply true]))
      (st s1 s0) (st s1 s1) :=
    ⟨(1 : Fin 2), .inl ⟨o0, .dflt, hP _ 0 _, rfl, by rw [up1]; rfl⟩⟩
  have hzero : ∀ i : Fin pair.procs, z.put o1.writes (pairInterp.eff o1 i fun k =>
      ((st s1 s1 k.1).mem.get o1.args, (st s1 s1 k.1).mem.get o1.reads)) = z := by
    intro i
    have hst : ∀ k : Fin pair.procs, st s1 s1 k = s1 := by intro k; simp [st]
    funext l
    unfold Mem.put
    split
    · simp only [pairInterp, hst]
      rw [if_neg (by decide)]
      apply Finset.sum_eq_zero
      intro j _
      split
      · split <;> rfl
      · rfl
    · rfl
  have t3 : Step .legacy pairInterp (listProg pair ℕ (Mgpu.setup false) (Mgpu.script .mpi [.apply true]))
      (st s1 s1) (st s2 s2) := by
    refine ⟨(0 : Fin 2), .inr (.inl ⟨o1, ?_, ?_, fun j hj => absurd (hm _ j) hj⟩)⟩
    · intro j _
      refine ⟨by simp [st], ?_, .inl rfl⟩
      rw [next, hP]; simp [st, s1]
    · intro j _
      rw [show (st s1 s1 j).mem = z by simp [st, s1], hzero j]
      simp [st, s1, s2]
  have hone : ∀ (i : Fin pair.procs) v, z.put o0.writes (pairInterp.eff o0 i v) = one := by
    intro i v
    funext l
    by_cases hl : l = d .B
    · subst hl
      rw [Mem.put_of_mem (by decide)]
      rfl
    · rw [Mem.put_of_not (by simpa [o0, Item.op, lib] using hl)]
      simp [one, hl, z]
  have t4 : Step .legacy pairInterp (listProg pair ℕ (Mgpu.setup false) (Mgpu.script .mpi [.apply true]))
      (st s2 s2) (st s3 s2) := by
    refine ⟨(0 : Fin 2), .inr (.inr ⟨0, o0, .dflt, fun _ => [], fun _ => [], fun _ => z.get o0.args, rfl, ?_, ?_,
      ?_⟩)⟩
    · rintro j (rfl : (0 : Fin 2) = j)
      exact ⟨rfl, by intro e he; cases he⟩
    · rintro j (rfl : (0 : Fin 2) = j)
      rw [show (st s2 s2 (0 : Fin 2)).mem = z from rfl, hone]
      rfl
    · intro j hj
      have : j ≠ (0 : Fin 2) := fun h => hj h.symm
      simp [st, this]
  have t5 : Step .legacy pairInterp (listProg pair ℕ (Mgpu.setup false) (Mgpu.script .mpi [.apply true]))
      (st s3 s2) (st s3 s3) := by
    refine ⟨(1 : Fin 2), .inr (.inr ⟨0, o0, .dflt, fun _ => [], fun _ => [], fun _ => z.get o0.args, rfl, ?_, ?_,
      ?_⟩)⟩
    · rintro j (rfl : (1 : Fin 2) = j)
      exact ⟨rfl, by intro e he; cases he⟩
    · rintro j (rfl : (1 : Fin 2) = j)
      rw [show (st s3 s2 (1 : Fin 2)).mem = z from rfl, hone]
      rfl
    · intro j hj
      have : j = (0 : Fin 2) := by
        have h1 : j ≠ (1 : Fin 2) := fun h => hj h.symm
        revert h1 hj
        exact Fin.cases (fun _ _ => rfl) (fun k _ h1 => absurd (by fin_cases k; rfl) h1) (j : Fin 2)
      simp [st, this]
  have hr : Relation.ReflTransGen (Step .legacy pairInterp
      (listProg pair ℕ (Mgpu.setup false) (Mgpu.script .mpi [.apply true])))
      (start (g := pair) fun _ _ => (0 : ℕ)) (st s3 s3) := by
    rw [hstart]
    exact ((((Relation.ReflTransGen.single t1).tail t2).tail t3).tail t4).tail t5
  have hf : Finished (listProg pair ℕ (Mgpu.setup false) (Mgpu.script .mpi [.apply true])) (st s3 s3) := by
    intro i
    have : st s3 s3 i = s3 := by simp [st]
    rw [next, hP, this]
    exact ⟨rfl, rfl⟩
  have hend := (h.2.1 _ hr hf.stuck).2 (0 : Fin 2)
  have hend := congrFun hend (d .B)
  revert hend
  decide +kernel

/-- What the calls do in the second counterexample: the first one (`cublasTgemm`) puts 1, the others copy the first array
they read. -/
def copyInterp : Interp single ℕ where
  eff o i v _ := if o.label = 0 then 1 else
    match hr : o.reads with
    | [] => 0
    | l :: _ => (v ⟨i, Grid.Mates.refl _ i⟩).2 ⟨l, by simp [hr]⟩

/-- **With a default stream per thread C80 fails for one GPU**: the residual kernel, on the default stream, need not
wait for the product computed on `stream_`.  The build files do not ask for such a stream. -/
theorem C80_per_thread_refuted : ∃ (I : Interp single ℕ) (m : Fin single.procs → Mem ℕ),
    ¬ TimingIrrelevant .perThread I (listProg single ℕ Cuda.setup (Cuda.script .C .B [.resd])) m
      (Cuda.script .C .B [.resd]).length := by
  refine ⟨copyInterp, fun _ _ => 0, fun h => ?_⟩
  let o0 : Op := Item.op Cuda.setup 0 (lib [.H, .C] [.B])
  let o1 : Op := Item.op Cuda.setup 1 (kernel .dflt [.B, .C, .ritzv] [.resid])
  let o2 : Op := Item.op Cuda.setup 2 (d2h .resid .resid)
  have hP : ∀ i k hm, listProg single ℕ Cuda.setup (Cuda.script .C .B [.resd]) i k hm =
      if k = 0 then some o0 else if k = 1 then some o1 else if k = 2 then some o2 else none := by
    intro i k hm
    match k with
    | 0 => rfl
    | 1 => rfl
    | 2 => rfl
    | k + 3 => simp [listProg, Cuda.script, Cuda.items, Cuda.Call.swaps]
  have hs : ∀ i j : Fin single.procs, i = j := fun i j => Subsingleton.elim (α := Fin 1) i j
  let z : Mem ℕ := fun _ => 0
  let e0 : Entry ℕ := ⟨0, o0, z.get o0.args⟩
  let e1 : Entry ℕ := ⟨1, o1, z.get o1.args⟩
  let st : PState ℕ → State single ℕ := fun a _ => a
  let s0 : PState ℕ := ⟨z, 0, []⟩
  let s1 : PState ℕ := ⟨z, 1, [e0]⟩
  let s2 : PState ℕ := ⟨z, 2, [e0, e1]⟩
  let s3 : PState ℕ := ⟨z, 2, [e0]⟩
  let s4 : PState ℕ := ⟨z, 3, [e0]⟩
  have up : ∀ a b, Function.update (st a) (0 : Fin 1) b = st b := by
    intro a b; funext i; rw [hs i (0 : Fin 1)]; simp only [st, Function.update_self]
  have t1 : Step .perThread copyInterp (listProg single ℕ Cuda.setup (Cuda.script .C .B [.resd])) (st s0) (st s1) :=
    ⟨(0 : Fin 1), .inl ⟨o0, Cuda.stream, hP _ 0 _, rfl, by rw [up]; rfl⟩⟩
  have t2 : Step .perThread copyInterp (listProg single ℕ Cuda.setup (Cuda.script .C .B [.resd])) (st s1) (st s2) :=
    ⟨(0 : Fin 1), .inl ⟨o1, .dflt, hP _ 1 _, rfl, by rw [up]; rfl⟩⟩
  have free : Free .perThread .dflt [e0] := by
    intro e he q hq
    rw [List.mem_singleton.1 he] at hq
    have : q = Cuda.stream := by
      have h1 : (When.later Cuda.stream).queue? = some q := hq
      exact (Option.some.inj h1).symm
    rw [this]
    simp [Rule.Ordered, Cuda.stream]
  have hz : ∀ o : Op, o = o1 ∨ o = o2 → ∀ (i : Fin single.procs) a, z.put o.writes (copyInterp.eff o i fun k =>
      (a, z.get o.reads)) = z := by
    intro o ho i a
    funext l
    unfold Mem.put
    split
    · rcases ho with rfl | rfl <;> rfl
    · rfl
  have t3 : Step .perThread copyInterp (listProg single ℕ Cuda.setup (Cuda.script .C .B [.resd]))
      (st s2) (st s3) := by
    refine ⟨(0 : Fin 1), .inr (.inr ⟨1, o1, .dflt, fun _ => [e0], fun _ => [], fun _ => z.get o1.args, rfl,
      fun j _ => ⟨rfl, free⟩, fun j _ => ?_, fun j hj => absurd (hs _ j) hj⟩)⟩
    show s3 = _
    rw [show (st s2 j).mem = z from rfl]
    exact (congrArg (fun x => (⟨x, 2, [e0]⟩ : PState ℕ)) (hz o1 (.inl rfl) j _)).symm
  have t4 : Step .perThread copyInterp (listProg single ℕ Cuda.setup (Cuda.script .C .B [.resd]))
      (st s3) (st s4) := by
    refine ⟨(0 : Fin 1), .inr (.inl ⟨o2, fun j _ => ⟨rfl, hP _ 2 _, .inr ⟨.dflt, rfl, free⟩⟩,
      fun j _ => ?_, fun j hj => absurd (hs _ j) hj⟩)⟩
    show s4 = _
    exact (congrArg (fun x => (⟨x, 3, [e0]⟩ : PState ℕ)) (hz o2 (.inr rfl) j _)).symm
  have hr : Relation.ReflTransGen (Step .perThread copyInterp
      (listProg single ℕ Cuda.setup (Cuda.script .C .B [.resd])))
      (start (g := single) fun _ _ => (0 : ℕ)) (st s4) :=
    (((Relation.ReflTransGen.single t1).tail t2).tail t3).tail t4
  have hend := congrFun (h.2.2 _ hr (0 : Fin 1)) .resid
  revert hend
  decide +kernel

/-- With NCCL every execution of the same call that has come to its end has the sum in `B`. -/
example (σ : State pair ℕ) (h : Relation.ReflTransGen (Step .legacy pairInterp
      (listProg pair ℕ (Mgpu.setup false) (Mgpu.script .nccl [.apply true])))
      (start (g := pair) fun _ _ => (0 : ℕ)) σ)
    (hf : Finished (listProg pair ℕ (Mgpu.setup false) (Mgpu.script .nccl [.apply true])) σ) (i : Fin 2) :
    (σ i).mem (d .B) = 2 := by
  have := ((C80_mgpu_calls (g := pair) .nccl false (by simp) pairInterp [.apply true] fun _ _ => 0).2.1 σ h hf.stuck).2 i
  rw [this]
  clear this
  revert i
  decide +kernel

/-! ### Results are brought to the host -/

/-- Among the calls is one that reads `x` and writes `y`, and no later one changes `x`. -/
def Delivers (l : List Item) (x y : Loc) : Prop :=
  ∃ pre z post, l = pre ++ z :: post ∧ x ∈ z.reads ∧ y ∈ z.writes ∧ ∀ w ∈ post, x ∉ w.writes

/-- Single GPU: at the end of a solve, after the Rayleigh-Ritz step and after the computation of the residuals the
vectors, the Ritz values and the residuals have been copied from the device to the host arrays of the caller. -/
theorem C80_cuda_delivers (V1 V2 : Arr) (h2 : V2 ≠ .ritzv) :
    Delivers (Cuda.items V1 V2 .finish) (d V1) (h .C) ∧
    Delivers (Cuda.items V1 V2 .rr) (d .ritzv) (h .ritzv) ∧
    Delivers (Cuda.items V1 V2 .resd) (d .resid) (h .resid) := by
  refine ⟨⟨[], _, [], rfl, by simp [d2h], by simp [d2h], by simp⟩,
    ⟨[_, _, _], _, [_], rfl, by simp [d2h], by simp [d2h], ?_⟩,
    ⟨[_, _], _, [], rfl, by simp [d2h], by simp [d2h], by simp⟩⟩
  simp [lib, d, h2.symm]

/-- Several GPUs with communication on the devices: the same, on every process. -/
theorem C80_mgpu_delivers (v : Mgpu.Variant) (hv : v ≠ .staged) (runs : Option ℕ) (copied : Bool) :
    Delivers (Mgpu.items v .finish) (d .C) (h .C) ∧
    Delivers (Mgpu.items v (.rr runs copied)) (d .ritzv) (h .ritzv) ∧
    Delivers (Mgpu.items v (.resd runs)) (d .resid) (h .resid) := by
  have ha : v.aware = true := by simp [Mgpu.Variant.aware, hv]
  refine ⟨⟨[], down .C, [], by simp [Mgpu.items, Mgpu.ifAware, ha], by simp [down], by simp [down], by simp⟩,
    ⟨Mgpu.asynCxHGatherC v runs copied ++ [lib [.B2, .B] [.A], Mgpu.comm v .row [.A] [.A],
      lib [] [.A, .ritzv, .work, .info]], d2h .ritzv .ritzv, [lib [.C2, .A] [.C], Mgpu.copy0 v .C .C2],
      by simp [Mgpu.items, Mgpu.ifStaged, ha], by simp [d2h], by simp [d2h], ?_⟩,
    ⟨Mgpu.asynCxHGatherC v runs true ++ [kernel .dflt [.B, .B2, .ritzv] [.resid],
      Mgpu.comm v .row [.resid] [.resid]], down .resid, [cpu [.resid] [.resid]],
      by simp [Mgpu.items, Mgpu.ifAware, ha], by simp [down], by simp [down], by simp [cpu, d, h]⟩⟩
  simp [lib, Mgpu.copy0, ha, d2d, d]

/-- With communication through the host the Ritz values come from the device; the vectors are copied to the host by
the calls that change them, and the residuals are computed on the host. -/
theorem C80_staged_delivers (runs : Option ℕ) (copied : Bool) :
    Delivers (Mgpu.items .staged (.rr runs copied)) (d .ritzv) (h .ritzv) ∧
    Delivers (Mgpu.items .staged (.rr runs copied)) (d .C) (h .C) ∧
    Delivers (Mgpu.items .staged (.apply false)) (d .C) (h .C) ∧
    Delivers (Mgpu.items .staged (.apply true)) (d .B) (h .B) ∧
    Delivers (Mgpu.items .staged .initRndVecs) (d .C) (h .C) := by
  refine ⟨⟨Mgpu.asynCxHGatherC .staged runs copied ++ [up .B .B, up .B2 .B2, lib [.B2, .B] [.A], down .A,
      Mgpu.comm .staged .row [.A] [.A], up .A .A, lib [] [.A, .ritzv, .work, .info]], d2h .ritzv .ritzv,
      [up .C2 .C2, lib [.C2, .A] [.C], down .C, Mgpu.copy0 .staged .C .C2],
      by simp [Mgpu.items, Mgpu.ifStaged, Mgpu.Variant.aware], by simp [d2h], by simp [d2h], ?_⟩,
    ⟨Mgpu.asynCxHGatherC .staged runs copied ++ [up .B .B, up .B2 .B2, lib [.B2, .B] [.A], down .A,
      Mgpu.comm .staged .row [.A] [.A], up .A .A, lib [] [.A, .ritzv, .work, .info], d2h .ritzv .ritzv,
      up .C2 .C2, lib [.C2, .A] [.C]], down .C, [Mgpu.copy0 .staged .C .C2],
      by simp [Mgpu.items, Mgpu.ifStaged, Mgpu.Variant.aware], by simp [down], by simp [down], ?_⟩,
    ⟨[_, _], down .C, [_], rfl, by simp [down], by simp [down], by simp [Mgpu.comm, d, h]⟩,
    ⟨[_, _], down .B, [_], rfl, by simp [down], by simp [down], by simp [Mgpu.comm, d, h]⟩,
    ⟨[_], down .C, [], rfl, by simp [down], by simp [down], by simp⟩⟩
  · simp [up, lib, down, Mgpu.copy0, Mgpu.Variant.aware, cpu, d, h]
  · simp [Mgpu.copy0, Mgpu.Variant.aware, cpu, d, h]

/-- The vectors of a single-GPU run lie in the arrays `C` and `B`. -/
example : Delivers (Cuda.items .B .C .finish) (d .B) (h .C) := (C80_cuda_delivers .B .C (by decide)).1

/-- Single GPU: the vectors that a product or a Rayleigh-Ritz step has computed are those which the end of the solve
copies to the caller, and those which the next product, the next Rayleigh-Ritz step and the residuals start from. -/
theorem C80_cuda_passes_on (V1 V2 : Arr) (c : Cuda.Call) (hc : c = .apply ∨ c = .rr) :
    ∃ pre z, Cuda.items V1 V2 c = pre ++ [z] ∧ z.writes = [d V2] ∧
      Delivers (Cuda.script V1 V2 [c, .finish]) (d V2) (h .C) ∧
      ∀ c' ∈ [Cuda.Call.apply, .rr, .resd], ∃ y post, Cuda.script V1 V2 [c, c'] = pre ++ [z] ++ y :: post ∧ d V2 ∈ y.reads := by
  rcases hc with rfl | rfl
  · refine ⟨[], lib [.H, V1] [V2], rfl, rfl, ⟨[_], d2h V2 .C, [], rfl, by simp [d2h], by simp [d2h], by simp⟩, fun c' h => ?_⟩
    simp only [List.mem_cons, List.not_mem_nil, or_false] at h
    rcases h with rfl | rfl | rfl <;> exact ⟨lib [.H, V2] [V1], _, rfl, by simp [lib]⟩
  · refine ⟨[lib [.H, V1] [V2], lib [V2, V1] [.A], lib [] [.A, .ritzv, .work, .info], d2h .ritzv .ritzv],
      lib [V1, .A] [V2], rfl, rfl, ⟨[_, _, _, _, _], d2h V2 .C, [], rfl, by simp [d2h], by simp [d2h], by simp⟩, fun c' h => ?_⟩
    simp only [List.mem_cons, List.not_mem_nil, or_false] at h
    rcases h with rfl | rfl | rfl <;> exact ⟨lib [.H, V2] [V1], _, rfl, by simp [lib]⟩

/-- Before anything reads or changes `y`, it has been written from `x`. -/
def Fetches (l : List Item) (x y : Loc) : Prop :=
  ∃ pre z post, l = pre ++ z :: post ∧ x ∈ z.args ++ z.reads ∧ y ∈ z.writes ∧ ∀ w ∈ pre, y ∉ w.args ++ w.reads ++ w.writes

/-- With communication through the host a Cholesky QR first brings the vectors to the device and, if it succeeds, at its
end the orthonormal ones back to the host, where Householder QR and the copies of locked vectors work. -/
theorem C80_staged_chol_delivers (e : Cuda.Chol) :
    (∀ c ∈ [Mgpu.Call.cholQR1 e, .cholQR2 e, .shiftedcholQR2 e], Fetches (Mgpu.items .staged c) (h .C) (d .C)) ∧
    (∀ c ∈ [Mgpu.Call.cholQR1 .ok, .cholQR2 .ok, .shiftedcholQR2 .ok],
      ∃ pre, Mgpu.items .staged c = pre ++ [lib [.A] [.C], down .C]) := by
  constructor
  · intro c hc
    simp only [List.mem_cons, List.not_mem_nil, or_false] at hc
    rcases hc with rfl | rfl | rfl <;> exact ⟨[], up .C .C, _, rfl, by simp [up], by simp [up], by simp⟩
  · intro c hc
    simp only [List.mem_cons, List.not_mem_nil, or_false] at hc
    rcases hc with rfl | rfl | rfl
    · exact ⟨[_, _, _, _, _, _, _], rfl⟩
    · exact ⟨[_, _, _, _, _, _, _, _, _, _, _, _, _], rfl⟩
    · exact ⟨[_, _, _, _, _, _, _, _, _, _, _, _, _, _, _, _, _, _, _, _, _, _, _], rfl⟩

/-- Several GPUs: in every round of the Lanczos process the vectors, which live on the host, are brought to the device
before they are multiplied, and the products are brought back before the processes add them up. -/
theorem C80_lanczos_delivers (v : Mgpu.Variant) (numvec : ℕ) (second first last : Bool) :
    Fetches (Mgpu.lanczosRound v numvec second first last) (h .lan) (d .lan) ∧
    ∃ pre z post, Mgpu.lanczosRound v numvec second first last = pre ++ z :: post ∧ d .lan ∈ z.reads ∧ h .lan ∈ z.writes ∧
      (∀ w ∈ post, d .lan ∉ w.writes) ∧ (∀ w ∈ pre, ∀ c b, w.routine ≠ .mpi c b) ∧
      ∃ w ∈ pre, d .H ∈ w.reads ∧ d .lan ∈ w.writes := by
  have hpre : ∀ w ∈ (if second then [] else List.replicate numvec (if v.aware then h2d .lan .C else cpu [.lan] [.C])),
      d .lan ∉ w.args ++ w.reads ++ w.writes ∧ ∀ c b, w.routine ≠ .mpi c b := by
    intro w hw
    cases second <;> simp at hw
    obtain ⟨-, rfl⟩ := hw
    cases v <;> simp [Mgpu.Variant.aware, h2d, cpu, h, d]
  refine ⟨⟨_, up .lan .lan, _, by unfold Mgpu.lanczosRound; simp only [List.append_assoc, List.cons_append]; rfl,
    by simp [up], by simp [up], fun w hw => (hpre w hw).1⟩, ?_⟩
  refine ⟨(if second then [] else List.replicate numvec (if v.aware then h2d .lan .C else cpu [.lan] [.C])) ++
    [up .lan .lan, lib [.H, .lan] [.lan]], down .lan, _, by
      unfold Mgpu.lanczosRound; simp only [List.append_assoc, List.cons_append, List.nil_append]; rfl, by simp [down],
    by simp [down], ?_, ?_, lib [.H, .lan] [.lan], by simp, by simp [lib], by simp [lib]⟩
  · intro w hw
    cases first <;> cases last <;> simp at hw <;>
      rcases hw with rfl | rfl | rfl | rfl | rfl | rfl | hw <;> simp [mpiHost, cpu, h, d]
      <;> (try (rcases hw with rfl | rfl | rfl | rfl | rfl <;> simp [mpiHost, cpu, h, d]))
  · intro w hw
    rcases List.mem_append.mp hw with hw | hw
    · exact (hpre w hw).2
    · simp at hw
      rcases hw with rfl | rfl <;> simp [up, lib]

end Stream
end Verif
