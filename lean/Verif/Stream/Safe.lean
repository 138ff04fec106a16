/-
The calls of Stream/Model.lean keep host work on host arrays and device work on device arrays.
-/
import Verif.Stream.Model
import Verif.Stream.Proof

namespace Verif
namespace Stream

/-! ### Safety of the calls -/

/-- Host work touches host arrays only, device work device arrays only, on streams of `Q`. -/
structure ItemSafe (S : Setup) (Q : Set Queue) (x : Item) : Prop where
  safe : ∀ n, (Item.op S n x).Safe Q

/-- All items of a list have a property. -/
structure All (p : Item → Prop) (l : List Item) : Prop where
  safe : ∀ x ∈ l, p x

/-- All items of a list are safe. -/
abbrev AllSafe (S : Setup) (Q : Set Queue) (l : List Item) : Prop := All (ItemSafe S Q) l

section
variable {p : Item → Prop}

theorem all_nil : All p [] := ⟨by intro x hx; cases hx⟩

theorem all_cons {x : Item} {l : List Item} : All p (x :: l) ↔ p x ∧ All p l :=
  ⟨fun h => ⟨h.1 x (by simp), ⟨fun y hy => h.1 y (by simp [hy])⟩⟩,
   fun h => ⟨fun y hy => by rcases List.mem_cons.1 hy with rfl | hy; exacts [h.1, h.2.1 y hy]⟩⟩

theorem all_append {l l' : List Item} : All p (l ++ l') ↔ All p l ∧ All p l' :=
  ⟨fun h => ⟨⟨fun y hy => h.1 y (by simp [hy])⟩, ⟨fun y hy => h.1 y (by simp [hy])⟩⟩,
   fun h => ⟨fun y hy => by rcases List.mem_append.1 hy with hy | hy; exacts [h.1.1 y hy, h.2.1 y hy]⟩⟩

theorem all_replicate {n : ℕ} {x : Item} : All p (List.replicate n x) ↔ n = 0 ∨ p x := by
  constructor
  · intro h
    rcases n with _ | n
    · exact .inl rfl
    · exact .inr (h.1 x (by simp))
  · rintro (rfl | h)
    · exact all_nil
    · exact ⟨fun y hy => by rw [List.eq_of_mem_replicate hy]; exact h⟩

theorem all_flatten {n : ℕ} {l : List Item} (h : All p l) : All p (List.replicate n l).flatten := by
  refine ⟨fun y hy => ?_⟩
  obtain ⟨l', hl, hy⟩ := List.mem_flatten.1 hy
  rw [List.eq_of_mem_replicate hl] at hy
  exact h.1 y hy

theorem all_flatMap {n : ℕ} {f : ℕ → List Item} (h : ∀ k, All p (f k)) : All p ((List.range n).flatMap f) := by
  refine ⟨fun y hy => ?_⟩
  obtain ⟨k, -, hy⟩ := List.mem_flatMap.1 hy
  exact (h k).1 y hy

theorem all_ite {c : Prop} [Decidable c] {l l' : List Item} :
    All p (if c then l else l') ↔ (c → All p l) ∧ (¬ c → All p l') := by
  split <;> simp [*]

end

section
variable {S : Setup} {Q : Set Queue}

theorem itemSafe_ite {c : Prop} [Decidable c] {x y : Item} :
    ItemSafe S Q (if c then x else y) ↔ (c → ItemSafe S Q x) ∧ (¬ c → ItemSafe S Q y) := by
  split <;> simp [*]

theorem mem_side {L : List Arr} {f : Arr → Loc} {s : Side} (hf : ∀ a, (f a).1 = s) :
    ∀ l ∈ L.map f, l.1 = s := by
  intro l hl
  obtain ⟨a, -, rfl⟩ := List.mem_map.1 hl
  exact hf a

theorem mem_sides {L L' : List Arr} {f : Arr → Loc} {s : Side} (hf : ∀ a, (f a).1 = s) :
    ∀ l ∈ L.map f ++ L'.map f, l.1 = s := by
  intro l hl
  rcases List.mem_append.1 hl with hl | hl <;> exact mem_side hf l hl

theorem safe_cpu {R W : List Arr} : ItemSafe S Q (cpu R W) := ⟨fun n => by
  simp only [Op.Safe, Item.op, cpu, Routine.when]
  exact ⟨by simp, mem_sides fun _ => rfl, mem_side fun _ => rfl⟩⟩

theorem safe_mpiHost {c : Comm} {R W : List Arr} : ItemSafe S Q (mpiHost c R W) := ⟨fun n => by
  simp only [Op.Safe, Item.op, mpiHost, Routine.when]
  exact ⟨by simp, mem_sides fun _ => rfl, mem_side fun _ => rfl⟩⟩

theorem safe_lib (hS : S.handles ∈ Q) {R W : List Arr} : ItemSafe S Q (lib R W) := ⟨fun n => by
  simp only [Op.Safe, Item.op, lib, Routine.when]
  exact ⟨hS, by simp [h], mem_sides fun _ => rfl, mem_side fun _ => rfl⟩⟩

theorem safe_scalar (hS : S.handles ∈ Q) {R : List Arr} : ItemSafe S Q (scalar R) := ⟨fun n => by
  simpa only [Op.Safe, Item.op, scalar, Routine.when] using hS⟩

theorem safe_kernel {q : Queue} (hq : q ∈ Q) {R W : List Arr} : ItemSafe S Q (kernel q R W) := ⟨fun n => by
  simp only [Op.Safe, Item.op, kernel, Routine.when]
  exact ⟨hq, by simp [h], mem_sides fun _ => rfl, mem_side fun _ => rfl⟩⟩

theorem safe_d2d (hd : Queue.dflt ∈ Q) {x y : Arr} : ItemSafe S Q (d2d x y) := ⟨fun n => by
  simp [Op.Safe, Item.op, d2d, Routine.when, hd, d]⟩

theorem safe_h2d (hd : Queue.dflt ∈ Q) {x y : Arr} : ItemSafe S Q (h2d x y) := ⟨fun n => by
  simp [Op.Safe, Item.op, h2d, Routine.when, hd, d, h]⟩

theorem safe_up (hd : Queue.dflt ∈ Q) {x y : Arr} : ItemSafe S Q (up x y) := ⟨fun n => by
  simp [Op.Safe, Item.op, up, Routine.when, hd, d, h]⟩

theorem safe_memset (hd : Queue.dflt ∈ Q) {x : Arr} : ItemSafe S Q (memset x) := ⟨fun n => by
  simp [Op.Safe, Item.op, memset, Routine.when, hd, d]⟩

theorem safe_d2h (hd : Queue.dflt ∈ Q) {x y : Arr} : ItemSafe S Q (d2h x y) := ⟨fun n => by
  simp [Op.Safe, Item.op, d2h, Routine.when, hd]⟩

theorem safe_down (hd : Queue.dflt ∈ Q) {x : Arr} : ItemSafe S Q (down x) := ⟨fun n => by
  simp [Op.Safe, Item.op, down, Routine.when, hd]⟩

end

/-- The streams of the single-GPU backend. -/
def cudaStreams : Set Queue := {.dflt, Cuda.stream}
/-- The streams of the distributed backend. -/
def mgpuStreams : Set Queue := {.dflt, Mgpu.stream1}

theorem legacy_ordered {q : Queue} : ∀ x ∈ ({.dflt, q} : Set Queue), ∀ y ∈ ({.dflt, q} : Set Queue),
    Rule.legacy.Ordered x y := by
  rintro x (rfl | rfl) y (rfl | rfl) <;> simp [Rule.Ordered]

namespace Cuda

theorem dflt_mem : Queue.dflt ∈ cudaStreams := by simp [cudaStreams]
theorem stream_mem : stream ∈ cudaStreams := by simp [cudaStreams]
theorem handles_mem : setup.handles ∈ cudaStreams := by simp [cudaStreams, setup]

theorem lanczosRound_safe (V1 : Arr) (numvec : ℕ) (second first last : Bool) :
    AllSafe setup cudaStreams (lanczosRound V1 numvec second first last) := by
  simp only [lanczosRound, all_append, all_cons, all_nil, all_replicate, all_ite, safe_cpu,
    safe_lib handles_mem, safe_scalar handles_mem, safe_d2d dflt_mem, or_true, and_true, imp_true_iff]

theorem items_safe (V1 V2 : Arr) (c : Call) : AllSafe setup cudaStreams (items V1 V2 c) := by
  cases c <;> simp only [items, cholHead, all_append, all_cons, all_nil, all_replicate, all_ite,
    safe_cpu, safe_lib handles_mem, safe_scalar handles_mem, safe_d2d dflt_mem, safe_d2h dflt_mem, safe_up dflt_mem,
    safe_memset dflt_mem, safe_kernel dflt_mem, safe_kernel stream_mem,
    all_flatMap fun k => lanczosRound_safe V1 _ _ (decide (k = 0)) (decide (k + 1 = _)),
    or_true, and_true, imp_true_iff]

end Cuda

namespace Mgpu

/-- A communication of the variant is safe. -/
def CommSafe (v : Variant) (w : Bool) : Prop :=
  ∀ c (R W : List Arr), ItemSafe (setup w) mgpuStreams (comm v c R W)

theorem commSafe_staged (w : Bool) : CommSafe .staged w := by
  refine fun c R W => ⟨fun n => ?_⟩
  simp only [Op.Safe, Item.op, Mgpu.comm, Routine.when]
  exact ⟨by simp, mem_sides fun _ => rfl, mem_side fun _ => rfl⟩

theorem commSafe_nccl (w : Bool) : CommSafe .nccl w := by
  refine fun c R W => ⟨fun n => ?_⟩
  simp only [Op.Safe, Item.op, Mgpu.comm, Routine.when]
  exact ⟨by simp [mgpuStreams], by simp, mem_sides fun _ => rfl, mem_side fun _ => rfl⟩

theorem commSafe_mpi : CommSafe .mpi true := by
  refine fun c R W => ⟨fun n => ?_⟩
  simp [Op.Safe, Item.op, Mgpu.comm, Routine.when, setup, mgpuStreams]

theorem dflt_mem : Queue.dflt ∈ mgpuStreams := by simp [mgpuStreams]
theorem stream1_mem : stream1 ∈ mgpuStreams := by simp [mgpuStreams]

variable {v : Variant} {w : Bool}

theorem handles_mem : (setup w).handles ∈ mgpuStreams := by simp [mgpuStreams, setup]

theorem copy0_safe {x y : Arr} : ItemSafe (setup w) mgpuStreams (copy0 v x y) := by
  unfold copy0
  split
  exacts [safe_d2d dflt_mem, safe_cpu]

theorem lacpy_safe {x y : Arr} : ItemSafe (setup w) mgpuStreams (lacpy v x y) := by
  unfold lacpy
  split
  exacts [safe_kernel dflt_mem, safe_cpu]

theorem d2h_dev_safe : ItemSafe (setup w) mgpuStreams ⟨.copy .d2h, [], [d .C], [d .C2]⟩ := ⟨fun n => by
  simp [Op.Safe, Item.op, Routine.when, mgpuStreams]⟩

theorem ifStaged_safe {l : List Item} (h : AllSafe (setup w) mgpuStreams l) :
    AllSafe (setup w) mgpuStreams (ifStaged v l) := by
  unfold ifStaged
  split
  exacts [all_nil, h]

theorem ifAware_safe {l : List Item} (h : AllSafe (setup w) mgpuStreams l) :
    AllSafe (setup w) mgpuStreams (ifAware v l) := by
  unfold ifAware
  split
  exacts [h, all_nil]

/-- The items of this backend, up to communication. -/
macro "mgpu_safe" "[" ts:term,* "]" : tactic => `(tactic| simp only [ifStaged, ifAware,
    all_append, all_cons, all_nil, all_replicate, all_ite, itemSafe_ite,
    safe_cpu, safe_mpiHost, safe_lib handles_mem, safe_d2d dflt_mem, safe_d2h dflt_mem,
    safe_up dflt_mem, safe_down dflt_mem, safe_h2d dflt_mem, safe_memset dflt_mem, safe_kernel dflt_mem,
    safe_kernel stream1_mem, copy0_safe, lacpy_safe, d2h_dev_safe, or_true, and_true, imp_true_iff, $[$ts:term],*])

theorem asyn_safe (hv : CommSafe v w) (runs : Option ℕ) (copied : Bool) :
    AllSafe (setup w) mgpuStreams (asynCxHGatherC v runs copied) := by
  have h : ∀ c R W, ItemSafe (setup w) mgpuStreams (Mgpu.comm v c R W) := hv
  rcases runs with _ | n
  · mgpu_safe [asynCxHGatherC, h]
  · have hf : AllSafe (setup w) mgpuStreams
        (List.replicate n [lacpy v .C2 .pack, Mgpu.comm v .col [.pack] [.pack], lacpy v .pack .B2]).flatten := by
      apply all_flatten
      mgpu_safe [h]
    mgpu_safe [asynCxHGatherC, h, hf]

theorem round_safe (numvec : ℕ) (second first last : Bool) :
    AllSafe (setup w) mgpuStreams (lanczosRound v numvec second first last) := by
  mgpu_safe [lanczosRound]

theorem items_safe (hv : CommSafe v w) (c : Call) : AllSafe (setup w) mgpuStreams (items v c) := by
  have h : ∀ c R W, ItemSafe (setup w) mgpuStreams (Mgpu.comm v c R W) := hv
  cases c
  case mLanczos M numvec second =>
    have hf := all_flatMap (n := M) fun k =>
      round_safe (v := v) (w := w) numvec second (decide (k = 0)) (decide (k + 1 = M))
    mgpu_safe [items, hf]
  case rr runs copied => mgpu_safe [items, asyn_safe hv runs copied, h]
  case resd runs => mgpu_safe [items, asyn_safe hv runs true, h]
  case apply bAc => cases bAc <;> mgpu_safe [items, h]
  case swap =>
    simp only [items]
    apply all_flatten
    mgpu_safe [items]
  all_goals mgpu_safe [items, syherk, potrf, trsm, absSum, shiftForQR, hhQR, h]

end Mgpu

end Stream
end Verif
