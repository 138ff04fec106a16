/-
C81: every routine is given arrays in memory that it can work on.
-/
import Verif.Stream.Safe

namespace Verif
namespace Stream

/-- **Specification.**  Host code and MPI on host arrays work on host memory, kernels, cuBLAS, cuSOLVER, NCCL and
CUDA-aware MPI on device memory; a copy goes from and to where its kind says ("Calling cudaMemcpy() with dst and src
pointers that do not match the direction of the copy results in an undefined behavior": CUDA runtime documentation);
scalars are passed in host memory. -/
def Item.Fits (x : Item) : Prop :=
  (∀ l ∈ x.args, l.1 = .host) ∧
  match x.routine with
  | .cpu => (∀ l ∈ x.reads, l.1 = .host) ∧ ∀ l ∈ x.writes, l.1 = .host
  | .mpi _ false => (∀ l ∈ x.reads, l.1 = .host) ∧ ∀ l ∈ x.writes, l.1 = .host
  | .scalar => (∀ l ∈ x.reads, l.1 = .dev) ∧ ∀ l ∈ x.writes, l.1 = .host
  | .copy .d2h => (∀ l ∈ x.reads, l.1 = .dev) ∧ ∀ l ∈ x.writes, l.1 = .host
  | .getMatrix => (∀ l ∈ x.reads, l.1 = .dev) ∧ ∀ l ∈ x.writes, l.1 = .host
  | _ => (∀ l ∈ x.reads, l.1 = .dev) ∧ ∀ l ∈ x.writes, l.1 = .dev

theorem fits_cpu {R W : List Arr} : (cpu R W).Fits := ⟨by simp [cpu], mem_side fun _ => rfl, mem_side fun _ => rfl⟩

theorem fits_mpiHost {c : Comm} {R W : List Arr} : (mpiHost c R W).Fits :=
  ⟨by simp [mpiHost], mem_side fun _ => rfl, mem_side fun _ => rfl⟩

theorem fits_lib {R W : List Arr} : (lib R W).Fits :=
  ⟨by simp [lib, h], mem_side fun _ => rfl, mem_side fun _ => rfl⟩

theorem fits_scalar {R : List Arr} : (scalar R).Fits :=
  ⟨by simp [scalar], mem_side fun _ => rfl, by simp [scalar, h]⟩

theorem fits_kernel {q : Queue} {R W : List Arr} : (kernel q R W).Fits :=
  ⟨by simp [kernel, h], mem_side fun _ => rfl, mem_side fun _ => rfl⟩

theorem fits_d2d {x y : Arr} : (d2d x y).Fits := by simp [Item.Fits, d2d, d]
theorem fits_h2d {x y : Arr} : (h2d x y).Fits := by simp [Item.Fits, h2d, d, h]
theorem fits_d2h {x y : Arr} : (d2h x y).Fits := by simp [Item.Fits, d2h, d, h]
theorem fits_up {x y : Arr} : (up x y).Fits := by simp [Item.Fits, up, d, h]
theorem fits_down {x : Arr} : (down x).Fits := by simp [Item.Fits, down, d, h]
theorem fits_memset {x : Arr} : (memset x).Fits := by simp [Item.Fits, memset, d]

theorem fits_ite {c : Prop} [Decidable c] {x y : Item} :
    (if c then x else y).Fits ↔ (c → x.Fits) ∧ (¬ c → y.Fits) := by
  split <;> simp [*]

/-- Fitting lists. -/
abbrev AllFit (l : List Item) : Prop := All Item.Fits l

namespace Cuda

theorem lanczosRound_fits (V1 : Arr) (numvec : ℕ) (second first last : Bool) :
    AllFit (lanczosRound V1 numvec second first last) := by
  simp only [AllFit, lanczosRound, all_append, all_cons, all_nil, all_replicate, all_ite, fits_cpu, fits_lib,
    fits_scalar, fits_d2d, or_true, and_true, imp_true_iff]

theorem items_fit (V1 V2 : Arr) (c : Call) : AllFit (items V1 V2 c) := by
  cases c <;> simp only [AllFit, items, cholHead, all_append, all_cons, all_nil, all_replicate, all_ite,
    fits_cpu, fits_lib, fits_scalar, fits_d2d, fits_d2h, fits_up, fits_memset, fits_kernel,
    all_flatMap fun k => lanczosRound_fits V1 _ _ (decide (k = 0)) (decide (k + 1 = _)),
    or_true, and_true, imp_true_iff]

end Cuda

namespace Mgpu

variable {v : Variant}

theorem fits_comm {c : Stream.Comm} {R W : List Arr} : (Mgpu.comm v c R W).Fits := by
  cases v <;> exact ⟨by simp [Mgpu.comm], mem_side fun _ => rfl, mem_side fun _ => rfl⟩

theorem fits_copy0 {x y : Arr} : (copy0 v x y).Fits := by
  unfold copy0; split; exacts [fits_d2d, fits_cpu]

theorem fits_lacpy {x y : Arr} : (lacpy v x y).Fits := by
  unfold lacpy; split; exacts [fits_kernel, fits_cpu]

macro "mgpu_fit" "[" ts:term,* "]" : tactic => `(tactic| simp only [AllFit, ifStaged, ifAware,
    all_append, all_cons, all_nil, all_replicate, all_ite, fits_ite,
    fits_cpu, fits_mpiHost, fits_lib, fits_d2d, fits_d2h, fits_up, fits_down, fits_h2d, fits_memset, fits_kernel,
    fits_copy0, fits_lacpy, fits_comm, or_true, and_true, imp_true_iff, $[$ts:term],*])

theorem asyn_fits (runs : Option ℕ) (copied : Bool) : AllFit (asynCxHGatherC v runs copied) := by
  rcases runs with _ | n
  · mgpu_fit [asynCxHGatherC]
  · have hf : AllFit
        (List.replicate n [lacpy v .C2 .pack, Mgpu.comm v .col [.pack] [.pack], lacpy v .pack .B2]).flatten := by
      apply all_flatten
      mgpu_fit []
    mgpu_fit [asynCxHGatherC, hf]

theorem round_fits (numvec : ℕ) (second first last : Bool) :
    AllFit (lanczosRound v numvec second first last) := by
  mgpu_fit [lanczosRound]

theorem items_fit (c : Call) (hc : v = .staged ∨ c ≠ .lockVectorCopy false) : AllFit (items v c) := by
  cases c
  case mLanczos M numvec second =>
    have hf := all_flatMap (n := M) fun k =>
      round_fits (v := v) numvec second (decide (k = 0)) (decide (k + 1 = M))
    mgpu_fit [items, hf]
  case rr runs copied => mgpu_fit [items, asyn_fits runs copied]
  case resd runs => mgpu_fit [items, asyn_fits runs true]
  case apply bAc => cases bAc <;> mgpu_fit [items]
  case swap =>
    simp only [items]
    apply all_flatten
    mgpu_fit [items]
  case lockVectorCopy b =>
    rcases hc with rfl | hc
    · simp [AllFit, items, all_cons, all_nil, Variant.aware, fits_copy0]
    · have : b = true := by cases b <;> simp_all
      subst this
      simp [AllFit, items, all_cons, all_nil, fits_copy0]
  all_goals mgpu_fit [items, syherk, potrf, trsm, absSum, shiftForQR, hhQR]

end Mgpu

/-- **C81, one GPU.** -/
theorem C81_cuda (V1 V2 : Arr) (c : Cuda.Call) : ∀ x ∈ Cuda.items V1 V2 c, x.Fits :=
  (Cuda.items_fit V1 V2 c).safe

/-- **C81, several GPUs, communication through host memory.** -/
theorem C81_mgpu_staged (c : Mgpu.Call) : ∀ x ∈ Mgpu.items .staged c, x.Fits :=
  (Mgpu.items_fit c (.inl rfl)).safe

/-- **C81, several GPUs, communication on the devices**: all calls but one. Missing is the copy after a Cholesky QR
(`C81_lock_copy_refuted`). -/
theorem C81_mgpu_partial (v : Mgpu.Variant) (c : Mgpu.Call) (hc : c ≠ .lockVectorCopy false) :
    ∀ x ∈ Mgpu.items v c, x.Fits :=
  (Mgpu.items_fit c (.inr hc)).safe

/-- **C81 refuted** for communication on the devices: after a successful Cholesky QR,
`lockVectorCopyAndOrthoConcatswap` asks `cudaMemcpy` for a copy from the device to the host with two device
pointers. -/
theorem C81_lock_copy_refuted (v : Mgpu.Variant) (hv : v ≠ .staged) :
    ∃ x ∈ Mgpu.items v (.lockVectorCopy false), ¬ x.Fits := by
  refine ⟨⟨.copy .d2h, [], [d .C], [d .C2]⟩, ?_, ?_⟩
  · cases v
    · exact absurd rfl hv
    all_goals simp [Mgpu.items, Mgpu.Variant.aware]
  · simp [Item.Fits, d]

/-- The statements are about many items: for example 18 in a Rayleigh-Ritz step through host memory. -/
example : (Mgpu.items .staged (.rr none false)).length = 18 ∧ (Cuda.items .C .B (.shiftedcholQR2 .ok)).length = 16 := by
  decide

end Stream
end Verif
