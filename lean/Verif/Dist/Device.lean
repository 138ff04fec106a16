/-
The choice of a GPU by each process in the constructors of `ChaseMpiProperties`.
-/
import Mathlib.Data.Fintype.Card
import Mathlib.Data.Finset.Card
import Mathlib.Data.List.Nodup
import Mathlib.Tactic.IntervalCases

namespace Verif
namespace Device

/-- A job: the processes of the communicator, the nodes they run on and the GPUs.  GPUs are numbered over the
whole machine; `visible p` are those process `p` sees, in the order in which CUDA numbers them. -/
structure Job where
  procs : ℕ
  node : Fin procs → ℕ
  visible : Fin procs → List ℕ

/-- The processes on the node of process `p`. -/
def Job.mates (J : Job) (p : Fin J.procs) : Finset (Fin J.procs) :=
  Finset.univ.filter fun q => J.node q = J.node p

/-- What `MPI_Comm_split_type(comm, MPI_COMM_TYPE_SHARED, ...)`, `MPI_Comm_size` and `MPI_Comm_rank` return (spec,
properties.hpp 247-249): `size p` is the number of processes on the node and the ranks number them. -/
structure Split (J : Job) where
  rank : Fin J.procs → ℕ
  size : Fin J.procs → ℕ
  size_eq : ∀ p, size p = (J.mates p).card
  rank_lt : ∀ p, rank p < size p
  rank_inj : ∀ p q, J.node p = J.node q → rank p = rank q → p = q

/-- What a process does and prints in the constructor. -/
inductive Message where
  /-- "Error! The number of MPI ranks per node is larger than the number of available GPU devices" and
  "The ChASE will terminate" -/
  | tooMany
  /-- "Warning! The number of MPI ranks is less than the number of available GPUs" -/
  | tooFew
deriving DecidableEq

/-- State of a process after the lines: the current device (an index into `visible`) and the message it
printed, if any. -/
structure Result where
  device : ℕ
  message : Option Message
deriving DecidableEq

/-- The choice of the device: properties.hpp 252-277, and with the same text 580-605 and 864-889.  `cur` is the
current device of the process before (0 unless the caller has set another one), `first` says that the process
has rank 0 in the communicator.  `cudaGetDeviceCount` is taken to succeed. -/
def choose (numDevices size rank cur : ℕ) (first : Bool) : Result :=
  if numDevices < size then
    ⟨cur, if first then some .tooMany else none⟩
  else if numDevices > size then
    ⟨rank, if first then some .tooFew else none⟩
  else ⟨rank, none⟩

/-- The lines on all processes; the constructor goes on afterwards on every one of them. -/
def Job.run (J : Job) (sp : Split J) (cur : Fin J.procs → ℕ) (p : Fin J.procs) : Result :=
  choose (J.visible p).length (sp.size p) (sp.rank p) (cur p) (p.val == 0)

/-- The GPU a process works on afterwards; none if its current device does not exist. -/
def Job.gpu (J : Job) (sp : Split J) (cur : Fin J.procs → ℕ) (p : Fin J.procs) : Option ℕ :=
  (J.visible p)[(J.run sp cur p).device]?

/-! ### An instance of the specification -/

/-- Ranks in the order of the communicator, as MPI gives for equal keys. -/
def Job.split (J : Job) : Split J where
  rank p := ((J.mates p).filter (· < p)).card
  size p := (J.mates p).card
  size_eq _ := rfl
  rank_lt p := by
    apply Finset.card_lt_card
    refine Finset.ssubset_iff_subset_ne.mpr ⟨Finset.filter_subset _ _, fun h => ?_⟩
    have hp : p ∈ J.mates p := by simp [Job.mates]
    rw [← h] at hp
    simp at hp
  rank_inj := by
    have key : ∀ p q : Fin J.procs, J.node p = J.node q → p < q →
        ((J.mates p).filter (· < p)).card < ((J.mates q).filter (· < q)).card := by
      intro p q hn h
      apply Finset.card_lt_card
      refine Finset.ssubset_iff_of_subset ?_ |>.mpr ⟨p, by simp [Job.mates, hn, h], by simp⟩
      intro x hx
      simp only [Job.mates, Finset.mem_filter, Finset.mem_univ, true_and] at hx ⊢
      exact ⟨hx.1.trans hn, hx.2.trans h⟩
    intro p q hn he
    rcases lt_trichotomy p q with h | h | h
    · have := key p q hn h; omega
    · exact h
    · have := key q p hn.symm h; omega

end Device
end Verif
