/-
What the MPI standard and the NCCL documentation say about communicators and about the two collective
operations used, independent of the model.  Numbers are exact (rounding is the subject of C73).
-/
import Mathlib.Data.Complex.Basic
import Mathlib.Data.Complex.BigOperators
import Mathlib.Algebra.BigOperators.Fin
import Mathlib.Data.Real.Archimedean

namespace Verif
namespace Nccl

open Finset

/-- The element types. -/
inductive Ty where
  | float
  | double
  | complexFloat
  | complexDouble
  deriving DecidableEq, Repr

/-- Real numbers per element in memory. -/
def Ty.words : Ty → ℕ
  | .float | .double => 1
  | .complexFloat | .complexDouble => 2

/-- The type of these real numbers: `Base<T>`. -/
def Ty.base : Ty → Ty
  | .float | .complexFloat => .float
  | .double | .complexDouble => .double

/-- Element `e` of an array of the given type, from the real numbers in memory: real part, then imaginary
part. -/
noncomputable def Ty.elem (ty : Ty) (mem : ℕ → ℝ) (e : ℕ) : ℂ :=
  if ty.words = 1 then (mem e : ℂ) else ⟨mem (2 * e), mem (2 * e + 1)⟩

/-- The reductions. -/
inductive Op where
  | max
  | min
  | sum
  | prod
  deriving DecidableEq, Repr

/-- The processes below `n` with the colour of process `y`: those in its communicator. -/
def members {α : Type*} [DecidableEq α] (n : ℕ) (colour : ℕ → α) (y : ℕ) : Finset ℕ :=
  (range n).filter fun x => colour x = colour y

/-- `MPI_Allreduce` with `MPI_SUM` on `count` elements of type `ty`, called by the `n` processes whose
communicators are given by `colour`: every process gets the element-wise sums over its communicator, and
memory beyond is untouched. -/
def MpiSum {α : Type*} [DecidableEq α] (n : ℕ) (colour : ℕ → α) (ty : Ty) (count : ℕ)
    (before after : ℕ → ℕ → ℝ) : Prop :=
  ∀ y < n, (∀ e < count, ty.elem (after y) e = ∑ x ∈ members n colour y, ty.elem (before x) e) ∧
    ∀ w, ty.words * count ≤ w → after y w = before y w

/-- `MPI_Bcast` from the process with rank `root` in each communicator. -/
def MpiBcast {α : Type*} [DecidableEq α] (n : ℕ) (colour : ℕ → α) (rank : ℕ → ℕ) (ty : Ty) (count root : ℕ)
    (before after : ℕ → ℕ → ℝ) : Prop :=
  ∀ y < n, (∀ x ∈ members n colour y, rank x = root → ∀ e < count,
      ty.elem (after y) e = ty.elem (before x) e) ∧
    ∀ w, ty.words * count ≤ w → after y w = before y w

/-- What a process passes to `ncclCommInitRank`: the unique id (who made it, in which round), the number of
processes and its rank. -/
structure Init where
  id : ℕ × ℕ
  nranks : ℕ
  rank : ℕ
  deriving DecidableEq, Repr

/-- NCCL's rule: exactly `nranks` processes call with the same id, all with the same `nranks`, and their
ranks are `0, ..., nranks - 1`. -/
def WellFormed (n : ℕ) (init : ℕ → Init) : Prop :=
  ∀ y < n, (members n (fun x => (init x).id) y).card = (init y).nranks ∧
    ∀ x ∈ members n (fun x => (init x).id) y, (init x).nranks = (init y).nranks ∧
      (init x).rank < (init y).nranks ∧
      ∀ x' ∈ members n (fun x => (init x).id) y, (init x').rank = (init x).rank → x' = x

/-- What NCCL does with one real number of every process in a communicator. -/
noncomputable def reduce (op : Op) (s : Finset ℕ) (f : ℕ → ℝ) : ℝ :=
  match op with
  | .sum => ∑ x ∈ s, f x
  | .prod => ∏ x ∈ s, f x
  | .max => ⨆ x : s, f x
  | .min => ⨅ x : s, f x

/-- `ncclAllReduce` on `count` numbers of a real type. -/
def AllReduce (n : ℕ) (init : ℕ → Init) (op : Op) (count : ℕ) (before after : ℕ → ℕ → ℝ) : Prop :=
  ∀ y < n, (∀ w < count, after y w = reduce op (members n (fun x => (init x).id) y) fun x => before x w) ∧
    ∀ w, count ≤ w → after y w = before y w

/-- `ncclBcast` on `count` numbers of a real type. -/
def Bcast (n : ℕ) (init : ℕ → Init) (count root : ℕ) (before after : ℕ → ℕ → ℝ) : Prop :=
  ∀ y < n, (∀ x ∈ members n (fun x => (init x).id) y, (init x).rank = root → ∀ w < count,
      after y w = before x w) ∧
    ∀ w, count ≤ w → after y w = before y w

end Nccl
end Verif
