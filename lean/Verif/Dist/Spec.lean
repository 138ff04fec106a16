/-
Specification of data distributions, independent of the model: who owns a global index and where.
-/
import Mathlib.Data.Nat.Notation
import Mathlib.Data.Finset.Card
import Mathlib.Data.Finset.Range
import Mathlib.Order.Interval.Finset.Nat

namespace Verif
namespace Dist

/-- Block-cyclic ownership: blocks of `mb` consecutive indices are dealt out round robin, the first
one to process `src`. -/
def owner (mb src dims g : ℕ) : ℕ := (src + g / mb) % dims

/-- The indices below `N` owned by process `p`. -/
def owned (N mb src dims p : ℕ) : Finset ℕ := (Finset.range N).filter fun g => owner mb src dims g = p

/-- The position of a global index among the indices of its owner: the number of smaller global
indices of the same owner. -/
def position (mb src dims g : ℕ) : ℕ := (owned g mb src dims (owner mb src dims g)).card

/-- Plain block ownership: process `p < dims - 1` owns `len` consecutive indices, the last process
the rest. -/
def blockOwner (len dims g : ℕ) : ℕ := min (g / len) (dims - 1)

end Dist
end Verif
