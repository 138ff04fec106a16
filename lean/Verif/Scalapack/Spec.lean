/-
What ScaLAPACK's documentation says about process grids and array descriptors, independent of the model
(ScaLAPACK Users' Guide, chapters 4.1-4.3; the tool routines INDXG2P, INDXG2L, NUMROC and DESCINIT).
Indices count from 0.
-/
import Verif.Dist.Spec
import Verif.Dist.Model

namespace Verif
namespace Scalapack

/-- A process grid (BLACS context): its shape and the process at each position.  Processes are numbered
as in the system context, that is by their rank in `MPI_COMM_WORLD`. -/
structure Ctxt where
  nprow : ℕ
  npcol : ℕ
  proc : ℕ → ℕ → ℕ

/-- An array descriptor as one process sees it; all processes pass the same one except for the leading
dimension `lld` of their local array. -/
structure Desc where
  ctxt : Ctxt
  m : ℕ
  n : ℕ
  mb : ℕ
  nb : ℕ
  rsrc : ℕ
  csrc : ℕ
  lld : ℕ

/-- `INDXG2L`: the position of global index `g` in the local array of the process that owns it. -/
def g2l (nb np g : ℕ) : ℕ := nb * (g / (nb * np)) + g % nb

/-- The process that has entry `(g, h)` of the array according to the descriptor (`INDXG2P` for rows and
columns). -/
def Desc.home (D : Desc) (g h : ℕ) : ℕ :=
  D.ctxt.proc (Dist.owner D.mb D.rsrc D.ctxt.nprow g) (Dist.owner D.nb D.csrc D.ctxt.npcol h)

/-- Where it is in the local array of that process, stored by columns. -/
def Desc.addr (D : Desc) (g h : ℕ) : ℕ :=
  g2l D.mb D.ctxt.nprow g + D.lld * g2l D.nb D.ctxt.npcol h

/-- `DESCINIT` on a process in row `myrow` of the grid: the descriptor and the return value `info` (0, or
minus the position of the first bad argument).  Bad arguments are replaced by the nearest good one; the
leading dimension is raised to the number of local rows (`NUMROC`). -/
def descinit (C : Ctxt) (myrow m n mb nb irsrc icsrc lld : ℕ) : Desc × ℤ :=
  let low := fun mb irsrc => max 1 (Dist.owned m mb irsrc C.nprow myrow).card
  let D : Desc :=
    { ctxt := C, m := m, n := n, mb := max 1 mb, nb := max 1 nb
      rsrc := min irsrc (C.nprow - 1), csrc := min icsrc (C.npcol - 1)
      lld := max lld (low (max 1 mb) (min irsrc (C.nprow - 1))) }
  (D, if mb < 1 then -4 else if nb < 1 then -5 else if C.nprow ≤ irsrc then -6
    else if C.npcol ≤ icsrc then -7 else if lld < low mb irsrc then -9 else 0)

/-- What the tables of a process say: global index `g` is at local position `x`. -/
def At (L : Dist.Local) (g x : ℕ) : Prop :=
  ∃ k < L.blocks, ∃ t < L.lens k, L.offs k + t = g ∧ L.offsL k + t = x

/-- A process with tables `R` for the rows and `Cl` for the columns that stores by columns with leading
dimension `ld` has entry `(g, h)` at address `a`. -/
def Keeps (R Cl : Dist.Local) (ld g h a : ℕ) : Prop :=
  ∃ x y, At R g x ∧ At Cl h y ∧ a = x + ld * y

/-- The descriptor describes what process number `sys` keeps of an `m` by `n` array: the same entries at
the same addresses. -/
def Describes (D : Desc) (sys : ℕ) (R Cl : Dist.Local) (ld m n : ℕ) : Prop :=
  ∀ g < m, ∀ h < n, ∀ a, Keeps R Cl ld g h a ↔ D.home g h = sys ∧ D.addr g h = a

section
variable {K : Type*}

/-- The arrays `mem s` of the processes `s` in `S`, seen through their descriptors `D s`, are the `m` by
`n` array `A`. -/
def Holds (S : Set ℕ) (D : ℕ → Desc) (m n : ℕ) (mem : ℕ → ℕ → K) (A : ℕ → ℕ → K) : Prop :=
  ∀ s ∈ S, ∀ g < m, ∀ h < n, (D s).home g h = s → mem s ((D s).addr g h) = A g h

/-- What a routine called by the processes in `S` does, given its mathematical meaning `rel`: it reads the
array from `input` and leaves the result in `out`, both seen through the descriptors; `before` is what
`out` was, and stays at all addresses that are not part of the array. -/
structure Run (S : Set ℕ) (D : ℕ → Desc) (m n : ℕ) (rel : (ℕ → ℕ → K) → (ℕ → ℕ → K) → Prop)
    (input before out : ℕ → ℕ → K) : Prop where
  result : ∀ A, Holds S D m n input A → ∃ B, rel A B ∧ Holds S D m n out B
  frame : ∀ s ∈ S, ∀ a, (∀ g < m, ∀ h < n, (D s).home g h = s → (D s).addr g h ≠ a) →
    out s a = before s a

end

end Scalapack
end Verif
