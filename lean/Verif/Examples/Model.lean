/-
The matrices of the example programs: /repo/examples/0_hello_world/0_hello_world.cpp,
1_sequence_eigenproblems/1_sequence_eigenproblems.cpp, 3_installation/chase-app.cpp and
4_interface/4_c_serial_chase.c, 4_c_dist_chase.c, 4_f_serial_chase.f90, 4_f_dist_chase.f90.

Modelled: the arrays for the matrix, with their sizes and with entries that have not been assigned, the loops that
assign them, the loop that perturbs the matrix from one problem to the next.  The programs fix `N = 1001`; here `N` is
arbitrary.  `root k` stands for the square root of the integer `k` in the scalar type, the random numbers are
parameters.  In the distributed programs `N + 1 - k` is negative for the rows behind the matrix on the last processes;
here it is zero.  The block-cyclic branches are in
Examples/Cyclic.  Left out: the calls of the library, the output.
-/
import Verif.Base.Loop
import Mathlib.Algebra.Star.Basic
import Mathlib.Logic.Function.Basic

namespace Verif
namespace Examples

/-- What must not happen to an array: an access outside, a read of an element that was never assigned. -/
inductive Fault
  | outside
  | indeterminate
  deriving DecidableEq

/-- An array with its number of elements; `none` is an element that has not been assigned. -/
structure Arr (K : Type*) where
  size : ℕ
  get : ℕ → Option K

section
variable {K : Type*}

/-- `std::vector<T>(size)`, all elements zero (0_hello_world.cpp 96, 100). -/
def Arr.zeros [Zero K] (size : ℕ) : Arr K := ⟨size, fun _ => some 0⟩

/-- `malloc` (4_c_serial_chase.c 59, 4_c_dist_chase.c 87) and `allocate` (4_f_serial_chase.f90 42, 4_f_dist_chase.f90
66): no element is assigned. -/
def Arr.fresh (K : Type*) (size : ℕ) : Arr K := ⟨size, fun _ => none⟩

/-- `a[i] = x`. -/
def Arr.put (a : Arr K) (i : ℕ) (x : K) : Except Fault (Arr K) :=
  if i < a.size then .ok ⟨a.size, Function.update a.get i (some x)⟩ else .error .outside

/-- `if (p) a[i] = x`. -/
def Arr.putIf (a : Arr K) (p : Prop) [Decidable p] (i : ℕ) (x : K) : Except Fault (Arr K) :=
  if p then a.put i x else .ok a

/-- The value of `a[i]`. -/
def Arr.read (a : Arr K) (i : ℕ) : Except Fault K :=
  if i < a.size then
    match a.get i with
    | some x => .ok x
    | none => .error .indeterminate
  else .error .outside

/-- `a[i] += x`. -/
def Arr.add [Add K] (a : Arr K) (i : ℕ) (x : K) : Except Fault (Arr K) := do
  let v ← a.read i
  a.put i (v + x)

/-- The assignment of a Fortran array of two dimensions `rows` × `cols`, with indices from one (4_f_serial_chase.f90
50-59, 4_f_dist_chase.f90 80, 84).  The elements lie column by column. -/
def Arr.put2 (a : Arr K) (rows cols i j : ℕ) (x : K) : Except Fault (Arr K) :=
  if 1 ≤ i ∧ i ≤ rows ∧ 1 ≤ j ∧ j ≤ cols then a.put ((i - 1) + rows * (j - 1)) x else .error .outside

/-- The same under a condition. -/
def Arr.put2If (a : Arr K) (p : Prop) [Decidable p] (rows cols i j : ℕ) (x : K) : Except Fault (Arr K) :=
  if p then a.put2 rows cols i j x else .ok a

variable [Zero K] (root : ℕ → K)

/-- The generation of the Clement matrix in a vector of its own (1_sequence_eigenproblems.cpp 109-116) and in the
array handed to the library (4_c_serial_chase.c 65-79). -/
def clement (N : ℕ) (a : Arr K) : Except Fault (Arr K) :=
  forRangeM 0 N (fun i a => do
    let a ← a.put (i + N * i) 0
    let a ← a.putIf (i ≠ N - 1) (i + 1 + N * i) (root (i * (N + 1 - i)))
    a.putIf (i ≠ N - 1) (i + N * (i + 1)) (root (i * (N + 1 - i)))) a

/-- The same in 0_hello_world.cpp 103-110 and chase-app.cpp 60-67: the diagonal is assigned in the local array `H`, the
rest in the vector `Clement`. -/
def helloClement (N : ℕ) (HC : Arr K × Arr K) : Except Fault (Arr K × Arr K) :=
  forRangeM 0 N (fun i HC => do
    let H ← HC.1.put (i + N * i) 0
    let C ← HC.2.putIf (i ≠ N - 1) (i + 1 + N * i) (root (i * (N + 1 - i)))
    let C ← C.putIf (i ≠ N - 1) (i + N * (i + 1)) (root (i * (N + 1 - i)))
    pure (H, C)) HC

omit [Zero K] in
/-- Loading the part of a process: rows `xoff + x`, columns `yoff + y`; `at'` is the position of an entry of the global
matrix in the vector: `(xoff + x) * N + (yoff + y)` in 0_hello_world.cpp 157-164 and chase-app.cpp 83-90,
`(xoff + x) + (yoff + y) * N` in 1_sequence_eigenproblems.cpp 167-174. -/
def load (at' : ℕ → ℕ → ℕ) (xoff yoff xlen ylen : ℕ) (C H : Arr K) : Except Fault (Arr K) :=
  forRangeM 0 xlen (fun x H =>
    forRangeM 0 ylen (fun y H => do
      let v ← C.read (at' (xoff + x) (yoff + y))
      H.put (x + xlen * y) v) H) H

/-- 0_hello_world.cpp 94-164, chase-app.cpp 51-90: the local array of `ldh * n = xlen * ylen` elements (the leading
dimension is `xlen`, chase_mpi_properties.hpp 636, 934) when the solver is called. -/
def hello (N xoff yoff xlen ylen : ℕ) : Except Fault (Arr K) := do
  let HC ← helloClement root N (Arr.zeros (xlen * ylen), Arr.zeros (N * N))
  load (fun r c => r * N + c) xoff yoff xlen ylen HC.2 HC.1

omit [Zero K] in
/-- The perturbation between two problems (1_sequence_eigenproblems.cpp 213-221, 4_c_serial_chase.c 95-105). -/
def perturb [Add K] [Star K] (p : ℕ → ℕ → K) (N : ℕ) (a : Arr K) : Except Fault (Arr K) :=
  forRangeM 1 N (fun i a =>
    forRangeM 1 i (fun j a => do
      let a ← a.add (j + N * i) (p i j)
      a.add (i + N * j) (star (p i j))) a) a

/-- The vector `Clement` of 1_sequence_eigenproblems.cpp when problem `t` begins (106-116, 213-221); `p t` are the random
numbers of the perturbation after problem `t`. -/
def sequenceMatrix [Add K] [Star K] (p : ℕ → ℕ → ℕ → K) (N : ℕ) : ℕ → Except Fault (Arr K)
  | 0 => clement root N (Arr.zeros (N * N))
  | t + 1 => do
    let a ← sequenceMatrix p N t
    perturb (p t) N a

/-- The local array when problem `t` is solved, if it was `H` before (1_sequence_eigenproblems.cpp 167-174). -/
def sequenceLocal [Add K] [Star K] (p : ℕ → ℕ → ℕ → K) (N xoff yoff xlen ylen t : ℕ) (H : Arr K) :
    Except Fault (Arr K) := do
  let a ← sequenceMatrix root p N t
  load (fun r c => r + c * N) xoff yoff xlen ylen a H

/-- 4_c_serial_chase.c 59-79: the array handed to the library when the first problem is solved. -/
def cSerial (N : ℕ) : Except Fault (Arr K) := clement root N (Arr.fresh K (N * N))

omit [Zero K] in
/-- 4_c_dist_chase.c 87-110: the same on a process with rows from `xoff` and columns from `yoff` on. -/
def cDist (N xoff yoff m n : ℕ) : Except Fault (Arr K) :=
  forRangeM 0 m (fun x a =>
    forRangeM 0 n (fun y a => do
      let a ← a.putIf (xoff + x = yoff + y + 1) (x + m * y) (root ((yoff + y) * (N + 1 - (yoff + y))))
      a.putIf (yoff + y = xoff + x + 1) (x + m * y) (root ((xoff + x) * (N + 1 - (xoff + x))))) a) (Arr.fresh K (m * n))

/-- 4_f_serial_chase.f90 42-62. -/
def fSerial (N : ℕ) : Except Fault (Arr K) :=
  forRangeM 1 (N + 1) (fun i a => do
    let a ← a.put2 N N i i 0
    forRangeM 1 (N + 1) (fun _ a => do
      let a ← a.put2If (i ≠ N - 1) N N (i + 1) i (root (i * (N + 1 - i)))
      a.put2If (i ≠ N - 1) N N i (i + 1) (root (i * (N + 1 - i)))) a) (Arr.fresh K (N * N))

omit [Zero K] in
/-- 4_f_dist_chase.f90 66-87.  Here rows and columns count from one. -/
def fDist (N xoff yoff m n : ℕ) : Except Fault (Arr K) :=
  forRangeM 1 (m + 1) (fun x a =>
    forRangeM 1 (n + 1) (fun y a => do
      let a ← a.put2If (xoff + x = yoff + y + 1) m n x y (root ((yoff + y) * (N + 1 - (yoff + y))))
      a.put2If (yoff + y = xoff + x + 1) m n x y (root ((xoff + x) * (N + 1 - (xoff + x))))) a) (Arr.fresh K (m * n))

end
end Examples
end Verif
