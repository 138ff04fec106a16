/-
Model of the Fortran interface (interface/chase_f.f90): which C function of interface/chase_c.cpp every Fortran
subroutine is bound to, the arguments both sides declare, and the bytes that a Fortran program and the C function
make of the same array.
-/
import Mathlib.Data.Nat.Basic

namespace Verif
namespace Fortran

/-- The types of the arguments on the two sides: `INTEGER(c_int)`/`int` (also `MPI_Fint`, assumed to be an `int`),
`REAL(c_float)`/`float`, `REAL(c_double)`/`double`, `COMPLEX(c_float_complex)`/`float _Complex`,
`COMPLEX(c_double_complex)`/`double _Complex`, `CHARACTER(kind=c_char)`/`char`. -/
inductive Kind where
  | int | f32 | f64 | c32 | c64 | char
  deriving DecidableEq, Repr

/-- Bytes of one element. -/
def Kind.size : Kind → ℕ
  | .int => 4
  | .f32 => 4
  | .f64 => 8
  | .c32 => 8
  | .c64 => 16
  | .char => 1

/-- What an argument means: the names of the parameters on the two sides (`n`/`nn` is `N` in C). -/
inductive Role where
  | n | nev | nex | rows | cols | mbsize | nbsize | h | ldh | v | ritzv | dim0 | dim1 | gridMajor | irsrc | icsrc
  | fcomm | init | flag | deg | tol | mode | opt | qr | filename
  deriving DecidableEq, Repr

/-- The letter of the routines: real single, real double, complex single, complex double. -/
inductive Scalar where
  | s | d | c | z
  deriving DecidableEq, Repr

/-- The type of a matrix element in C. -/
def Scalar.elt : Scalar → Kind
  | .s => .f32
  | .d => .f64
  | .c => .c32
  | .z => .c64

/-- `Base<T>` in C. -/
def Scalar.base : Scalar → Kind
  | .s => .f32
  | .d => .f64
  | .c => .f32
  | .z => .f64

/-- The routines of the module `chase_diag`, each for four scalar types. -/
inductive Op where
  | init | finalize | solve | pinit | pinitCyclic | pfinalize | psolve | wrtHam | readHam
  deriving DecidableEq, Repr

/-- The parameters of the C function of interface/chase_c.cpp that the Fortran routine is bound to:
`?chase_init_` 521, 540, 559, 580; `?chase_finalize_` 590-608; `?chase_` 623, 641, 659, 677; `p?chase_init_f_` 744,
816, 890, 967; `p?chase_init_blockcyclic_f_` 1056, 1145, 1236, 1329; `p?chase_finalize_` 1347-1367; `p?chase_` 1382,
1400, 1418, 1436; `p?chase_wrtHam_blockcyclic_` 1444-1473; `p?chase_readHam_blockcyclic_` 1482-1511. -/
def cSide (op : Op) (t : Scalar) : List (Role × Kind) :=
  match op with
  | .init => [(.n, .int), (.nev, .int), (.nex, .int), (.h, t.elt), (.ldh, .int), (.v, t.elt), (.ritzv, t.base),
      (.init, .int)]
  | .finalize | .pfinalize => [(.flag, .int)]
  | .solve | .psolve => [(.deg, .int), (.tol, t.base), (.mode, .char), (.opt, .char), (.qr, .char)]
  | .pinit => [(.n, .int), (.nev, .int), (.nex, .int), (.rows, .int), (.cols, .int), (.h, t.elt), (.ldh, .int),
      (.v, t.elt), (.ritzv, t.base), (.dim0, .int), (.dim1, .int), (.gridMajor, .char), (.fcomm, .int), (.init, .int)]
  | .pinitCyclic => [(.n, .int), (.nev, .int), (.nex, .int), (.mbsize, .int), (.nbsize, .int), (.h, t.elt),
      (.ldh, .int), (.v, t.elt), (.ritzv, t.base), (.dim0, .int), (.dim1, .int), (.gridMajor, .char), (.irsrc, .int),
      (.icsrc, .int), (.fcomm, .int), (.init, .int)]
  | .wrtHam | .readHam => [(.filename, .char), (.h, t.elt)]

/-- Type of the values in the distributed initialisations of interface/chase_f.f90: as in C, but `REAL(c_double)` for
the single-precision complex routines (`pcchase_init` 511 and `pcchase_init_blockcyclic` 541). -/
def pValues : Scalar → Kind
  | .c => .f64
  | t => t.base

/-- Type of `h` in the routines that read and write the matrix: interface/chase_f.f90 605-700 declare it `REAL` for all
scalar types, with the kinds `c_float_complex` and `c_double_complex` for the complex ones.  These kinds have the values
of `c_float` and `c_double`. -/
def fileElt : Scalar → Kind
  | .s => .f32
  | .d => .f64
  | .c => .f32
  | .z => .f64

/-- The parameters as declared in interface/chase_f.f90: `?chase_init` 14, 67, 120, 174; `?chase_finalize` 39, 89, 142,
196; `?chase` 48, 101, 154, 208; `p?chase_init` 228, 323, 417, 511; `p?chase_init_blockcyclic` 258, 353, 447, 541;
`p?chase_finalize` 291, 386, 480, 574; `p?chase` 303, 398, 492, 586; `p?chase_wrtHam_blockcyclic` 605-644;
`p?chase_readHam_blockcyclic` 657-696. -/
def fSide (op : Op) (t : Scalar) : List (Role × Kind) :=
  match op with
  | .init => [(.n, .int), (.nev, .int), (.nex, .int), (.h, t.elt), (.ldh, .int), (.v, t.elt), (.ritzv, t.base),
      (.init, .int)]
  | .finalize | .pfinalize => [(.flag, .int)]
  | .solve | .psolve => [(.deg, .int), (.tol, t.base), (.mode, .char), (.opt, .char), (.qr, .char)]
  | .pinit => [(.n, .int), (.nev, .int), (.nex, .int), (.rows, .int), (.cols, .int), (.h, t.elt), (.ldh, .int),
      (.v, t.elt), (.ritzv, pValues t), (.dim0, .int), (.dim1, .int), (.gridMajor, .char), (.fcomm, .int),
      (.init, .int)]
  | .pinitCyclic => [(.n, .int), (.nev, .int), (.nex, .int), (.mbsize, .int), (.nbsize, .int), (.h, t.elt),
      (.ldh, .int), (.v, t.elt), (.ritzv, pValues t), (.dim0, .int), (.dim1, .int), (.gridMajor, .char),
      (.irsrc, .int), (.icsrc, .int), (.fcomm, .int), (.init, .int)]
  | .wrtHam | .readHam => [(.filename, .char), (.h, fileElt t)]

/-- Memory: the byte at every address. All arguments are passed by reference, as the address of their first element. -/
abbrev Mem := ℕ → UInt8

/-- Element `i` (from 0) of an array of kind `k` at address `a`: its bytes, in the order of their addresses. -/
def load (k : Kind) (m : Mem) (a i : ℕ) : List UInt8 :=
  (List.range k.size).map fun j => m (a + i * k.size + j)

/-- Assignment of the elements `0, …, n - 1` of an array of kind `k` at address `a`; `x i` are the bytes of element
`i` (missing ones count as zero). -/
def store (k : Kind) (m : Mem) (a n : ℕ) (x : ℕ → List UInt8) : Mem :=
  fun p => if a ≤ p ∧ p < a + n * k.size then (x ((p - a) / k.size)).getD ((p - a) % k.size) 0 else m p

end Fortran
end Verif
