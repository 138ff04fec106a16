/-
Model of the generic wrappers of BLAS, LAPACK and ScaLAPACK (ChASE-MPI/blas_templates.inc, called `inc` below): which
routine a wrapper calls for a scalar type, which objects it passes at which position, which workspaces it allocates,
and the loops it runs itself.  All arguments are passed by reference.
-/
import Verif.Interface.Fortran
import Verif.Sizes.Model
import Verif.Base.Loop
import Mathlib.Algebra.Star.Basic

namespace Verif
namespace Blas
open Fortran (Kind Mem load store)

/-- What an object holds: the name of the parameter of the wrapper, or of its local variable (`work`, `lwork`, `rwork`,
`lrwork`, `iwork`, `liwork`, `info`).  `mOut` is the parameter `m` of `t_stemr`. -/
inductive Role where
  | side | uplo | trans | transa | transb | diag | norm | jobz | range | jobu | jobvt
  | m | n | k | lda | ldb | ldc | ldz | ldu | ldvt | incx | incy | il | iu | nzc
  | alpha | beta | vl | vu
  | a | b | c | x | y | z | w | d | e | s | u | vt | tau | mOut | isuppz | tryrac
  | work | lwork | rwork | lrwork | iwork | liwork | info
  | ia | ja | desca | ic | jc | descc
  deriving DecidableEq, Repr

/-- The wrappers that call a routine of a library; `hemm` is `t_syhemm`, `herk` is `t_syherk`, `gqr` is `t_gqr`, the
last three are the ScaLAPACK wrappers `t_pgeqrf`, `t_pgqr` and `t_ptranc`. -/
inductive Op where
  | scal | axpy | dot | nrm2 | lange | gemm | hemm | herk | lacpy | geqrf | gqr | heevd | gemv | stemr | potrf | trsm
  | gesvd | pgeqrf | pgqr | ptranc
  deriving DecidableEq, Repr

/-- The routines without their letter; `ptran`, `ptranc` are `p?tran` and `p?tranc`. -/
inductive Base where
  | scal | axpy | dot | nrm2 | lange | gemm | symm | hemm | syrk | herk | lacpy | geqrf | orgqr | ungqr | syevd | heevd
  | gemv | stemr | potrf | trsm | gesvd | pgeqrf | porgqr | pungqr | ptran | ptranc
  deriving DecidableEq, Repr

/-- The four scalar types. -/
abbrev Ty := Fortran.Scalar

/-- The real ones. -/
def _root_.Verif.Fortran.Scalar.isReal : Ty → Bool
  | .s | .d => true
  | .c | .z => false

/-- Ty types for which the wrapper calls a routine: `t_dot` for complex numbers is a loop (inc 192-204), `t_stemr`
exists for real numbers only (inc 1144-1232). -/
def wraps (op : Op) (t : Ty) : Bool :=
  match op with
  | .dot | .stemr => t.isReal
  | _ => true

/-- The routine called, by the first name given to `FC_GLOBAL` or the name with underscore: `t_scal` inc 88-122,
`t_axpy` 125-166, `t_dot` 168-190, `t_lange` 206-256, `t_gemm` 260-334 and 408-480, `t_syhemm` 336-406, `t_syherk`
482-542, `t_nrm2` 545-578, `t_lacpy` 580-626, `t_geqrf` 630-742, `t_gqr` 745-868, `t_heevd` 871-1036, `t_gemv`
1040-1140, `t_stemr` 1144-1232, `t_potrf` 1235-1288, `t_trsm` 1290-1350, `t_gesvd` 1352-1464, `t_pgeqrf` 1495-1613,
`t_pgqr` 1615-1738, `t_ptranc` 1741-1811. -/
def routine (op : Op) (t : Ty) : Base × Ty :=
  (match op with
    | .scal => .scal
    | .axpy => .axpy
    | .dot => .dot
    | .nrm2 => .nrm2
    | .lange => .lange
    | .gemm => .gemm
    | .hemm => if t.isReal then .symm else .hemm
    | .herk => if t.isReal then .syrk else .herk
    | .lacpy => .lacpy
    | .geqrf => .geqrf
    | .gqr => if t.isReal then .orgqr else .ungqr
    | .heevd => if t.isReal then .syevd else .heevd
    | .gemv => .gemv
    | .stemr => .stemr
    | .potrf => .potrf
    | .trsm => .trsm
    | .gesvd => .gesvd
    | .pgeqrf => .pgeqrf
    | .pgqr => if t.isReal then .porgqr else .pungqr
    | .ptranc => if t.isReal then .ptran else .ptranc, t)

/-- The objects passed, in order: what the object holds and its type.  Sizes are local variables of type `BlasInt` that
hold the parameter of the wrapper; `lapack_logical` is an `int` (blas_templates.hpp 29).  Both calls of a wrapper with
a workspace query pass the same list, with `numwork`, `rnumwork`, `inumwork` for `work`, `rwork`, `iwork` in the query.
Lines as for `routine`.  `t_pgqr` for `float` initialises `k_` by `n` (inc 1656); `t_gesvd` passes `rwork` for all
types (inc 1368, 1376, 1396, 1404). -/
def passed (op : Op) (t : Ty) : List (Role × Kind) :=
  match op with
  | .scal => [(.n, .int), (.alpha, t.elt), (.x, t.elt), (.incx, .int)]
  | .axpy => [(.n, .int), (.alpha, t.elt), (.x, t.elt), (.incx, .int), (.y, t.elt), (.incy, .int)]
  | .dot => [(.n, .int), (.x, t.elt), (.incx, .int), (.y, t.elt), (.incy, .int)]
  | .nrm2 => [(.n, .int), (.x, t.elt), (.incx, .int)]
  | .lange => [(.norm, .char), (.m, .int), (.n, .int), (.a, t.elt), (.lda, .int), (.work, t.base)]
  | .gemm => [(.transa, .char), (.transb, .char), (.m, .int), (.n, .int), (.k, .int), (.alpha, t.elt), (.a, t.elt),
      (.lda, .int), (.b, t.elt), (.ldb, .int), (.beta, t.elt), (.c, t.elt), (.ldc, .int)]
  | .hemm => [(.side, .char), (.uplo, .char), (.m, .int), (.n, .int), (.alpha, t.elt), (.a, t.elt), (.lda, .int),
      (.b, t.elt), (.ldb, .int), (.beta, t.elt), (.c, t.elt), (.ldc, .int)]
  | .herk => [(.uplo, .char), (.trans, .char), (.n, .int), (.k, .int), (.alpha, t.elt), (.a, t.elt), (.lda, .int),
      (.beta, t.elt), (.c, t.elt), (.ldc, .int)]
  | .lacpy => [(.uplo, .char), (.m, .int), (.n, .int), (.a, t.elt), (.lda, .int), (.b, t.elt), (.ldb, .int)]
  | .geqrf => [(.m, .int), (.n, .int), (.a, t.elt), (.lda, .int), (.tau, t.elt), (.work, t.elt), (.lwork, .int),
      (.info, .int)]
  | .gqr => [(.m, .int), (.n, .int), (.k, .int), (.a, t.elt), (.lda, .int), (.tau, t.elt), (.work, t.elt),
      (.lwork, .int), (.info, .int)]
  | .heevd =>
    [(.jobz, .char), (.uplo, .char), (.n, .int), (.a, t.elt), (.lda, .int), (.w, t.base), (.work, t.elt),
      (.lwork, .int)] ++ (if t.isReal then [] else [(.rwork, t.base), (.lrwork, .int)]) ++
      [(.iwork, .int), (.liwork, .int), (.info, .int)]
  | .gemv => [(.trans, .char), (.m, .int), (.n, .int), (.alpha, t.elt), (.a, t.elt), (.lda, .int), (.x, t.elt),
      (.incx, .int), (.beta, t.elt), (.y, t.elt), (.incy, .int)]
  | .stemr => [(.jobz, .char), (.range, .char), (.n, .int), (.d, t.elt), (.e, t.elt), (.vl, t.elt), (.vu, t.elt),
      (.il, .int), (.iu, .int), (.mOut, .int), (.w, t.elt), (.z, t.elt), (.ldz, .int), (.nzc, .int), (.isuppz, .int),
      (.tryrac, .int), (.work, t.elt), (.lwork, .int), (.iwork, .int), (.liwork, .int), (.info, .int)]
  | .potrf => [(.uplo, .char), (.n, .int), (.a, t.elt), (.lda, .int), (.info, .int)]
  | .trsm => [(.side, .char), (.uplo, .char), (.trans, .char), (.diag, .char), (.m, .int), (.n, .int), (.alpha, t.elt),
      (.a, t.elt), (.lda, .int), (.b, t.elt), (.ldb, .int)]
  | .gesvd => [(.jobu, .char), (.jobvt, .char), (.m, .int), (.n, .int), (.a, t.elt), (.lda, .int), (.s, t.base),
      (.u, t.elt), (.ldu, .int), (.vt, t.elt), (.ldvt, .int), (.work, t.elt), (.lwork, .int), (.rwork, t.base),
      (.info, .int)]
  | .pgeqrf => [(.m, .int), (.n, .int), (.a, t.elt), (.ia, .int), (.ja, .int), (.desca, .int), (.tau, t.elt),
      (.work, t.elt), (.lwork, .int), (.info, .int)]
  | .pgqr => [(.m, .int), (.n, .int), (if t = .s then .n else .k, .int), (.a, t.elt), (.ia, .int), (.ja, .int),
      (.desca, .int), (.tau, t.elt), (.work, t.elt), (.lwork, .int), (.info, .int)]
  | .ptranc => [(.m, .int), (.n, .int), (.alpha, t.elt), (.a, t.elt), (.ia, .int), (.ja, .int), (.desca, .int),
      (.beta, t.elt), (.c, t.elt), (.ic, .int), (.jc, .int), (.descc, .int)]

/-- The type of the value the wrapper takes from the routine, as declared in blas_fortran.hpp: `?dot` 62-68, `?nrm2`
79-86, `?lange` 303-314 (`float` for `dlange`); subroutines have none. -/
def declaredResult (op : Op) (t : Ty) : Option Kind :=
  match op with
  | .dot => some t.elt
  | .nrm2 => some t.base
  | .lange => some (match t with
    | .s => .f32
    | .d => .f32
    | .c => .f32
    | .z => .f64)
  | _ => none

/-- The character passed for an operation, as computed by `t_gemm` and `t_gemv` (inc 271-285, 1050-1054, …) from the
constants `CblasConjTrans = 1`, `CblasTrans = 2`, `CblasNoTrans = 3` (blas_templates.hpp 20-22). `none`: the variable is
not assigned. -/
def transChar (op : ℤ) : Option Char :=
  let TA : Option Char := none
  let TA := if op = 3 then some 'N' else TA
  let TA := if op = 2 then some 'T' else TA
  if op = 1 then some 'C' else TA

/-- The two calls of a wrapper that asks for the size of its workspace first. -/
inductive Phase where
  | query | compute
  deriving DecidableEq, Repr

/-- The values of the local variables `lwork`, `lrwork`, `liwork` at a call: `-1` in the query, then what the query
reported, converted to `int` (inc 645-649, 672-676, 702-706, …).  `opt` is the size reported in the first element of the
workspace. -/
def sizeArg (ph : Phase) (opt : ℕ) : ℤ :=
  match ph with
  | .query => -1
  | .compute => Sizes.toInt opt

/-- Elements of the arrays that the wrapper owns and passes as `work`, `rwork`, `iwork`, with the reported sizes `lw`,
`lr`, `li`: one variable in the query; in the second call a new array of `lwork` elements: `t_geqrf` inc 641-651,
`t_gqr` inc 756-767, `t_heevd` inc 880-899, 954-983, `t_stemr` inc 1162-1180, `t_gesvd` inc 1362-1374, `t_pgeqrf`
inc 1507-1518, `t_pgqr` inc 1628-1639.  `t_gesvd` allocates `rwork` with `5 * min(m, n)` elements before both calls;
`t_lange` passes a null pointer.  A negative length is not allowed; it counts as no element here.  `t_gqr` for real
types takes the length of the array from the reported number itself (inc 766, 795). -/
def ownLength (op : Op) (m n lw lr li : ℕ) (ph : Phase) (r : Role) : ℕ :=
  if op = .lange then 0
  else if op = .gesvd ∧ r = .rwork then 5 * min m n
  else match ph with
    | .query => 1
    | .compute =>
      if r = .work then (Sizes.toInt lw).toNat
      else if r = .rwork then (Sizes.toInt lr).toNat
      else if r = .iwork then (Sizes.toInt li).toNat
      else 1

section Loops
variable {K : Type*} [Add K] [Mul K] [Zero K]

/-- `t_dot` for complex numbers: inc 192-204. -/
def dotLoop [Star K] (n incx incy : ℕ) (x y : ℕ → K) : K :=
  forRange 0 n (fun i alpha => alpha + star (x (i * incx)) * y (i * incy)) 0

/-- `t_norm_p2`: inc 46-85; `sq` is `t_sqrt_norm`, `x * x` for real and `std::norm` for complex numbers (inc 22-44). -/
def normP2 {R : Type*} [Add R] [Zero R] (sq : K → R) (n : ℕ) (x : ℕ → K) : R :=
  forRange 0 n (fun i norm => norm + sq (x i)) 0

end Loops

end Blas
end Verif
