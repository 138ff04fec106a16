/-
What the documentation of BLAS, LAPACK and ScaLAPACK says about the routines called by the wrappers of Blas/Model: the
order and the types of the arguments, the type of the result, and the workspace a call uses.  Written from the
documentation of the routines, not from /repo.
-/
import Verif.Blas.Model

namespace Verif
namespace Blas
open Fortran (Kind Mem load store)

/-- The documented interface of a routine. -/
structure Sig where
  args : List (Role × Kind)
  result : Option Kind := none

/-- A routine that only exists for real types, or only for complex ones. -/
def onlyIf (b : Bool) (s : Sig) : Option Sig := if b then some s else none

/-- The documented interfaces: `REAL`, `DOUBLE PRECISION`, `COMPLEX`, `COMPLEX*16` are `t.elt`, the real type of the same
precision is `t.base`; `LOGICAL` and `INTEGER` have four bytes. -/
def documented : Base × Ty → Option Sig
  | (.scal, t) => some { args := [(.n, .int), (.alpha, t.elt), (.x, t.elt), (.incx, .int)] }
  | (.axpy, t) => some { args := [(.n, .int), (.alpha, t.elt), (.x, t.elt), (.incx, .int), (.y, t.elt), (.incy, .int)] }
  | (.dot, t) => onlyIf t.isReal
      { args := [(.n, .int), (.x, t.elt), (.incx, .int), (.y, t.elt), (.incy, .int)], result := some t.elt }
  | (.nrm2, t) => some { args := [(.n, .int), (.x, t.elt), (.incx, .int)], result := some t.base }
  | (.lange, t) => some
      { args := [(.norm, .char), (.m, .int), (.n, .int), (.a, t.elt), (.lda, .int), (.work, t.base)]
        result := some t.base }
  | (.gemm, t) => some
      { args := [(.transa, .char), (.transb, .char), (.m, .int), (.n, .int), (.k, .int), (.alpha, t.elt), (.a, t.elt),
          (.lda, .int), (.b, t.elt), (.ldb, .int), (.beta, t.elt), (.c, t.elt), (.ldc, .int)] }
  | (.symm, t) => some
      { args := [(.side, .char), (.uplo, .char), (.m, .int), (.n, .int), (.alpha, t.elt), (.a, t.elt), (.lda, .int),
          (.b, t.elt), (.ldb, .int), (.beta, t.elt), (.c, t.elt), (.ldc, .int)] }
  | (.hemm, t) => onlyIf (!t.isReal)
      { args := [(.side, .char), (.uplo, .char), (.m, .int), (.n, .int), (.alpha, t.elt), (.a, t.elt), (.lda, .int),
          (.b, t.elt), (.ldb, .int), (.beta, t.elt), (.c, t.elt), (.ldc, .int)] }
  | (.syrk, t) => some
      { args := [(.uplo, .char), (.trans, .char), (.n, .int), (.k, .int), (.alpha, t.elt), (.a, t.elt), (.lda, .int),
          (.beta, t.elt), (.c, t.elt), (.ldc, .int)] }
  | (.herk, t) => onlyIf (!t.isReal)
      { args := [(.uplo, .char), (.trans, .char), (.n, .int), (.k, .int), (.alpha, t.base), (.a, t.elt), (.lda, .int),
          (.beta, t.base), (.c, t.elt), (.ldc, .int)] }
  | (.lacpy, t) => some
      { args := [(.uplo, .char), (.m, .int), (.n, .int), (.a, t.elt), (.lda, .int), (.b, t.elt), (.ldb, .int)] }
  | (.geqrf, t) => some
      { args := [(.m, .int), (.n, .int), (.a, t.elt), (.lda, .int), (.tau, t.elt), (.work, t.elt), (.lwork, .int),
          (.info, .int)] }
  | (.orgqr, t) => onlyIf t.isReal
      { args := [(.m, .int), (.n, .int), (.k, .int), (.a, t.elt), (.lda, .int), (.tau, t.elt), (.work, t.elt),
          (.lwork, .int), (.info, .int)] }
  | (.ungqr, t) => onlyIf (!t.isReal)
      { args := [(.m, .int), (.n, .int), (.k, .int), (.a, t.elt), (.lda, .int), (.tau, t.elt), (.work, t.elt),
          (.lwork, .int), (.info, .int)] }
  | (.syevd, t) => onlyIf t.isReal
      { args := [(.jobz, .char), (.uplo, .char), (.n, .int), (.a, t.elt), (.lda, .int), (.w, t.base), (.work, t.elt),
          (.lwork, .int), (.iwork, .int), (.liwork, .int), (.info, .int)] }
  | (.heevd, t) => onlyIf (!t.isReal)
      { args := [(.jobz, .char), (.uplo, .char), (.n, .int), (.a, t.elt), (.lda, .int), (.w, t.base), (.work, t.elt),
          (.lwork, .int), (.rwork, t.base), (.lrwork, .int), (.iwork, .int), (.liwork, .int), (.info, .int)] }
  | (.gemv, t) => some
      { args := [(.trans, .char), (.m, .int), (.n, .int), (.alpha, t.elt), (.a, t.elt), (.lda, .int), (.x, t.elt),
          (.incx, .int), (.beta, t.elt), (.y, t.elt), (.incy, .int)] }
  | (.stemr, t) => onlyIf t.isReal
      { args := [(.jobz, .char), (.range, .char), (.n, .int), (.d, t.elt), (.e, t.elt), (.vl, t.elt), (.vu, t.elt),
          (.il, .int), (.iu, .int), (.mOut, .int), (.w, t.elt), (.z, t.elt), (.ldz, .int), (.nzc, .int),
          (.isuppz, .int), (.tryrac, .int), (.work, t.elt), (.lwork, .int), (.iwork, .int), (.liwork, .int),
          (.info, .int)] }
  | (.potrf, t) => some { args := [(.uplo, .char), (.n, .int), (.a, t.elt), (.lda, .int), (.info, .int)] }
  | (.trsm, t) => some
      { args := [(.side, .char), (.uplo, .char), (.trans, .char), (.diag, .char), (.m, .int), (.n, .int),
          (.alpha, t.elt), (.a, t.elt), (.lda, .int), (.b, t.elt), (.ldb, .int)] }
  | (.gesvd, t) => some
      { args := [(.jobu, .char), (.jobvt, .char), (.m, .int), (.n, .int), (.a, t.elt), (.lda, .int), (.s, t.base),
          (.u, t.elt), (.ldu, .int), (.vt, t.elt), (.ldvt, .int), (.work, t.elt), (.lwork, .int)] ++
          (if t.isReal then [] else [(.rwork, t.base)]) ++ [(.info, .int)] }
  | (.pgeqrf, t) => some
      { args := [(.m, .int), (.n, .int), (.a, t.elt), (.ia, .int), (.ja, .int), (.desca, .int), (.tau, t.elt),
          (.work, t.elt), (.lwork, .int), (.info, .int)] }
  | (.porgqr, t) => onlyIf t.isReal
      { args := [(.m, .int), (.n, .int), (.k, .int), (.a, t.elt), (.ia, .int), (.ja, .int), (.desca, .int),
          (.tau, t.elt), (.work, t.elt), (.lwork, .int), (.info, .int)] }
  | (.pungqr, t) => onlyIf (!t.isReal)
      { args := [(.m, .int), (.n, .int), (.k, .int), (.a, t.elt), (.ia, .int), (.ja, .int), (.desca, .int),
          (.tau, t.elt), (.work, t.elt), (.lwork, .int), (.info, .int)] }
  | (.ptran, t) => onlyIf t.isReal
      { args := [(.m, .int), (.n, .int), (.alpha, t.elt), (.a, t.elt), (.ia, .int), (.ja, .int), (.desca, .int),
          (.beta, t.elt), (.c, t.elt), (.ic, .int), (.jc, .int), (.descc, .int)] }
  | (.ptranc, t) => onlyIf (!t.isReal)
      { args := [(.m, .int), (.n, .int), (.alpha, t.elt), (.a, t.elt), (.ia, .int), (.ja, .int), (.desca, .int),
          (.beta, t.elt), (.c, t.elt), (.ic, .int), (.jc, .int), (.descc, .int)] }

/-- The routine that does, for a scalar type, what the wrapper is named after: the Hermitian variant for complex types,
the symmetric or orthogonal one for real types. -/
def meant : Op → Ty → Base
  | .scal, _ => .scal
  | .axpy, _ => .axpy
  | .dot, _ => .dot
  | .nrm2, _ => .nrm2
  | .lange, _ => .lange
  | .gemm, _ => .gemm
  | .hemm, .s | .hemm, .d => .symm
  | .hemm, .c | .hemm, .z => .hemm
  | .herk, .s | .herk, .d => .syrk
  | .herk, .c | .herk, .z => .herk
  | .lacpy, _ => .lacpy
  | .geqrf, _ => .geqrf
  | .gqr, .s | .gqr, .d => .orgqr
  | .gqr, .c | .gqr, .z => .ungqr
  | .heevd, .s | .heevd, .d => .syevd
  | .heevd, .c | .heevd, .z => .heevd
  | .gemv, _ => .gemv
  | .stemr, _ => .stemr
  | .potrf, _ => .potrf
  | .trsm, _ => .trsm
  | .gesvd, _ => .gesvd
  | .pgeqrf, _ => .pgeqrf
  | .pgqr, .s | .pgqr, .d => .porgqr
  | .pgqr, .c | .pgqr, .z => .pungqr
  | .ptranc, .s | .ptranc, .d => .ptran
  | .ptranc, .c | .ptranc, .z => .ptranc

/-- The routine receives an argument as it is meant: it holds what the routine expects at this place, whatever elements
the wrapper has stored the routine reads, and whatever elements the routine stores the wrapper reads. -/
structure Receives (p r : Role × Kind) : Prop where
  role : p.1 = r.1
  reads : ∀ (mem : Mem) (adr n : ℕ) (v : ℕ → List UInt8), (∀ i < n, (v i).length = p.2.size) →
    ∀ i < n, load r.2 (store p.2 mem adr n v) adr i = v i
  writes : ∀ (mem : Mem) (adr n : ℕ) (v : ℕ → List UInt8), (∀ i < n, (v i).length = r.2.size) →
    ∀ i < n, load p.2 (store r.2 mem adr n v) adr i = v i

/-- A call is right: it goes to the routine meant, passes every argument as this routine receives it, no more and no
fewer, and takes the result as the routine returns it. -/
def RightCall (op : Op) (t : Ty) : Prop :=
  (routine op t).2 = t ∧ (routine op t).1 = meant op t ∧
    ∃ s, documented (routine op t) = some s ∧ List.Forall₂ Receives (passed op t) s.args ∧
      declaredResult op t = s.result

/-- Elements of an array that a routine uses as workspace: in a query (`LWORK`, `LRWORK` or `LIWORK` is `-1`) it only
stores the size in the first element; else it uses as many elements as the caller says; `RWORK` of the singular value
decomposition has no such argument, it uses `5 min(m, n)` elements unless it is a query. -/
def documentedUse (op : Op) (m n : ℕ) (lwork lrwork liwork : ℤ) (r : Role) : ℕ :=
  let use (l : ℤ) : ℕ := if l = -1 then 1 else l.toNat
  if r = .work then use lwork
  else if r = .rwork then (if op = .gesvd then (if lwork = -1 then 0 else 5 * min m n) else use lrwork)
  else if r = .iwork then use liwork
  else 0

end Blas
end Verif
