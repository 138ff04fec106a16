/-
Property C79 for the wrappers of cuBLAS and cuSOLVER, and property C92: the cuSOLVER routines get a workspace of the
size the library asks for.

`Cuda.documented` and `Cuda.meant` are written from the documentation of cuBLAS and cuSOLVER, not from /repo.
-/
import Verif.Blas.Cuda
import Verif.Blas.Props

namespace Verif
namespace Blas
namespace Cuda
open Fortran (Kind Mem load store load_store)

/-! ### Specification -/

/-- `cublasHandle_t` or `cusolverDnHandle_t`. -/
abbrev dHandle : Arg × Pass := (.handle, .handle)

/-- An enumeration: `cublasOperation_t`, `cublasFillMode_t`, `cublasSideMode_t`, `cublasDiagType_t`,
`cusolverEigMode_t`. -/
abbrev dEnum (r : Role) : Arg × Pass := (.of r, .enum)

/-- An integer. -/
abbrev dInt (r : Role) : Arg × Pass := (.of r, .int)

/-- A pointer to elements. -/
abbrev dPtr (k : Kind) (r : Role) : Arg × Pass := (.of r, .ptr k)

/-- The documented interfaces; a routine may exist for real or for complex types only. -/
def documented : Base × Ty → Option (List (Arg × Pass))
  | (.gemv, t) => some [dHandle, dEnum .transa, dInt .m, dInt .n, dPtr t.elt .alpha, dPtr t.elt .a, dInt .lda,
      dPtr t.elt .x, dInt .incx, dPtr t.elt .beta, dPtr t.elt .y, dInt .incy]
  | (.gemm, t) => some [dHandle, dEnum .transa, dEnum .transb, dInt .m, dInt .n, dInt .k, dPtr t.elt .alpha,
      dPtr t.elt .a, dInt .lda, dPtr t.elt .b, dInt .ldb, dPtr t.elt .beta, dPtr t.elt .c, dInt .ldc]
  | (.geqrfSize, t) => some [dHandle, dInt .m, dInt .n, dPtr t.elt .a, dInt .lda, dPtr .int .lwork]
  | (.geqrf, t) => some [dHandle, dInt .m, dInt .n, dPtr t.elt .a, dInt .lda, dPtr t.elt .tau, dPtr t.elt .work,
      dInt .lwork, dPtr .int .info]
  | (.orgqrSize, t) => if t.isReal then some [dHandle, dInt .m, dInt .n, dInt .k, dPtr t.elt .a, dInt .lda,
      dPtr t.elt .tau, dPtr .int .lwork] else none
  | (.ungqrSize, t) => if t.isReal then none else some [dHandle, dInt .m, dInt .n, dInt .k, dPtr t.elt .a, dInt .lda,
      dPtr t.elt .tau, dPtr .int .lwork]
  | (.orgqr, t) => if t.isReal then some [dHandle, dInt .m, dInt .n, dInt .k, dPtr t.elt .a, dInt .lda,
      dPtr t.elt .tau, dPtr t.elt .work, dInt .lwork, dPtr .int .info] else none
  | (.ungqr, t) => if t.isReal then none else some [dHandle, dInt .m, dInt .n, dInt .k, dPtr t.elt .a, dInt .lda,
      dPtr t.elt .tau, dPtr t.elt .work, dInt .lwork, dPtr .int .info]
  | (.syevdSize, t) => if t.isReal then some [dHandle, dEnum .jobz, dEnum .uplo, dInt .n, dPtr t.elt .a, dInt .lda,
      dPtr t.base .w, dPtr .int .lwork] else none
  | (.heevdSize, t) => if t.isReal then none else some [dHandle, dEnum .jobz, dEnum .uplo, dInt .n, dPtr t.elt .a,
      dInt .lda, dPtr t.base .w, dPtr .int .lwork]
  | (.syevd, t) => if t.isReal then some [dHandle, dEnum .jobz, dEnum .uplo, dInt .n, dPtr t.elt .a, dInt .lda,
      dPtr t.base .w, dPtr t.elt .work, dInt .lwork, dPtr .int .info] else none
  | (.heevd, t) => if t.isReal then none else some [dHandle, dEnum .jobz, dEnum .uplo, dInt .n, dPtr t.elt .a,
      dInt .lda, dPtr t.base .w, dPtr t.elt .work, dInt .lwork, dPtr .int .info]
  | (.potrfSize, t) => some [dHandle, dEnum .uplo, dInt .n, dPtr t.elt .a, dInt .lda, dPtr .int .lwork]
  | (.potrf, t) => some [dHandle, dEnum .uplo, dInt .n, dPtr t.elt .a, dInt .lda, dPtr t.elt .work, dInt .lwork,
      dPtr .int .info]
  | (.syrk, t) => some [dHandle, dEnum .uplo, dEnum .trans, dInt .n, dInt .k, dPtr t.elt .alpha, dPtr t.elt .a,
      dInt .lda, dPtr t.elt .beta, dPtr t.elt .c, dInt .ldc]
  | (.herk, t) => if t.isReal then none else some [dHandle, dEnum .uplo, dEnum .trans, dInt .n, dInt .k,
      dPtr t.base .alpha, dPtr t.elt .a, dInt .lda, dPtr t.base .beta, dPtr t.elt .c, dInt .ldc]
  | (.trsm, t) => some [dHandle, dEnum .side, dEnum .uplo, dEnum .trans, dEnum .diag, dInt .m, dInt .n,
      dPtr t.elt .alpha, dPtr t.elt .a, dInt .lda, dPtr t.elt .b, dInt .ldb]
  | (.axpy, t) => some [dHandle, dInt .n, dPtr t.elt .alpha, dPtr t.elt .x, dInt .incx, dPtr t.elt .y, dInt .incy]
  | (.nrm2, t) => some [dHandle, dInt .n, dPtr t.elt .x, dInt .incx, (.result, .ptr t.base)]
  | (.dot, t) => if t.isReal then some [dHandle, dInt .n, dPtr t.elt .x, dInt .incx, dPtr t.elt .y, dInt .incy,
      (.result, .ptr t.elt)] else none
  | (.dotu, t) | (.dotc, t) => if t.isReal then none else some [dHandle, dInt .n, dPtr t.elt .x, dInt .incx,
      dPtr t.elt .y, dInt .incy, (.result, .ptr t.elt)]
  | (.scal, t) => some [dHandle, dInt .n, dPtr t.elt .alpha, dPtr t.elt .x, dInt .incx]

/-- The routine that does, for a scalar type, what the wrapper is named after: the Hermitian or unitary variant for
complex types, the scalar product with the first factor conjugated. -/
def meant : Op → Ty → Base
  | .gemv, _ => .gemv
  | .gemm, _ => .gemm
  | .geqrfSize, _ => .geqrfSize
  | .geqrf, _ => .geqrf
  | .gqrSize, .s | .gqrSize, .d => .orgqrSize
  | .gqrSize, .c | .gqrSize, .z => .ungqrSize
  | .gqr, .s | .gqr, .d => .orgqr
  | .gqr, .c | .gqr, .z => .ungqr
  | .heevdSize, .s | .heevdSize, .d => .syevdSize
  | .heevdSize, .c | .heevdSize, .z => .heevdSize
  | .heevd, .s | .heevd, .d => .syevd
  | .heevd, .c | .heevd, .z => .heevd
  | .potrfSize, _ => .potrfSize
  | .potrf, _ => .potrf
  | .herk, .s | .herk, .d => .syrk
  | .herk, .c | .herk, .z => .herk
  | .trsm, _ => .trsm
  | .axpy, _ => .axpy
  | .nrm2, _ => .nrm2
  | .dot, .s | .dot, .d => .dot
  | .dot, .c | .dot, .z => .dotc
  | .scal, _ => .scal

/-- An argument arrives as it is meant: it is what the routine expects at this place and is passed in the documented
way; where a pointer is passed, the routine reads the elements that the caller has stored, and the other way round. -/
structure Receives (p r : Arg × Pass) : Prop where
  arg : p.1 = r.1
  value : (∀ k, r.2 ≠ .ptr k) → p.2 = r.2
  pointer : ∀ k, r.2 = .ptr k → ∃ k', p.2 = .ptr k' ∧ ∀ (mem : Mem) (adr n : ℕ) (v : ℕ → List UInt8),
    ((∀ i < n, (v i).length = k'.size) → ∀ i < n, load k (store k' mem adr n v) adr i = v i) ∧
    ((∀ i < n, (v i).length = k.size) → ∀ i < n, load k' (store k mem adr n v) adr i = v i)

/-- A call is right: it goes to the routine meant, for the right scalar type, and every argument, no more and no fewer,
arrives as it is meant. -/
def RightCall (op : Op) (t : Ty) : Prop :=
  (routine op t).2 = t ∧ (routine op t).1 = meant op t ∧
    ∃ args, documented (routine op t) = some args ∧ List.Forall₂ Receives (passed op t) args

/-- A call has the workspace it needs: the library asks for `query c` elements for this call, the caller says that there
are `lwork` elements and has allocated `bytes` bytes. -/
def Sufficient (t : Ty) (query : Call → ℕ) (lwork bytes : ℕ) (c : Call) : Prop :=
  query c ≤ lwork ∧ t.elt.size * lwork ≤ bytes

/-- The library asks for no less workspace for a larger eigenproblem stored with the same leading dimension. -/
def MonotoneQuery (query : Call → ℕ) : Prop :=
  ∀ n n' lda, n ≤ n' → query (.heevd n lda) ≤ query (.heevd n' lda)

/-! ### Theorems -/

theorem receives_self (p : Arg × Pass) : Receives p p :=
  ⟨rfl, fun _ => rfl, fun k hk => ⟨k, hk, fun mem adr n v =>
    ⟨fun h i hi => load_store k mem adr n v h i hi, fun h i hi => load_store k mem adr n v h i hi⟩⟩⟩

/-- **C79** for the wrappers of cuBLAS and cuSOLVER: all 64 calls are right. -/
theorem C79_cuda (op : Op) (t : Ty) : RightCall op t := by
  have h : ∀ l : List (Arg × Pass), List.Forall₂ Receives l l := fun l =>
    List.forall₂_same.mpr fun p _ => receives_self p
  refine ⟨rfl, ?_, ?_⟩
  · cases op <;> cases t <;> rfl
  · cases op <;> cases t <;> exact ⟨_, rfl, h _⟩

/-- Unlike `t_syherk` on the host, `cublasTsyherk` passes real factors for complex types. -/
example : (passed .herk .z)[5]? = some (.of .alpha, .ptr .f64) := rfl

/-- What `Receives` excludes: sizes in the wrong order, and an element type of the wrong size. -/
example : ¬ Receives (.of .m, .int) (.of .n, .int) ∧ ¬ Receives (.of .w, .ptr .c32) (.of .w, .ptr .f32) := by
  constructor
  · intro h
    exact absurd h.arg (by decide)
  · intro h
    obtain ⟨k', hk, hl⟩ := h.pointer .f32 rfl
    obtain rfl : Kind.c32 = k' := by simpa using hk
    have := congrArg List.length ((hl (fun _ => 0) 0 1 fun _ => List.replicate Kind.c32.size 0).1
      (fun _ _ => List.length_replicate) 0 (by omega))
    simp [load] at this
    exact absurd this (by decide)

theorem le_ite_gt (a b : ℕ) : a ≤ (if b > a then b else a) ∧ b ≤ (if b > a then b else a) := by
  split <;> omega

theorem heevd_le {query : Call → ℕ} (hq : MonotoneQuery query) {nev nex block : ℕ} (hb : block ≤ nev + nex) :
    query (.heevd block (nev + nex)) ≤ query (.heevd (nev + nex) (nev + nex)) := hq _ _ _ hb

/-- **C92, partial, sequential GPU backend:** every call of every iteration has the workspace it needs, for every size,
every number of columns that are not locked, and every scalar type. Missing: the library is taken to ask for no less
for a larger eigenproblem, which its documentation does not say; see `C92_refuted_without`. -/
theorem C92_cuda_partial (t : Ty) (query : Call → ℕ) (hq : MonotoneQuery query) (N nev nex block : ℕ)
    (hb : block ≤ nev + nex) :
    ∀ c ∈ seqCalls N nev nex block,
      Sufficient t query (seqWork query N nev nex) (allocBytes t (seqWork query N nev nex)) c := by
  intro c hc
  refine ⟨?_, le_refl _⟩
  have h4 := le_ite_gt (let geqrf := query (.geqrf N (nev + nex) N)
    let orgqr := query (.gqr N (nev + nex) (nev + nex) N)
    let lwork := if geqrf > orgqr then geqrf else orgqr
    let heevd := query (.heevd (nev + nex) (nev + nex))
    if heevd > lwork then heevd else lwork) (query (.potrf (nev + nex) (nev + nex)))
  have h3 := le_ite_gt (let geqrf := query (.geqrf N (nev + nex) N)
    let orgqr := query (.gqr N (nev + nex) (nev + nex) N)
    if geqrf > orgqr then geqrf else orgqr) (query (.heevd (nev + nex) (nev + nex)))
  have h2 := le_ite_gt (query (.gqr N (nev + nex) (nev + nex) N)) (query (.geqrf N (nev + nex) N))
  have h1 := heevd_le hq hb
  simp only [seqCalls, List.mem_append, List.mem_cons, List.not_mem_nil, or_false, List.mem_replicate] at hc
  simp only [seqWork] at *
  rcases hc with ((rfl | rfl) | ⟨-, rfl⟩) | rfl <;> omega

/-- **C92, partial, multi-GPU backend.** Missing: as for `C92_cuda_partial`. -/
theorem C92_mgpu_partial (t : Ty) (query : Call → ℕ) (hq : MonotoneQuery query) (nev nex block : ℕ)
    (hb : block ≤ nev + nex) :
    ∀ c ∈ mgpuCalls nev nex block,
      Sufficient t query (mgpuWork query nev nex) (allocBytes t (mgpuWork query nev nex)) c := by
  intro c hc
  refine ⟨?_, le_refl _⟩
  have h2 := le_ite_gt (let heevd := query (.heevd (nev + nex) (nev + nex))
    if heevd > 0 then heevd else 0) (query (.potrf (nev + nex) (nev + nex)))
  have h1 := le_ite_gt 0 (query (.heevd (nev + nex) (nev + nex)))
  have h0 := heevd_le hq hb
  simp only [mgpuCalls, List.mem_cons, List.not_mem_nil, or_false] at hc
  simp only [mgpuWork] at *
  rcases hc with rfl | rfl <;> omega

/-- A library that asks for as much as LAPACK documents for the eigenproblem and for blocks of 32 columns in the QR
factorisation. -/
def lapackLike : Call → ℕ
  | .geqrf _ n _ => 32 * n
  | .gqr _ n _ _ => 32 * n
  | .heevd n _ => 1 + 6 * n + 2 * n * n
  | .potrf n _ => n

/-- Non-vacuity: with this library the workspace for 100 wanted and 20 extra columns has 29521 elements, and every block
of at most 120 columns fits. -/
example : MonotoneQuery lapackLike ∧ seqWork lapackLike 5000 100 20 = 29521 ∧ mgpuWork lapackLike 100 20 = 29521 :=
  ⟨fun n n' _ h => by
    simp only [lapackLike]
    have := Nat.mul_le_mul h h
    nlinarith, by decide +kernel, by decide +kernel⟩

/-- Why the library has to be monotone: the code asks for the size of the largest eigenproblem only. With a library
that asks for more in the smaller case (for blocks of one column of three, say), the workspace is too small. -/
theorem C92_refuted_without : ∃ query : Call → ℕ, ∃ block ≤ 2 + 1, ∃ c ∈ seqCalls 10 2 1 block,
    ¬ Sufficient .d query (seqWork query 10 2 1) (allocBytes .d (seqWork query 10 2 1)) c :=
  ⟨fun | .heevd 1 _ => 100 | _ => 50, 1, by omega, .heevd 1 3, by decide, fun h => absurd h.1 (by decide)⟩

end Cuda
end Blas
end Verif
