/-
Dense linear algebra used by the backends: blocks of columns, and the BLAS/LAPACK routines.

Scalars are real or complex numbers (`RCLike K`), arithmetic is exact.  A tall matrix such as `C_` is
modelled as a function from column numbers to vectors of length `N` (the pointer `C_ + j*N_` is column
`j`); its allocated width is not part of the data, the theorems about memory (C42) speak about the
columns that are written.  BLAS products are the mathematical ones.  LAPACK factorisations are
parameters (`Lapack`) with the specification `Lapack.Ok`.
-/
import Verif.Solver.Model
import Mathlib.Analysis.RCLike.Basic
import Mathlib.LinearAlgebra.Matrix.Hermitian
import Mathlib.LinearAlgebra.Matrix.NonsingularInverse
import Mathlib.LinearAlgebra.Matrix.PosDef
import Mathlib.Analysis.Real.Sqrt

namespace Verif

open Matrix
open scoped ComplexOrder

section Blocks
variable {K : Type*} {N : ℕ}

/-- Columns `[off, off+n)` of a tall matrix as a matrix. -/
def getBlk (off n : ℕ) (X : ℕ → Fin N → K) : Matrix (Fin N) (Fin n) K := fun i j => X (off + j) i

/-- Overwriting the columns `[off, off+n)`. -/
def setBlk (off : ℕ) {n : ℕ} (M : Matrix (Fin N) (Fin n) K) (X : ℕ → Fin N → K) :
    ℕ → Fin N → K :=
  fun j => if h : off ≤ j ∧ j < off + n then fun i => M i ⟨j - off, by omega⟩ else X j

/-- `memcpy(dst + off*N, src + off*N, n*N)`: copy columns `[off, off+n)`. -/
def copyCols (off n : ℕ) (src dst : ℕ → Fin N → K) : ℕ → Fin N → K := writeAt dst off n
  (fun k => src (off + k))

end Blocks

section Kernels
variable (K : Type*) [RCLike K]

/-- LAPACK routines and the random numbers, as parameters of the backends. -/
structure Lapack where
  /-- entry `i` of vector `j` of `std::normal_distribution` on `std::mt19937(1337)` -/
  randn : ℕ → ℕ → K
  /-- entries of the probe vector of `checkSymmetryEasy` -/
  probe : ℕ → K
  /-- `t_potrf('U', n, A, n)`: `info` and the content of `A` afterwards -/
  potrf : ∀ {n : ℕ}, Matrix (Fin n) (Fin n) K → ℤ × Matrix (Fin n) (Fin n) K
  /-- `t_geqrf` followed by `t_gqr` -/
  hhqr : ∀ {m n : ℕ}, Matrix (Fin m) (Fin n) K → Matrix (Fin m) (Fin n) K
  /-- `t_heevd('V', 'L', n, A, n, w)`: `w` and the eigenvectors -/
  heevd : ∀ {n : ℕ}, Matrix (Fin n) (Fin n) K → (Fin n → ℝ) × Matrix (Fin n) (Fin n) K
  /-- `t_stemr('V', 'A', M, d, e, ...)`: eigenvalues and eigenvector matrix (column major) -/
  stemr : ℕ → (ℕ → ℝ) → (ℕ → ℝ) → (ℕ → ℝ) × (ℕ → ℝ)
  /-- `std::numeric_limits<Base<T>>::epsilon()` -/
  eps : ℝ

variable {K}

/-- Upper triangle, the part of `A` the triangular solve reads. -/
def triu {n : ℕ} (A : Matrix (Fin n) (Fin n) K) : Matrix (Fin n) (Fin n) K :=
  fun i j => if i ≤ j then A i j else 0

/-- Entry of a matrix by natural number indices. -/
def ent {n : ℕ} (A : Matrix (Fin n) (Fin n) K) (i j : ℕ) : K :=
  if h : i < n ∧ j < n then A ⟨i, h.1⟩ ⟨j, h.2⟩ else 0

/-- `t_trsm('R', 'U', 'N', 'N', N, n, 1, A, n, V, N)`: solves `X U = V` with `U` the upper triangle of
`A`, column by column and in place, on the first `n` columns (reference BLAS `dtrsm`, case right /
upper / no transpose).  Division by a zero on the diagonal gives zero here, infinities in C++. -/
noncomputable def trsm {N n : ℕ} (A : Matrix (Fin n) (Fin n) K) (V : ℕ → Fin N → K) :
    ℕ → Fin N → K :=
  forRange 0 n (fun j X => Function.update X j
    ((ent A j j)⁻¹ • (X j - ∑ k ∈ Finset.range j, ent A k j • X k))) V

/-- `t_syherk('U', 'C', n, N, 1, V, N, 0, A, n)`: `A := V^* V` (the C++ call fills the upper
triangle, the only part read later). -/
def syherk {m n : ℕ} (V : Matrix (Fin m) (Fin n) K) : Matrix (Fin n) (Fin n) K := Vᴴ * V

/-- `t_dot`: conjugates its first argument (blas_templates.inc 193-207: explicit loop for complex). -/
def dotc {N : ℕ} (x y : Fin N → K) : K := ∑ i, star (x i) * y i

/-- `t_nrm2`. -/
noncomputable def nrm2 {N : ℕ} (v : Fin N → K) : ℝ := Real.sqrt (∑ i, ‖v i‖ ^ 2)

/-- What LAPACK guarantees in exact arithmetic. -/
structure Lapack.Ok (L : Lapack K) : Prop where
  /-- Cholesky factorisation of a Hermitian matrix: it succeeds (`info = 0`) with a factor, or it
  reports the first leading minor that is not positive definite, having treated the ones before. -/
  potrf : ∀ {n : ℕ} (A : Matrix (Fin n) (Fin n) K), A.IsHermitian →
    ((L.potrf A).1 = 0 ∧ (triu (L.potrf A).2)ᴴ * triu (L.potrf A).2 = A ∧
      ∀ i, (L.potrf A).2 i i ≠ 0) ∨
    (∃ (k : ℕ) (hk : k + 1 ≤ n), (L.potrf A).1 = k + 1 ∧
      (∀ i : Fin n, i.val < k → (L.potrf A).2 i i ≠ 0) ∧
      ¬ (A.submatrix (Fin.castLE hk) (Fin.castLE hk)).PosDef)
  /-- Householder QR of a matrix with at most as many columns as rows -/
  hhqr : ∀ {m n : ℕ} (V : Matrix (Fin m) (Fin n) K), n ≤ m →
    (L.hhqr V)ᴴ * L.hhqr V = 1 ∧ ∃ R : Matrix (Fin n) (Fin n) K, L.hhqr V * triu R = V
  /-- eigen-decomposition of a Hermitian matrix, eigenvalues ascending -/
  heevd : ∀ {n : ℕ} (A : Matrix (Fin n) (Fin n) K), A.IsHermitian →
    (L.heevd A).2ᴴ * (L.heevd A).2 = 1 ∧
    A * (L.heevd A).2 = (L.heevd A).2 * diagonal (fun i => ((L.heevd A).1 i : K)) ∧
    Monotone (L.heevd A).1
  /-- eigen-decomposition of a real symmetric tridiagonal matrix, eigenvalues ascending -/
  stemr : ∀ (M : ℕ) (d e : ℕ → ℝ),
    (∀ i j, i ≤ j → j < M → (L.stemr M d e).1 i ≤ (L.stemr M d e).1 j) ∧
    (∀ k l, k < M → l < M → ∑ i ∈ Finset.range M,
      (L.stemr M d e).2 (i + k * M) * (L.stemr M d e).2 (i + l * M) = if k = l then 1 else 0) ∧
    (∀ k i, k < M → i < M →
      d i * (L.stemr M d e).2 (i + k * M)
        + (if i + 1 < M then e i * (L.stemr M d e).2 (i + 1 + k * M) else 0)
        + (if 0 < i then e (i - 1) * (L.stemr M d e).2 (i - 1 + k * M) else 0)
      = (L.stemr M d e).1 k * (L.stemr M d e).2 (i + k * M))

end Kernels
end Verif
