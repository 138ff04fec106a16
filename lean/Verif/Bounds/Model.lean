/-
Which elements of which buffers the CPU backends touch, call by call, and how large the buffers are.
Files: ChASE-MPI/impl/chase_mpidla_blaslapack_seq.hpp (cited as seq),
ChASE-MPI/impl/chase_mpidla_blaslapack_seq_inplace.hpp (inplace), ChASE-MPI/impl/chase_mpidla.hpp (dla),
ChASE-MPI/impl/chase_mpidla_blaslapack.hpp (blas), ChASE-MPI/chase_mpi.hpp (chase_mpi),
ChASE-MPI/chase_mpi_matrices.hpp (matrices).

What a call touches depends on sizes only, never on the numbers in the buffers, so it is a function of the
sizes, of the member `locked_` of `ChaseMpi` and of the call.  Where the code chooses between variants by
numbers (the orthogonalisations of `QR`), the accesses of all variants are listed.  The arguments of a BLAS
or LAPACK routine are taken to touch the matrices their dimensions describe.
-/
import Verif.Solver.Trace
import Verif.Dist.Model

namespace Verif
namespace Bounds

/-- The arrays in play.  `tmp n` is an array of `n` elements allocated for the duration of a call. -/
inductive Buf where
  | H | C | B | C2 | B2 | A | ritzv | resid | vv | pack
  | tmp (n : ℕ)
  deriving DecidableEq

/-- Access to a column-major matrix: elements `off + i + j * ld` for `i < rows`, `j < cols`. -/
structure Access where
  buf : Buf
  off : ℕ
  rows : ℕ
  cols : ℕ
  ld : ℕ
  deriving DecidableEq

/-- Number of elements of the arrays that live as long as the backend. -/
structure Sizes where
  H : ℕ
  C : ℕ
  B : ℕ
  C2 : ℕ
  B2 : ℕ
  A : ℕ
  ritzv : ℕ
  resid : ℕ
  vv : ℕ
  pack : ℕ

/-- Number of elements of an array. -/
def Buf.size (z : Sizes) : Buf → ℕ
  | .H => z.H | .C => z.C | .B => z.B | .C2 => z.C2 | .B2 => z.B2 | .A => z.A
  | .ritzv => z.ritzv | .resid => z.resid | .vv => z.vv | .pack => z.pack
  | .tmp n => n

/-- Every element touched is inside the array. -/
def Access.Fits (z : Sizes) (a : Access) : Prop :=
  ∀ i < a.rows, ∀ j < a.cols, a.off + i + j * a.ld < a.buf.size z

/-- `n` consecutive elements (`memcpy`, a vector with stride 1, a message buffer). -/
def vec (b : Buf) (off n : ℕ) : Access := ⟨b, off, n, 1, n⟩

/-- Element `off`. -/
def one (b : Buf) (off : ℕ) : Access := ⟨b, off, 1, 1, 1⟩

/-- The `n` elements of the diagonal of a matrix with leading dimension `ld`. -/
def diag (b : Buf) (n ld : ℕ) : Access := ⟨b, 0, 1, n, ld + 1⟩

variable {R : Type*}

/-- The member `locked_` of `ChaseMpi` after some calls: `Start` (chase_mpi 261-265) clears it, `Lock`
(chase_mpi 552) adds to it. -/
def lockedAfter : List (Call R) → ℕ → ℕ
  | [], l => l
  | .start :: t, _ => lockedAfter t 0
  | .lock k :: t, l => lockedAfter t (l + k)
  | _ :: t, l => lockedAfter t l

/-- Reading results of the Lanczos runs, common to all backends: chase_mpi 481-501 and 508-545, with
`Theta`, `Tau`, `ritzV`, `ritzVc` as allocated by `lanczos` (algorithm.inc 205-208, 262-275). The routine `stemr`
reads `M` entries of the diagonal and of the off-diagonal and fills `M` values and an `M` by `M` matrix. -/
def stemrTouch (M numvec : ℕ) : List Access :=
  (List.range numvec).flatMap fun i =>
    [vec (.tmp (M * numvec)) (i * M) M, vec (.tmp (M * numvec)) (i * M) M,
     vec (.tmp (numvec * M)) (M * i) M, ⟨.tmp (M * M), 0, M, M, M⟩, vec (.tmp (2 * M)) 0 (2 * M),
     vec (.tmp (numvec * M)) (i * M) M, ⟨.tmp (M * M), 0, 1, M, M⟩,
     one (.tmp (numvec * M)) (i * M), one (.tmp (numvec * M)) ((i + 1) * M - 1), one (.tmp numvec) i]

/-- The local arrays of `mLanczos` of length `len` per vector: seq 449-545, inplace, dla 1376-1505. -/
def mLanczosLocals (len M numvec : ℕ) : List Access :=
  [vec (.tmp (len * numvec)) 0 (len * numvec), ⟨.tmp (len * numvec), 0, len, numvec, len⟩,
   vec (.tmp numvec) 0 numvec, ⟨.tmp (M * numvec), 0, M, numvec, M⟩, ⟨.tmp (M * numvec), 0, M - 1, numvec, M⟩]

/-- `mLanczos` on the block of vectors `V`, whose columns have length `len`: it copies the first `numvec`
columns, and if the basis is kept writes columns `0..M-1` and in the end the first `numvec` ones. -/
def mLanczosVecs (V : Buf) (len M numvec : ℕ) (keep : Bool) : List Access :=
  vec V 0 (len * numvec) :: (if keep then
    (List.range M).map (fun k => vec V (k * len) len) ++ [vec V 0 (len * numvec)] else [])

namespace Seq

/-- The members of `ChaseMpiDLABlaslapackSeq` that fix sizes. -/
structure Dims where
  N : ℕ
  nev : ℕ
  nex : ℕ
  maxBlock : ℕ
  ldh : ℕ

/-- The constructor: seq 34-37.  Its last two parameters are `nex, nev` in this order. -/
def ctor (ldh n nex nev : ℕ) : Dims :=
  { N := n, nev := nev, nex := nex, maxBlock := nex + nex, ldh := ldh }

/-- The call of the constructor by `ChaseMpi`: chase_mpi 111-122 passes `N_, nev_, nex_`. -/
def make (N nev nex ldh : ℕ) : Dims := ctor ldh N nev nex

/-- Sizes of the arrays: seq 38-47 and matrices 333-357.  `H`, `C` and `ritzv` belong to the user, who must
provide `ldh * N`, `N * (nev+nex)` and `nev+nex` elements. -/
def Dims.sizes (D : Dims) : Sizes :=
  { H := D.ldh * D.N, C := D.N * (D.nev + D.nex), B := D.N * (D.nev + D.nex)
    C2 := D.N * D.maxBlock, B2 := D.N * D.maxBlock
    A := (D.nev + D.nex) * (D.nev + D.nex), ritzv := D.nev + D.nex, resid := D.nev + D.nex
    vv := 0, pack := 0 }

variable (D : Dims)

/-- `asynCxHGatherC`: seq 113-126. -/
def gather (locked block : ℕ) : List Access :=
  [⟨.H, 0, D.N, D.N, D.ldh⟩, ⟨.C, locked * D.N, D.N, block, D.N⟩, ⟨.B, locked * D.N, D.N, block, D.N⟩,
   vec .B2 (locked * D.N) (D.N * block), vec .C2 (locked * D.N) (D.N * block)]

/-- The orthogonalisations and what follows them: seq 303-426 (`hhQR`, `cholQR1`, `cholQR2`,
`shiftedcholQR2`, `estimated_cond_evaluator`) and 428-433. -/
def qr (locked : ℕ) : List Access :=
  let n := D.nev + D.nex
  [-- hhQR
   ⟨.C, 0, D.N, n, D.N⟩, vec (.tmp n) 0 n,
   -- Cholesky variants
   ⟨.A, 0, n, n, n⟩, diag .A n n,
   -- estimated_cond_evaluator
   vec .C 0 (D.N * n), vec (.tmp (D.N * n)) 0 (D.N * n), ⟨.tmp (D.N * n), D.N * locked, D.N, n - locked, D.N⟩,
   vec (.tmp (n - locked)) 0 (n - locked), one (.tmp (n - locked)) (n - locked - 1), one (.tmp (n - locked)) 0,
   -- lockVectorCopyAndOrthoConcatswap
   vec .C 0 (locked * D.N), vec .C2 0 (locked * D.N),
   vec .C2 (locked * D.N) ((n - locked) * D.N), vec .C (locked * D.N) ((n - locked) * D.N)]

/-- What the calls touch.  `locked` is the member `locked_` of `ChaseMpi`; `nevex` the number of columns
`ChaseMpi` computes with in `Resd` (chase_mpi 446-450).  `RR` and `Resd` get `ritzv_ + locked` and
`resid_ + locked` from `solve` (algorithm.inc 520, 531; the pointers are advanced at 545-551). -/
def touch (nevex locked : ℕ) : Call R → List Access
  | .checkSymmetryEasy => [⟨.H, 0, D.N, D.N, D.ldh⟩, vec (.tmp D.N) 0 D.N]
  | .start => []
  | .finish => []
  | .initVecs random => (if random then [⟨.C, 0, D.N, D.nev + D.nex, D.N⟩] else []) ++
      [⟨.C, 0, D.N, D.nev + D.nex, D.N⟩, ⟨.C2, 0, D.N, D.nev + D.nex, D.N⟩]
  | .qr _ _ => qr D locked
  | .lanczos1 M => mLanczosVecs .C D.N M 1 false ++ mLanczosLocals D.N M 1 ++
      [⟨.H, 0, D.N, D.N, D.ldh⟩] ++ stemrTouch M 1
  | .lanczosN M numvec => mLanczosVecs .C D.N M numvec true ++ mLanczosLocals D.N M numvec ++
      [⟨.H, 0, D.N, D.N, D.ldh⟩] ++ stemrTouch M numvec
  | .lanczosDos idx m => [⟨.C, 0, D.N, m, D.N⟩, ⟨.tmp (m * m), 0, m, idx, m⟩, ⟨.C2, 0, D.N, idx, D.N⟩,
      vec .C 0 (m * D.N), vec .C2 0 (m * D.N)]
  | .shift _ _ => [diag .H D.N D.ldh]
  | .hemm block _ _ offset => [⟨.H, 0, D.N, D.N, D.ldh⟩,
      ⟨.C, offset * D.N + locked * D.N, D.N, block, D.N⟩, ⟨.B, locked * D.N + offset * D.N, D.N, block, D.N⟩]
  | .rr block => gather D locked block ++
      [⟨.B2, locked * D.N, D.N, block, D.N⟩, ⟨.B, locked * D.N, D.N, block, D.N⟩,
       ⟨.tmp (block * block), 0, block, block, block⟩, vec .ritzv locked block,
       ⟨.C2, locked * D.N, D.N, block, D.N⟩, ⟨.C, locked * D.N, D.N, block, D.N⟩,
       vec .C2 (locked * D.N) (D.N * block), vec .C (locked * D.N) (D.N * block)]
  | .resd fixednev => gather D locked (nevex - fixednev) ++
      (List.range (nevex - fixednev)).flatMap fun i =>
        [one .ritzv (locked + i), vec .B2 (locked * D.N + D.N * i) D.N, vec .B (locked * D.N + D.N * i) D.N,
         one .resid (locked + i)]
  | .lock _ => []
  | .swap i j => [vec (.tmp D.N) 0 D.N, vec .C (D.N * i) D.N, vec .C (D.N * j) D.N,
      vec .C2 (D.N * i) D.N, vec .C2 (D.N * j) D.N]

end Seq

namespace InPlace

/-- Members of `ChaseMpiDLABlaslapackSeqInplace`. -/
structure Dims where
  N : ℕ
  nev : ℕ
  nex : ℕ
  ldh : ℕ

/-- The constructor: inplace 35-49; its parameters are `nev, nex` in this order. -/
def ctor (ldh n nev nex : ℕ) : Dims := { N := n, nev := nev, nex := nex, ldh := ldh }

/-- The call of the constructor by `ChaseMpi`: chase_mpi 111-122. -/
def make (N nev nex ldh : ℕ) : Dims := ctor ldh N nev nex

/-- Sizes of the arrays: matrices 333-357. `V1_` and `V2_` are `C` and `B`, or `B` and `C`. -/
def Dims.sizes (D : Dims) : Sizes :=
  { H := D.ldh * D.N, C := D.N * (D.nev + D.nex), B := D.N * (D.nev + D.nex), C2 := 0, B2 := 0
    A := (D.nev + D.nex) * (D.nev + D.nex), ritzv := D.nev + D.nex, resid := D.nev + D.nex
    vv := 0, pack := 0 }

variable (D : Dims) (V1 V2 : Buf)

/-- The orthogonalisations: inplace 275-418 and `lockVectorCopyAndOrthoConcatswap`. -/
def qr (locked : ℕ) : List Access :=
  let n := D.nev + D.nex
  [vec V2 0 (locked * D.N), vec V1 0 (locked * D.N),
   ⟨V1, 0, D.N, n, D.N⟩, vec (.tmp n) 0 n, ⟨.A, 0, n, n, n⟩, diag .A n n,
   vec V1 0 (D.N * n), vec (.tmp (D.N * n)) 0 (D.N * n), ⟨.tmp (D.N * n), D.N * locked, D.N, n - locked, D.N⟩,
   vec (.tmp (n - locked)) 0 (n - locked), one (.tmp (n - locked)) (n - locked - 1), one (.tmp (n - locked)) 0]

/-- What the calls touch, with the pointers `V1_` and `V2_` given: both orders occur. -/
def touch (nevex locked : ℕ) : Call R → List Access
  | .checkSymmetryEasy => [⟨.H, 0, D.N, D.N, D.ldh⟩, vec (.tmp D.N) 0 D.N]
  | .start => []
  | .finish => []
  | .initVecs random => (if random then [⟨V1, 0, D.N, D.nev + D.nex, D.N⟩] else []) ++
      [⟨V1, 0, D.N, D.nev + D.nex, D.N⟩, ⟨V2, 0, D.N, D.nev + D.nex, D.N⟩]
  | .qr _ _ => qr D V1 V2 locked
  | .lanczos1 M => mLanczosVecs V1 D.N M 1 false ++ mLanczosLocals D.N M 1 ++
      [⟨.H, 0, D.N, D.N, D.ldh⟩] ++ stemrTouch M 1
  | .lanczosN M numvec => mLanczosVecs V1 D.N M numvec true ++ mLanczosLocals D.N M numvec ++
      [⟨.H, 0, D.N, D.N, D.ldh⟩] ++ stemrTouch M numvec
  | .lanczosDos idx m => [⟨V1, 0, D.N, m, D.N⟩, ⟨.tmp (m * m), 0, m, idx, m⟩, ⟨V2, 0, D.N, idx, D.N⟩,
      vec V1 0 (m * D.N), vec V2 0 (m * D.N)]
  | .shift _ _ => [diag .H D.N D.ldh]
  | .hemm block _ _ offset => [⟨.H, 0, D.N, D.N, D.ldh⟩,
      ⟨V1, offset * D.N + locked * D.N, D.N, block, D.N⟩, ⟨V2, locked * D.N + offset * D.N, D.N, block, D.N⟩]
  | .rr block => [⟨.H, 0, D.N, D.N, D.ldh⟩, ⟨V1, locked * D.N, D.N, block, D.N⟩,
      ⟨V2, locked * D.N, D.N, block, D.N⟩, ⟨.A, 0, block, block, D.nev + D.nex⟩, vec .ritzv locked block]
  | .resd fixednev => [⟨.H, 0, D.N, D.N, D.ldh⟩, ⟨V1, locked * D.N, D.N, nevex - fixednev, D.N⟩,
      ⟨V2, locked * D.N, D.N, nevex - fixednev, D.N⟩] ++
      (List.range (nevex - fixednev)).flatMap fun i =>
        [one .ritzv (locked + i), vec V1 (locked * D.N + D.N * i) D.N, vec V2 (locked * D.N + D.N * i) D.N,
         one .resid (locked + i)]
  | .lock _ => []
  | .swap i j => [vec (.tmp D.N) 0 D.N, vec V1 (D.N * i) D.N, vec V1 (D.N * j) D.N]

end InPlace

namespace Mpi

/-- What a process of the distributed backend knows: `N_`, its local sizes `m_`, `n_`, `nev_`, `nex_`, the
leading dimension of its part of the matrix, whether the two layouts coincide (`isSameDist_`, dla 140), its
ranks in the column and the row communicator, the redistribution tables, and the sizes of the parts of
`C` on the processes of its column communicator (`send_lens_[0]`) and of `B` in its row communicator
(`send_lens_[1]`). -/
structure Dims where
  N : ℕ
  m : ℕ
  n : ℕ
  nev : ℕ
  nex : ℕ
  ldh : ℕ
  same : Bool
  colRank : ℕ
  rowRank : ℕ
  cRuns : List Dist.Run
  bRuns : List Dist.Run

/-- Number of columns. -/
def Dims.nevex (D : Dims) : ℕ := D.nev + D.nex

/-- `max_element` of the lengths `c_lens`: dla 344. -/
def maxLen (runs : List Dist.Run) : ℕ := (runs.map (·.len)).foldr max 0

/-- Sizes of the arrays of a process: matrices 389-421, and `buff__` (dla 343-350), here `pack`.  The user
provides `H` with `ldh * n` elements, `C` with `m * (nev+nex)` and `ritzv` with `nev+nex`. -/
def Dims.sizes (D : Dims) : Sizes :=
  { H := D.ldh * D.n, C := D.m * D.nevex, C2 := D.m * D.nevex, B := D.n * D.nevex, B2 := D.n * D.nevex
    A := D.nevex * D.nevex, ritzv := D.nevex, resid := D.nevex, vv := D.m
    pack := if D.same then 0 else maxLen D.cRuns * D.nevex }

variable (D : Dims)

/-- `asynCxHGatherC`, redistribution of columns of `C2` to `B2`: dla 662-700.  In the general case every
process of the column communicator packs (dla 689), not only the source of the run. -/
def gatherC2 (locked block : ℕ) : List Access :=
  if D.same then
    (if D.rowRank = D.colRank then
      [vec .C2 (locked * D.m) (block * D.m), ⟨.C2, locked * D.m, D.m, block, D.m⟩,
       ⟨.B2, locked * D.n, D.m, block, D.n⟩]
    else [vec .B2 (locked * D.n) (block * D.n)])
  else
    (D.cRuns.filter (fun r => r.dest = D.rowRank)).flatMap fun r =>
      [⟨.C2, r.srcDisp + locked * D.m, r.len, block, D.m⟩, ⟨.pack, 0, r.len, block, r.len⟩,
       vec .pack 0 (r.len * block), ⟨.B2, r.destDisp + locked * D.n, r.len, block, D.n⟩]

/-- `asynCxHGatherC`: dla 657-716, blas 168-177. -/
def gather (locked block : ℕ) : List Access :=
  gatherC2 D locked block ++
  [⟨.H, 0, D.m, D.n, D.ldh⟩, ⟨.C, locked * D.m, D.m, block, D.m⟩, ⟨.B, locked * D.n, D.n, block, D.n⟩,
   vec .B (locked * D.n) (D.n * block)]

/-- `B2C` on pointers, as used by `mLanczos` and `checkSymmetryEasy`, of `k` vectors: dla 1507-1541.  The
data types (dla 242-277) describe the positions of a run in the sender's or the receiver's vector, repeated
for `k` columns. -/
def b2c (k : ℕ) : List Access :=
  (D.bRuns.filter (fun r => r.dest = D.colRank)).flatMap fun r =>
    if D.rowRank = r.src then
      [⟨.tmp (D.n * k), r.srcDisp, r.len, k, D.n⟩, ⟨.tmp (D.m * k), r.destDisp, r.len, k, D.m⟩]
    else [⟨.tmp (D.m * k), r.destDisp, r.len, k, D.m⟩]

/-- `C2B` on pointers, as used by `checkSymmetryEasy`: dla 1594-1631.  The constructor takes the positions
of the runs from the tables of the other direction (`c_disps_2`, `b_disps_2`), which list the same runs. -/
def c2b (k : ℕ) : List Access :=
  (D.cRuns.filter (fun r => r.dest = D.rowRank)).flatMap fun r =>
    if D.colRank = r.src then
      [⟨.tmp (D.m * k), r.srcDisp, r.len, k, D.m⟩, ⟨.tmp (D.n * k), r.destDisp, r.len, k, D.n⟩]
    else [⟨.tmp (D.n * k), r.destDisp, r.len, k, D.n⟩]

/-- The orthogonalisations: dla 1054-1358.  The accesses of `collecRedundantVecs` (dla 533-628) to the
local vectors and to the array of `N_ * nevex` elements are listed; the positions inside the latter come
from the tables of all processes (C35). -/
def qr (locked : ℕ) : List Access :=
  let n := D.nevex
  [⟨.C, 0, D.m, n, D.m⟩, ⟨.A, 0, n, n, n⟩, vec .A 0 (n * n), diag .A n n, vec (.tmp n) 0 n,
   vec .C 0 (D.m * n), ⟨.tmp (D.N * n), 0, D.N, n, D.N⟩, ⟨.tmp (D.N * n), D.N * locked, D.N, n - locked, D.N⟩,
   vec (.tmp (n - locked)) 0 (n - locked), one (.tmp (n - locked)) (n - locked - 1), one (.tmp (n - locked)) 0,
   vec .C 0 (locked * D.m), vec .C2 0 (locked * D.m),
   vec .C2 (locked * D.m) ((n - locked) * D.m), vec .C (locked * D.m) ((n - locked) * D.m)]

/-- What the calls touch on one process.  `shiftMatrix` (blas 144-164) touches positions of the local matrix
given by the tables of the process; all of it is listed. -/
def touch (locked : ℕ) : Call R → List Access
  | .checkSymmetryEasy => [vec (.tmp D.m) 0 D.m, vec (.tmp D.n) 0 D.n, ⟨.H, 0, D.m, D.n, D.ldh⟩] ++
      c2b D 1 ++ b2c D 1
  | .start => []
  | .finish => []
  | .initVecs random => (if random then [vec .C 0 (D.m * D.nevex)] else []) ++
      [⟨.C, 0, D.m, D.nevex, D.m⟩, ⟨.C2, 0, D.m, D.nevex, D.m⟩]
  | .qr _ _ => qr D locked
  | .lanczos1 M => mLanczosVecs .C D.m M 1 false ++ mLanczosLocals D.m M 1 ++
      [⟨.H, 0, D.m, D.n, D.ldh⟩, vec (.tmp (D.n * 1)) 0 (D.n * 1)] ++ b2c D 1 ++ stemrTouch M 1
  | .lanczosN M numvec => mLanczosVecs .C D.m M numvec true ++ mLanczosLocals D.m M numvec ++
      [⟨.H, 0, D.m, D.n, D.ldh⟩, vec (.tmp (D.n * numvec)) 0 (D.n * numvec)] ++ b2c D numvec ++
      stemrTouch M numvec
  | .lanczosDos idx m => [⟨.C, 0, D.m, m, D.m⟩, ⟨.tmp (m * m), 0, m, idx, m⟩, ⟨.C2, 0, D.m, idx, D.m⟩,
      vec .C 0 (m * D.m), vec .C2 0 (m * D.m)]
  | .shift _ _ => [⟨.H, 0, D.m, D.n, D.ldh⟩]
  | .hemm block _ _ offset => [⟨.H, 0, D.m, D.n, D.ldh⟩,
      ⟨.C, offset * D.m + locked * D.m, D.m, block, D.m⟩, ⟨.B, locked * D.n + offset * D.n, D.n, block, D.n⟩,
      vec .B (locked * D.n + offset * D.n) (D.n * block), vec .C (locked * D.m + offset * D.m) (D.m * block)]
  | .rr block => gather D locked block ++
      [⟨.B2, locked * D.n, D.n, block, D.n⟩, ⟨.B, locked * D.n, D.n, block, D.n⟩,
       ⟨.A, 0, block, block, D.nevex⟩, vec .A 0 (D.nevex * block), vec .ritzv locked block,
       ⟨.C2, (D.nevex - block) * D.m, D.m, block, D.m⟩, ⟨.C, (D.nevex - block) * D.m, D.m, block, D.m⟩,
       vec .C2 (locked * D.m) (D.m * block), vec .C (locked * D.m) (D.m * block)]
  | .resd fixednev => gather D locked (D.nevex - fixednev) ++
      [vec .resid locked (D.nevex - fixednev)] ++
      (List.range (D.nevex - fixednev)).flatMap fun i =>
        [one .ritzv (locked + i), vec .B2 (locked * D.n + i * D.n) D.n, vec .B (locked * D.n + i * D.n) D.n,
         one .resid (locked + i)]
  | .lock _ => []
  | .swap i j => [vec .vv 0 D.m, vec .C (D.m * i) D.m, vec .C (D.m * j) D.m]

end Mpi
end Bounds
end Verif
