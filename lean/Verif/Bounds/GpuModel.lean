/-
Which elements of which host and device buffers the GPU backends touch, call by call, and how large these
buffers are.  Files: ChASE-MPI/impl/chase_mpidla_cuda_seq.hpp (cited as cuda),
ChASE-MPI/impl/chase_mpidla_mgpu.hpp (mgpu), ChASE-MPI/impl/chase_mpidla.hpp (dla),
ChASE-MPI/chase_mpi_matrices.hpp (matrices), ChASE-MPI/chase_mpi.hpp (chase_mpi).

The conventions are those of Model.lean.  An array of `matrices` may exist on the host, on the device or on
both; the two copies are told apart by listing the accesses to the host and to the device separately, each list
with its own sizes.  An array that does not exist on one side has size 0 there, so that touching it does not fit.
Kernels are taken to touch the elements their arguments describe (which elements their threads touch is the
subject of C47).  The workspaces of cuSOLVER are sized by cuSOLVER's own queries, see Blas/Cuda (C92).
-/
import Verif.Bounds.Model

namespace Verif
namespace Bounds

variable {R : Type*}

/-- Accesses to host and to device arrays. -/
structure Touch where
  host : List Access
  dev : List Access

/-- All accesses are inside the arrays. -/
def Touch.Fits (zh zd : Sizes) (t : Touch) : Prop :=
  (∀ a ∈ t.host, a.Fits zh) ∧ (∀ a ∈ t.dev, a.Fits zd)

/-- The scalars of `mLanczos`, on the host in both backends: cuda 813-815, 863-895; dla 1386-1388, 1441-1490. -/
def mLanczosScalars (M numvec : ℕ) : List Access :=
  [vec (.tmp numvec) 0 numvec, ⟨.tmp (M * numvec), 0, M, numvec, M⟩, ⟨.tmp (M * numvec), 0, M - 1, numvec, M⟩]

/-- The work vectors of `mLanczos` of length `len`, as a block and column by column: cuda 817-819; dla 1395-1398. -/
def mLanczosWork (len numvec : ℕ) : List Access :=
  [vec (.tmp (len * numvec)) 0 (len * numvec), ⟨.tmp (len * numvec), 0, len, numvec, len⟩]

/-- `estimated_cond_evaluator` on the host copy of the vectors: cuda 743-771, dla 1308-1342. -/
def condTouch (N n locked : ℕ) : List Access :=
  [vec (.tmp (N * n)) 0 (N * n), ⟨.tmp (N * n), N * locked, N, n - locked, N⟩,
   vec (.tmp (n - locked)) 0 (n - locked), one (.tmp (n - locked)) (n - locked - 1), one (.tmp (n - locked)) 0]

namespace Cuda

/-- Members of `ChaseMpiDLACudaSeq`. -/
structure Dims where
  N : ℕ
  nev : ℕ
  nex : ℕ
  ldh : ℕ

/-- The constructor: cuda 167-180; its last parameters are `N, nev, nex` in this order. -/
def ctor (ldh N nev nex : ℕ) : Dims := { N := N, nev := nev, nex := nex, ldh := ldh }

/-- The call of the constructor by `ChaseMpi`: chase_mpi 111-122. -/
def make (N nev nex ldh : ℕ) : Dims := ctor ldh N nev nex

/-- Host arrays: matrices 333-357 with `isGPU = 1`, `onlyGPU = 2`: `B` and `A` exist on the device only.  `H`, `C`
and `ritzv` belong to the user, who must provide `ldh * N`, `N * (nev+nex)` and `nev+nex` elements. -/
def Dims.host (D : Dims) : Sizes :=
  { H := D.ldh * D.N, C := D.N * (D.nev + D.nex), B := 0, C2 := 0, B2 := 0, A := 0
    ritzv := D.nev + D.nex, resid := D.nev + D.nex, vv := 0, pack := 0 }

/-- Device arrays: matrices 128-177 (`m * n` elements whatever the leading dimension on the host), and `d_v1_`
(cuda 183), here `vv`. `d_V1_` and `d_V2_` are `C` and `B`, or `B` and `C`. -/
def Dims.dev (D : Dims) : Sizes :=
  { H := D.N * D.N, C := D.N * (D.nev + D.nex), B := D.N * (D.nev + D.nex), C2 := 0, B2 := 0
    A := (D.nev + D.nex) * (D.nev + D.nex), ritzv := D.nev + D.nex, resid := D.nev + D.nex
    vv := D.N, pack := 0 }

variable (D : Dims) (V1 V2 : Buf)

/-- What the calls touch, with the pointers `d_V1_` and `d_V2_` given: both orders occur.
`checkSymmetryEasy` cuda 335-378, `End` 405-409, `initVecs` 273-278, `initRndVecs` 279-284, the orthogonalisations
521-741 (with `d_return_` of `nev+nex` elements, and `devInfo_` and `d_sum` of one), `lockVectorCopy…` 773-777,
`mLanczos` 802-903, `LanczosDos` 789-800, `shiftMatrix` 305-308, `apply` 293-303, `RR` 447-478, `Resd` 502-519,
`Swap` 779-787. -/
def touch (nevex locked : ℕ) : Call R → Touch
  | .checkSymmetryEasy => ⟨[⟨.H, 0, D.N, D.N, D.ldh⟩, vec (.tmp D.N) 0 D.N], []⟩
  | .start => ⟨[], []⟩
  | .finish => ⟨[vec .C 0 ((D.nev + D.nex) * D.N)], [vec V1 0 ((D.nev + D.nex) * D.N)]⟩
  | .initVecs random => ⟨[⟨.H, 0, D.N, D.N, D.ldh⟩],
      (if random then [vec V1 0 (D.N * (D.nev + D.nex))] else []) ++
      [vec V1 0 ((D.nev + D.nex) * D.N), vec V2 0 ((D.nev + D.nex) * D.N), ⟨.H, 0, D.N, D.N, D.N⟩]⟩
  | .qr _ _ =>
      let n := D.nev + D.nex
      ⟨condTouch D.N n locked,
       [vec V2 0 (locked * D.N), vec V1 0 (locked * D.N), ⟨V1, 0, D.N, n, D.N⟩, vec (.tmp n) 0 n,
        ⟨.A, 0, n, n, n⟩, diag .A n n, one (.tmp 1) 0, vec V1 0 (D.N * n)]⟩
  | .lanczos1 M => ⟨mLanczosScalars M 1 ++ stemrTouch M 1,
      mLanczosVecs V1 D.N M 1 false ++ mLanczosWork D.N 1 ++ [⟨.H, 0, D.N, D.N, D.N⟩]⟩
  | .lanczosN M numvec => ⟨mLanczosScalars M numvec ++ stemrTouch M numvec,
      mLanczosVecs V1 D.N M numvec true ++ mLanczosWork D.N numvec ++ [⟨.H, 0, D.N, D.N, D.N⟩]⟩
  | .lanczosDos idx m => ⟨[⟨.tmp (m * m), 0, m, idx, m⟩],
      [⟨.A, 0, m, idx, D.nev + D.nex⟩, ⟨V1, 0, D.N, m, D.N⟩, ⟨V2, 0, D.N, idx, D.N⟩,
       vec V1 0 (m * D.N), vec V2 0 (m * D.N)]⟩
  | .shift _ _ => ⟨[], [diag .H D.N D.N]⟩
  | .hemm block _ _ offset => ⟨[], [⟨.H, 0, D.N, D.N, D.N⟩,
      ⟨V1, offset * D.N + locked * D.N, D.N, block, D.N⟩, ⟨V2, locked * D.N + offset * D.N, D.N, block, D.N⟩]⟩
  | .rr block => ⟨[vec .ritzv locked block],
      [⟨.H, 0, D.N, D.N, D.N⟩, ⟨V1, locked * D.N, D.N, block, D.N⟩, ⟨V2, locked * D.N, D.N, block, D.N⟩,
       ⟨.A, 0, block, block, D.nev + D.nex⟩, vec .ritzv 0 block]⟩
  | .resd fixednev => ⟨[vec .resid locked (nevex - fixednev)],
      [⟨.H, 0, D.N, D.N, D.N⟩, ⟨V1, locked * D.N, D.N, nevex - fixednev, D.N⟩,
       ⟨V2, locked * D.N, D.N, nevex - fixednev, D.N⟩, vec .ritzv 0 (nevex - fixednev),
       vec .resid 0 (nevex - fixednev)]⟩
  | .lock _ => ⟨[], []⟩
  | .swap i j => ⟨[], [vec .vv 0 D.N, vec V1 (D.N * i) D.N, vec V1 (D.N * j) D.N]⟩

end Cuda

namespace Mgpu

open Mpi (Dims)

/-- Host arrays of a process: matrices 389-421 in mode 1 (staged, `aware = false`) and in mode 2 (`aware = true`);
in the latter `C2`, `B`, `B2` and `A` exist on the device only.  `buff__` (dla 347-354), here `pack`. -/
def host (D : Dims) (aware : Bool) : Sizes :=
  let x := fun n : ℕ => if aware then 0 else n
  { H := D.ldh * D.n, C := D.m * D.nevex, C2 := x (D.m * D.nevex), B := x (D.n * D.nevex)
    B2 := x (D.n * D.nevex), A := x (D.nevex * D.nevex), ritzv := D.nevex, resid := D.nevex, vv := D.m
    pack := x (if D.same then 0 else Mpi.maxLen D.cRuns * D.nevex) }

/-- Device arrays of a process: matrices 128-177, 389-421; `buff__` is on the device in mode 2 only. -/
def dev (D : Dims) (aware : Bool) : Sizes :=
  { H := D.m * D.n, C := D.m * D.nevex, C2 := D.m * D.nevex, B := D.n * D.nevex
    B2 := D.n * D.nevex, A := D.nevex * D.nevex, ritzv := D.nevex, resid := D.nevex, vv := D.m
    pack := if aware then (if D.same then 0 else Mpi.maxLen D.cRuns * D.nevex) else 0 }

/-- Number of elements of `d_ritzVc_` after some calls, `none` if it has not been allocated: mgpu 802-806 allocates
it on the first `LanczosDos` of the object, with the size this call needs, and never again.  Only the CUDA-aware
build has it.  It is a member, so it outlives a solve. -/
def ritzVcAfter : List (Call R) → Option ℕ → Option ℕ
  | [], v => v
  | .lanczosDos idx m :: t, none => ritzVcAfter t (some (m * idx))
  | _ :: t, v => ritzVcAfter t v

variable (D : Dims) (aware : Bool)

/-- `asynCxHGatherC` on the host: the redistribution and the allreduce take place there if the build is not
CUDA-aware (dla 657-716), and so does the staging (mgpu 514-536). -/
def gatherHost (locked block : ℕ) : List Access :=
  if aware then []
  else Mpi.gatherC2 D locked block ++
    [⟨.C, locked * D.m, D.m, block, D.m⟩, ⟨.B, locked * D.n, D.n, block, D.n⟩,
     vec .B (locked * D.n) (D.n * block)]

/-- `asynCxHGatherC` on the device: mgpu 514-536, and dla 657-716 if the build is CUDA-aware. -/
def gatherDev (locked block : ℕ) : List Access :=
  (if aware then Mpi.gatherC2 D locked block ++ [vec .B (locked * D.n) (D.n * block)] else []) ++
  [⟨.H, 0, D.m, D.n, D.m⟩, ⟨.C, locked * D.m, D.m, block, D.m⟩, ⟨.B, locked * D.n, D.n, block, D.n⟩]

/-- The copies around an orthogonalisation, on the side the communication works on: dla 1344-1358. -/
def lockCopy (locked : ℕ) : List Access :=
  [vec .C 0 (locked * D.m), vec .C2 0 (locked * D.m),
   vec .C2 (locked * D.m) ((D.nevex - locked) * D.m), vec .C (locked * D.m) ((D.nevex - locked) * D.m)]

/-- What the calls touch on the host.  `initVecs` mgpu 405-416, `initRndVecs` 422-436, the orthogonalisations dla
1054-1342 with mgpu 627-705 (Householder QR works on the host copy of `C`, in both builds), `mLanczos` dla 1376-1505
with mgpu 909-928, `LanczosDos` mgpu 798-824, `apply` dla 472-523 with mgpu 452-498, `RR` dla 952-982 with mgpu
609-626 and 728-766, `Resd` dla 984-1020 with mgpu 706-727, `Swap` dla 1360-1369, `End` mgpu 564-569. -/
def touchHost (locked : ℕ) : Call R → List Access
  | .checkSymmetryEasy => [vec (.tmp D.m) 0 D.m, vec (.tmp D.n) 0 D.n, ⟨.H, 0, D.m, D.n, D.ldh⟩] ++
      Mpi.c2b D 1 ++ Mpi.b2c D 1
  | .start => []
  | .finish => if aware then [⟨.C, 0, D.m, D.nev, D.m⟩] else []
  | .initVecs random => [⟨.H, 0, D.m, D.n, D.ldh⟩] ++
      (if aware then [] else
        (if random then [⟨.C, 0, D.m, D.nevex, D.m⟩] else []) ++
        [⟨.C, 0, D.m, D.nevex, D.m⟩, ⟨.C2, 0, D.m, D.nevex, D.m⟩])
  | .qr _ _ => [⟨.C, 0, D.m, D.nevex, D.m⟩, vec .C 0 (D.m * D.nevex), vec (.tmp D.nevex) 0 D.nevex,
      ⟨.tmp (D.N * D.nevex), 0, D.N, D.nevex, D.N⟩] ++ condTouch D.N D.nevex locked ++
      (if aware then [] else
        [⟨.A, 0, D.nevex, D.nevex, D.nevex⟩, vec .A 0 (D.nevex * D.nevex), diag .A D.nevex D.nevex] ++
        lockCopy D locked)
  | .lanczos1 M => (if aware then [] else mLanczosVecs .C D.m M 1 false) ++ mLanczosWork D.m 1 ++
      mLanczosWork D.n 1 ++ Mpi.b2c D 1 ++ mLanczosScalars M 1 ++ stemrTouch M 1
  | .lanczosN M numvec => (if aware then [] else mLanczosVecs .C D.m M numvec true) ++ mLanczosWork D.m numvec ++
      mLanczosWork D.n numvec ++ Mpi.b2c D numvec ++ mLanczosScalars M numvec ++ stemrTouch M numvec
  | .lanczosDos idx m => if aware then [vec (.tmp (m * m)) 0 (m * idx)] else
      [⟨.C, 0, D.m, m, D.m⟩, ⟨.tmp (m * m), 0, m, idx, m⟩, ⟨.C2, 0, D.m, idx, D.m⟩,
       vec .C 0 (m * D.m), vec .C2 0 (m * D.m)]
  | .shift _ _ => []
  | .hemm block _ _ offset => if aware then [] else
      [⟨.C, (offset + locked) * D.m, D.m, block, D.m⟩, ⟨.B, (locked + offset) * D.n, D.n, block, D.n⟩,
       vec .B (locked * D.n + offset * D.n) (D.n * block), vec .C (locked * D.m + offset * D.m) (D.m * block)]
  | .rr block => gatherHost D aware locked block ++ [vec .ritzv locked block] ++
      (if aware then [] else
        [⟨.B, locked * D.n, D.n, block, D.n⟩, ⟨.B2, locked * D.n, D.n, block, D.n⟩,
         ⟨.A, 0, block, block, D.nevex⟩, vec .A 0 (D.nevex * block),
         ⟨.C2, (D.nevex - block) * D.m, D.m, block, D.m⟩, ⟨.C, (D.nevex - block) * D.m, D.m, block, D.m⟩,
         vec .C2 (locked * D.m) (D.m * block), vec .C (locked * D.m) (D.m * block)])
  | .resd fixednev => gatherHost D aware locked (D.nevex - fixednev) ++
      [vec .resid locked (D.nevex - fixednev)] ++
      (if aware then [] else
        vec .ritzv locked (D.nevex - fixednev) :: (List.range (D.nevex - fixednev)).flatMap fun i =>
          [vec .B2 (locked * D.n + i * D.n) D.n, vec .B (locked * D.n + i * D.n) D.n])
  | .lock _ => []
  | .swap i j => if aware then [] else [vec .vv 0 D.m, vec .C (D.m * i) D.m, vec .C (D.m * j) D.m]

/-- What the calls touch on the device, `rv` being the number of elements of `d_ritzVc_` before the call.
`shiftMatrix` (mgpu 505-511) touches positions of the local matrix given by tables; all of it is listed. -/
def touchDev (rv : Option ℕ) (locked : ℕ) : Call R → List Access
  | .checkSymmetryEasy => []
  | .start => []
  | .finish => if aware then [⟨.C, 0, D.m, D.nev, D.m⟩] else []
  | .initVecs random => [⟨.H, 0, D.m, D.n, D.m⟩] ++
      (if random then [vec .C 0 (D.m * D.nevex), ⟨.C, 0, D.m, D.nevex, D.m⟩] else []) ++
      (if aware then [vec .C 0 (D.m * D.nevex), vec .C2 0 (D.m * D.nevex)] else [])
  | .qr _ _ => [⟨.C, 0, D.m, D.nevex, D.m⟩, ⟨.A, 0, D.nevex, D.nevex, D.nevex⟩, one (.tmp 1) 0] ++
      (if aware then [vec .A 0 (D.nevex * D.nevex), diag .A D.nevex D.nevex] ++ lockCopy D locked else [])
  | .lanczos1 M => (if aware then mLanczosVecs .C D.m M 1 false else []) ++ mLanczosWork D.m 1 ++
      mLanczosWork D.n 1 ++ [⟨.H, 0, D.m, D.n, D.m⟩]
  | .lanczosN M numvec => (if aware then mLanczosVecs .C D.m M numvec true else []) ++ mLanczosWork D.m numvec ++
      mLanczosWork D.n numvec ++ [⟨.H, 0, D.m, D.n, D.m⟩]
  | .lanczosDos idx m => if aware then
      [vec (.tmp (rv.getD (m * idx))) 0 (m * idx), ⟨.tmp (rv.getD (m * idx)), 0, m, idx, m⟩,
       ⟨.C, 0, D.m, m, D.m⟩, ⟨.C2, 0, D.m, idx, D.m⟩, vec .C 0 (D.m * m), vec .C2 0 (D.m * m)] else []
  | .shift _ _ => [⟨.H, 0, D.m, D.n, D.m⟩]
  | .hemm block _ _ offset => [⟨.H, 0, D.m, D.n, D.m⟩,
      ⟨.C, locked * D.m + offset * D.m, D.m, block, D.m⟩, ⟨.B, locked * D.n + offset * D.n, D.n, block, D.n⟩] ++
      (if aware then [vec .B (locked * D.n + offset * D.n) (D.n * block),
        vec .C (locked * D.m + offset * D.m) (D.m * block)] else [])
  | .rr block => gatherDev D aware locked block ++
      [⟨.B2, locked * D.n, D.n, block, D.n⟩, ⟨.B, locked * D.n, D.n, block, D.n⟩, ⟨.A, 0, block, block, D.nevex⟩,
       vec .ritzv 0 block, ⟨.C2, (D.nevex - block) * D.m, D.m, block, D.m⟩,
       ⟨.C, (D.nevex - block) * D.m, D.m, block, D.m⟩] ++
      (if aware then [vec .A 0 (D.nevex * block), vec .C2 (locked * D.m) (D.m * block),
        vec .C (locked * D.m) (D.m * block)] else [])
  | .resd fixednev => gatherDev D aware locked (D.nevex - fixednev) ++
      (if aware then [⟨.B, locked * D.n, D.n, D.nevex - fixednev, D.n⟩,
        ⟨.B2, locked * D.n, D.n, D.nevex - fixednev, D.n⟩, vec .ritzv 0 (D.nevex - fixednev),
        vec .resid locked (D.nevex - fixednev)] else [])
  | .lock _ => []
  | .swap i j => if aware then [vec .vv 0 D.m, vec .C (D.m * i) D.m, vec .C (D.m * j) D.m] else []

/-- What the calls touch on a process. -/
def touch (rv : Option ℕ) (locked : ℕ) (c : Call R) : Touch :=
  ⟨touchHost D aware locked c, touchDev D aware rv locked c⟩

end Mgpu
end Bounds
end Verif
