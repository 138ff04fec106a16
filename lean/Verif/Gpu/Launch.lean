/-
The launch configurations of the CUDA kernels of ChASE-MPI/kernels/shift.cu: number of blocks in both directions and
number of threads of a block.
-/
import Verif.Gpu.Model
import Verif.Solver.Protocol

namespace Verif
namespace Gpu

/-- `<<<dim3(gx, gy), threads>>>`; the third dimension of the grid and the other two of the blocks are 1 in all
launches. -/
structure Launch where
  gx : ℕ
  gy : ℕ
  threads : ℕ
  deriving DecidableEq

/-- `residual_gpu`: shift.cu 818-848. -/
def residualLaunch (n : ℕ) : Launch := ⟨n, 1, nbx⟩

/-- `absTrace_gpu`: shift.cu 782-816. -/
def absTraceLaunch (n : ℕ) : Launch := ⟨(n + nbx - 1) / nbx, 1, nbx⟩

/-- `chase_shift_matrix`: shift.cu 1145-1171. -/
def shiftLaunch (n : ℕ) : Launch := ⟨(n + (blockDim - 1)) / blockDim, 1, blockDim⟩

/-- `chase_shift_mgpu_matrix`: shift.cu 1173-1235; the number of blocks is an `unsigned int`, one if it would be zero. -/
def shiftMgpuLaunch (offsize : ℕ) : Launch :=
  let grid := (offsize + blockDim - 1) / blockDim % 2 ^ 32
  ⟨if grid = 0 then 1 else grid, 1, blockDim⟩

/-- `chase_rand_normal`: shift.cu 1119-1143. -/
def randLaunch : Launch := ⟨gridDim, 1, blockDim⟩

/-- `t_lacpy_gpu`: shift.cu 851-1117, one launch for each super block; `grid.y` is `(nn + BLK_X - 1) / BLK_Y`. -/
def lacpyConfigs (m n : ℕ) : List Launch :=
  let sx := (m + superNB - 1) / superNB
  let sy := (n + superNB - 1) / superNB
  (List.range sx).flatMap fun i => (List.range sy).map fun j =>
    let mm := if i = sx - 1 then m % superNB else superNB
    let nn := if j = sy - 1 then n % superNB else superNB
    ⟨(mm + blk - 1) / blk, (nn + blk - 1) / blk, blk⟩

/-- The launches of the single-process GPU backend in a call of its interface, with the number of columns `n = nev + nex`:
`initRndVecs` (chase_mpidla_cuda_seq.hpp 279-284), `shiftMatrix` (305-308), `Resd` (513), and, in the shifted Cholesky QR,
`computeDiagonalAbsSum` and `shiftMatrixForQR` (680-683).  Which QR is used is left open here.  All other calls use the
libraries only. -/
def cudaLaunches {R : Type*} (N n : ℕ) : Call R → List Launch
  | .initVecs true => [randLaunch]
  | .shift _ _ => [shiftLaunch N]
  | .resd fixed => [residualLaunch (n - fixed)]
  | .qr _ _ => [absTraceLaunch n, shiftLaunch n]
  | _ => []

/-- The launches of the multi-GPU backend on one process in a call of its interface, copies apart: `initRndVecs`
(chase_mpidla_mgpu.hpp 429), `shiftMatrix` (507, `offsize` is the number of diagonal entries the process has), `Resd` (710),
`computeDiagonalAbsSum` and `shiftMatrixForQR` (847-862) in the shifted Cholesky QR (chase_mpidla.hpp 1250-1258). -/
def mgpuLaunches {R : Type*} (offsize n : ℕ) : Call R → List Launch
  | .initVecs true => [randLaunch]
  | .shift _ _ => [shiftMgpuLaunch offsize]
  | .resd fixed => [residualLaunch (n - fixed)]
  | .qr _ _ => [absTraceLaunch n, shiftLaunch n]
  | _ => []

end Gpu
end Verif
