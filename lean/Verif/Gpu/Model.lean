/-
Model of the CUDA kernels of ChASE-MPI/kernels/shift.cu.

Each kernel exists for four scalar types with the same statements; it is modelled once, over any type of values.
Inside a kernel indices are natural numbers; the functions that launch the kernels check that every index the
kernel computes fits in the `int` (for products with `blockIdx`: `unsigned int`) in which the code computes it.
A launch with an empty grid is refused by CUDA and
does nothing, which is what a kernel without blocks does.
-/
import Verif.Gpu.Exec
import Verif.Dist.Model
import Mathlib.Data.List.Range

namespace Verif
namespace Gpu

/-- The cells a kernel works on: input arrays, output array, the shared memory of each block. -/
inductive Cell where
  /-- first array argument (`A`, `dA`, `d_matrix`) -/
  | A (i : ℕ)
  /-- second array argument of the residual kernels -/
  | B (i : ℕ)
  /-- `ritzv` -/
  | ritz (i : ℕ)
  /-- output array (`resids`, `dB`, `v`; for the trace: what the block adds to `d_trace`) -/
  | out (i : ℕ)
  /-- `ssum[t]`, `partial_trace[t]` of block `b` -/
  | sh (b t : ℕ)
  deriving DecidableEq

section
variable {V : Type*}

/-- `NB_X`, shift.cu 21. -/
def nbx : ℕ := 256

/-- `BLOCKDIM`, shift.cu 16. -/
def blockDim : ℕ := 256

/-- `GRIDDIM`, shift.cu 17. -/
def gridDim : ℕ := 32

/-- `BLK_X`, `BLK_Y`, shift.cu 19-20. -/
def blk : ℕ := 64

/-- `super_NB = max_blocks * BLK_X`, shift.cu 23 and 855. -/
def superNB : ℕ := 65535 * 64

/-- The largest `int`. -/
def intMax : ℕ := 2147483647

section
variable [Zero V]

/-- The statement of `cuda_sum_reduce` and `cuda_max_reduce` with distance `s` (shift.cu 29-39, 46-56) for all
threads `i < n` of block `b`: `if (n > s) { if (i < s && i + s < n) x[i] = op(x[i], x[i + s]); __syncthreads(); }`. -/
def reducePhase (op : V → V → V) (n b s : ℕ) : List (Job Cell V) :=
  if s < n then
    (List.range n).filterMap fun i =>
      if i < s ∧ i + s < n then
        some ⟨[.sh b i, .sh b (i + s)], .sh b i, fun vs => op (vs.getD 0 0) (vs.getD 1 0)⟩
      else none
  else []

/-- `cuda_sum_reduce<n>` and `cuda_max_reduce<n>` (shift.cu 25-57), called by the `n` threads of block `b`. -/
def reduce (op : V → V → V) (n b : ℕ) : List (List (Job Cell V)) :=
  [1024, 512, 256, 128, 64, 32, 16, 8, 4, 2, 1].map (reducePhase op n b)

end

/-- The values of the loop variable of `for (i = start; i < m; i += step)` (shift.cu 107, 140, 172, 202, 642, 658,
674, 693).  The first argument bounds the number of iterations; `m` iterations are enough if `step > 0`. -/
def strided (step m : ℕ) : ℕ → ℕ → List ℕ
  | 0, _ => []
  | fuel + 1, i => if i < m then i :: strided step m fuel (i + step) else []

section
variable [AddCommMonoid V]

/-- The accumulation in the loop of the residual kernels (shift.cu 106-116): `term a b lam` stands for
`|a - lam * b|^2`.  The argument is the list of the values read, `A[i]` and `B[i]` in turn. -/
def accumulate (term : V → V → V → V) (lam : V) : List V → V → V
  | a :: b :: rest, s => accumulate term lam rest (s + term a b lam)
  | _, s => s

/-- A kernel whose blocks of `n` threads only call `cuda_sum_reduce<n>` or `cuda_max_reduce<n>` (shift.cu 25-57). -/
def reduceOnly (op : V → V → V) (n blocks : ℕ) : Kernel Cell V := ⟨blocks, reduce op n⟩

/-- `?_resids_kernel` (shift.cu 98-221): block `b` treats column `b`.  Both
arrays are advanced by `blockIdx.x * lda` (103-104); `ldb` is not used.  `root` is the square root or the
identity, according to `is_sqrt`. -/
def residuals (term : V → V → V → V) (root : V → V) (m n lda : ℕ) : Kernel Cell V where
  blocks := n
  body b :=
    ((List.range nbx).map fun tx =>
      ⟨.ritz b :: (strided nbx m m tx).flatMap fun i => [.A (b * lda + i), .B (b * lda + i)], .sh b tx,
        fun vs => accumulate term (vs.getD 0 0) vs.tail 0⟩) ::
    reduce (· + ·) nbx b ++
    [[⟨[.sh b 0], .out b, fun vs => root (vs.getD 0 0)⟩]]

/-- `?_absTraceKernel` (shift.cu 58-96) launched by `absTrace_gpu` (782-816).  What block `b` adds to `d_trace`
with `atomicAdd` is left in the cell `out b`; the additions follow in `atomicAdds`. -/
def absTrace (abs : V → V) (n ld : ℕ) : Kernel Cell V where
  blocks := (n + nbx - 1) / nbx
  body b :=
    ((List.range nbx).map fun tx =>
      if tx + b * nbx < n then
        ⟨[.A ((tx + b * nbx) * ld + (tx + b * nbx))], .sh b tx, fun vs => abs (vs.getD 0 0)⟩
      else ⟨[], .sh b tx, fun _ => 0⟩) ::
    reduce (· + ·) nbx b ++
    [[⟨[.sh b 0], .out b, fun vs => vs.getD 0 0⟩]]

/-- `residual_gpu` (shift.cu 818-848).  `blockIdx.x * lda` is computed in `unsigned int`, the loop variable in `int`;
the launch is refused here if one of them wraps around. -/
def residualGpu (term : V → V → V → V) (root : V → V) (m n lda _ldb : ℕ) : Except Err (Kernel Cell V) :=
  if m + nbx ≤ intMax ∧ (n - 1) * lda ≤ 2 * intMax + 1 then .ok (residuals term root m n lda) else .error .overflow

/-- `absTrace_gpu` (shift.cu 782-816); `idx * ld + idx` is computed in `int`. -/
def absTraceGpu (abs : V → V) (n ld : ℕ) : Except Err (Kernel Cell V) :=
  if n + nbx ≤ intMax ∧ (n - 1) * ld + (n - 1) ≤ intMax then .ok (absTrace abs n ld) else .error .overflow

/-- The atomic additions of the blocks to `d_trace` in some order (shift.cu 64): nobody sets `d_trace` before. -/
def atomicAdds (mem : Cell → V) (order : List ℕ) (trace : V) : V :=
  order.foldl (fun s b => s + mem (.out b)) trace

/-- `computeDiagonalAbsSum` of the GPU backends (chase_mpidla_cuda_seq.hpp 921-927, chase_mpidla_mgpu.hpp
859-864): `sum` is a possible result if `d_trace` contains `old` before: the blocks add in some order.  The memory
comes from `cudaMalloc`, which does not set it; the multi-GPU backend allocates it once, in the constructor (375),
and uses it again at every call. -/
def DiagonalAbsSum (abs : V → V) (n ld : ℕ) (mem : Cell → V) (old sum : V) : Prop :=
  ∃ K mem', absTraceGpu abs n ld = .ok K ∧ Runs K mem mem' ∧
    ∃ order, order.Perm (List.range K.blocks) ∧ sum = atomicAdds mem' order old

end

/-- The three kinds of copies. -/
inductive Tri where
  | full | upper | lower
  deriving DecidableEq

/-- Whether entry `j` of the strip of a thread is copied: always in `?lacpy_full_device` (shift.cu 223-356),
`j < copyLimit` in `?lacpy_upper_device` (370-378), `j >= copyStart` in `?lacpy_lower_device` (507-515); signed
arithmetic. -/
def Tri.copies (k : Tri) (ind iby j : ℕ) : Bool :=
  match k with
  | .full => true
  | .upper => decide ((j : ℤ) < min ((ind : ℤ) - iby + 1) blk)
  | .lower => decide (max ((ind : ℤ) - iby) 0 ≤ (j : ℤ))

section
variable [Zero V]

/-- The copy kernels (shift.cu 223-629) with grid `gx x gy` and `BLK_X` threads per block: the thread treats row
`ind` of a strip of `BLK_Y` columns that starts at column `iby`.  `offA`, `offB` are the offsets of the pointers
passed to the kernel. -/
def lacpyKernel (k : Tri) (m n offA ldda offB lddb gx gy : ℕ) : Kernel Cell V where
  blocks := gx * gy
  body b :=
    [(List.range blk).flatMap fun tx =>
      let ind := b % gx * blk + tx
      let iby := b / gx * blk
      if ind < m then
        (List.range blk).filterMap fun j =>
          if iby + blk ≤ n ∨ iby + j < n then
            some (if k.copies ind iby j then
              ⟨[.A (offA + (ind + iby * ldda) + j * ldda)], .out (offB + (ind + iby * lddb) + j * lddb),
                fun vs => vs.getD 0 0⟩
            else ⟨[], .out (offB + (ind + iby * lddb) + j * lddb), fun _ => 0⟩)
          else none
      else []]

/-- `t_lacpy_gpu` (shift.cu 851-1117): the matrix is cut into super blocks of at most `S` rows and columns, each
copied by one launch; diagonal super blocks use the triangular kernels if `uplo` is `'U'` or `'L'`.  All launches
are in one stream. -/
def lacpyLaunches (S : ℕ) (uplo : Char) (m n ldda lddb : ℕ) : List (Kernel Cell V) :=
  let sx := (m + S - 1) / S
  let sy := (n + S - 1) / S
  (List.range sx).flatMap fun i => (List.range sy).map fun j =>
    let mm := if i = sx - 1 then m % S else S
    let nn := if j = sy - 1 then n % S else S
    let k := if uplo = 'U' ∧ i = j then Tri.upper else if uplo = 'L' ∧ i = j then Tri.lower else .full
    lacpyKernel k mm nn (i * S + j * S * ldda) ldda (i * S + j * S * lddb) lddb ((mm + blk - 1) / blk)
      ((nn + blk - 1) / blk)

/-- The copy as called: super blocks of `superNB`.  The offsets of super blocks are computed in `unsigned int`, the
offsets inside a super block in `int`. -/
def lacpyGpu (uplo : Char) (m n ldda lddb : ℕ) : Except Err (List (Kernel Cell V)) :=
  if m + superNB ≤ intMax ∧ n + superNB ≤ intMax ∧ m + n * ldda ≤ intMax ∧ m + n * lddb ≤ intMax then
    .ok (lacpyLaunches superNB uplo m n ldda lddb)
  else .error .overflow

/-- `?shift_matrix` (shift.cu 702-728) launched by `chase_shift_matrix` (1145-1171).  `add` adds the shift to the
real part. -/
def shiftMatrix (add : V → V) (n : ℕ) : Kernel Cell V where
  blocks := (n + (blockDim - 1)) / blockDim
  body b :=
    [(List.range blockDim).filterMap fun tx =>
      let idx := b * blockDim + tx
      if idx < n then some ⟨[.A (idx * n + idx)], .A (idx * n + idx), fun vs => add (vs.getD 0 0)⟩ else none]

/-- `chase_shift_matrix` (shift.cu 1145-1171); `idx * n + idx` is computed in `int`. -/
def shiftMatrixGpu (add : V → V) (n : ℕ) : Except Err (Kernel Cell V) :=
  if n + blockDim ≤ intMax ∧ (n - 1) * n + (n - 1) ≤ intMax then .ok (shiftMatrix add n) else .error .overflow

/-- `?shift_mgpu_matrix` (shift.cu 730-780) launched by `chase_shift_mgpu_matrix` (1173-1235): entry `i` of the
list is a pair of local row and column. -/
def shiftMgpu (add : V → V) (offs : List (ℕ × ℕ)) (ldH : ℕ) : Kernel Cell V where
  blocks := if (offs.length + blockDim - 1) / blockDim = 0 then 1 else (offs.length + blockDim - 1) / blockDim
  body b :=
    [(List.range blockDim).filterMap fun tx =>
      match offs[b * blockDim + tx]? with
      | some (om, on) => some ⟨[.A (on * ldH + om)], .A (on * ldH + om), fun vs => add (vs.getD 0 0)⟩
      | none => none]

/-- `?_normal_kernel` (shift.cu 632-700) launched by `chase_rand_normal` (1119-1143): thread `tid` fills every
`nthreads`-th entry; `draw tid k` is the `k`-th number of its generator. -/
def randNormal (draw : ℕ → ℕ → V) (n : ℕ) : Kernel Cell V where
  blocks := gridDim
  body b :=
    [(List.range blockDim).flatMap fun tx =>
      (strided (gridDim * blockDim) n n (b * blockDim + tx)).mapIdx fun k i =>
        ⟨[], .out i, fun _ => draw (b * blockDim + tx) k⟩]

/-- `chase_rand_normal` (shift.cu 1119-1143); the callers pass `N_ * (nev_ + nex_)`, a `std::size_t`, for the `int n`
(chase_mpidla_cuda_seq.hpp 282, chase_mpidla_mgpu.hpp 429).  The loop variables, of type `int`, end at the values
`n, …, n + 8191`. -/
def randNormalGpu (draw : ℕ → ℕ → V) (n : ℕ) : Except Err (Kernel Cell V) :=
  if n + gridDim * blockDim ≤ intMax + 1 then .ok (randNormal draw n) else .error .overflow

end

/-- The list of local diagonal entries built by the constructor of the multi-GPU backend
(chase_mpidla_mgpu.hpp 347-364): pairs of local row and local column. -/
def diagOffsets (r c : Dist.Local) : List (ℕ × ℕ) :=
  (List.range c.blocks).flatMap fun j => (List.range r.blocks).flatMap fun i =>
    (List.range (c.lens j)).flatMap fun q => (List.range (r.lens i)).filterMap fun p =>
      if q + c.offs j = p + r.offs i then some (p + r.offsL i, q + c.offsL j) else none

end
end Gpu
end Verif
