/-
Model of the performance counters and clocks: algorithm/performance.hpp.

The system clock is an arbitrary sequence of readings `clk : ℕ → D`; a time point is the number of
the reading.  `T` enters only through the ratio `sizeof(T) / sizeof(Base<T>)`.
-/
import Verif.Solver.Model
import Mathlib.Algebra.Group.Defs

namespace Verif.Perf

/-- `ChasePerfData::TimePtrs`: performance.hpp 55-64. -/
inductive Clock where
  | all | initVecs | lanczos | filter | qr | rr | resid
  deriving DecidableEq

/-- All seven clocks in the order of the enumeration (the vectors have length 7: performance.hpp
49-50). -/
def clocks : List Clock := [.all, .initVecs, .lanczos, .filter, .qr, .rr, .resid]

/-- The members of `ChasePerfData`: performance.hpp 345-353.  `tick` is not a member but the number of
clock readings made so far by the program. `nprocs` is not set by the constructor. -/
structure Data (D : Type*) where
  iterCount : ℕ
  filteredVecs : ℕ
  blocksizes : List ℕ
  timings : Clock → D
  starts : Clock → List ℕ
  ends : Clock → List ℕ
  nprocs : Option ℕ
  tick : ℕ

variable {D : Type*}

/-- The constructor: performance.hpp 48-52.  `tick` readings were made before. -/
def Data.new [Zero D] (tick : ℕ) : Data D :=
  { iterCount := 0, filteredVecs := 0, blocksizes := [], timings := fun _ => 0
    starts := fun _ => [], ends := fun _ => [], nprocs := none, tick }

/-- `Reset`: performance.hpp 66-79. -/
def Data.reset [Zero D] (p : Data D) : Data D :=
  { p with iterCount := 0, filteredVecs := 0, blocksizes := []
           starts := fun _ => [], ends := fun _ => [], timings := fun _ => 0 }

/-- `start_clock`: performance.hpp 218-221 (with `getTimePoint` 228-238). -/
def Data.startClock (c : Clock) (p : Data D) : Data D :=
  { p with starts := Function.update p.starts c (p.starts c ++ [p.tick]), tick := p.tick + 1 }

/-- `end_clock`: performance.hpp 223-226. -/
def Data.endClock (c : Clock) (p : Data D) : Data D :=
  { p with ends := Function.update p.ends c (p.ends c ++ [p.tick]), tick := p.tick + 1 }

/-- `add_iter_count`: performance.hpp 209. -/
def Data.addIterCount (n : ℕ) (p : Data D) : Data D := { p with iterCount := p.iterCount + n }

/-- `add_iter_blocksize`: performance.hpp 211-214. -/
def Data.addBlocksize (n : ℕ) (p : Data D) : Data D := { p with blocksizes := p.blocksizes ++ [n] }

/-- `add_filtered_vecs`: performance.hpp 216. -/
def Data.addFiltered (n : ℕ) (p : Data D) : Data D := { p with filteredVecs := p.filteredVecs + n }

/-- `set_nprocs`: performance.hpp 207. -/
def Data.setNprocs (n : ℕ) (p : Data D) : Data D := { p with nprocs := some n }

/-- `int(sizeof(T) / sizeof(Base<T>))`-dependent factor: performance.hpp 128 and 201.  `ratio` is 1 for
real and 2 for complex scalars. -/
def factor (ratio : ℕ) : ℕ := 4 ^ (ratio - 1)

/-- One step of the loop of `get_flops`: performance.hpp 129-173.  The `2.` in lines 134-138 makes the
sum a `double`; exact below 2^53, rounding is not modelled. -/
def flopsStep (N : ℕ) (acc block : ℕ) : ℕ :=
  let acc := acc + 2 * N * block * block
  let acc := acc + 2 * block * block * block
  let acc := acc + 2 * N * block * block
  let acc := acc + 2 * N * block * N
  let acc := acc + 2 * block * block * N
  let acc := acc + 4 * block * block * block
  let acc := acc + 2 * N * block * block
  let acc := acc + 2 * N * block * N
  let acc := acc + 3 * block * N
  acc + N * block

/-- `get_flops`: performance.hpp 125-182.  The division by `1e9` is cut off at the conversion to
`size_t`. -/
def Data.getFlops (ratio N : ℕ) (p : Data D) : ℕ :=
  let acc := p.blocksizes.foldl (flopsStep N) 0
  let acc := acc + 2 * N * p.filteredVecs * N
  let acc := acc * factor ratio
  acc / 10 ^ 9

/-- `get_filter_flops`: performance.hpp 199-205. -/
def Data.getFilterFlops (ratio N : ℕ) (p : Data D) : ℕ :=
  2 * factor ratio * N * p.filteredVecs * N / 10 ^ 9

/-- The inner loop of `calculateTimings`: performance.hpp 316-321 for one clock.  `end_points[it]` may
be shorter than `start_points[it]`, then the access is out of range. -/
def addPoints [Add D] [Sub D] (clk : ℕ → D) : List ℕ → List ℕ → D → Except Err D
  | [], _, t => .ok t
  | _ :: _, [], _ => .error .oob
  | a :: s, b :: e, t => addPoints clk s e (t + (clk b - clk a))

/-- `calculateTimings`: performance.hpp 310-323; the loop over the clocks. -/
def addClocks [Add D] [Sub D] (clk : ℕ → D) : List Clock → Data D → Except Err (Data D)
  | [], p => .ok p
  | c :: cs, p =>
    match addPoints clk (p.starts c) (p.ends c) (p.timings c) with
    | .error e => .error e
    | .ok t => addClocks clk cs { p with timings := Function.update p.timings c t }

/-- The table written by `print`. -/
structure Table (D : Type*) where
  nprocs : ℕ
  iterations : ℕ
  vecs : ℕ
  timings : List D
  flops : Option (ℕ × ℕ)

/-- `print(N)`: performance.hpp 259-296 (formatting of numbers and the layout of the table not
modelled). -/
def Data.print [Add D] [Sub D] (clk : ℕ → D) (ratio N : ℕ) (p : Data D) :
    Except Err (Table D × Data D) :=
  match addClocks clk clocks p with
  | .error e => .error e
  | .ok p =>
    match p.nprocs with
    | none => .error .uninit
    | some n =>
      .ok ({ nprocs := n, iterations := p.iterCount, vecs := p.filteredVecs
             timings := clocks.map p.timings
             flops := if N ≠ 0 then some (p.getFlops ratio N, p.getFilterFlops ratio N) else none }, p)

variable {R S : Type*}

/-- `PerformanceDecoratorChase`: performance.hpp 373-492; `np` is `chase_->get_nprocs()`.  `Lanczos`
starts and stops the same clock in its two forms; `checkSymmetryEasy` and `Swap` are passed on
without decoration. -/
def decorate [Zero D] (np : ℕ) (ops : Chase R S) : Chase R (S × Data D) where
  checkSymmetryEasy := fun s =>
    ((ops.checkSymmetryEasy s.1).1, ((ops.checkSymmetryEasy s.1).2, s.2))
  start := fun s =>
    (ops.start s.1, ((s.2.reset).startClock .all).setNprocs np)
  finish := fun s => (ops.finish s.1, s.2.endClock .all)
  initVecs := fun b s => (ops.initVecs b s.1, (s.2.startClock .initVecs).endClock .initVecs)
  qr := fun k c s => (ops.qr k c s.1, (s.2.startClock .qr).endClock .qr)
  lanczos1 := fun m s => ((ops.lanczos1 m s.1).1,
    ((ops.lanczos1 m s.1).2, (s.2.startClock .lanczos).endClock .lanczos))
  lanczosN := fun m k s => ((ops.lanczosN m k s.1).1,
    ((ops.lanczosN m k s.1).2, (s.2.startClock .lanczos).endClock .lanczos))
  lanczosDos := fun i m z s => (ops.lanczosDos i m z s.1, (s.2.startClock .lanczos).endClock .lanczos)
  shift := fun c b s => (ops.shift c b s.1, if b then s.2.endClock .filter else s.2.startClock .filter)
  hemm := fun n a b o s => (ops.hemm n a b o s.1, s.2.addFiltered n)
  rr := fun b s => ((ops.rr b s.1).1,
    ((ops.rr b s.1).2, ((s.2.startClock .rr).addBlocksize b).endClock .rr))
  resd := fun f k s => ((ops.resd f k s.1).1, ((ops.resd f k s.1).2, s.2.startClock .resid))
  lock := fun k s => (ops.lock k s.1, (s.2.endClock .resid).addIterCount 1)
  swap := fun i j s => (ops.swap i j s.1, s.2)

end Verif.Perf
