/-
Model of the C interface (interface/chase_c.cpp): the static pointers of `ChASE_SEQ` and `ChASE_DIST`, the
objects they point to, and the calls `xchase_init_`, `xchase_`, `xchase_finalize_` and their distributed
counterparts, as operations on a heap of objects.
-/
import Verif.Config.Model
import Mathlib.Logic.Function.Basic

namespace Verif
namespace Iface

/-- Conversion of a C `int` to `std::size_t` (all integer arguments of the init calls and `*deg` are converted
implicitly, e.g. interface/chase_c.cpp 67-95 and 165): reduction modulo `2^64`. -/
def toSize (x : ℤ) : ℕ := (x % 2 ^ 64).toNat

/-- How a `ChaseMpiProperties` object distributes the matrix. -/
inductive Layout where
  | block (m n : ℕ)
  | cyclic (mb nb : ℕ) (irsrc icsrc : ℤ)
  deriving DecidableEq, Repr

/-- The members of `ChaseMpiProperties<T>` that are set directly from the constructor's arguments:
ChASE-MPI/chase_mpi_properties.hpp 235-236 and 563-564. The tables computed from them are the subject of
`Verif/Dist`. The communicator is a number. -/
structure Props where
  N : ℕ
  nev : ℕ
  nex : ℕ
  layout : Layout
  dim0 : ℤ
  dim1 : ℤ
  gridMajor : Char
  comm : ℕ
  deriving DecidableEq, Repr

/-- Block constructor, parameters in the order of ChASE-MPI/chase_mpi_properties.hpp 560-564. -/
def Props.newBlock (N nev nex m n : ℕ) (npr npc : ℤ) (gridMajor : Char) (comm : ℕ) : Props :=
  { N, nev, nex, layout := .block m n, dim0 := npr, dim1 := npc, gridMajor, comm }

/-- Block-cyclic constructor, parameters in the order of ChASE-MPI/chase_mpi_properties.hpp 231-236. -/
def Props.newCyclic (N mb nb nev nex : ℕ) (rowDim colDim : ℤ) (gridMajor : Char) (irsrc icsrc : ℤ)
    (comm : ℕ) : Props :=
  { N, nev, nex, layout := .cyclic mb nb irsrc icsrc, dim0 := rowDim, dim1 := colDim, gridMajor, comm }

/-- What a solver works on: sizes, the caller's arrays (as numbers), the leading dimension and, for a
distributed solver, the properties object it was built from. -/
structure Problem where
  N : ℕ
  nev : ℕ
  nex : ℕ
  H : ℕ
  ldh : ℕ
  V : ℕ
  ritzv : ℕ
  props : Option Props
  deriving DecidableEq, Repr

/-- A `ChaseMpi<MF, T>` object: ChASE-MPI/chase_mpi.hpp 595-700. `owned` is the `unique_ptr` `properties_`
(678), `st` everything else the object keeps between two solves (backend buffers, `locked_`, `ritzv_`, …),
of an arbitrary type `β`. -/
structure Solver (R β : Type*) where
  prob : Problem
  cfg : Config R
  owned : Option ℕ
  st : β

/-- A heap cell. Addresses are never reused, so that every access to a dead object is visible as such. -/
inductive Cell (R β : Type*) where
  | unused
  | freed
  | solver (s : Solver R β)
  | props (p : Props)

/-- The process state the C interface lives in: the heap and the static pointers of `ChASE_SEQ`
(interface/chase_c.cpp 56-64) and `ChASE_DIST` (226-244), one of each per scalar type. `none` is `nullptr`. -/
structure State (R β : Type*) where
  next : ℕ
  heap : ℕ → Cell R β
  seq : Scalar → Option ℕ
  dist : Scalar → Option ℕ
  props : Scalar → Option ℕ

variable {R β : Type}

/-- Program start: all static pointers are `nullptr` (interface/chase_c.cpp 62-65, 236-244). -/
def State.start : State R β :=
  { next := 0, heap := fun _ => .unused, seq := fun _ => none, dist := fun _ => none,
    props := fun _ => none }

/-- `new`: the object is placed at a fresh address. -/
def State.alloc (σ : State R β) (c : Cell R β) : ℕ × State R β :=
  (σ.next, { σ with next := σ.next + 1, heap := Function.update σ.heap σ.next c })

/-- Access to a solver through a pointer. -/
def State.derefSolver (σ : State R β) : Option ℕ → Except Err (ℕ × Solver R β)
  | none => .error .nullDeref
  | some a => match σ.heap a with
    | .solver s => .ok (a, s)
    | .freed => .error .useAfterFree
    | _ => .error .uninit

/-- Access to a properties object through a pointer. -/
def State.derefProps (σ : State R β) : Option ℕ → Except Err Props
  | none => .error .nullDeref
  | some a => match σ.heap a with
    | .props p => .ok p
    | .freed => .error .useAfterFree
    | _ => .error .uninit

/-- Destructor of the `unique_ptr` `properties_` (ChASE-MPI/chase_mpi.hpp 678): deletes what it owns. -/
def State.deleteProps (σ : State R β) : Option ℕ → Except Err (State R β)
  | none => .ok σ
  | some a => match σ.heap a with
    | .props _ => .ok { σ with heap := Function.update σ.heap a .freed }
    | .freed => .error .doubleFree
    | _ => .error .uninit

/-- `delete` of a `ChaseMpi` pointer: nothing for `nullptr`, otherwise the destructor (ChASE-MPI/chase_mpi.hpp
231) destroys the members, among them `properties_`. -/
def State.deleteSolver (σ : State R β) : Option ℕ → Except Err (State R β)
  | none => .ok σ
  | some a => match σ.heap a with
    | .solver s => ({ σ with heap := Function.update σ.heap a .freed }).deleteProps s.owned
    | .freed => .error .doubleFree
    | _ => .error .uninit

/-- Arguments of `xchase_init_`, in the order of interface/chase_c.cpp 521-522. -/
structure SeqArgs where
  N : ℤ
  nev : ℤ
  nex : ℤ
  H : ℕ
  ldh : ℤ
  V : ℕ
  ritzv : ℕ
  deriving DecidableEq

/-- Arguments of `pxchase_init_` and `pxchase_init_f_`: interface/chase_c.cpp 652-667. The conversion of a
Fortran communicator is the identity. -/
structure DistArgs where
  N : ℤ
  nev : ℤ
  nex : ℤ
  m : ℤ
  n : ℤ
  H : ℕ
  ldh : ℤ
  V : ℕ
  ritzv : ℕ
  dim0 : ℤ
  dim1 : ℤ
  gridMajor : Char
  comm : ℕ
  deriving DecidableEq

/-- Arguments of `pxchase_init_blockcyclic_` and `pxchase_init_blockcyclic_f_`. -/
structure CyclicArgs where
  N : ℤ
  nev : ℤ
  nex : ℤ
  mbsize : ℤ
  nbsize : ℤ
  H : ℕ
  ldh : ℤ
  V : ℕ
  ritzv : ℕ
  dim0 : ℤ
  dim1 : ℤ
  gridMajor : Char
  irsrc : ℤ
  icsrc : ℤ
  comm : ℕ
  deriving DecidableEq

/-- Arguments of the solve calls `xchase_` and `pxchase_`: interface/chase_c.cpp 636, each letter is the first
character pointed to. -/
structure SolveArgs (R : Type*) where
  deg : ℤ
  tol : R
  mode : Char
  opt : Char
  qr : Char

/-- What the outside world sees of a call: the flag an init or finalise call stores, the run of the solver with
the problem, configuration and retained state it is run on, or the access to a file. -/
inductive Out (R β : Type*) where
  | flag (n : ℤ)
  | ran (prob : Problem) (cfg : Config R) (before : β)
  | io (write : Bool) (props : Props) (file : String) (H : ℕ)

/-- The parts the model is generic in: the state of a freshly constructed solver and the effect of
`chase::Solve` on it (total; what `Solve` does is the subject of `Verif/Solver`). -/
structure World (R β : Type*) where
  fresh : Scalar → Problem → β
  run : Scalar → Problem → Config R → β → β

/-- Constructor of a sequential solver, parameters in the order of ChASE-MPI/chase_mpi.hpp 111-122. -/
def newSeq [Div R] [One R] [NatCast R] (W : World R β) (sc : Scalar) (N nev nex H ldh V ritzv : ℕ) : Solver R β :=
  let prob : Problem := { N, nev, nex, H, ldh, V, ritzv, props := none }
  { prob, cfg := Config.mk' sc N nev nex, owned := none, st := W.fresh sc prob }

/-- Constructor of a distributed solver, which takes over the properties object: ChASE-MPI/chase_mpi.hpp
188-208. -/
def newDist [Div R] [One R] [NatCast R] (W : World R β) (sc : Scalar) (a : ℕ) (p : Props) (H ldh V ritzv : ℕ) :
    Solver R β :=
  let prob : Problem := { N := p.N, nev := p.nev, nex := p.nex, H, ldh, V, ritzv, props := some p }
  { prob, cfg := Config.mk' sc p.N p.nev p.nex, owned := some a, st := W.fresh sc prob }

/-- `ChASE_SEQ_Init` with `ChASE_SEQ::Initialize`: interface/chase_c.cpp 67-95, 145-150; the wrappers 521-577. The
pointer is overwritten whatever it was. -/
def seqInit [Div R] [One R] [NatCast R] (W : World R β) (σ : State R β) (sc : Scalar) (x : SeqArgs) :
    Except Err (State R β × Out R β) :=
  let (a, σ) := σ.alloc
    (.solver (newSeq W sc (toSize x.N) (toSize x.nev) (toSize x.nex) x.H (toSize x.ldh) x.V x.ritzv))
  .ok ({ σ with seq := Function.update σ.seq sc (some a) }, .flag 1)

/-- `ChASE_SEQ_Finalize` with `ChASE_SEQ::Finalize`: interface/chase_c.cpp 97-119, 152-157. The pointer keeps its
value. -/
def seqFinalize (σ : State R β) (sc : Scalar) : Except Err (State R β × Out R β) := do
  let σ ← σ.deleteSolver (σ.seq sc)
  .ok (σ, .flag 0)

/-- The five setter calls of a solve: interface/chase_c.cpp 163-168 and 445-450. -/
def configure (cfg : Config R) (x : SolveArgs R) : Config R :=
  let cfg := cfg.setTol x.tol
  let cfg := cfg.setDeg (toSize x.deg)
  let cfg := cfg.setOpt (x.opt == 'S')
  let cfg := cfg.setApprox (x.mode == 'A')
  cfg.setCholQR (x.qr == 'C')

/-- The common text of `ChASE_SEQ_Solve` (interface/chase_c.cpp 159-200) and `ChASE_DIST_Solve` (441-482): fetch the
solver, configure it, run it. The printing under `CHASE_OUTPUT` is left out. -/
def solveAt (W : World R β) (σ : State R β) (sc : Scalar) (ptr : Option ℕ) (x : SolveArgs R) :
    Except Err (State R β × Out R β) := do
  let (a, s) ← σ.derefSolver ptr
  let cfg := configure s.cfg x
  let s' := { s with cfg := cfg, st := W.run sc s.prob cfg s.st }
  .ok ({ σ with heap := Function.update σ.heap a (.solver s') }, .ran s.prob cfg s.st)

/-- `ChASE_SEQ_Solve`: interface/chase_c.cpp 159-200. -/
def seqSolve (W : World R β) (σ : State R β) (sc : Scalar) (x : SolveArgs R) :
    Except Err (State R β × Out R β) := solveAt W σ sc (σ.seq sc) x

/-- The two `new` of `ChASE_DIST::Initialize` after the properties object `p` is described. -/
def distNew [Div R] [One R] [NatCast R] (W : World R β) (σ : State R β) (sc : Scalar) (p : Props) (H ldh V ritzv : ℕ) :
    Except Err (State R β × Out R β) :=
  let (ap, σ) := σ.alloc (.props p)
  let σ := { σ with props := Function.update σ.props sc (some ap) }
  let (a, σ) := σ.alloc (.solver (newDist W sc ap p H ldh V ritzv))
  .ok ({ σ with dist := Function.update σ.dist sc (some a) }, .flag 1)

/-- `ChASE_DIST_Init`, block distribution: interface/chase_c.cpp 246-255, 270-278, 294-304, 320-329, 414-422; the
wrappers 652-733. -/
def distInit [Div R] [One R] [NatCast R] (W : World R β) (σ : State R β) (sc : Scalar) (x : DistArgs) :
    Except Err (State R β × Out R β) :=
  distNew W σ sc
    (Props.newBlock (toSize x.N) (toSize x.nev) (toSize x.nex) (toSize x.m) (toSize x.n) x.dim0 x.dim1
      x.gridMajor x.comm)
    x.H (toSize x.ldh) x.V x.ritzv

/-- `ChASE_DIST_Init`, block-cyclic distribution: interface/chase_c.cpp 257-268, 280-292, 306-318, 331-340, 424-432;
the wrappers 734-850. -/
def distInitCyclic [Div R] [One R] [NatCast R] (W : World R β) (σ : State R β) (sc : Scalar) (x : CyclicArgs) :
    Except Err (State R β × Out R β) :=
  distNew W σ sc
    (Props.newCyclic (toSize x.N) (toSize x.mbsize) (toSize x.nbsize) (toSize x.nev) (toSize x.nex) x.dim0
      x.dim1 x.gridMajor x.irsrc x.icsrc x.comm)
    x.H (toSize x.ldh) x.V x.ritzv

/-- `ChASE_DIST_Finalize`: interface/chase_c.cpp 342-364, 434-439. -/
def distFinalize (σ : State R β) (sc : Scalar) : Except Err (State R β × Out R β) := do
  let σ ← σ.deleteSolver (σ.dist sc)
  .ok (σ, .flag 0)

/-- `ChASE_DIST_Solve`: interface/chase_c.cpp 441-482. -/
def distSolve (W : World R β) (σ : State R β) (sc : Scalar) (x : SolveArgs R) :
    Except Err (State R β × Out R β) := solveAt W σ sc (σ.dist sc) x

/-- `ChASE_DIST_WrtBlockCyclicHam` and `ChASE_DIST_ReadBlockCyclicHam`: interface/chase_c.cpp 484-496. -/
def distIO (σ : State R β) (sc : Scalar) (write : Bool) (file : String) (H : ℕ) :
    Except Err (State R β × Out R β) := do
  let p ← σ.derefProps (σ.props sc)
  .ok (σ, .io write p file H)

/-- One call of the C interface; the scalar type is the letter in the function's name. -/
inductive Call (R : Type*) where
  | seqInit (sc : Scalar) (x : SeqArgs)
  | seqSolve (sc : Scalar) (x : SolveArgs R)
  | seqFinalize (sc : Scalar)
  | distInit (sc : Scalar) (x : DistArgs)
  | distInitCyclic (sc : Scalar) (x : CyclicArgs)
  | distSolve (sc : Scalar) (x : SolveArgs R)
  | distFinalize (sc : Scalar)
  | distIO (sc : Scalar) (write : Bool) (file : String) (H : ℕ)

/-- Dispatch: the `extern "C"` functions, interface/chase_c.cpp 521-1000. -/
def call [Div R] [One R] [NatCast R] (W : World R β) (σ : State R β) : Call R → Except Err (State R β × Out R β)
  | .seqInit sc x => Iface.seqInit W σ sc x
  | .seqSolve sc x => Iface.seqSolve W σ sc x
  | .seqFinalize sc => Iface.seqFinalize σ sc
  | .distInit sc x => Iface.distInit W σ sc x
  | .distInitCyclic sc x => Iface.distInitCyclic W σ sc x
  | .distSolve sc x => Iface.distSolve W σ sc x
  | .distFinalize sc => Iface.distFinalize σ sc
  | .distIO sc w f H => Iface.distIO σ sc w f H

/-- A program's sequence of calls from a given state. -/
def runFrom [Div R] [One R] [NatCast R] (W : World R β) (σ : State R β) : List (Call R) → Except Err (State R β × List (Out R β))
  | [] => .ok (σ, [])
  | c :: h => do
    let (σ, o) ← call W σ c
    let (σ, os) ← runFrom W σ h
    .ok (σ, o :: os)

/-- A program's sequence of calls from the start of the process. -/
def run [Div R] [One R] [NatCast R] (W : World R β) (h : List (Call R)) : Except Err (State R β × List (Out R β)) :=
  runFrom W State.start h

end Iface
end Verif
