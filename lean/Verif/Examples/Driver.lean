/-
The driver program examples/2_input_output/2_input_output.cpp: from its command line to the solves it makes.

Modelled: the options with their defaults and targets, the checks of `main`, the names of the files, the calls that
configure the solver, the loop over the problems.  The library popl, which is not part of the repository, is taken as
documented: an option writes its default to its target when it is declared and each of its values when it is parsed, an
option that was not declared is ignored, a missing required option is an error.  Texts that are no values of the type of
their option are left out (popl reports an error), as are `--help` and everything printed.  The solves themselves, the
reading of the files and the arrays are those of the other models.
-/
import Verif.Config.Model

namespace Verif
namespace Examples
namespace Driver

/-- An option with its value: 2_input_output.cpp 434-465. -/
inductive Arg (R : Type) where
  | n (x : ℕ)
  | double (b : Bool)
  | complex (b : Bool)
  | nev (x : ℕ)
  | nex (x : ℕ)
  | deg (x : ℕ)
  | maxDeg (x : ℕ)
  | maxIter (x : ℕ)
  | bgn (x : ℕ)
  | last (x : ℕ)
  | spin (s : String)
  | kpoint (x : ℕ)
  | tol (x : R)
  | pathIn (s : String)
  | mode (s : String)
  | opt (s : String)
  | pathEigp (s : String)
  | sequence (b : Bool)
  | lanczosIter (x : ℕ)
  | numLanczos (x : ℕ)
  | isMatGen (b : Bool)
  | dmax (x : R)
  | mbsize (x : ℕ)
  | nbsize (x : ℕ)
  | dim0 (x : ℤ)
  | dim1 (x : ℤ)
  | irsrc (x : ℤ)
  | icsrc (x : ℤ)
  | major (s : String)
  | legacy (b : Bool)

/-- `ChASE_DriverProblemConfig`: 2_input_output.cpp 42-86, without `arch` and the two output paths, which are not used.
`end` is called `last`. -/
structure Conf (R : Type) where
  N : ℕ
  nev : ℕ
  nex : ℕ
  deg : ℕ
  bgn : ℕ
  last : ℕ
  maxIter : ℕ
  maxDeg : ℕ
  tol : R
  sequence : Bool
  pathIn : String
  mode : String
  opt : String
  pathEigp : String
  kpoint : ℕ
  legacy : Bool
  spin : String
  iscomplex : Bool
  isdouble : Bool
  isMatGen : Bool
  dmax : R
  lanczosIter : ℕ
  numLanczos : ℕ
  mbsize : ℕ
  nbsize : ℕ
  dim0 : ℤ
  dim1 : ℤ
  irsrc : ℤ
  icsrc : ℤ
  major : String

variable {R : Type}

/-- The defaults: 2_input_output.cpp 434-465.  `cyclic` is `USE_BLOCK_CYCLIC`; the option `major` has `conf.mode` as
target (463), after the option `mode` (448).  `conf.major` is an empty `std::string`.  Without `USE_BLOCK_CYCLIC` the last
seven members do not exist; here they have some value. -/
def declare [Div R] [One R] [NatCast R] (cyclic : Bool) : Conf R where
  N := 0
  isdouble := true
  iscomplex := true
  nev := 0
  nex := 25
  deg := 20
  maxDeg := 36
  maxIter := 25
  bgn := 2
  last := 2
  spin := "d"
  kpoint := 0
  tol := 1 / ((10000000000 : ℕ) : R)
  pathIn := "d"
  mode := if cyclic then "C" else "A"
  opt := "S"
  pathEigp := ""
  sequence := false
  lanczosIter := 25
  numLanczos := 4
  isMatGen := false
  dmax := ((100 : ℕ) : R)
  mbsize := 400
  nbsize := 400
  dim0 := 0
  dim1 := 0
  irsrc := 0
  icsrc := 0
  major := ""
  legacy := false

/-- One option of the command line: 2_input_output.cpp 434-469. -/
def assign (cyclic : Bool) (conf : Conf R) : Arg R → Conf R
  | .n x => { conf with N := x }
  | .double b => { conf with isdouble := b }
  | .complex b => { conf with iscomplex := b }
  | .nev x => { conf with nev := x }
  | .nex x => { conf with nex := x }
  | .deg x => { conf with deg := x }
  | .maxDeg x => { conf with maxDeg := x }
  | .maxIter x => { conf with maxIter := x }
  | .bgn x => { conf with bgn := x }
  | .last x => { conf with last := x }
  | .spin s => { conf with spin := s }
  | .kpoint x => { conf with kpoint := x }
  | .tol x => { conf with tol := x }
  | .pathIn s => { conf with pathIn := s }
  | .mode s => { conf with mode := s }
  | .opt s => { conf with opt := s }
  | .pathEigp s => { conf with pathEigp := s }
  | .sequence b => { conf with sequence := b }
  | .lanczosIter x => { conf with lanczosIter := x }
  | .numLanczos x => { conf with numLanczos := x }
  | .isMatGen b => { conf with isMatGen := b }
  | .dmax x => { conf with dmax := x }
  | .mbsize x => { conf with mbsize := if cyclic then x else conf.mbsize }
  | .nbsize x => { conf with nbsize := if cyclic then x else conf.nbsize }
  | .dim0 x => { conf with dim0 := if cyclic then x else conf.dim0 }
  | .dim1 x => { conf with dim1 := if cyclic then x else conf.dim1 }
  | .irsrc x => { conf with irsrc := if cyclic then x else conf.irsrc }
  | .icsrc x => { conf with icsrc := if cyclic then x else conf.icsrc }
  | .major s => { conf with mode := if cyclic then s else conf.mode }
  | .legacy b => { conf with legacy := b }

/-- A required option is missing: 2_input_output.cpp 434, 437, 447 (`Attribute::required`). -/
def missing (args : List (Arg R)) : Bool :=
  !(args.any fun | .n _ => true | _ => false) || !(args.any fun | .nev _ => true | _ => false) ||
    !(args.any fun | .pathIn _ => true | _ => false)

/-- `std::setw(2) << k` with a fill character. -/
def pad (c : Char) (k : ℕ) : String := String.ofList (List.replicate (2 - (toString k).length) c) ++ toString k

/-- The name of the file of problem `i`: 2_input_output.cpp 276-292. -/
def fileName (conf : Conf R) (i : ℕ) : String :=
  if conf.sequence then
    if conf.legacy then conf.pathIn ++ "gmat  1 " ++ pad ' ' i ++ ".bin"
    else conf.pathIn ++ "mat_" ++ conf.spin ++ "_" ++ pad '0' conf.kpoint ++ "_" ++ pad '0' i ++ ".bin"
  else conf.pathIn

/-- Where the matrix of a solve comes from: a file (2_input_output.cpp 319-335), generated (347-358), or nothing at all
(339-343: with a block-cyclic distribution the program prints that it cannot generate a matrix, and goes on). -/
inductive Source (R : Type) where
  | file (name : String)
  | generated (dmax : R)
  | nothing

/-- One solve of the driver: the configuration, the matrix, and whether the start values have been set to zero. -/
structure Solve (R : Type) where
  cfg : Config R
  source : Source R
  zeroed : Bool

/-- The parameters of the block-cyclic distribution: 2_input_output.cpp 166-168. -/
structure Cyclic where
  mbsize : ℕ
  nbsize : ℕ
  dims : ℤ × ℤ
  major : String
  irsrc : ℤ
  icsrc : ℤ

/-- A run of `do_chase<T>`. -/
structure Run (R : Type) where
  scalar : Scalar
  N : ℕ
  nev : ℕ
  nex : ℕ
  cyclic : Option Cyclic
  solves : List (Solve R)

/-- `sizeof(T)` for the two types in use. -/
def bytes : Scalar → ℕ
  | .z => 16
  | _ => 8

/-- The distribution `do_chase` asks for: 2_input_output.cpp 121-141 (127: `icsrc` is read from `conf.irsrc`), 166-168;
`dimsCreate` is the result of `MPI_Dims_create`. -/
def distribution (cyclic : Bool) (dimsCreate : ℤ × ℤ) (conf : Conf R) : Option Cyclic :=
  if cyclic then
    some { mbsize := conf.mbsize, nbsize := conf.nbsize,
           dims := if conf.dim0 = 0 ∨ conf.dim1 = 0 then dimsCreate else (conf.dim0, conf.dim1),
           major := conf.major, irsrc := conf.irsrc, icsrc := conf.irsrc }
  else none

/-- The configuration of the solver: 2_input_output.cpp 201-208. -/
def configure [Div R] [One R] [NatCast R] (sc : Scalar) (conf : Conf R) : Config R :=
  let cfg : Config R := Config.mk' sc conf.N conf.nev conf.nex
  let cfg := cfg.setTol conf.tol
  let cfg := cfg.setDeg conf.deg
  let cfg := cfg.setOpt (conf.opt == "S")
  let cfg := cfg.setLanczosIter conf.lanczosIter
  let cfg := cfg.setNumLanczos conf.numLanczos
  let cfg := cfg.setMaxDeg conf.maxDeg
  cfg.setMaxIter conf.maxIter

/-- The matrix of problem `i`: 2_input_output.cpp 271-359. -/
def source (cyclic : Bool) (conf : Conf R) (i : ℕ) : Source R :=
  if conf.isMatGen then if cyclic then .nothing else .generated conf.dmax else .file (fileName conf i)

/-- The file of problem `i` has the right size, or none is read: 2_input_output.cpp 298-318. -/
def fits (fileSize : String → ℕ) (sc : Scalar) (conf : Conf R) (i : ℕ) : Bool :=
  conf.isMatGen || conf.N * conf.N * bytes sc == fileSize (fileName conf i)

/-- The loop over the problems: 2_input_output.cpp 216-418.  `cfg` is the configuration object, which keeps `SetApprox`.
The loop returns at the first file of a wrong size. -/
def solveLoop (cyclic : Bool) (fileSize : String → ℕ) (sc : Scalar) (conf : Conf R) (bgn : ℕ) :
    List ℕ → Config R → List (Solve R)
  | [], _ => []
  | i :: is, cfg =>
    let zero := i == bgn || !conf.sequence
    let cfg := if zero then cfg else cfg.setApprox true
    if fits fileSize sc conf i then
      { cfg, source := source cyclic conf i, zeroed := zero } :: solveLoop cyclic fileSize sc conf bgn is cfg
    else []

/-- `do_chase<T>`: 2_input_output.cpp 88-421. -/
def doChase [Div R] [One R] [NatCast R] (cyclic : Bool) (fileSize : String → ℕ) (dimsCreate : ℤ × ℤ) (sc : Scalar)
    (conf : Conf R) : Run R :=
  let bgn := if conf.sequence then conf.bgn else 1
  let last := if conf.sequence then conf.last else 1
  { scalar := sc, N := conf.N, nev := conf.nev, nex := conf.nex, cyclic := distribution cyclic dimsCreate conf,
    solves := solveLoop cyclic fileSize sc conf bgn (List.range' bgn (last + 1 - bgn)) (configure sc conf) }

/-- How the program ends: with a status and what it has solved, or with an exception nobody catches. -/
inductive Outcome (R : Type) where
  | exits (status : ℤ) (run : Option (Run R))
  | uncaught

/-- `conf.mode = toupper(conf.mode.at(0))`; no character: an exception. -/
def firstUpper (s : String) : Option String := s.toList.head?.map fun c => String.ofList [c.toUpper]

/-- `main` after the parsing: 2_input_output.cpp 520-574; the value of `do_chase` is not looked at. -/
def checked [Div R] [One R] [NatCast R] (cyclic : Bool) (fileSize : String → ℕ) (dimsCreate : ℤ × ℤ) (conf : Conf R) :
    Outcome R :=
  match firstUpper conf.mode, firstUpper conf.opt with
  | some mode, some opt =>
    let conf := { conf with mode, opt }
    if conf.last < conf.bgn then .exits (-1) none
    else if conf.mode ≠ "R" ∧ conf.mode ≠ "A" then .exits (-1) none
    else if conf.opt ≠ "N" ∧ conf.opt ≠ "S" then .exits (-1) none
    else if conf.pathEigp = "" ∧ conf.mode = "A" then .exits (-1) none
    else
      let conf := if conf.isMatGen then { conf with iscomplex := false } else conf
      if conf.isdouble then
        .exits 0 (some (doChase cyclic fileSize dimsCreate (if conf.iscomplex then .z else .d) conf))
      else .exits 0 none
  | _, _ => .uncaught

/-- `main`: 2_input_output.cpp 423-575. -/
def main [Div R] [One R] [NatCast R] (cyclic : Bool) (fileSize : String → ℕ) (dimsCreate : ℤ × ℤ)
    (args : List (Arg R)) : Outcome R :=
  if missing args then .exits 1 none
  else checked cyclic fileSize dimsCreate (args.foldl (assign cyclic) (declare cyclic))

end Driver
end Examples
end Verif
