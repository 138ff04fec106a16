/-
Model of `ChaseConfig<T>` (algorithm/configuration.hpp).
-/
import Verif.Base.Loop
import Mathlib.Algebra.Field.Basic

namespace Verif

/-- The four scalar types ChASE is instantiated with (`float`, `double`, `complex<float>`,
`complex<double>`): algorithm/configuration.hpp 31-134, the template specialisations. -/
inductive Scalar where
  | s | d | c | z
  deriving DecidableEq, Repr

/-- Private members of `ChaseConfig<T>`: algorithm/configuration.hpp 444-598.
`double tol_` is an element of an abstract scalar type `R`. -/
structure Config (R : Type*) where
  N : ℕ
  nev : ℕ
  nex : ℕ
  approx : Bool
  maxIter : ℕ
  tol : R
  deg : ℕ
  optimization : Bool
  maxDeg : ℕ
  degExtra : ℕ
  lanczosIter : ℕ
  numLanczos : ℕ
  cholqr : Bool
  symCheck : Bool
  deriving DecidableEq

namespace Config
variable {R : Type*}

/-- `initMaxDeg`: algorithm/configuration.hpp 34-38, 64-81 (for `complex<float>` the first
`return 12` wins). -/
def initMaxDeg : Scalar → ℕ
  | .d => 36
  | .z => 36
  | .s => 36 / 2
  | .c => 12

/-- `initDeg`: algorithm/configuration.hpp 40-44, 83-99. -/
def initDeg : Scalar → ℕ
  | .d => 20
  | .z => 20
  | .s => 20 / 2
  | .c => 20 / 2

/-- `initLanczosIter`: algorithm/configuration.hpp 46-50, 101-118. -/
def initLanczosIter : Scalar → ℕ
  | .d => 25
  | .z => 25
  | .s => 25 / 2
  | .c => 25 / 2

/-- `initTolerance`: algorithm/configuration.hpp 52-62, 120-130 (decimal literals taken exactly). -/
def initTolerance [Div R] [One R] [NatCast R] : Scalar → R
  | .d => 1 / 10000000000
  | .z => 1 / 10000000000
  | .s => 1 / 100000
  | .c => 1 / 100000

/-- `SetApprox`: algorithm/configuration.hpp 202. -/
def setApprox (cfg : Config R) (b : Bool) : Config R := { cfg with approx := b }
/-- `SetOpt`: algorithm/configuration.hpp 222. -/
def setOpt (cfg : Config R) (b : Bool) : Config R := { cfg with optimization := b }
/-- `SetDeg`: algorithm/configuration.hpp 245-249 (two assignments). -/
def setDeg (cfg : Config R) (d : ℕ) : Config R :=
  let cfg := { cfg with deg := d }
  { cfg with deg := cfg.deg + cfg.deg % 2 }
/-- `SetTol`: algorithm/configuration.hpp 273. -/
def setTol (cfg : Config R) (t : R) : Config R := { cfg with tol := t }
/-- `SetMaxDeg`: algorithm/configuration.hpp 301-305 (two assignments). -/
def setMaxDeg (cfg : Config R) (d : ℕ) : Config R :=
  let cfg := { cfg with maxDeg := d }
  { cfg with maxDeg := cfg.maxDeg + cfg.maxDeg % 2 }
/-- `SetDegExtra`: algorithm/configuration.hpp 328. -/
def setDegExtra (cfg : Config R) (d : ℕ) : Config R := { cfg with degExtra := d }
/-- `SetMaxIter`: algorithm/configuration.hpp 352. -/
def setMaxIter (cfg : Config R) (n : ℕ) : Config R := { cfg with maxIter := n }
/-- `SetLanczosIter`: algorithm/configuration.hpp 375-378. -/
def setLanczosIter (cfg : Config R) (n : ℕ) : Config R := { cfg with lanczosIter := n }
/-- `SetNumLanczos`: algorithm/configuration.hpp 402. -/
def setNumLanczos (cfg : Config R) (n : ℕ) : Config R := { cfg with numLanczos := n }
/-- `SetCholQR`: algorithm/configuration.hpp 437. -/
def setCholQR (cfg : Config R) (b : Bool) : Config R := { cfg with cholqr := b }
/-- `EnableSymCheck`: algorithm/configuration.hpp 441. -/
def enableSymCheck (cfg : Config R) (b : Bool) : Config R := { cfg with symCheck := b }

/-- Constructor `ChaseConfig(N, nev, nex)`: algorithm/configuration.hpp 175-184; `cholqr_` and
`sym_check_` have in-class initialisers `true` (561, 563). -/
def mk' [Div R] [One R] [NatCast R] (sc : Scalar) (N nev nex : ℕ) : Config R :=
  let cfg : Config R :=
    { N, nev, nex, optimization := true, approx := false, maxIter := 25, degExtra := 2,
      numLanczos := 4, tol := initTolerance sc, deg := 0, maxDeg := 0,
      lanczosIter := initLanczosIter sc, cholqr := true, symCheck := true }
  let cfg := cfg.setMaxDeg (initMaxDeg sc)
  cfg.setDeg (initDeg sc)

/-- One call of a public setter. -/
inductive Setter (R : Type*) where
  | approx (b : Bool)
  | opt (b : Bool)
  | deg (d : ℕ)
  | tol (t : R)
  | maxDeg (d : ℕ)
  | degExtra (d : ℕ)
  | maxIter (n : ℕ)
  | lanczosIter (n : ℕ)
  | numLanczos (n : ℕ)
  | cholQR (b : Bool)
  | symCheck (b : Bool)

/-- Dispatch of a setter call. -/
def call (cfg : Config R) : Setter R → Config R
  | .approx b => cfg.setApprox b
  | .opt b => cfg.setOpt b
  | .deg d => cfg.setDeg d
  | .tol t => cfg.setTol t
  | .maxDeg d => cfg.setMaxDeg d
  | .degExtra d => cfg.setDegExtra d
  | .maxIter n => cfg.setMaxIter n
  | .lanczosIter n => cfg.setLanczosIter n
  | .numLanczos n => cfg.setNumLanczos n
  | .cholQR b => cfg.setCholQR b
  | .symCheck b => cfg.enableSymCheck b

/-- A history of setter calls on a freshly constructed configuration. -/
def run [Div R] [One R] [NatCast R] (sc : Scalar) (N nev nex : ℕ) (h : List (Setter R)) : Config R :=
  h.foldl call (mk' sc N nev nex)

end Config
end Verif
