/-
Vocabulary for the properties of the C interface, in terms of the sequence of calls only.
-/
import Verif.Interface.Model

namespace Verif
namespace Iface

/-- Sequential or distributed interface. -/
inductive Kind where
  | seq
  | dist
  deriving DecidableEq, Repr

/-- The interface keeps one solver per kind and scalar type. -/
structure Slot where
  kind : Kind
  sc : Scalar
  deriving DecidableEq, Repr

variable {R : Type}

/-- The slot a call is about. -/
def Call.slot : Call R → Slot
  | .seqInit sc _ => ⟨.seq, sc⟩
  | .seqSolve sc _ => ⟨.seq, sc⟩
  | .seqFinalize sc => ⟨.seq, sc⟩
  | .distInit sc _ => ⟨.dist, sc⟩
  | .distInitCyclic sc _ => ⟨.dist, sc⟩
  | .distSolve sc _ => ⟨.dist, sc⟩
  | .distFinalize sc => ⟨.dist, sc⟩
  | .distIO sc _ _ _ => ⟨.dist, sc⟩

/-- The initialisation calls. -/
def Call.isInit : Call R → Bool
  | .seqInit _ _ | .distInit _ _ | .distInitCyclic _ _ => true
  | _ => false

/-- The finalisation calls. -/
def Call.isFinal : Call R → Bool
  | .seqFinalize _ | .distFinalize _ => true
  | _ => false

/-- The calls that use a solver: solve, read and write. -/
def Call.isUse : Call R → Bool
  | .seqSolve _ _ | .distSolve _ _ | .distIO _ _ _ _ => true
  | _ => false

/-- The last initialisation or finalisation call of the slot in the history. -/
def lastLife (h : List (Call R)) (s : Slot) : Option (Call R) :=
  (h.filter fun c => decide (c.slot = s) && !c.isUse).getLast?

/-- The slot was initialised and not finalised since. -/
def Live (h : List (Call R)) (s : Slot) : Prop := ∃ c, lastLife h s = some c ∧ c.isInit = true

/-- The slot was never initialised. -/
def Never (h : List (Call R)) (s : Slot) : Prop := ∀ c ∈ h, c.slot = s → c.isInit = false

/-- The histories the interface supports: a solver is used only between its initialisation and its finalisation,
and it is finalised at most once per initialisation (a finalisation before any initialisation is harmless). -/
def Legal (h : List (Call R)) : Prop :=
  ∀ h₁ c h₂, h = h₁ ++ c :: h₂ →
    (c.isUse = true → Live h₁ c.slot) ∧ (c.isFinal = true → Live h₁ c.slot ∨ Never h₁ c.slot)

/-- No slot is initialised again before it is finalised. -/
def Bracketed (h : List (Call R)) : Prop :=
  ∀ h₁ c h₂, h = h₁ ++ c :: h₂ → c.isInit = true → ¬ Live h₁ c.slot

/-- The problem an initialisation call asks for: exactly its arguments. -/
def Call.problem : Call R → Option Problem
  | .seqInit _ x => some
      { N := toSize x.N, nev := toSize x.nev, nex := toSize x.nex, H := x.H, ldh := toSize x.ldh,
        V := x.V, ritzv := x.ritzv, props := none }
  | .distInit _ x => some
      { N := toSize x.N, nev := toSize x.nev, nex := toSize x.nex, H := x.H, ldh := toSize x.ldh,
        V := x.V, ritzv := x.ritzv,
        props := some
          { N := toSize x.N, nev := toSize x.nev, nex := toSize x.nex,
            layout := .block (toSize x.m) (toSize x.n), dim0 := x.dim0, dim1 := x.dim1,
            gridMajor := x.gridMajor, comm := x.comm } }
  | .distInitCyclic _ x => some
      { N := toSize x.N, nev := toSize x.nev, nex := toSize x.nex, H := x.H, ldh := toSize x.ldh,
        V := x.V, ritzv := x.ritzv,
        props := some
          { N := toSize x.N, nev := toSize x.nev, nex := toSize x.nex,
            layout := .cyclic (toSize x.mbsize) (toSize x.nbsize) x.irsrc x.icsrc, dim0 := x.dim0,
            dim1 := x.dim1, gridMajor := x.gridMajor, comm := x.comm } }
  | _ => none

/-- The arguments of a solve call. -/
def Call.solveArgs : Call R → Option (SolveArgs R)
  | .seqSolve _ x => some x
  | .distSolve _ x => some x
  | _ => none

/-- The configuration the documentation promises for a solve: tolerance and letters as given, the degree rounded up
to even, and for everything else the defaults of the scalar type. -/
def documented (sc : Scalar) (p : Problem) (x : SolveArgs R) : Config R :=
  { N := p.N, nev := p.nev, nex := p.nex
    approx := decide (x.mode = 'A')
    maxIter := 25
    tol := x.tol
    deg := 2 * ((toSize x.deg + 1) / 2)
    optimization := decide (x.opt = 'S')
    maxDeg := match sc with | .s => 18 | .d => 36 | .c => 12 | .z => 36
    degExtra := 2
    lanczosIter := match sc with | .s => 12 | .d => 25 | .c => 12 | .z => 25
    numLanczos := 4
    cholqr := decide (x.qr = 'C')
    symCheck := true }

end Iface
end Verif
