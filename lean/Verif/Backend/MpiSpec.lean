/-
What the distributed backend computes, stated without processes: the same operations on one global
matrix and global vectors.  Also the relation between the states of all processes and a global state.
-/
import Verif.Backend.Mpi

namespace Verif
namespace Mpi

open Matrix
open Seq (NextOp)

variable {K : Type*} [RCLike K] {N : ℕ}

/-- Global state: the state of the single-process backend, and whether the filter has not been started
yet. -/
structure GSt (K : Type*) (N : ℕ) extends Seq.St K N where
  fresh : Bool

/-- Parameters of the global backend; `rnd` and `probe` are the start vectors and the vector of the
symmetry check. -/
structure GEnv (K : Type*) [RCLike K] (N : ℕ) where
  base : Env K
  rnd : ℕ → Fin N → K
  probe : Fin N → K
  symTol : ℝ
  scalapack : Bool

variable (G : GEnv K N)

/-- The symmetry check: `H^* v` and `H v` agree up to the tolerance in every entry. -/
noncomputable def gSymCheck (g : GSt K N) : Bool :=
  open Classical in
  decide (∀ a, ‖g.Hᴴ.mulVec G.probe a - g.H.mulVec G.probe a‖ ≤ G.symTol)

/-- Cholesky variants: `cholQR2` reports its last factorisation, `shiftedcholQR2` stops at a failure of
the second and ignores the third. -/
noncomputable def gQrRoutines (locked : ℕ) : QrRoutines (GSt K N) where
  hhQR := fun g => { g with
    C := hhQRc G.base.lapack G.base.nevex g.C, next := if G.scalapack then g.next else .bAc }
  cholQR1 := fun g => ((cholQR1c G.base.lapack G.base.nevex g.C).1,
    { g with C := (cholQR1c G.base.lapack G.base.nevex g.C).2 })
  cholQR2 := fun g => ((cholQR2c G.base.lapack G.base.nevex ⟨true, true⟩ g.C).1,
    { g with C := (cholQR2c G.base.lapack G.base.nevex ⟨true, true⟩ g.C).2 })
  shiftedcholQR2 := fun g => ((shiftedcholQR2c G.base.lapack G.base.nevex ⟨true, false⟩ g.C).1,
    { g with C := (shiftedcholQR2c G.base.lapack G.base.nevex ⟨true, false⟩ g.C).2 })
  lockCopy := fun _ g => { g with toSt := Seq.lockVectorCopy G.base locked g.toSt }

/-- The global backend.  It is the single-process one (`Seq.ops`) except for the start vectors, the
tolerance of the symmetry check, the Cholesky variants, the reset of `next_`, and `Swap`, which does
nothing. -/
noncomputable def gOps : Chase ℝ (GSt K N) where
  checkSymmetryEasy := fun g => (gSymCheck G g, { g with isSym := gSymCheck G g })
  start := fun g => { g with locked := 0 }
  finish := fun g => g
  initVecs := fun random g => ⟨Seq.initVecs G.base
    (if random then { g.toSt with C := writeAt g.C 0 G.base.nevex G.rnd } else g.toSt), g.fresh⟩
  qr := fun _ cond g => qrSelect (gQrRoutines G g.locked) G.base.doCholQR
    G.base.envDisable (open Classical in decide (cond > G.base.condUpper))
    (open Classical in decide (cond < G.base.condLower)) g
  lanczos1 := fun m g => (lanczosBound axpyOwn G.base.lapack g.H m g.C, g)
  lanczosN := fun m numvec g => ((lanczosMulti axpyOwn G.base.lapack g.H m numvec g.C).1,
    { g with C := (lanczosMulti axpyOwn G.base.lapack g.H m numvec g.C).2 })
  lanczosDos := fun idx m z g => { g with toSt := Seq.lanczosDos idx m z g.toSt }
  shift := fun x _ g => { g with
    H := shiftH (x : K) g.H, next := if g.fresh then .bAc else g.next, fresh := false }
  hemm := fun block α β offset g =>
    { g with toSt := Seq.apply (α : K) (β : K) offset block g.locked g.toSt }
  rr := fun block g => ((Seq.rr G.base block g.locked g.toSt).1,
    { g with toSt := (Seq.rr G.base block g.locked g.toSt).2 })
  resd := fun ritzv fixednev g =>
    ((Seq.resd ritzv g.locked (G.base.nevex - fixednev) g.toSt).1,
      { g with toSt := (Seq.resd ritzv g.locked (G.base.nevex - fixednev) g.toSt).2 })
  lock := fun k g => { g with locked := g.locked + k }
  swap := fun _ _ g => g

variable {r c : Layout N}

omit [RCLike K] in
/-- Every process holds its part of the global state. -/
structure Rep (s : Fam K r c) (g : GSt K N) : Prop where
  H : ∀ i j a b, (s i j).H a b = g.H (r.glob i a) (c.glob j b)
  C : ∀ i j k a, (s i j).C k a = g.C k (r.glob i a)
  C2 : ∀ i j k a, (s i j).C2 k a = g.C2 k (r.glob i a)
  B : ∀ i j k b, (s i j).B k b = g.B k (c.glob j b)
  B2 : ∀ i j k b, (s i j).B2 k b = g.B2 k (c.glob j b)
  next : ∀ i j, (s i j).next = g.next
  locked : ∀ i j, (s i j).locked = g.locked
  isSym : ∀ i j, (s i j).isSym = g.isSym
  fresh : ∀ i j, (s i j).fresh = g.fresh

/-- The runs redistribute from layout `r` to layout `c`: they stay inside the local vectors, connect
positions with the same global index and reach every destination. -/
structure RunsOk (r c : Layout N) (runs : List Dist.Run) : Prop where
  valid : ∀ run ∈ runs, ∀ t < run.len, ∃ (hs : run.src < r.procs) (hd : run.dest < c.procs)
    (h1 : run.srcDisp + t < r.size ⟨run.src, hs⟩) (h2 : run.destDisp + t < c.size ⟨run.dest, hd⟩),
    r.glob _ ⟨_, h1⟩ = c.glob _ ⟨_, h2⟩
  reach : ∀ (j : Fin c.procs) (b : Fin (c.size j)), ∃ run ∈ runs, run.dest = j ∧
    run.destDisp ≤ b ∧ b < run.destDisp + run.len

/-- The global parameters that belong to a distributed backend. -/
noncomputable def MEnv.glob (E : MEnv K) (r : Layout N) : GEnv K N where
  base := E.base
  rnd := fun k => assemble r fun p a => E.gen p (k * r.size p + a)
  probe := assemble r fun p a => E.probe p a
  symTol := E.symTol
  scalapack := E.scalapack

end Mpi
end Verif
