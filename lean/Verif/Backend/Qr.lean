/-
`ChaseMpi<MF,T>::QR` (ChASE-MPI/chase_mpi.hpp 351-427): choice of the orthogonalisation routine.
-/
import Verif.Base.Loop
import Mathlib.Data.Int.Notation

namespace Verif

/-- The orthogonalisation routines of a backend (`ChaseMpiDLAInterface`): chase_mpidla_interface.hpp;
the Cholesky variants return `info`. -/
structure QrRoutines (S : Type*) where
  hhQR : S → S
  cholQR1 : S → ℤ × S
  cholQR2 : S → ℤ × S
  shiftedcholQR2 : S → ℤ × S
  /-- `lockVectorCopyAndOrthoConcatswap(locked_, isHHqr)` -/
  lockCopy : Bool → S → S

/-- The switch `disable`: chase_mpi.hpp 358-362.  `env` is the value of `CHASE_DISABLE_CHOLQR` (after
`atoi`) if set. -/
def cholDisable (doCholQR : Bool) (env : Option ℤ) : ℤ :=
  let disable := if doCholQR then 0 else 1
  match env with
  | some v => v
  | none => disable

/-- `QR`: chase_mpi.hpp 351-427.  `above` and `below` are the outcomes of the comparisons
`cond > cond_threshold_upper` and `cond < cond_threshold_lower` (both false for NaN).  Output and the
diagnostic `estimated_cond_evaluator`, which works on a copy, are left out. -/
def qrSelect {S : Type*} (r : QrRoutines S) (doCholQR : Bool) (env : Option ℤ)
    (above below : Bool) (s : S) : S :=
  if cholDisable doCholQR env = 1 then r.lockCopy true (r.hhQR s)
  else
    let (info, s) :=
      if above then r.shiftedcholQR2 s
      else if below then r.cholQR1 s
      else r.cholQR2 s
    if info ≠ 0 then r.lockCopy true (r.hhQR s) else r.lockCopy false s

end Verif
