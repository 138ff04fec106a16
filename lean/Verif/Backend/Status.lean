/-
The statuses (`info`) of the library routines and what the code does with them.

Wrappers of ChASE-MPI/blas_templates.inc: `t_geqrf` (634-742), `t_gqr` (744-868), `t_heevd` (869-1036),
`t_stemr` (1144-1233), `t_pgeqrf` and `t_pgqr` (1490-1739) compare `info` with 0 in `assert` and return it; no
caller looks at the returned value.  `t_potrf` (1235-1288) has no assertion, its result is used (see Common,
Backend/Mpi).  In cuda_seq and mgpu (chase_mpidla_mgpu.hpp) the routines of cuSOLVER write `info` to
`devInfo_` in device memory, which is read after `potrf` only (cuda_seq 569, 618, 689, 711; mgpu 675) and
not after `heevd` (cuda_seq 465, mgpu 743), `geqrf` (cuda_seq 528) and `gqr` (cuda_seq 532).
-/
import Verif.Backend.Seq
import Verif.Backend.InPlace
import Verif.Backend.Mgpu
import Verif.Solver.Guard

namespace Verif

open Matrix

variable {K : Type*} [RCLike K] {N : ℕ}

/-- `info` of the routines that are not `potrf`, by argument: zero for success. -/
structure Info (K : Type*) where
  /-- the first of `geqrf`, `gqr` that is not zero -/
  hhqr : ∀ {m n : ℕ}, Matrix (Fin m) (Fin n) K → ℤ
  heevd : ∀ {n : ℕ}, Matrix (Fin n) (Fin n) K → ℤ
  stemr : ℕ → (ℕ → ℝ) → (ℕ → ℝ) → ℤ

/-- Which statuses an `assert` looks at. -/
structure Asserted where
  hhqr : Bool
  heevd : Bool
  stemr : Bool

/-- CPU backends: all, see the header. -/
def Asserted.cpu : Asserted := ⟨true, true, true⟩
/-- cuda_seq: `geqrf`, `gqr`, `heevd` run on the device; `t_stemr` is called by `ChaseMpi`
(chase_mpi.hpp 492-530), on the host. -/
def Asserted.cuda : Asserted := ⟨false, false, true⟩
/-- mgpu: `heevd` runs on the device (mgpu 728-763), the Householder QR of `ChaseMpiDLA` on the host. -/
def Asserted.mgpu : Asserted := ⟨true, false, true⟩

variable (I : Info K) (a : Asserted)

/-- An assertion fails in `Lanczos(M, upperb)` with the coefficients of `l`: chase_mpi.hpp 492. -/
def Info.boundFails (M : ℕ) {m : ℕ} (l : LSt K m) : Prop :=
  a.stemr = true ∧ I.stemr M l.d l.e ≠ 0

/-- An assertion fails in `Lanczos(M, numvec, ...)`: chase_mpi.hpp 522-530. -/
def Info.multiFails (M numvec : ℕ) {m : ℕ} (l : LSt K m) : Prop :=
  a.stemr = true ∧
    ∃ i, i < numvec ∧ I.stemr M (fun k => l.d (i * M + k)) (fun k => l.e (i * M + k)) ≠ 0

/-- The orthogonalisation routines with a mark that is set by a Householder QR in a state described by
`bad`. -/
def QrRoutines.marked {S : Type*} (r : QrRoutines S) (bad : S → Prop) : QrRoutines (S × Prop) where
  hhQR := fun s => (r.hhQR s.1, s.2 ∨ bad s.1)
  cholQR1 := fun s => ((r.cholQR1 s.1).1, ((r.cholQR1 s.1).2, s.2))
  cholQR2 := fun s => ((r.cholQR2 s.1).1, ((r.cholQR2 s.1).2, s.2))
  shiftedcholQR2 := fun s => ((r.shiftedcholQR2 s.1).1, ((r.shiftedcholQR2 s.1).2, s.2))
  lockCopy := fun b s => (r.lockCopy b s.1, s.2)

/-- `QR` (chase_mpi.hpp 351-427) comes to a Householder QR in a state described by `bad`, at once or after
a Cholesky QR that failed. -/
def qrMeets {S : Type*} (r : QrRoutines S) (bad : S → Prop) (doCholQR : Bool) (env : Option ℤ)
    (above below : Bool) (s : S) : Prop :=
  (qrSelect (r.marked bad) doCholQR env above below (s, False)).2

/-- An assertion fails during the call, sequential backend.  `QR`: seq 304-312; `RR`: seq 240-262. -/
def Seq.fails (E : Env K) : Req ℝ → Seq.St K N → Prop
  | .qr _ cond, s => qrMeets (Seq.qrRoutines E s.locked)
      (fun s => a.hhqr = true ∧ I.hhqr (getBlk 0 E.nevex s.C) ≠ 0) E.doCholQR E.envDisable
      (open Classical in decide (cond > E.condUpper)) (open Classical in decide (cond < E.condLower)) s
  | .lanczos1 m, s => I.boundFails a m (mLanczos axpyOwn s.H m 1 false s.C)
  | .lanczosN m numvec, s => I.multiFails a m numvec (mLanczos axpyOwn s.H m numvec true s.C)
  | .rr block, s =>
    let t := Seq.asynCxHGatherC s.locked block s
    a.heevd = true ∧ I.heevd ((getBlk s.locked block t.B2)ᴴ * getBlk s.locked block t.B) ≠ 0
  | _, _ => False

/-- In-place CPU backend (inplace 211-231, 275-285) and single-GPU backend. -/
def InPlace.fails (E : Env K) (k : InPlace.Kind) : Req ℝ → InPlace.St K N → Prop
  | .qr _ cond, s => qrMeets (InPlace.qrRoutines E k s.locked)
      (fun s => a.hhqr = true ∧ I.hhqr (getBlk 0 E.nevex s.V1) ≠ 0) E.doCholQR E.envDisable
      (open Classical in decide (cond > E.condUpper)) (open Classical in decide (cond < E.condLower)) s
  | .lanczos1 m, s => I.boundFails a m (mLanczos k.axpy s.H m 1 false s.V1)
  | .lanczosN m numvec, s => I.multiFails a m numvec (mLanczos k.axpy s.H m numvec true s.V1)
  | .rr block, s =>
    let V2 := setBlk s.locked (s.Hᴴ * getBlk s.locked block s.V1) s.V2
    a.heevd = true ∧ I.heevd ((getBlk s.locked block V2)ᴴ * getBlk s.locked block s.V1) ≠ 0
  | _, _ => False

namespace Mpi
variable {r c : Layout N}

/-- Distributed CPU backend: an assertion fails on some process, which ends the job (`abort()` under
`mpirun`). `QR`: dla 1054-1118; `RR`: dla 952-982. -/
def fails (E : MEnv K) (j0 : Fin c.procs) : Req ℝ → Fam K r c → Prop
  | .qr _ cond, s => qrMeets (qrRoutines E j0 fun i j => (s i j).locked)
      (fun s => a.hhqr = true ∧ ∃ j, I.hhqr (getBlk 0 E.base.nevex fun k =>
        assemble r fun i' => (s i' j).C k) ≠ 0) E.base.doCholQR E.base.envDisable
      (open Classical in decide (cond > E.base.condUpper))
      (open Classical in decide (cond < E.base.condLower)) s
  | .lanczos1 m, s => ∃ i j, I.boundFails a m (mLanczos E s m 1 false i j)
  | .lanczosN m numvec, s => ∃ i j, I.multiFails a m numvec (mLanczos E s m numvec true i j)
  | .rr block, s =>
    let t : Fam K r c := fun i j => asynCxHGatherC E (s i j).locked block s i j
    a.heevd = true ∧ ∃ i j, I.heevd (rrMatrix (s i j).locked block t i) ≠ 0
  | _, _ => False

end Mpi

namespace Mgpu
open Mpi (Layout)
variable {r c : Layout N}

/-- Multi-GPU backend. -/
def fails (E : GpuEnv K) (j0 : Fin c.procs) : Req ℝ → GFam K r c → Prop
  | .qr _ cond, s => qrMeets (qrRoutines E j0 fun i j => (s i j).host.locked)
      (fun s => a.hhqr = true ∧ ∃ j, I.hhqr (getBlk 0 E.mpi.base.nevex fun k =>
        Mpi.assemble r fun i' =>
          (if E.aware then (s i' j).downC 0 E.mpi.base.nevex else s i' j).host.C k) ≠ 0)
      E.mpi.base.doCholQR E.mpi.base.envDisable
      (open Classical in decide (cond > E.mpi.base.condUpper))
      (open Classical in decide (cond < E.mpi.base.condLower)) s
  | .lanczos1 m, s => ∃ i j, I.boundFails a m
      (Mpi.mLanczos E.mpi (fun i j => (s i j).work E.aware) m 1 false i j)
  | .lanczosN m numvec, s => ∃ i j, I.multiFails a m numvec
      (Mpi.mLanczos E.mpi (fun i j => (s i j).work E.aware) m numvec true i j)
  | .rr block, s =>
    let s1 : GFam K r c := fun i j =>
      asynCxHGatherC E (s i j).host.locked block (fun i j => !(s i j).hh) s i j
    let s2 : GFam K r c := fun i j =>
      staged E (fun p => (p.upB (s i j).host.locked block).upB2 (s i j).host.locked block) s1 i j
    a.heevd = true ∧ ∃ i j, I.heevd (Mpi.rrMatrix (s i j).host.locked block
      (fun i j => (s2 i j).dev) i) ≠ 0
  | _, _ => False

end Mgpu
end Verif
