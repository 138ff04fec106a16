/-
The two backends that exchange their buffers, with arbitrary arithmetic:
 * `ChaseMpiDLABlaslapackSeqInplace` (ChASE-MPI/impl/chase_mpidla_blaslapack_seq_inplace.hpp, inplace),
 * `ChaseMpiDLACudaSeq` (ChASE-MPI/impl/chase_mpidla_cuda_seq.hpp, cuda_seq),
behind `ChaseMpi` (ChASE-MPI/chase_mpi.hpp, chase_mpi).  The structure is that of `Verif.Backend.InPlace`, every numerical
kernel is a parameter (`Arith`).
-/
import Verif.Rounded.Seq
import Verif.Backend.InPlace
import Verif.Solver.Sim

namespace Verif
namespace Rounded
namespace InPlace

open Verif.InPlace (Kind)

/-- Data members, as in `Verif.InPlace.St`: `V1`, `V2` are the buffers `V1_`, `V2_` (`d_V1_`, `d_V2_`) point to, `user` is
the user's array of vectors where it is separate (cuda); on the CPU it is one of the two buffers, `V1` iff `flipped` is
false.  `H` is the matrix used in products, `hostH` the user's matrix where it is separate (cuda). -/
structure St (K R : Type*) (N : ℕ) where
  H : Matrix (Fin N) (Fin N) K
  hostH : Matrix (Fin N) (Fin N) K
  V1 : ℕ → Fin N → K
  V2 : ℕ → Fin N → K
  user : ℕ → Fin N → K
  flipped : Bool
  dRitz : ℕ → R
  locked : ℕ
  isSym : Bool

variable {K R : Type*} {N : ℕ}

/-- What the user reads from the array `V` handed to the constructor. -/
def St.userV (k : Kind) (s : St K R N) : ℕ → Fin N → K :=
  match k with
  | .cpu => if s.flipped then s.V2 else s.V1
  | .cuda => s.user

/-- The user's matrix. -/
def St.userH (k : Kind) (s : St K R N) : Matrix (Fin N) (Fin N) K :=
  match k with
  | .cpu => s.H
  | .cuda => s.hostH

variable (A : Arith K R N) (E : Params)

/-- `initRndVecs`: inplace 58-69, cuda_seq 279-284. -/
def initRndVecs (s : St K R N) : St K R N :=
  { s with V1 := writeAt s.V1 0 E.nevex (fun j i => A.randn j i) }

/-- `initVecs`: inplace 54-57; cuda_seq 273-278 (also copies `H` to the device). -/
def initVecs (k : Kind) (s : St K R N) : St K R N :=
  let s := { s with V2 := copyCols 0 E.nevex s.V1 s.V2 }
  match k with
  | .cpu => s
  | .cuda => { s with H := s.hostH }

/-- `apply`: inplace 77-86, cuda_seq 293-303. -/
def apply (α β : K) (offset block locked : ℕ) (s : St K R N) : St K R N :=
  let V2 := setBlk (locked + offset) (A.gemm false s.H α β (getBlk (locked + offset) block s.V1)
    (getBlk (locked + offset) block s.V2)) s.V2
  { s with V1 := V2, V2 := s.V1, flipped := !s.flipped }

/-- `RR`: inplace 211-231, cuda_seq 447-478.  The entries of `ritzv` behind the block are not written; here they are
`z`. -/
def rr (z : R) (block locked : ℕ) (s : St K R N) : (ℕ → R) × St K R N :=
  let V2 := setBlk locked (A.gemm true s.H A.one A.zero (getBlk locked block s.V1) (getBlk locked block s.V2)) s.V2
  let M := A.gemmProj (getBlk locked block V2) (getBlk locked block s.V1)
  let (w, Z) := A.heevd M
  let V2 := setBlk locked (A.gemmBack (getBlk locked block s.V1) Z) V2
  let vals : ℕ → R := fun i => if h : i < block then w ⟨i, h⟩ else z
  (vals, { s with V1 := V2, V2 := s.V1, flipped := !s.flipped, dRitz := writeAt s.dRitz 0 block vals })

/-- `Resd`: inplace 255-273; cuda_seq 502-519 uses the values `d_ritz_` left by `RR` instead of its argument.  The GPU
kernel `residual_gpu` does the update and the norm in one go; here they are the two kernels `axpy` and `nrm2`. -/
def resd [Neg R] (z : R) (k : Kind) (ritzv : ℕ → R) (locked unconverged : ℕ) (s : St K R N) :
    (ℕ → R) × St K R N :=
  let vals := match k with
    | .cpu => ritzv
    | .cuda => s.dRitz
  let V2 := setBlk locked (A.gemm true s.H A.one A.zero (getBlk locked unconverged s.V1)
    (getBlk locked unconverged s.V2)) s.V2
  forRange 0 unconverged (fun i p =>
    let V2 := Function.update p.2.V2 (locked + i)
      (A.axpy (A.ofBase (-vals i)) (p.2.V1 (locked + i)) (p.2.V2 (locked + i)))
    (Function.update p.1 i (A.nrm2 (V2 (locked + i))), { p.2 with V2 := V2 }))
    (fun _ => z, { s with V2 := V2 })

/-- The copy `V2[:locked] = V1[:locked]` at the start of every orthogonalisation routine:
inplace 281, 294, 319, 349; cuda_seq 524, 554, 605, 670. -/
def saveLocked (locked : ℕ) (s : St K R N) : St K R N :=
  { s with V2 := copyCols 0 locked s.V1 s.V2 }

/-- `lockVectorCopyAndOrthoConcatswap`: inplace 411-414, cuda_seq 773-777. -/
def lockVectorCopy (locked : ℕ) (s : St K R N) : St K R N :=
  { s with V1 := copyCols 0 locked s.V2 s.V1 }

/-- `Swap`: inplace 416-423, cuda_seq 779-787 (only one of the two buffers). -/
def swap (i j : ℕ) (s : St K R N) : St K R N := { s with V1 := swapAt s.V1 i j }

/-- `LanczosDos`: inplace 425-434, cuda_seq 789-800. -/
def lanczosDos (idx m : ℕ) (ritzVc : ℕ → R) (s : St K R N) : St K R N :=
  let Z : Matrix (Fin m) (Fin idx) K := fun a b => A.ofBase (ritzVc (a + b * m))
  let V2 := setBlk 0 (A.gemmBack (getBlk 0 m s.V1) Z) s.V2
  { s with V2 := V2, V1 := copyCols 0 m V2 s.V1 }

/-- The orthogonalisation routines: inplace 275-414, cuda_seq 521-777. -/
def qrRoutines (locked : ℕ) : QrRoutines (St K R N) where
  hhQR := fun s =>
    let s := saveLocked locked s
    { s with V1 := A.hhQR s.V1 }
  cholQR1 := fun s =>
    let s := saveLocked locked s
    ((A.cholQR1 s.V1).1, { s with V1 := (A.cholQR1 s.V1).2 })
  cholQR2 := fun s =>
    let s := saveLocked locked s
    ((A.cholQR2 s.V1).1, { s with V1 := (A.cholQR2 s.V1).2 })
  shiftedcholQR2 := fun s =>
    let s := saveLocked locked s
    ((A.shiftedcholQR2 s.V1).1, { s with V1 := (A.shiftedcholQR2 s.V1).2 })
  lockCopy := fun _ s => lockVectorCopy locked s

/-- `End`: inplace 185 does nothing, cuda_seq 405-409 copies the current buffer to the user's array. -/
def finish (k : Kind) (s : St K R N) : St K R N :=
  match k with
  | .cpu => s
  | .cuda => { s with user := copyCols 0 E.nevex s.V1 s.user }

/-- `ChaseMpi` (chase_mpi 255-560) on top of the backend. -/
def ops [Neg R] [Zero R] (k : Kind) : Chase R (St K R N) where
  checkSymmetryEasy := fun s => (A.symCheck (s.userH k), { s with isSym := A.symCheck (s.userH k) })
  start := fun s => { s with locked := 0 }
  finish := finish E k
  initVecs := fun random s => initVecs E k (if random then initRndVecs A E s else s)
  qr := fun _ cond s => qrSelect (qrRoutines A s.locked) E.doCholQR E.envDisable (A.above cond) (A.below cond) s
  lanczos1 := fun m s => (A.lanczos1 m s.H s.V1, s)
  lanczosN := fun m numvec s => ((A.lanczosN m numvec s.H s.V1).1, { s with V1 := (A.lanczosN m numvec s.H s.V1).2 })
  lanczosDos := fun idx m z s => lanczosDos A idx m z s
  shift := fun c _ s => { s with H := shiftH A (A.ofBase c) s.H }
  hemm := fun block α β offset s => apply A (A.ofBase α) (A.ofBase β) offset block s.locked s
  rr := fun block s => rr A 0 block s.locked s
  resd := fun ritzv fixednev s => resd A 0 k ritzv s.locked (E.nevex - fixednev) s
  lock := fun k s => { s with locked := s.locked + k }
  swap := fun i j s => swap i j s

/-! ### Exact arithmetic is an instance -/

section Exact
open Matrix
variable {K : Type*} [RCLike K] {N : ℕ} (E : Env K) (k : Kind)

/-- The kernels of `Verif.Backend.Dense` and `Verif.Backend.Common` in the form the two backends use them. -/
noncomputable def exactArith : Arith K ℝ N :=
  { Rounded.exactArith E with
    cholQR2 := cholQR2c E.lapack E.nevex k.chol
    shiftedcholQR2 := shiftedcholQR2c E.lapack E.nevex k.chol
    lanczos1 := fun m H C => lanczosBound k.axpy E.lapack H m C
    lanczosN := fun m j H C => lanczosMulti k.axpy E.lapack H m j C }

/-- A state of `Verif.Backend.InPlace`. -/
def ofExact (s : Verif.InPlace.St K N) : St K ℝ N :=
  ⟨s.H, s.hostH, s.V1, s.V2, s.user, s.flipped, s.dRitz, s.locked, s.isSym⟩

theorem gemm_one (adj : Bool) {b : ℕ} (H : Matrix (Fin N) (Fin N) K) (X Y : Matrix (Fin N) (Fin b) K) :
    (exactArith (N := N) E k).gemm adj H (exactArith (N := N) E k).one (exactArith (N := N) E k).zero X Y =
      (if adj then Hᴴ else H) * X := by
  show (1 : K) • ((if adj then Hᴴ else H) * X) + (0 : K) • Y = _
  rw [one_smul, zero_smul, add_zero]

theorem qrSelect_map {S S' : Type*} (g : S → S') (Q : QrRoutines S) (Q' : QrRoutines S') (d : Bool) (e : Option ℤ)
    (a b : Bool) (h1 : ∀ s, g (Q.hhQR s) = Q'.hhQR (g s))
    (h2 : ∀ s, (Q'.cholQR1 (g s)) = ((Q.cholQR1 s).1, g (Q.cholQR1 s).2))
    (h3 : ∀ s, (Q'.cholQR2 (g s)) = ((Q.cholQR2 s).1, g (Q.cholQR2 s).2))
    (h4 : ∀ s, (Q'.shiftedcholQR2 (g s)) = ((Q.shiftedcholQR2 s).1, g (Q.shiftedcholQR2 s).2))
    (h5 : ∀ x s, g (Q.lockCopy x s) = Q'.lockCopy x (g s)) (s : S) :
    g (qrSelect Q d e a b s) = qrSelect Q' d e a b (g s) := by
  unfold qrSelect
  dsimp only
  split_ifs <;> simp_all

/-- With exact kernels the model is the model of `Verif.Backend.InPlace`. -/
theorem exact_sim : Sim (ops (exactArith (N := N) E k) (paramsOf E) k) (Verif.InPlace.ops E k)
    (fun p s => p = ofExact s) where
  checkSymmetryEasy := by
    rintro _ s rfl
    cases k <;> exact ⟨rfl, rfl⟩
  start := by rintro _ s rfl; rfl
  finish := by rintro _ s rfl; cases k <;> rfl
  initVecs := by rintro b _ s rfl; cases k <;> cases b <;> rfl
  qr := by
    rintro m c _ s rfl
    exact (qrSelect_map ofExact (Verif.InPlace.qrRoutines E k s.locked) (qrRoutines (exactArith E k) s.locked) _ _ _ _
      (fun _ => rfl) (fun _ => rfl) (fun _ => rfl) (fun _ => rfl) (fun _ _ => rfl) s).symm
  lanczos1 := by rintro m _ s rfl; exact ⟨rfl, rfl⟩
  lanczosN := by rintro m j _ s rfl; exact ⟨rfl, rfl⟩
  lanczosDos := by rintro i m z _ s rfl; rfl
  shift := by rintro c b _ s rfl; rfl
  hemm := by rintro n a b o _ s rfl; rfl
  rr := by
    rintro b _ s rfl
    show (rr _ 0 b s.locked (ofExact s)).1 = (Verif.InPlace.rr E b s.locked s).1 ∧
      (rr _ 0 b s.locked (ofExact s)).2 = ofExact (Verif.InPlace.rr E b s.locked s).2
    unfold rr Verif.InPlace.rr
    simp only [gemm_one]
    exact ⟨rfl, rfl⟩
  resd := by
    rintro f j _ s rfl
    show (resd _ 0 k f s.locked (E.nevex - j) (ofExact s)).1 = (Verif.InPlace.resd k f s.locked (E.nevex - j) s).1 ∧
      (resd _ 0 k f s.locked (E.nevex - j) (ofExact s)).2 =
        ofExact (Verif.InPlace.resd k f s.locked (E.nevex - j) s).2
    unfold resd Verif.InPlace.resd
    simp only [gemm_one]
    refine forRange_rel (fun (p : (ℕ → ℝ) × St K ℝ N) (q : (ℕ → ℝ) × Verif.InPlace.St K N) =>
      p.1 = q.1 ∧ p.2 = ofExact q.2) _ _ ?_ ⟨rfl, by simp only [if_true]; rfl⟩
    rintro i ⟨p1, p2⟩ ⟨q1, q2⟩ - - ⟨h1, h2⟩
    dsimp only at h1 h2
    subst h1 h2
    cases k <;>
    · simp only [exactArith, Rounded.exactArith, RCLike.ofReal_neg]
      exact ⟨rfl, rfl⟩
  lock := by rintro m _ s rfl; rfl
  swap := by rintro i j _ s rfl; rfl

end Exact
end InPlace
end Rounded
end Verif
