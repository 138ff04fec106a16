/-
Code that is the same in the single-process backends
(ChASE-MPI/impl/chase_mpidla_blaslapack_seq.hpp cited as seq,
 ChASE-MPI/impl/chase_mpidla_blaslapack_seq_inplace.hpp cited as inplace,
 ChASE-MPI/impl/chase_mpidla_cuda_seq.hpp cited as cuda_seq)
and the Lanczos drivers of `ChaseMpi` (ChASE-MPI/chase_mpi.hpp cited as chase_mpi).
-/
import Verif.Backend.Dense

namespace Verif

open Matrix

variable {K : Type*} [RCLike K] {N : ℕ}

/-- `shiftMatrix`: seq 107-113, inplace 88-94; in cuda_seq 305-308 a kernel does the same on the
device copy. -/
def shiftH (c : K) (H : Matrix (Fin N) (Fin N) K) : Matrix (Fin N) (Fin N) K :=
  forRange 0 N (fun k H => fun i j => if i.val = k ∧ j.val = k then H i j + c else H i j) H

/-- `checkSymmetryEasy`: seq 143-186, inplace 115-158, cuda_seq 335-378 (the loop leaves at the first
mismatch; here it runs on with the answer fixed). -/
noncomputable def symCheck (L : Lapack K) (H : Matrix (Fin N) (Fin N) K) : Bool :=
  open Classical in
  let v : Fin N → K := fun i => L.probe i
  let u := H.mulVec v
  let uT := Hᴴ.mulVec v
  forRange 0 N (fun k ok => if h : k < N then (ok && decide (u ⟨k, h⟩ = uT ⟨k, h⟩)) else ok) true

/-- Assignment `H[a + b*ldh] = x`. -/
def setEntry (H : Matrix (Fin N) (Fin N) K) (a b : ℕ) (x : K) : Matrix (Fin N) (Fin N) K :=
  fun i j => if i.val = a ∧ j.val = b then x else H i j

/-- `symOrHermMatrix`: seq 188-209, inplace 160-181, cuda_seq 380-402.
`upper` is `uplo == 'U'`. -/
def symmetrise (upper : Bool) (H : Matrix (Fin N) (Fin N) K) : Matrix (Fin N) (Fin N) K :=
  if upper then
    forRange 0 N (fun j H => forRange 0 j (fun i H => setEntry H j i (star (ent H i j))) H) H
  else
    forRange 0 N (fun i H => forRange 0 i (fun j H => setEntry H j i (star (ent H i j))) H) H

section QR
variable (L : Lapack K) (n : ℕ)

/-- `t_geqrf`, `t_gqr` on the first `n` columns: seq 304-312, inplace 284-285, cuda_seq 526-534. -/
def hhQRc (C : ℕ → Fin N → K) : ℕ → Fin N → K := setBlk 0 (L.hhqr (getBlk 0 n C)) C

/-- `A := V^* V` for the first `n` columns. -/
def gram (C : ℕ → Fin N → K) : Matrix (Fin n) (Fin n) K := syherk (getBlk 0 n C)

/-- Differences between the backends in the Cholesky variants.  `early`: `shiftedcholQR2` returns after
a failure of its second factorisation (inplace, cuda_seq).  `lastInfo`: the result of the last
factorisation of `cholQR2` and `shiftedcholQR2` is looked at (seq, inplace; in cuda_seq it stays on
the device). -/
structure CholVariant where
  early : Bool
  lastInfo : Bool

/-- seq 337-399. -/
def CholVariant.seq : CholVariant := ⟨false, true⟩
/-- inplace 312-382. -/
def CholVariant.inplace : CholVariant := ⟨true, true⟩
/-- cuda_seq 587-741. -/
def CholVariant.cuda : CholVariant := ⟨true, false⟩

/-- `cholQR1`: seq 314-335, inplace 287-310, cuda_seq 537-585; returns `info`. -/
noncomputable def cholQR1c (C : ℕ → Fin N → K) : ℤ × (ℕ → Fin N → K) :=
  let (info, A) := L.potrf (gram n C)
  if info ≠ 0 then (info, C) else (info, trsm A C)

/-- `cholQR2`: seq 337-363, inplace 312-339, cuda_seq 587-649. -/
noncomputable def cholQR2c (v : CholVariant) (C : ℕ → Fin N → K) : ℤ × (ℕ → Fin N → K) :=
  let (info1, A) := L.potrf (gram n C)
  if info1 ≠ 0 then (info1, C)
  else
    let C := trsm A C
    let (info, A) := L.potrf (gram n C)
    let C := trsm A C
    (if v.lastInfo then info else info1, C)

/-- The shift of `shiftedcholQR2`: seq 374-377, 580-588 (`computeDiagonalAbsSum`). -/
noncomputable def cholShift {n : ℕ} (A : Matrix (Fin n) (Fin n) K) : ℝ :=
  Real.sqrt N * (∑ i, ‖A i i‖) * L.eps

/-- `shiftMatrixForQR`: seq 572-578. -/
def shiftDiag {n : ℕ} (A : Matrix (Fin n) (Fin n) K) (c : K) : Matrix (Fin n) (Fin n) K :=
  fun i j => if i = j then A i j + c else A i j

/-- `shiftedcholQR2`: seq 365-399, inplace 341-382, cuda_seq 651-741. -/
noncomputable def shiftedcholQR2c (v : CholVariant) (C : ℕ → Fin N → K) :
    ℤ × (ℕ → Fin N → K) :=
  let A := gram n C
  let (info1, A) := L.potrf (shiftDiag A (cholShift (N := N) L A : K))
  if info1 ≠ 0 then (info1, C)
  else
    let C := trsm A C
    let (info2, A) := L.potrf (gram n C)
    if v.early = true ∧ info2 ≠ 0 then (info2, C)
    else
      let C := trsm A C
      let (info3, A) := L.potrf (gram n C)
      let C := trsm A C
      (if v.lastInfo then info3 else info2, C)

end QR

section Lanczos

/-- Local variables of `mLanczos`: the three vector blocks, the arrays `d`, `e`, `r_beta`, and the
buffer holding the search space. -/
structure LSt (K : Type*) (N : ℕ) where
  v0 : ℕ → Fin N → K
  v1 : ℕ → Fin N → K
  v2 : ℕ → Fin N → K
  d : ℕ → ℝ
  e : ℕ → ℝ
  rbeta : ℕ → ℝ
  C : ℕ → Fin N → K

/-- Which of the coefficients `axpy_batch` uses for run `i`: the one of the run (seq 628-636,
inplace 604-612) ... -/
def axpyOwn : ℕ → ℕ := fun i => i
/-- ... or always the first one (cuda_seq 971-979 passes `alpha`, not `&alpha[i]`). -/
def axpyFirst : ℕ → ℕ := fun _ => 0

/-- Body of the loop of `mLanczos`: seq 490-547 (batched kernels 592-636, `applyVec` multiplies with
`H^*`), inplace 465-522, cuda_seq 831-892 (`applyVec` multiplies with `H`, the same for a Hermitian
matrix); `k` the step, `store = !is_second_system`. -/
noncomputable def lanczosStep (pick : ℕ → ℕ) (H : Matrix (Fin N) (Fin N) K) (M numvec : ℕ) (store : Bool) (k : ℕ)
    (l : LSt K N) : LSt K N :=
  let C := if store then
      forRange 0 numvec (fun i C => Function.update C k (l.v1 i)) l.C else l.C
  let v2 := writeAt l.v2 0 numvec (fun i => Hᴴ.mulVec (l.v1 i))
  let alpha : ℕ → K := fun i => dotc (l.v1 i) (v2 i)
  let w := writeAt v2 0 numvec (fun i => (-alpha (pick i)) • l.v1 i + v2 i)
  let d := forRange 0 numvec (fun i d => Function.update d (k + M * i) (RCLike.re (alpha i))) l.d
  let w := if k > 0 then
      writeAt w 0 numvec (fun i => (-(l.rbeta (pick i) : K)) • l.v0 i + w i) else w
  let rbeta := writeAt l.rbeta 0 numvec (fun i => nrm2 (w i))
  if k = M - 1 then { l with C := C, v2 := w, d := d, rbeta := rbeta }
  else
    let w := writeAt w 0 numvec (fun i => ((1 / rbeta i : ℝ) : K) • w i)
    let e := forRange 0 numvec (fun i e => Function.update e (k + M * i) (rbeta i)) l.e
    -- v_1->swap(*v_0); v_1->swap(*v_2)
    { v0 := l.v1, v1 := w, v2 := l.v0, d := d, e := e, rbeta := rbeta, C := C }

/-- `mLanczos`: seq 460-555, inplace 435-531, cuda_seq 802-903.  The arrays `d`, `e` are zero-initialised by the caller
(chase_mpi 484-486, 511-513); the blocks `v_0`, `v_2` are written before they are read. -/
noncomputable def mLanczos (pick : ℕ → ℕ) (H : Matrix (Fin N) (Fin N) K) (M numvec : ℕ) (store : Bool)
    (C : ℕ → Fin N → K) : LSt K N :=
  let v1 : ℕ → Fin N → K := fun i => ((1 / nrm2 (C i) : ℝ) : K) • C i
  let l := forRange 0 M (lanczosStep pick H M numvec store)
    { v0 := fun _ _ => 0, v1 := v1, v2 := fun _ _ => 0, d := fun _ => 0, e := fun _ => 0,
      rbeta := fun _ => 0, C := C }
  if store then { l with C := copyCols 0 numvec l.v1 l.C } else l

/-- `Lanczos(M, upperb)`: chase_mpi 481-501; the search space is only read. -/
noncomputable def lanczosBound (pick : ℕ → ℕ) (L : Lapack K) (H : Matrix (Fin N) (Fin N) K) (M : ℕ)
    (C : ℕ → Fin N → K) : ℝ :=
  let l := mLanczos pick H M 1 false C
  let ritzv := (L.stemr M l.d l.e).1
  max |ritzv 0| |ritzv (M - 1)| + |l.rbeta 0|

/-- `Lanczos(M, numvec, ...)`: chase_mpi 508-545; returns also the new content of the search space.
`stemr` of run `i` reads `d + i*M`, `e + i*M`. -/
noncomputable def lanczosMulti (pick : ℕ → ℕ) (L : Lapack K) (H : Matrix (Fin N) (Fin N) K) (M numvec : ℕ)
    (C : ℕ → Fin N → K) : LanczosOut ℝ × (ℕ → Fin N → K) :=
  let l := mLanczos pick H M numvec true C
  let out := forRange 0 numvec (fun i (o : LanczosOut ℝ) =>
    let r := L.stemr M (fun k => l.d (i * M + k)) (fun k => l.e (i * M + k))
    { o with
      theta := writeAt o.theta (M * i) M r.1
      ritzV := r.2
      tau := forRange 0 M (fun k t =>
        Function.update t (k + i * M) (|r.2 (k * M)| * |r.2 (k * M)|)) o.tau })
    { upperb := 0, theta := fun _ => 0, tau := fun _ => 0, ritzV := fun _ => 0 }
  let ub0 := max |out.theta 0| |out.theta (M - 1)| + |l.rbeta 0|
  let ub := forRange 1 numvec (fun i ub =>
    max (max |out.theta (i * M)| |out.theta ((i + 1) * M - 1)| + |l.rbeta i|) ub) ub0
  ({ out with upperb := ub }, l.C)

end Lanczos

/-- Run-time parameters of a backend: sizes, LAPACK, the QR switches (chase_mpi 358-377). -/
structure Env (K : Type*) [RCLike K] where
  lapack : Lapack K
  nev : ℕ
  nex : ℕ
  doCholQR : Bool
  envDisable : Option ℤ
  condUpper : ℝ
  condLower : ℝ

/-- Number of columns of the search space. -/
def Env.nevex (E : Env K) : ℕ := E.nev + E.nex

end Verif
