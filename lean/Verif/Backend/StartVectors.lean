/-
C54: in approximation mode the solve starts from the vectors in the user's array.
-/
import Verif.Backend.Seq
import Verif.Backend.InPlace
import Verif.Solver.Sim

namespace Verif

open Matrix

variable {K : Type*} [RCLike K] {N : ℕ}

/-- **C54** (CPU backend) When the solver has initialised its vectors in approximation mode, the block
it works on is the user's array, unchanged; `C` is that array. -/
theorem C54_start_vectors_seq (E : Env K) (s : Seq.St K N) :
    ((Seq.ops E).initVecs false ((Seq.ops E).start s)).C = s.C := rfl

/-- **C54** (in-place CPU backend) The same for the in-place backend, if the user's array is the
current buffer, as it is after construction. -/
theorem C54_start_vectors_inplace (E : Env K) (s : InPlace.St K N) (hf : s.flipped = false) :
    ((InPlace.ops E .cpu).initVecs false ((InPlace.ops E .cpu).start s)).V1 = s.userV .cpu := by
  unfold InPlace.St.userV
  rw [hf]
  rfl

/-- **C54** (CPU and in-place backends) Without approximation mode every column of the block the solver
starts from holds its own numbers of the random stream, whatever the user's array held. -/
theorem C54_random_start (E : Env K) (s : Seq.St K N) (k : InPlace.Kind) (t : InPlace.St K N) (j : ℕ)
    (hj : j < E.nev + E.nex) :
    ((Seq.ops E).initVecs true ((Seq.ops E).start s)).C j = (fun i : Fin N => E.lapack.randn j i) ∧
    ((InPlace.ops E k).initVecs true ((InPlace.ops E k).start t)).V1 j = fun i : Fin N => E.lapack.randn j i := by
  have h : j < E.nevex := hj
  constructor
  · show writeAt s.C 0 E.nevex (fun j i => E.lapack.randn j i) j = _
    simp [writeAt, h]
  · cases k
    · show writeAt t.V1 0 E.nevex (fun j i => E.lapack.randn j i) j = _
      simp [writeAt, h]
    · show writeAt t.V1 0 E.nevex (fun j i => E.lapack.randn j i) j = _
      simp [writeAt, h]

/-- Same state up to the content of the user's array. -/
def SameDevice (s s' : InPlace.St K N) : Prop := ∃ u, s' = { s with user := u }

section sim
variable (E : Env K)

theorem qrSelect_sameDevice (l : ℕ) (d : Bool) (env : Option ℤ) (a b : Bool) (s : InPlace.St K N)
    (u : ℕ → Fin N → K) :
    qrSelect (InPlace.qrRoutines E .cuda l) d env a b { s with user := u } =
      { qrSelect (InPlace.qrRoutines E .cuda l) d env a b s with user := u } := by
  have h1 : ∀ s : InPlace.St K N, (InPlace.qrRoutines E .cuda l).hhQR { s with user := u } =
      { (InPlace.qrRoutines E .cuda l).hhQR s with user := u } := fun _ => rfl
  have h2 : ∀ f s, (InPlace.qrRoutines E .cuda l).lockCopy f { s with user := u } =
      { (InPlace.qrRoutines E .cuda l).lockCopy f s with user := u } := fun _ _ => rfl
  have h3 : ∀ s : InPlace.St K N, (if a = true then (InPlace.qrRoutines E .cuda l).shiftedcholQR2 { s with user := u }
      else if b = true then (InPlace.qrRoutines E .cuda l).cholQR1 { s with user := u }
      else (InPlace.qrRoutines E .cuda l).cholQR2 { s with user := u }) =
      ((if a = true then (InPlace.qrRoutines E .cuda l).shiftedcholQR2 s
      else if b = true then (InPlace.qrRoutines E .cuda l).cholQR1 s
      else (InPlace.qrRoutines E .cuda l).cholQR2 s).1,
      { (if a = true then (InPlace.qrRoutines E .cuda l).shiftedcholQR2 s
      else if b = true then (InPlace.qrRoutines E .cuda l).cholQR1 s
      else (InPlace.qrRoutines E .cuda l).cholQR2 s).2 with user := u }) := by
    intro s
    split_ifs <;> rfl
  unfold qrSelect
  by_cases hc : cholDisable d env = 1
  · rw [if_pos hc, if_pos hc, h1, h2]
  · rw [if_neg hc, if_neg hc, h3]
    generalize (if a = true then (InPlace.qrRoutines E .cuda l).shiftedcholQR2 s
      else if b = true then (InPlace.qrRoutines E .cuda l).cholQR1 s
      else (InPlace.qrRoutines E .cuda l).cholQR2 s) = x
    obtain ⟨i, s1⟩ := x
    dsimp only
    by_cases hi : i ≠ 0
    · rw [if_pos hi, if_pos hi, h1, h2]
    · rw [if_neg hi, if_neg hi, h2]

theorem resd_sameDevice (f : ℕ → ℝ) (l n : ℕ) (s : InPlace.St K N) (u : ℕ → Fin N → K) :
    InPlace.resd .cuda f l n { s with user := u } =
      ((InPlace.resd .cuda f l n s).1, { (InPlace.resd .cuda f l n s).2 with user := u }) := by
  let body : ℕ → (ℕ → ℝ) × InPlace.St K N → (ℕ → ℝ) × InPlace.St K N := fun i p =>
    let V2 := Function.update p.2.V2 (l + i)
      ((-(s.dRitz i : K)) • p.2.V1 (l + i) + p.2.V2 (l + i))
    (Function.update p.1 i (nrm2 (V2 (l + i))), { p.2 with V2 := V2 })
  let f : (ℕ → ℝ) × InPlace.St K N → (ℕ → ℝ) × InPlace.St K N :=
    fun p => (p.1, { p.2 with user := u })
  exact (forRange_map f body body (fun i p _ _ => rfl) ((fun _ => 0 : ℕ → ℝ),
    { s with V2 := setBlk l (s.Hᴴ * getBlk l n s.V1) s.V2 })).symm

/-- Nothing but the final copy touches or reads the user's array. -/
theorem cuda_sim : Sim (InPlace.ops (N := N) E .cuda) (InPlace.ops E .cuda) SameDevice where
  checkSymmetryEasy := by rintro s _ ⟨u, rfl⟩; exact ⟨rfl, u, rfl⟩
  start := by rintro s _ ⟨u, rfl⟩; exact ⟨u, rfl⟩
  finish := by
    rintro s _ ⟨u, rfl⟩
    exact ⟨copyCols 0 E.nevex s.V1 u, rfl⟩
  initVecs := by
    rintro b s _ ⟨u, rfl⟩
    refine ⟨u, ?_⟩
    cases b <;> rfl
  qr := by
    rintro k c s _ ⟨u, rfl⟩
    exact ⟨u, qrSelect_sameDevice E _ _ _ _ _ s u⟩
  lanczos1 := by rintro m s _ ⟨u, rfl⟩; exact ⟨rfl, u, rfl⟩
  lanczosN := by rintro m k s _ ⟨u, rfl⟩; exact ⟨rfl, u, rfl⟩
  lanczosDos := by rintro i m z s _ ⟨u, rfl⟩; exact ⟨u, rfl⟩
  shift := by rintro c b s _ ⟨u, rfl⟩; exact ⟨u, rfl⟩
  hemm := by rintro n a b o s _ ⟨u, rfl⟩; exact ⟨u, rfl⟩
  rr := by rintro b s _ ⟨u, rfl⟩; exact ⟨rfl, u, rfl⟩
  resd := by
    rintro f k s _ ⟨u, rfl⟩
    have := resd_sameDevice f s.locked (E.nevex - k) s u
    exact ⟨(congrArg Prod.fst this).symm, u, congrArg Prod.snd this⟩
  lock := by rintro k s _ ⟨u, rfl⟩; exact ⟨u, rfl⟩
  swap := by rintro i j s _ ⟨u, rfl⟩; exact ⟨u, rfl⟩

end sim

/-- **C54 is false of the CUDA backend**: whatever vectors the user puts into the array `V`, the solve
(in approximation mode too) takes the same course and returns the same values, residuals and number of
iterations. -/
theorem C54_cuda_ignores_user_vectors (P : Plat ℝ) (E : Env K) (cfg : Config ℝ)
    (ritzv0 resid0 : ℕ → ℝ) (s : InPlace.St K N) (u : ℕ → Fin N → K) :
    RelE (Outcome.Rel SameDevice) (solve P (InPlace.ops E .cuda) cfg ritzv0 resid0 s)
      (solve P (InPlace.ops E .cuda) cfg ritzv0 resid0 { s with user := u }) :=
  solve_sim (cuda_sim E) P cfg ritzv0 resid0 ⟨u, rfl⟩

/-- The state of a CUDA backend right after construction: the device buffers are zeroed
(chase_mpi_matrices.hpp 84-88). -/
def cudaFresh (H : Matrix (Fin N) (Fin N) K) (V : ℕ → Fin N → K) : InPlace.St K N where
  H := 0
  hostH := H
  V1 := fun _ => 0
  V2 := fun _ => 0
  user := V
  flipped := false
  dRitz := fun _ => 0
  locked := 0
  isSym := false

/-- **C54 is false of the CUDA backend**: in approximation mode a freshly constructed backend starts
from zero vectors, not from the user's. -/
theorem C54_cuda_starts_from_zero (E : Env K) (H : Matrix (Fin N) (Fin N) K) (V : ℕ → Fin N → K) :
    ((InPlace.ops E .cuda).initVecs false ((InPlace.ops E .cuda).start (cudaFresh H V))).V1 =
      fun _ => 0 := rfl

end Verif
