/-
The returned vectors of the multi-GPU backend are orthonormal up to rounding errors: the invariant of a solve.
-/
import Verif.Rounded.ParGpuRun
import Verif.Rounded.Ortho

set_option linter.unusedSectionVars false

namespace Verif
namespace Rounded
namespace ParGpu

open Matrix Finset
open Seq (NextOp)
open Mpi (Layout GSt)
open Mpi.Spmd (Pos)
open Par (Red1 distArith OrthoPar chol1 shiftedChol2 withC Ascends)

/-! ### Specification -/

section
variable {K R 𝕜 : Type} [RCLike 𝕜] {N : ℕ} {r c : Layout N} (T : Red1 K R r c) (E : GEnv K R)

/-- The columns on which Householder QR ran, as the next call finds them: in the CUDA-aware setup without ScaLAPACK the
result goes to a buffer that is not read (dla 1054-1118, see `hhQRProg`). -/
noncomputable def hhCols [Neg R] [Zero R] (X : ℕ → Fin N → K) : ℕ → Fin N → K :=
  if E.aware && !E.scalapack then X else (distArith T E.toDEnv).hhQR X

/-- The columns which `QR` leaves from the columns `X` when the estimate of the condition number is `cond`, before the
locked ones are put back: chase_mpi 351-427.  When a Cholesky factorisation fails in the staged setup, Householder QR starts from the
vectors in host memory, which are still those before the factorisation. -/
noncomputable def qrColsDev [Neg R] [Zero R] (cond : R) (X : ℕ → Fin N → K) : ℕ → Fin N → K :=
  if cholDisable E.doCholQR E.envDisable = 1 then hhCols T E X
  else
    let y := if E.kern.above cond then shiftedChol2 T E.toDEnv X else if E.kern.below cond then chol1 T E.toDEnv X
      else chol2Dev T E X
    if y.1 ≠ 0 then hhCols T E (if E.aware then y.2 else X) else y.2

/-- A call of `QR` whose result is not an accurate orthonormal factor of the columns it was called with. -/
def InaccurateDev [Neg R] [Zero R] (F : Fl K 𝕜) (ε : ℝ) (_ : ℕ) (cond : R) (X : ℕ → Fin N → K) : Prop :=
  ¬ QrOf ε E.nevex (fun j => valV F (X j)) (fun j => valV F (qrColsDev T E cond X j))

/-- A setup in which every orthogonalisation leaves a copy of its result in the second buffer: staged, or the copy has
ended when Cholesky QR returns, or Householder QR only. -/
def Copies (E : GEnv K R) : Prop :=
  E.aware = true → E.copyDone = true ∨ cholDisable E.doCholQR E.envDisable = 1

end

section
variable {K R 𝕜 : Type} [RCLike 𝕜] {N : ℕ} {r c : Layout N} {T : Red1 K R r c} {E : GEnv K R} {F : Fl K 𝕜} {d : ℕ}
  {ε δ : ℝ}

/-- The phases, with the copy. -/
def phasesC (E : GEnv K R) : Phases (GG K R r c) :=
  { phases E with ready := fun s => (Rounded.phases E.toParams).ready s.g.toSt }

variable [Add R] [Sub R] [Mul R] [Div R] [Neg R] [Zero R] [One R] [NatCast R] [LT R] [DecidableLT R]

/-- The orthogonalisation, with its columns. -/
theorem qr_colsDev (T : Red1 K R r c) (E : GEnv K R) (k : ℕ) (x : R) (s : GG K R r c) :
    ∃ b t, Same s t ∧ t.g.C = qrColsDev T E x s.g.C ∧ (cholDisable E.doCholQR E.envDisable = 1 → b = true) ∧
      (ggOps T E).qr k x s = (gQrRoutines T E).lockCopy b t := by
  show ∃ b t, Same s t ∧ _ ∧ _ ∧ qrSelect (gQrRoutines T E) _ _ _ _ s = _
  have hhh : ∀ t : GG K R r c, ((gQrRoutines T E).hhQR t).g.C = hhCols T E t.g.C := fun _ => rfl
  unfold qrSelect qrColsDev
  by_cases hd : cholDisable E.doCholQR E.envDisable = 1
  · rw [if_pos hd, if_pos hd]
    exact ⟨_, _, same_hh T E s, hhh _, fun _ => rfl, rfl⟩
  · rw [if_neg hd, if_neg hd]
    have main : ∀ y : ℤ × (ℕ → Fin N → K), ∃ b t, Same s t ∧
        t.g.C = (if y.1 ≠ 0 then hhCols T E (if E.aware then y.2 else s.g.C) else y.2) ∧
        (cholDisable E.doCholQR E.envDisable = 1 → b = true) ∧
        (if (gChol E y s).1 ≠ 0 then (gQrRoutines T E).lockCopy true ((gQrRoutines T E).hhQR (gChol E y s).2)
          else (gQrRoutines T E).lockCopy false (gChol E y s).2) = (gQrRoutines T E).lockCopy b t := by
      intro y
      have e1 : (gChol E y s).1 = y.1 := rfl
      have e2 : (gChol E y s).2.g.C = if E.aware then y.2 else if y.1 = 0 then y.2 else s.g.C := by
        show (if E.aware then withC s.g y.2 else if y.1 = 0 then withC s.g y.2 else s.g).C = _
        split_ifs <;> rfl
      rw [e1]
      by_cases hy : y.1 = 0
      · rw [if_neg (by simpa using hy), if_neg (by simpa using hy)]
        refine ⟨_, _, same_chol E y s, ?_, fun h => absurd h hd, rfl⟩
        rw [e2, if_pos hy, ite_self]
      · rw [if_pos hy, if_pos hy]
        refine ⟨_, _, (same_chol E y s).trans (same_hh T E _), ?_, fun _ => rfl, rfl⟩
        rw [hhh, e2, if_neg hy]
    cases E.kern.above x
    · cases E.kern.below x
      · exact main (chol2Dev T E s.g.C)
      · exact main (chol1 T E.toDEnv s.g.C)
    · exact main (shiftedChol2 T E.toDEnv s.g.C)

/-- The columns in the first buffer after `QR`. -/
theorem qr_C (k : ℕ) (x : R) (s : GG K R r c) :
    cols ((ggOps T E).qr k x s) = copyCols 0 s.g.locked s.g.C2 (qrColsDev T E x s.g.C) := by
  obtain ⟨b, t, ⟨a1, a2, -⟩, hC, -, e⟩ := qr_colsDev T E k x s
  rw [e]
  show copyCols 0 t.g.locked t.g.C2 t.g.C = _
  rw [a1, a2, hC]

theorem frameC (hcop : Copies E) : Frame (ggOps T E) cols nl (phasesC E) N E.nevex :=
  let hb := frame T E
  { swap_low := hb.swap_low
    swap_nl := hb.swap_nl
    swap_inv := hb.swap_inv
    swap_synced := hb.swap_synced
    filter := hb.filter
    qr := by
      intro k x s h
      obtain ⟨a1, a2, -, a4⟩ := hb.qr k x s h
      refine ⟨a1, a2, ?_, a4⟩
      obtain ⟨b, t, ⟨b1, b2, b3, -, -⟩, hC, hd, e⟩ := qr_colsDev T E k x s
      have a2 : (Rounded.phases E.toParams).inv ((ggOps T E).qr k x s).g.toSt := a2
      rw [e] at a2
      obtain ⟨c1, c2, c3⟩ := a2
      have hcopy : (E.aware && !b && !E.copyDone) = false := by
        cases ha : E.aware with
        | false => rfl
        | true =>
          rcases hcop ha with h | h
          · simp [h]
          · simp [hd h]
      show (Rounded.phases E.toParams).ready ((ggOps T E).qr k x s).g.toSt
      rw [e]
      refine ⟨c1, c2, fun j hj => ?_⟩
      by_cases hl : j < t.g.locked
      · exact c3 j hl
      · show (if E.aware && !b && !E.copyDone then t.g.C2 else copyCols t.g.locked (E.nevex - t.g.locked)
          (copyCols 0 t.g.locked t.g.C2 t.g.C) t.g.C2) j = copyCols 0 t.g.locked t.g.C2 t.g.C j
        rw [hcopy, if_neg (by simp), copyCols_apply, if_pos ⟨by omega, by omega⟩]
    rr := by
      rintro s ⟨h1, h2, h3⟩ hl
      exact hb.rr s ⟨h1, h2, fun j hj => h3 j (lt_of_lt_of_le hj h2)⟩ hl
    resd := hb.resd
    lock := hb.lock
    start := hb.start
    check := hb.check
    initVecs := hb.initVecs
    lanczos1 := hb.lanczos1
    lanczosN := hb.lanczosN
    lanczosDos := hb.lanczosDos
    finish := hb.finish }

/-- The Rayleigh-Ritz step makes all columns nearly orthonormal, whatever small matrix it builds. -/
theorem rr_near (hA : OrthoPar F r E.toDEnv E.nevex d δ) (hε : 0 ≤ ε) (hδ : 0 ≤ δ) (s : GG K R r c)
    (hr : (phasesC E).ready s)
    (h1 : NearOrtho (tau E.nevex ε δ (gam F.u d)) (nl s) fun j => valV F (cols s j))
    (h2 : ReadyOrtho ε (nl s) E.nevex fun j => valV F (cols s j)) :
    NearOrtho (tau E.nevex ε δ (gam F.u d)) E.nevex fun j => valV F (cols (gRr T E (E.nevex - nl s) s).2 j) := by
  obtain ⟨-, hl, hc⟩ := hr
  have hl : s.g.locked ≤ E.nevex := hl
  have hK := hA.kernels (T := T)
  have hγ : 0 ≤ gam F.u d := by
    have := F.u_nonneg
    unfold gam
    linarith [one_le_pow₀ (n := d) (a := 1 + F.u) (by linarith)]
  have hc : ∀ j, j < E.nevex → s.g.C2 j = s.g.C j := hc
  obtain ⟨-, g2, g3, -⟩ := gather_frame T E (E.nevex - s.g.locked) (fun p => !s.hh p) s
  set b := E.nevex - s.g.locked with hb
  obtain ⟨M, hM⟩ : ∃ M : Matrix (Fin b) (Fin b) K, (gRr T E b s).2.g.C = setBlk (E.nevex - b)
      ((distArith T E.toDEnv).gemmBack (getBlk (E.nevex - b) b (gGather T E b (fun p => !s.hh p) s).g.C2)
        (E.kern.heevd M).2) (gGather T E b (fun p => !s.hh p) s).g.C := ⟨_, rfl⟩
  have elk : E.nevex - b = s.g.locked := by omega
  rw [elk, g2, g3] at hM
  obtain ⟨W, hW, hZ⟩ := hK.heevd (b := b) (by omega) M
  have enl : nl s = s.g.locked := rfl
  rw [enl] at h1 h2 ⊢
  refine h2.rr (W := W) (Z := fun k j => F.val ((E.kern.heevd M).2 k j)) hε hδ hγ hl h1 hW hZ (fun i hi => ?_) fun j => ?_
  · show valV F ((gRr T E b s).2.g.C i) = _
    rw [hM, setBlk_not_mem (Or.inl hi)]
    rfl
  · have hm := hK.mul (b := b) (by omega) (getBlk s.g.locked b s.g.C2) (E.kern.heevd M).2 j
    have e1 : ∀ k : Fin b, (fun i => F.val (getBlk s.g.locked b s.g.C2 i k)) = valV F (s.g.C (s.g.locked + k)) := by
      intro k
      funext i
      show F.val (s.g.C2 (s.g.locked + k) i) = _
      rw [hc _ (by omega)]
      rfl
    have e2 : valV F ((gRr T E b s).2.g.C (s.g.locked + j)) =
        fun i => F.val ((distArith T E.toDEnv).gemmBack (getBlk s.g.locked b s.g.C2) (E.kern.heevd M).2 i j) := by
      rw [hM, setBlk_mem (by omega) (by omega)]
      funext i
      simp [valV]
    simp only [e1] at hm
    show Verif.nrm2 (valV F ((gRr T E b s).2.g.C (s.g.locked + j)) - _) ≤ _
    rw [e2]
    exact hm

/-- The multi-GPU backend. -/
theorem near_frame (hcop : Copies E) (hA : OrthoPar F r E.toDEnv E.nevex d δ) (hε : 0 ≤ ε) (hδ : 0 ≤ δ) :
    Frame (watch (fun k x s => InaccurateDev T E F ε k x s.g.C) (ggOps T E)) (markedCols cols E.nevex)
      (fun p => nl p.1) (nearPh (phasesC E) cols nl (valV F) E.nevex (tau E.nevex ε δ (gam F.u d)) ε) N E.nevex := by
  refine Frame.near (frameC hcop) (fun _ h => h.2.1) ?_ ?_ ?_
  · rintro k x s ⟨hn, hl, hc⟩ hb
    have hl : s.g.locked ≤ E.nevex := hl
    have hc : ∀ j, j < s.g.locked → s.g.C2 j = s.g.C j := hc
    refine (not_not.mp hb).ready hl (fun i hi => ?_) fun i hi _ => ?_
    · have hi : i < s.g.locked := hi
      rw [qr_C, copyCols_apply, if_pos ⟨by omega, by omega⟩, hc i hi]
    · have hi : s.g.locked ≤ i := hi
      rw [qr_C, copyCols_apply, if_neg (by omega)]
  · intro s hr _ h1 h2
    exact rr_near hA hε hδ s hr h1 h2
  · exact fun _ _ _ _ _ h => h

theorem householder_avoidsDev (hd : cholDisable E.doCholQR E.envDisable = 1) (hs : E.aware = true → E.scalapack = true)
    (hq : ∀ X, QrOf ε E.nevex (fun j => valV F (X j)) fun j => valV F ((distArith T E.toDEnv).hhQR X j))
    {S : Type*} (C : S → ℕ → Fin N → K) (ops : Chase R S) (P : Plat R) (cfg : Config R) (r0 s0 : ℕ → R) (s : S) :
    QrAvoids P ops cfg r0 s0 s fun k x t => InaccurateDev T E F ε k x (C t) := by
  have key : ∀ k x X, ¬ InaccurateDev T E F ε k x X := by
    intro k x X h
    apply h
    have e : qrColsDev T E x X = (distArith T E.toDEnv).hhQR X := by
      unfold qrColsDev hhCols
      rw [if_pos hd, if_neg]
      cases ha : E.aware with
      | false => simp
      | true => simp [hs ha]
    rw [e]
    exact hq X
  exact QrAvoids.of_est (bad := fun k x t => InaccurateDev T E F ε k x (C t)) (fun _ => key _ _ _)
    (fun _ _ _ _ _ _ _ _ => key _ _ _) ops cfg r0 s0 s

end

section
variable {K R : Type} {N : ℕ} {r c : Layout N} (T : Red1 K R r c) (E : GEnv K R)
variable [Add R] [Sub R] [Mul R] [Div R] [Neg R] [Zero R] [One R] [NatCast R] [LinearOrder R]

theorem makesAscending (hE : Ascends E.toDEnv) (ph : Phases (GG K R r c)) :
    MakesAscending (ggOps T E) nl ph E.nevex := by
  intro s _ i j hij hj
  have e : ∀ (k : ℕ) (h : k < E.nevex - nl s), ((ggOps T E).rr (E.nevex - nl s) s).1 k =
      (E.kern.heevd _).1 ⟨k, h⟩ := fun k h => dif_pos h
  show ((ggOps T E).rr (E.nevex - nl s) s).1 i ≤ ((ggOps T E).rr (E.nevex - nl s) s).1 j
  rw [e i (by omega), e j hj]
  exact hE _ _ _ _ hij

end
end ParGpu
end Rounded
end Verif
