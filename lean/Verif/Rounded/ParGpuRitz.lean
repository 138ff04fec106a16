/-
Where the values of a solve of the multi-GPU backend come from, in every arithmetic.  The Rayleigh-Ritz step multiplies
what the device holds, so these must be the vectors that the orthogonalisation left.
-/
import Verif.Rounded.ParGpuOrtho
import Verif.Rounded.RitzPar

set_option linter.unusedSectionVars false

namespace Verif
namespace Rounded
namespace ParGpu

open Matrix Finset
open Seq (NextOp)
open Mpi (Layout GSt)
open Mpi.Spmd (Pos)
open Par (Red1 distArith OrthoPar chol1 shiftedChol2 withC Ascends cutM cutV cutH joinM square flat ext symCheckG
  recordAndMark still_stamps shiftsOf_filter)

section
variable {K R 𝕜 : Type} [RCLike 𝕜] {N : ℕ} {r c : Layout N} {T : Red1 K R r c} {E : GEnv K R} {F : Fl K 𝕜} {d : ℕ}
  {ε δ : ℝ}

/-- A setup in which the Rayleigh-Ritz step finds the result of every orthogonalisation on the device: without staged
copies next to ScaLAPACK, for which C60 is refuted (dla 956, 1054-1118, mgpu 514-534). -/
def Fresh (E : GEnv K R) : Prop := E.aware = false → E.scalapack = false

/-- Staged: a device from which the next Rayleigh-Ritz step takes its vectors holds those that are not locked. -/
def OnDevice (E : GEnv K R) (s : GG K R r c) : Prop :=
  E.aware = false → ∀ p : Pos r c, s.hh p = false → ∀ j, s.g.locked ≤ j → j < E.nevex →
    (s.oth p).C j = cutV r p.1 (s.g.C j)

/-- The phases, with the copy and the device. -/
def phasesD (E : GEnv K R) : Phases (GG K R r c) :=
  { phasesC E with ready := fun s => (phasesC E).ready s ∧ OnDevice E s }

variable [Add R] [Sub R] [Mul R] [Div R] [Neg R] [Zero R] [One R] [NatCast R] [LT R] [DecidableLT R]

theorem qr_onDevice (hf : Fresh E) (k : ℕ) (x : R) (s : GG K R r c) : OnDevice E ((ggOps T E).qr k x s) := by
  intro hE
  have hsc := hf hE
  have hh : ∀ (b : Bool) (t : GG K R r c) (p : Pos r c),
      ((gQrRoutines T E).lockCopy b ((gQrRoutines T E).hhQR t)).hh p = true := by
    intro b t p
    show (if E.scalapack then t.hh else fun _ => true) p = true
    rw [hsc]
    rfl
  show ∀ p : Pos r c, (qrSelect (gQrRoutines T E) _ _ _ _ s).hh p = false → ∀ j,
    (qrSelect (gQrRoutines T E) _ _ _ _ s).g.locked ≤ j → j < E.nevex →
    ((qrSelect (gQrRoutines T E) _ _ _ _ s).oth p).C j = cutV r p.1 ((qrSelect (gQrRoutines T E) _ _ _ _ s).g.C j)
  unfold qrSelect
  by_cases hd : cholDisable E.doCholQR E.envDisable = 1
  · rw [if_pos hd]
    intro p hp
    rw [hh] at hp
    cases hp
  · rw [if_neg hd]
    have main : ∀ y : ℤ × (ℕ → Fin N → K), ∀ p : Pos r c,
        (if (gChol E y s).1 ≠ 0 then (gQrRoutines T E).lockCopy true ((gQrRoutines T E).hhQR (gChol E y s).2)
          else (gQrRoutines T E).lockCopy false (gChol E y s).2).hh p = false → ∀ j,
        (if (gChol E y s).1 ≠ 0 then (gQrRoutines T E).lockCopy true ((gQrRoutines T E).hhQR (gChol E y s).2)
          else (gQrRoutines T E).lockCopy false (gChol E y s).2).g.locked ≤ j → j < E.nevex →
        ((if (gChol E y s).1 ≠ 0 then (gQrRoutines T E).lockCopy true ((gQrRoutines T E).hhQR (gChol E y s).2)
          else (gQrRoutines T E).lockCopy false (gChol E y s).2).oth p).C j =
        cutV r p.1 ((if (gChol E y s).1 ≠ 0 then (gQrRoutines T E).lockCopy true ((gQrRoutines T E).hhQR (gChol E y s).2)
          else (gQrRoutines T E).lockCopy false (gChol E y s).2).g.C j) := by
      intro y p
      by_cases hy : y.1 = 0
      · have hy' : ¬ (gChol E y s).1 ≠ 0 := not_not.mpr hy
        rw [if_neg hy']
        intro _ j hj _
        have e1 : (gChol E y s).2.g = withC s.g y.2 := by
          show (if E.aware then withC s.g y.2 else if y.1 = 0 then withC s.g y.2 else s.g) = _
          rw [hE, if_neg Bool.false_ne_true, if_pos hy]
        have hj : (gChol E y s).2.g.locked ≤ j := hj
        show ((if E.aware then s.oth else fun p => { s.oth p with C := Par.cut r p.1 y.2 }) p).C j =
          cutV r p.1 (copyCols 0 (gChol E y s).2.g.locked (gChol E y s).2.g.C2 (gChol E y s).2.g.C j)
        rw [hE, if_neg Bool.false_ne_true, copyCols_apply, if_neg (by omega), e1]
        rfl
      · have hy' : (gChol E y s).1 ≠ 0 := hy
        rw [if_pos hy']
        intro hp
        rw [hh] at hp
        cases hp
    cases E.kern.above x
    · cases E.kern.below x
      · exact main (chol2Dev T E s.g.C)
      · exact main (chol1 T E.toDEnv s.g.C)
    · exact main (shiftedChol2 T E.toDEnv s.g.C)

theorem frameD (hcop : Copies E) (hf : Fresh E) : Frame (ggOps T E) cols nl (phasesD E) N E.nevex :=
  let hb := frameC hcop
  { swap_low := hb.swap_low
    swap_nl := hb.swap_nl
    swap_inv := hb.swap_inv
    swap_synced := hb.swap_synced
    filter := hb.filter
    qr := by
      intro k x s h
      obtain ⟨a1, a2, a3, a4⟩ := hb.qr k x s h
      exact ⟨a1, a2, ⟨a3, qr_onDevice hf k x s⟩, a4⟩
    rr := fun s h => hb.rr s h.1
    resd := hb.resd
    lock := hb.lock
    start := hb.start
    check := hb.check
    initVecs := hb.initVecs
    lanczos1 := hb.lanczos1
    lanczosN := hb.lanczosN
    lanczosDos := hb.lanczosDos
    finish := hb.finish }

/-- The product in `asynCxHGatherC`, if the device holds the vectors. -/
theorem gather_B (hY : IgnoresTarget E) (u : ℕ) (f : Pos r c → Bool) (s : GG K R r c)
    (hd : E.aware = false → ∀ p : Pos r c, f p = true → ∀ j, s.g.locked ≤ j → j < s.g.locked + u →
      (s.oth p).C j = cutV r p.1 (s.g.C j)) :
    getBlk s.g.locked u (gGather T E u f s).g.B = (distArith T E.toDEnv).gemm true s.dH (distArith T E.toDEnv).one
      (distArith T E.toDEnv).zero (getBlk s.g.locked u s.g.C) (getBlk s.g.locked u s.g.B) := by
  set l := s.g.locked with hl
  have get : ∀ (Z : Matrix (Fin N) (Fin u) K) (Y : ℕ → Fin N → K), getBlk l u (setBlk l Z Y) = Z := by
    intro Z Y
    funext a k
    show setBlk l Z Y (l + k) a = _
    rw [setBlk_mem (by omega) (by omega)]
    simp
  unfold gGather
  cases hE : E.aware with
  | true => exact get _ _
  | false =>
    refine (get _ _).trans ?_
    show _ = Par.mulAdj T E.toDEnv s.dH E.kern.one E.kern.zero (getBlk l u s.g.C) (getBlk l u s.g.B)
    unfold Par.mulAdj
    congr 1
    funext j
    congr 2
    funext i
    congr 1
    unfold prodB
    dsimp only
    rw [ite_self]
    have e1 : getBlk l u (if f (i, j) then s.oth (i, j) else upC l u (s.part (i, j)).own (s.oth (i, j))).C =
        cutM r i (getBlk l u s.g.C) := by
      funext a k
      show (if f (i, j) then s.oth (i, j) else upC l u (s.part (i, j)).own (s.oth (i, j))).C (l + k) a =
        cutV r i (s.g.C (l + k)) a
      cases hfp : f (i, j) with
      | true => exact congrFun (hd hE (i, j) hfp (l + k) (by omega) (by omega)) a
      | false =>
        show copyCols l u (Par.cut r i s.g.C) (s.oth (i, j)).C (l + k) a = _
        rw [copyCols_apply, if_pos ⟨by omega, by omega⟩]
        rfl
    rw [e1]
    exact hY _ _ _ _

/-- A Rayleigh-Ritz step right after the orthogonalisation. -/
theorem rr_pairDev (hY : IgnoresTarget E) (s : GG K R r c) (hr : (phasesD E).ready s)
    (h2 : ReadyOrtho ε (nl s) E.nevex fun j => valV F (cols s j)) {i : ℕ} (hi : i < E.nevex - nl s) :
    RitzPair F (distArith T E.toDEnv) E.nevex ε s.dH ((gRr T E (E.nevex - nl s) s).1 i)
      ((gRr T E (E.nevex - nl s) s).2.g.C (nl s + i)) := by
  obtain ⟨⟨-, hl, hc⟩, hdev⟩ := hr
  have hl : s.g.locked ≤ E.nevex := hl
  have hc : ∀ j, j < E.nevex → s.g.C2 j = s.g.C j := hc
  have hi : i < E.nevex - s.g.locked := hi
  show RitzPair F (distArith T E.toDEnv) E.nevex ε s.dH ((gRr T E (E.nevex - s.g.locked) s).1 i)
      ((gRr T E (E.nevex - s.g.locked) s).2.g.C (s.g.locked + i))
  set A := distArith T E.toDEnv with hA
  set l := s.g.locked with hl0
  set b := E.nevex - l with hb
  obtain ⟨g1, g2, g3, -, -, -, -, g8⟩ := gather_frame T E b (fun p => !s.hh p) s
  have e3 := gather_B (T := T) hY b (fun p => !s.hh p) s fun hE p hp j h3 h4 =>
    hdev hE p (by simpa using hp) j h3 (by omega)
  have e1 : getBlk l b s.g.C2 = getBlk l b s.g.C := by
    funext a k
    show s.g.C2 (l + k) a = s.g.C (l + k) a
    rw [hc _ (by omega)]
  have e2 : getBlk l b (gGather T E b (fun p => !s.hh p) s).g.B2 = getBlk l b s.g.C := by
    rw [g8]
    funext a k
    show copyCols l b s.g.C2 s.g.B2 (l + k) a = s.g.C (l + k) a
    rw [copyCols_apply, if_pos ⟨by omega, by omega⟩, hc _ (by omega)]
  have elk : E.nevex - b = l := by omega
  refine ⟨b, by omega, getBlk l b s.g.C, getBlk l b s.g.B, _, ⟨i, hi⟩, fun k => h2.norm_le k, .inl rfl, ?_, ?_⟩
  · show ext 0 (E.kern.heevd (A.gemmProj (getBlk (gGather T E b (fun p => !s.hh p) s).g.locked b
        (gGather T E b (fun p => !s.hh p) s).g.B2) (getBlk (gGather T E b (fun p => !s.hh p) s).g.locked b
        (gGather T E b (fun p => !s.hh p) s).g.B))).1 i = _
    rw [g1, ← hl0, e2, e3]
    exact dif_pos hi
  · show setBlk (E.nevex - b) (A.gemmBack (getBlk (E.nevex - b) b (gGather T E b (fun p => !s.hh p) s).g.C2)
      (E.kern.heevd (A.gemmProj (getBlk (gGather T E b (fun p => !s.hh p) s).g.locked b
        (gGather T E b (fun p => !s.hh p) s).g.B2) (getBlk (gGather T E b (fun p => !s.hh p) s).g.locked b
        (gGather T E b (fun p => !s.hh p) s).g.B))).2) (gGather T E b (fun p => !s.hh p) s).g.C (l + i) = _
    rw [elk, g1, g2, ← hl0, e1, e2, e3, setBlk_mem (by omega) (by omega)]
    simp
    rfl

/-- The recorder, watched for inaccurate calls of `QR`. -/
noncomputable abbrev ggOpsW (T : Red1 K R r c) (E : GEnv K R) (F : Fl K 𝕜) (ε : ℝ) :
    Chase R ((GG K R r c × List (Call R) × (ℕ → Option (List (Call R)))) × Prop) :=
  watch (fun k x (t : GG K R r c × List (Call R) × (ℕ → Option (List (Call R)))) =>
    InaccurateDev T E F ε k x t.1.g.C) (quiet E.nevex (ggOps T E))

/-- The phases of the recorder, with the copy and the device. -/
def phSD (T : Red1 K R r c) (E : GEnv K R) (H0 : Matrix (Fin N) (Fin N) K) :
    Phases (GG K R r c × List (Call R) × (ℕ → Option (List (Call R)))) where
  pre := fun s => (phasesD E).pre s.1 ∧ (s.1.g.H = H0 ∧ shiftsOf s.2.1 = [])
  inv := fun s => (phasesD E).inv s.1 ∧ s.1.dH = afterShifts (distArith T E.toDEnv) H0 (shiftsOf s.2.1)
  ready := fun s => (phasesD E).ready s.1 ∧ s.1.dH = afterShifts (distArith T E.toDEnv) H0 (shiftsOf s.2.1)
  synced := fun s => (phasesD E).synced s.1 ∧ s.1.dH = afterShifts (distArith T E.toDEnv) H0 (shiftsOf s.2.1)

theorem frameSD (hcop : Copies E) (hf : Fresh E) (H0 : Matrix (Fin N) (Fin N) K) : Frame (quiet E.nevex (ggOps T E))
    (fun s i => (cols s.1 i, s.2.2 i)) (fun s => nl s.1) (phSD T E H0) N E.nevex :=
  ((frameD hcop hf).quiet).keepAfter (device_keep T E H0)

theorem frameW (hcop : Copies E) (hf : Fresh E) (hA : OrthoPar F r E.toDEnv E.nevex d δ) (hε : 0 ≤ ε) (hδ : 0 ≤ δ)
    (H0 : Matrix (Fin N) (Fin N) K) :
    Frame (ggOpsW T E F ε) (markedCols (fun s i => (cols s.1 i, s.2.2 i)) E.nevex) (fun p => nl p.1.1)
      (nearPh (phSD T E H0) (fun s i => (cols s.1 i, s.2.2 i)) (fun s => nl s.1) (fun v => valV F v.1) E.nevex
        (tau E.nevex ε δ (gam F.u d)) ε) N E.nevex := by
  refine Frame.near (frameSD hcop hf H0) (fun _ h => h.1.2.1) ?_ ?_ ?_
  · rintro k x s ⟨⟨hn, hl, hc⟩, -⟩ hb
    have hl : s.1.g.locked ≤ E.nevex := hl
    have hc : ∀ j, j < s.1.g.locked → s.1.g.C2 j = s.1.g.C j := hc
    refine (not_not.mp hb).ready hl (fun i hi => ?_) fun i hi _ => ?_
    · have hi : i < s.1.g.locked := hi
      show valV F (cols ((ggOps T E).qr k x s.1) i) = _
      rw [qr_C, copyCols_apply, if_pos ⟨by omega, by omega⟩, hc i hi]
    · have hi : s.1.g.locked ≤ i := hi
      show valV F (cols ((ggOps T E).qr k x s.1) i) = _
      rw [qr_C, copyCols_apply, if_neg (by omega)]
  · intro s hr _ h1 h2
    exact rr_near hA hε hδ s.1 hr.1.1 h1 h2
  · exact fun _ _ _ _ _ h => h

end

section
variable {K R 𝕜 : Type} [RCLike 𝕜] [LinearOrder R] [Add R] [Sub R] [Mul R] [Div R] [Neg R] [Zero R] [One R] [NatCast R]
  {N : ℕ} {r c : Layout N} {T : Red1 K R r c} {E : GEnv K R} {F : Fl K 𝕜} {d : ℕ} {ε δ : ℝ}

/-- **Where the values come from, in every arithmetic.**  After a solve with at least one round in which every
orthogonalisation was accurate: the value at position `i` and the column at position `σ i` come out of a Rayleigh-Ritz
step with the matrix as it was, after some complete pairs of shifts, in one of the rounds; with a sort that keeps ascending
lists, the residual at position `σ i` is theirs. -/
theorem pairs_at_end (hcop : Copies E) (hf : Fresh E) (hY : IgnoresTarget E)
    (hA : OrthoPar F r E.toDEnv E.nevex d δ) (hε : 0 ≤ ε) (hδ : 0 ≤ δ) (hE : Ascends E.toDEnv) (P : Plat R)
    (hP : SortsIndices P) (cfg : Config R) (hN : cfg.N = N) (hsz : cfg.nev + cfg.nex = E.nevex) (hmax : Even cfg.maxDeg)
    (ritzv0 resid0 : ℕ → R) (s : GG K R r c) (out : Outcome R (GG K R r c × List (Call R)))
    (h : solve P (traced (ggOps T E)) cfg ritzv0 resid0 (s, []) = .ok out)
    (hsym : cfg.symCheck = true → symCheckG T E.toDEnv s.g.H = true) (hit : 0 < out.iterations)
    (hq : QrAvoids P (ggOps T E) cfg ritzv0 resid0 s fun k x t => InaccurateDev T E F ε k x t.g.C) :
    ∃ σ : Equiv.Perm ℕ, PermOn 0 cfg.nev σ ∧ (out.iterations = 1 → σ = 1) ∧ ∀ i, i < cfg.nev + cfg.nex →
      (∃ xs : List R, xs.length ≤ out.iterations ∧ (∀ x ∈ pairsOf xs, x ∈ shiftsOf out.be.2) ∧
        RitzPair F (distArith T E.toDEnv) (cfg.nev + cfg.nex) ε (afterShifts (distArith T E.toDEnv) s.g.H (pairsOf xs)) (out.ritzv i)
          (out.be.1.g.C (σ i))) ∧
      (SameResidual E → SortKeepsSorted P → ∃ xs : List R, xs.length ≤ out.iterations ∧ (∀ x ∈ pairsOf xs, x ∈ shiftsOf out.be.2) ∧
        Par.Measured T E.toDEnv (afterShifts (distArith T E.toDEnv) s.g.H (pairsOf xs)) (out.ritzv i) (out.be.1.g.C (σ i))
          (out.resid (σ i))) := by
  have hpath := C57_call_protocol hP.permutes ritzv0 resid0 s out h hsym
  have hsim := solve_sim (quiet_sim E.nevex (ggOps T E)) P cfg ritzv0 resid0
    (be := (s, [], fun _ => none)) (be' := (s, [])) ⟨rfl, rfl⟩
  rw [h] at hsim
  generalize hx : solve P (quiet E.nevex (ggOps T E)) cfg ritzv0 resid0 (s, [], fun _ => none) = x at hsim
  cases hsim with
  | @ok o0 _ hr0 =>
    obtain ⟨hbe1, hbe2⟩ := hr0.be
    have h1 := solve_sim (watch_sim (fun k x (t : GG K R r c × List (Call R) × (ℕ → Option (List (Call R)))) =>
      InaccurateDev T E F ε k x t.1.g.C) (quiet E.nevex (ggOps T E))) P cfg ritzv0 resid0
      (be := ((s, [], fun _ => none), False)) (be' := (s, [], fun _ => none)) rfl
    rw [hx] at h1
    generalize hw : solve P (ggOpsW T E F ε) cfg ritzv0 resid0 ((s, [], fun _ => none), False) = y at h1
    cases h1 with
    | @ok o1 _ hr1 =>
      have hm : ¬ o1.be.2 := QrAvoids.of_sim (π := fun p : GG K R r c × List (Call R) × (ℕ → Option (List (Call R))) => p.1)
        (s := (s, [], fun _ => none)) (quiet_sim_ops E.nevex (ggOps T E)) hq o1 hw
      have h2 := solve_sim (still_sim E.nevex recordAndMark (ggOpsW T E F ε)) P cfg ritzv0 resid0
        (be := (((s, [], fun _ => none), False), fun _ => none)) (be' := ((s, [], fun _ => none), False)) rfl
      rw [hw] at h2
      generalize hz : solve P (still E.nevex recordAndMark (ggOpsW T E F ε)) cfg ritzv0 resid0
        (((s, [], fun _ => none), False), fun _ => none) = z at h2
      cases h2 with
      | @ok o _ hr =>
        have hfr := (frameW (T := T) hcop hf hA hε hδ s.g.H).still recordAndMark
        obtain ⟨be0, st, -, -, -, -, σ, hσ, -, hpair, -, hone, hmeas⟩ := C05_noSwap_partial P
          (still E.nevex recordAndMark (ggOpsW T E F ε)) _ _ _
          (fun x (v : (((Fin N → K) × Option (List (Call R))) × Prop) × Option (List (Call R) × Prop)) =>
            ∃ t : List (Call R) × Prop, v.2 = some t ∧
            (¬ t.2 → RitzPair F (distArith T E.toDEnv) E.nevex ε (afterShifts (distArith T E.toDEnv) s.g.H (shiftsOf t.1)) x v.1.1.1))
          (fun x v ρ => SameResidual E → ∃ t, v.1.1.2 = some t ∧
            Par.Measured T E.toDEnv (afterShifts (distArith T E.toDEnv) s.g.H (shiftsOf t)) x v.1.1.1 ρ) cfg hP
          (by rw [hsz, hN]; exact hfr) (fun _ _ _ => rfl) hmax
          (by
            rw [hsz]
            exact fun s _ => makesAscending T E hE ⟨fun _ => True, fun _ => True, fun _ => True, fun _ => True⟩ s.1.1.1
              trivial)
          (by
            rw [hsz]
            rintro p ⟨⟨hph, hH⟩, hn⟩ i hi
            have hl : p.1.1.1.g.locked ≤ E.nevex := hph.1.2.1
            have hi' : i < E.nevex - p.1.1.1.g.locked := hi
            refine ⟨recordAndMark p.1, ?_, fun hm => ?_⟩
            · show writeAt p.2 (E.nevex - (E.nevex - p.1.1.1.g.locked)) (E.nevex - p.1.1.1.g.locked)
                (fun _ => some (recordAndMark p.1)) (p.1.1.1.g.locked + i) = some _
              unfold writeAt
              rw [if_pos (by omega)]
            · have := rr_pairDev (T := T) hY p.1.1.1 hph (hn hm).2 hi
              rw [hH] at this
              exact this)
          (by
            rw [hsz]
            intro f p hp hl hf i hi hres
            obtain ⟨⟨⟨⟨h1, h2, h3⟩, -⟩, hH⟩, -⟩ := hp
            exact makesResidualsS T E hY hres s.g.H f p.1.1 ⟨⟨h1, h2, fun j hj => h3 j (lt_of_lt_of_le hj h2)⟩, hH⟩ hl hf i hi)
          ritzv0 resid0 (((s, [], fun _ => none), False), fun _ => none)
          ((⟨trivial, rfl, rfl⟩ : (phSD T E s.g.H).pre (s, [], fun _ => none))) o hsym hz
          (by rw [hr.iterations, hr1.iterations, hr0.iterations]; exact hit)
        have htag := (still_stamps _ (ggOps T E) E.nevex).solve hz (by intro i t h; cases h)
        have htag0 := (quiet_stamps E.nevex (ggOps T E)).solve hx (by intro i t h; cases h)
        have hbo : o.be.1 = o1.be := hr.be
        have hbo1 : o1.be.1 = o0.be := hr1.be
        refine ⟨σ, hσ, fun h => hone (by rw [hr.iterations, hr1.iterations, hr0.iterations]; exact h),
          fun i hi => ⟨?_, fun hres hkeep => ?_⟩⟩
        rotate_left
        · obtain ⟨t, ht, hmt⟩ := hmeas hkeep i hi hres
          have ht' : o0.be.2.2 (σ i) = some t := by
            rw [← hbo1, ← hbo]
            exact ht
          obtain ⟨b, hb⟩ := htag0 (σ i) t ht'
          rw [hbe2] at hb
          obtain ⟨t', hb', rfl⟩ := prefix_of_filter _ _ hb
          have ecol : (markedCols (fun s : GG K R r c × List (Call R) × (ℕ → Option (List (Call R))) =>
              fun i => (cols s.1 i, s.2.2 i)) E.nevex o.be.1 (σ i)).1.1 = out.be.1.g.C (σ i) := by
            show o.be.1.1.1.g.C (σ i) = _
            rw [hbo, hbo1, hbe1]
          rw [ecol, shiftsOf_filter, hr.ritzv, hr1.ritzv, hr0.ritzv, hr.resid, hr1.resid, hr0.resid] at hmt
          obtain ⟨xs, h1, h2, h3⟩ := shifts_before_rr hpath hb'
          rw [h2] at hmt h3
          exact ⟨xs, h1, h3, hmt⟩
        obtain ⟨t, ht, hp⟩ := hpair i hi
        obtain ⟨⟨b, hb⟩, hmk⟩ := htag (σ i) t ht
        rw [hbo] at hmk hb
        rw [hbo1, hbe2] at hb
        have hp := hp fun g => hm (hmk g)
        have ecol : (markedCols (fun s : GG K R r c × List (Call R) × (ℕ → Option (List (Call R))) =>
            fun i => (cols s.1 i, s.2.2 i)) E.nevex o.be.1 (σ i)).1.1 = out.be.1.g.C (σ i) := by
          show o.be.1.1.1.g.C (σ i) = _
          rw [hbo, hbo1, hbe1]
        rw [ecol, hr.ritzv, hr1.ritzv, hr0.ritzv] at hp
        obtain ⟨t', hb', e'⟩ := prefix_of_filter _ _ hb
        rw [← e', shiftsOf_filter] at hp
        obtain ⟨xs, h1, h2, h3⟩ := shifts_before_rr hpath hb'
        rw [h2] at hp h3
        rw [hsz]
        exact ⟨xs, h1, h3, hp⟩

end
end ParGpu
end Rounded
end Verif
