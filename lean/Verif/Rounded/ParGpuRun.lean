/-
A solve of the multi-GPU backend in arbitrary arithmetic: what happens to the matrices, and from which values the
residuals are computed.  Stated for the program on global data (`ggOps`, which is what the processes compute together
by `C77_mgpu_outcome_partial`).
-/
import Verif.Rounded.ParGpuGlobal
import Verif.Rounded.ParRun

set_option linter.unusedSectionVars false

namespace Verif
namespace Rounded
namespace ParGpu

open Matrix
open Seq (NextOp)
open Mpi (Layout GSt)
open Mpi.Spmd (Pos)
open Par (Red1 distArith filterOnly Ascends cutM cutV cutH joinM square flat ext gPhases shiftsOf_filter cut_setBlk
  withC chol1 shiftedChol2 symCheckG)

section
variable {K R : Type} {N : ℕ} {r c : Layout N} (T : Red1 K R r c) (E : GEnv K R)

/-- The phases: the vectors behind the pointers are as in the sequential backend, but the orthogonalisation is not asked
to leave a copy of the vectors that are not locked (it does not in every setup). -/
def phases : Phases (GG K R r c) where
  pre := fun _ => True
  inv := fun s => (Rounded.phases E.toParams).inv s.g.toSt
  ready := fun s => (Rounded.phases E.toParams).inv s.g.toSt
  synced := fun s => (Rounded.phases E.toParams).synced s.g.toSt

def cols (s : GG K R r c) : ℕ → Fin N → K := s.g.C
def nl (s : GG K R r c) : ℕ := s.g.locked

variable [Add R] [Sub R] [Mul R] [Div R] [Neg R] [Zero R] [One R] [NatCast R] [LT R] [DecidableLT R]

/-! ### What the calls leave as it was -/

theorem hemm_frame (n : ℕ) (a b : K) (o : ℕ) (s : GG K R r c) :
    let t := gHemm T E n a b o s
    t.g.locked = s.g.locked ∧ t.g.C2 = s.g.C2 ∧ (∀ j, j < s.g.locked → t.g.C j = s.g.C j) ∧
      t.g.next = (match s.g.next with | .bAc => .cAb | .cAb => .bAc) ∧ t.g.fresh = s.g.fresh ∧ t.dH = s.dH ∧
      t.g.H = s.g.H := by
  obtain ⟨⟨⟨H, C, B, C2, B2, next, locked, isSym⟩, fresh⟩, dH, oth, ritz, hh⟩ := s
  unfold gHemm
  cases hE : E.aware <;> cases next <;>
    refine ⟨rfl, rfl, fun j hj => ?_, rfl, rfl, rfl, rfl⟩
  · have : j < locked := hj
    exact setBlk_not_mem (by omega)
  · rfl
  · have : j < locked := hj
    exact setBlk_not_mem (by omega)
  · rfl

theorem gather_frame (n : ℕ) (f : Pos r c → Bool) (s : GG K R r c) :
    let t := gGather T E n f s
    t.g.locked = s.g.locked ∧ t.g.C2 = s.g.C2 ∧ t.g.C = s.g.C ∧ t.g.next = s.g.next ∧ t.dH = s.dH ∧ t.g.H = s.g.H ∧
      t.ritz = s.ritz ∧ t.g.B2 = copyCols s.g.locked n s.g.C2 s.g.B2 := by
  unfold gGather
  cases hE : E.aware <;> exact ⟨rfl, rfl, rfl, rfl, rfl, rfl, rfl, rfl⟩

theorem resd_frame (f : ℕ → R) (k : ℕ) (s : GG K R r c) :
    let t := (gResd T E f k s).2
    t.g.locked = s.g.locked ∧ t.g.C2 = s.g.C2 ∧ t.g.C = s.g.C ∧ t.g.next = s.g.next ∧ t.dH = s.dH ∧ t.g.H = s.g.H := by
  obtain ⟨h1, h2, h3, h4, h5, h6, -, -⟩ := gather_frame T E (E.nevex - k) (fun _ => true) s
  unfold gResd
  cases hE : E.aware <;> exact ⟨h1, h2, h3, h4, h5, h6⟩

theorem rr_frame (n : ℕ) (s : GG K R r c) :
    let t := (gRr T E n s).2
    t.g.locked = s.g.locked ∧ t.g.next = s.g.next ∧ t.dH = s.dH ∧ t.g.H = s.g.H ∧
      t.g.C2 = copyCols s.g.locked n t.g.C s.g.C2 ∧
      ∀ j, j < E.nevex - n → t.g.C j = s.g.C j := by
  obtain ⟨h1, h2, h3, h4, h5, h6, -, -⟩ := gather_frame T E n (fun p => !s.hh p) s
  refine ⟨h1, h4, h5, h6, ?_, fun j hj => ?_⟩
  · exact congrArg₂ (fun l Z => copyCols l n (gRr T E n s).2.g.C Z) h1 h2
  · show setBlk (E.nevex - n) _ (gGather T E n (fun p => !s.hh p) s).g.C j = _
    rw [setBlk_not_mem (by omega), h3]

/-- What the orthogonalisation routines leave as it was. -/
def Same (s t : GG K R r c) : Prop :=
  t.g.locked = s.g.locked ∧ t.g.C2 = s.g.C2 ∧ (s.g.next = .bAc → t.g.next = .bAc) ∧ t.dH = s.dH ∧ t.g.H = s.g.H

theorem Same.trans {s t w : GG K R r c} (h : Same s t) (h' : Same t w) : Same s w :=
  ⟨h'.1.trans h.1, h'.2.1.trans h.2.1, fun e => h'.2.2.1 (h.2.2.1 e), h'.2.2.2.1.trans h.2.2.2.1,
    h'.2.2.2.2.trans h.2.2.2.2⟩

theorem same_hh (s : GG K R r c) : Same s ((gQrRoutines T E).hhQR s) := by
  refine ⟨rfl, rfl, fun e => ?_, rfl, rfl⟩
  show (if E.scalapack then s.g.next else .bAc) = NextOp.bAc
  rw [e, ite_self]

theorem same_chol (x : ℤ × (ℕ → Fin N → K)) (s : GG K R r c) : Same s (gChol E x s).2 := by
  unfold gChol Same withC
  dsimp only
  split_ifs <;> exact ⟨rfl, rfl, id, rfl, rfl⟩

/-- The orthogonalisation ends with `lockCopy` of a state that has the same locked vectors in the second buffer. -/
theorem qr_form (k : ℕ) (x : R) (s : GG K R r c) :
    ∃ b t, Same s t ∧ (ggOps T E).qr k x s = (gQrRoutines T E).lockCopy b t := by
  show ∃ b t, Same s t ∧ qrSelect (gQrRoutines T E) _ _ _ _ s = _
  unfold qrSelect
  by_cases hd : cholDisable E.doCholQR E.envDisable = 1
  · rw [if_pos hd]
    exact ⟨_, _, same_hh T E s, rfl⟩
  · rw [if_neg hd]
    have main : ∀ y : ℤ × (ℕ → Fin N → K), ∃ b t, Same s t ∧
        (if (gChol E y s).1 ≠ 0 then (gQrRoutines T E).lockCopy true ((gQrRoutines T E).hhQR (gChol E y s).2)
          else (gQrRoutines T E).lockCopy false (gChol E y s).2) = (gQrRoutines T E).lockCopy b t := by
      intro y
      split_ifs
      · exact ⟨_, _, (same_chol E y s).trans (same_hh T E _), rfl⟩
      · exact ⟨_, _, same_chol E y s, rfl⟩
    split_ifs <;> exact main _

/-! ### The frame contract -/

/-- Shifts that do not touch the direction of the next product. -/
noncomputable def flat' : Chase R (GG K R r c) :=
  { filterOnly (ggOps T E) with
    shift := fun x _ s => { s with dH := shiftH (distArith T E.toDEnv) (E.kern.ofBase x) s.dH } }

theorem flat_sim : Sim (filterOnly (ggOps T E)) (flat' T E) (fun s t => s = t ∧ s.g.fresh = false) := by
  constructor
  case shift =>
    rintro x b s t ⟨rfl, h⟩
    refine ⟨?_, rfl⟩
    obtain ⟨⟨⟨H, C, B, C2, B2, next, locked, isSym⟩, fresh⟩, dH, oth, ritz, hh⟩ := s
    have h : fresh = false := h
    subst h
    rfl
  case hemm =>
    rintro n a b o s t ⟨rfl, h⟩
    exact ⟨rfl, (hemm_frame T E n _ _ o s).2.2.2.2.1.trans h⟩
  all_goals
    intros
    first | assumption | exact ⟨rfl, by assumption⟩

/-- A filter call that starts with the first direction is one without the reset of the direction. -/
theorem filter_flat {lambda1 lower upper : R} {n u deg : ℕ} {degrees : ℕ → ℕ} {dsize p0 : ℕ} {s s' : GG K R r c} {av : ℕ}
    (hnext : s.g.next = .bAc)
    (h : filter (ggOps T E) n u deg degrees dsize p0 lambda1 lower upper s = .ok (av, s')) :
    filter (flat' T E) n u deg degrees dsize p0 lambda1 lower upper { s with g := { s.g with fresh := false } } =
      .ok (av, s') := by
  have h1 : filter (ggOps T E) n u deg degrees dsize p0 lambda1 lower upper s =
      filter (filterOnly (ggOps T E)) n u deg degrees dsize p0 lambda1 lower upper
        { s with g := { s.g with fresh := false } } := by
    have e : ∀ x b, (ggOps T E).shift x b s = (ggOps T E).shift x b { s with g := { s.g with fresh := false } } := by
      intro x b
      obtain ⟨⟨⟨H, C, B, C2, B2, next, locked, isSym⟩, fresh⟩, dH, oth, ritz, hh⟩ := s
      have hnext : next = .bAc := hnext
      subst hnext
      cases fresh <;> rfl
    unfold filter
    dsimp only
    rw [e]
    rfl
  obtain ⟨t, ht, h2⟩ := filter_of_sim (flat_sim T E) (be := { s with g := { s.g with fresh := false } })
    (be' := { s with g := { s.g with fresh := false } }) ⟨rfl, rfl⟩ (h1 ▸ h)
  rw [ht, h2.1]

/-- **The multi-GPU backend keeps the frame contract, whatever its numerical kernels and reductions compute.** -/
theorem frame : Frame (ggOps T E) cols nl (phases E) N E.nevex := by
  refine
    { swap_low := fun _ _ _ _ _ _ _ _ _ => rfl
      swap_nl := fun _ _ _ => rfl
      swap_inv := fun _ _ _ _ _ _ _ h => h
      swap_synced := fun _ _ _ _ _ _ _ h => h
      filter := ?_
      qr := ?_
      rr := ?_
      resd := ?_
      lock := ?_
      start := fun _ _ => ⟨rfl, trivial⟩
      check := fun _ _ => trivial
      initVecs := ?_
      lanczos1 := fun _ _ h hl => ⟨hl, h⟩
      lanczosN := ?_
      lanczosDos := ?_
      finish := ?_ }
  · rintro deg av degrees lambda lower upper s s' ⟨h1, h2, h3⟩ hd hs hdd h
    have hf := filter_flat T E h1 h
    have hle : ∀ j, nl s ≤ j → j < E.nevex → degrees j ≤ deg := fun j a b => (hdd j a b).2
    have hn := filter_toggle (ops := flat' T E) (p := fun t => decide (t.g.next = .cAb)) (fun _ _ _ => rfl) (by
      intro n a b o t
      have := (hemm_frame T E n (E.kern.ofBase a) (E.kern.ofBase b) o t).2.2.2.1
      show decide ((gHemm T E n (E.kern.ofBase a) (E.kern.ofBase b) o t).g.next = .cAb) = _
      rw [this]
      cases t.g.next <;> rfl) hs hle hd hf
    have hP := filter_frame (ops := flat' T E) (P := fun t => t.g.locked = s.g.locked ∧ t.g.C2 = s.g.C2 ∧
      ∀ j, j < s.g.locked → t.g.C j = s.g.C j) (fun _ _ _ h => h) (by
      rintro n a b o t ⟨a1, a2, a3⟩
      obtain ⟨b1, b2, b3, -⟩ := hemm_frame T E n (E.kern.ofBase a) (E.kern.ofBase b) o t
      exact ⟨b1.trans a1, b2.trans a2, fun j hj => (b3 j (by omega)).trans (a3 j hj)⟩) hs hle hf ⟨rfl, rfl, fun _ _ => rfl⟩
    obtain ⟨p1, p2, p3⟩ := hP
    refine ⟨p1, ⟨?_, ?_, ?_⟩, p3⟩
    · have e : decide (s'.g.next = .cAb) = decide (s.g.next = .cAb) := hn
      rw [show s.g.next = .bAc from h1] at e
      cases hx : s'.g.next with
      | bAc => rfl
      | cAb => rw [hx] at e; cases e
    · show s'.g.locked ≤ E.nevex
      rw [p1]; exact h2
    · intro j hj
      have hj : j < s'.g.locked := hj
      rw [p1] at hj
      show s'.g.C2 j = s'.g.C j
      rw [p2, p3 j hj]
      exact h3 j hj
  · rintro k x s ⟨h1, h2, h3⟩
    obtain ⟨b, t, ⟨a1, a2, a3, -, -⟩, e⟩ := qr_form T E k x s
    have hC : ∀ j, j < s.g.locked → copyCols 0 t.g.locked t.g.C2 t.g.C j = s.g.C j := by
      intro j hj
      rw [copyCols_apply, if_pos ⟨by omega, by omega⟩, a2]
      exact h3 j hj
    have hI : (phases E).inv ((gQrRoutines T E).lockCopy b t) := by
      refine ⟨a3 h1, ?_, fun j hj => ?_⟩
      · show t.g.locked ≤ E.nevex
        rw [a1]; exact h2
      · have hj : j < t.g.locked := hj
        show (if E.aware && !b && !E.copyDone then t.g.C2
          else copyCols t.g.locked (E.nevex - t.g.locked) (copyCols 0 t.g.locked t.g.C2 t.g.C) t.g.C2) j =
          copyCols 0 t.g.locked t.g.C2 t.g.C j
        have e1 : copyCols 0 t.g.locked t.g.C2 t.g.C j = t.g.C2 j := by
          rw [copyCols_apply, if_pos ⟨by omega, by omega⟩]
        rw [e1]
        split_ifs
        · rfl
        · rw [copyCols_apply, if_neg (by omega)]
    rw [e]
    exact ⟨a1, hI, hI, hC⟩
  · rintro s ⟨h1, h2, h3⟩ hl
    obtain ⟨a1, a2, -, -, a5, a6⟩ := rr_frame T E (E.nevex - nl s) s
    have hl' : s.g.locked ≤ E.nevex := hl
    have e : E.nevex - (E.nevex - nl s) = s.g.locked := by show E.nevex - (E.nevex - s.g.locked) = _; omega
    rw [e] at a6
    refine ⟨a1, ⟨a2.trans h1, ?_, fun j hj => ?_⟩, a6⟩
    · show (gRr T E (E.nevex - nl s) s).2.g.locked ≤ _
      rw [a1]; exact h2
    · show (gRr T E (E.nevex - nl s) s).2.g.C2 j = (gRr T E (E.nevex - nl s) s).2.g.C j
      rw [a5, copyCols_apply]
      split_ifs with hc
      · rfl
      · have hj' : j < s.g.locked := by
          have : nl s = s.g.locked := rfl
          omega
        rw [a6 j hj']
        exact h3 j hj'
  · rintro f k s ⟨h1, h2, h3⟩
    obtain ⟨a1, a2, a3, a4, -, -⟩ := resd_frame T E f k s
    refine ⟨a1, ⟨a4.trans h1, ?_, fun j hj => ?_⟩, a3⟩
    · show (gResd T E f k s).2.g.locked ≤ _
      rw [a1]; exact h2
    · show (gResd T E f k s).2.g.C2 j = (gResd T E f k s).2.g.C j
      rw [a2, a3]
      exact h3 j hj
  · rintro k s ⟨h1, h2, h3⟩ hl
    exact ⟨rfl, ⟨h1, hl, fun j hj => h3 j (lt_of_lt_of_le hj hl)⟩, rfl⟩
  · intro b s _ hl
    have := (Par.gFrame T E.toDEnv).initVecs b s.g trivial hl
    exact this
  · intro m k s h hl
    have := (Par.gFrame T E.toDEnv).lanczosN m k s.view h hl
    exact this
  · intro i m z s h hl
    have := (Par.gFrame T E.toDEnv).lanczosDos i m z s.view h hl
    exact this
  · intro s
    show (if E.aware then _ else s : GG K R r c).g.C = s.g.C
    split_ifs <;> rfl

/-! ### The residuals -/

/-- A product with `beta = 0` does not read the target; cuBLAS, like BLAS, promises this. -/
def IgnoresTarget (E : GEnv K R) : Prop :=
  ∀ {m n b : ℕ} (H : Matrix (Fin m) (Fin n) K) (X : Matrix (Fin m) (Fin b) K) (Y Y' : Matrix (Fin n) (Fin b) K),
    E.kern.gemmAdj H E.kern.one E.kern.zero X Y = E.kern.gemmAdj H E.kern.one E.kern.zero X Y'

/-- `residual_gpu` computes what the host computes: the sum of squares of the updated column. -/
def SameResidual (E : GEnv K R) : Prop :=
  ∀ {n : ℕ} (x : R) (b b2 : Fin n → K), E.residual x b b2 = E.kern.normp2 (E.kern.axpy (E.kern.ofBase (-x)) b2 b)

theorem cutV_axpy (j : Fin c.procs) (a : K) (x y : Fin N → K) :
    cutV c j ((distArith T E.toDEnv).axpy a x y) = E.kern.axpy a (cutV c j x) (cutV c j y) :=
  Par.cutV_assemble c (fun j => E.kern.axpy a (cutV c j x) (cutV c j y)) j

/-- `Resd` computes the residuals of the columns, if the second buffer holds them too and, in the staged variant, the
device holds them; the values are its argument in the staged variant and those left by the last Rayleigh-Ritz step in
the other. -/
theorem resd_measured (hY : IgnoresTarget E) (hres : SameResidual E) (f : ℕ → R) (k : ℕ) (s : GG K R r c)
    (hc : ∀ j, s.g.locked ≤ j → j < s.g.locked + (E.nevex - k) → s.g.C2 j = s.g.C j)
    (hd : E.aware = false → ∀ p : Pos r c, getBlk s.g.locked (E.nevex - k) (s.oth p).C =
      cutM r p.1 (getBlk s.g.locked (E.nevex - k) s.g.C)) :
    ∀ i, i < E.nevex - k →
      Par.Measured T E.toDEnv s.dH (if E.aware then s.ritz i else f i) (s.g.C (s.g.locked + i)) ((gResd T E f k s).1 i) := by
  intro i hi
  obtain ⟨g1, -, -, -, -, -, g7, g8⟩ := gather_frame T E (E.nevex - k) (fun _ => true) s
  set A := distArith T E.toDEnv with hA
  set l := s.g.locked with hl
  set u := E.nevex - k with hu
  set s1 := gGather T E u (fun _ => true) s with hs1
  have hB2 : s1.g.B2 (l + i) = s.g.C (l + i) := by
    rw [g8, copyCols_apply, if_pos ⟨by omega, by omega⟩, hc _ (by omega) (by omega)]
  have hB : s1.g.B (l + i) = fun q => A.gemm true s.dH A.one A.zero (getBlk l u s.g.C) (getBlk l u s.g.B) q ⟨i, hi⟩ := by
    have hfin : (⟨l + i - l, by omega⟩ : Fin u) = ⟨i, hi⟩ := Fin.ext (by simp)
    rw [hs1]
    unfold gGather
    cases hE : E.aware with
    | true =>
      show setBlk l (A.gemm true s.dH A.one A.zero (getBlk l u s.g.C) (getBlk l u s.g.B)) s.g.B (l + i) = _
      rw [setBlk_mem (by omega) (by omega)]
      funext q
      rw [hfin]
    | false =>
      show setBlk l (joinM c fun j => square (T.colK fun i => flat (prodB E (i, j) (cutH r c i j s.dH) E.kern.one
        E.kern.zero l u (s.oth (i, j))))) s.g.B (l + i) = _
      rw [setBlk_mem (by omega) (by omega)]
      funext q
      rw [hfin]
      show _ = Par.mulAdj T E.toDEnv s.dH E.kern.one E.kern.zero (getBlk l u s.g.C) (getBlk l u s.g.B) q ⟨i, hi⟩
      unfold Par.mulAdj
      congr 3
      funext j
      congr 2
      funext a
      congr 1
      unfold prodB
      rw [ite_self, hd hE (a, j)]
      exact hY _ _ _ _
  refine ⟨u, getBlk l u s.g.C, getBlk l u s.g.B, ⟨i, hi⟩,
    fun t => A.axpy (A.ofBase (-(if E.aware then s.ritz t else f t))) (s1.g.B2 (l + t)) (s1.g.B (l + t)), rfl, ?_, ?_⟩
  · dsimp only
    rw [hB2, hB]
  · cases hE : E.aware with
    | true =>
      have e : (gResd T E f k s).1 = ext 0 fun t : Fin u => E.kern.sqrt (T.rowR (fun j (t : Fin u) =>
          E.residual (s1.ritz t) (cutV c j (s1.g.B (s1.g.locked + t))) (cutV c j (s1.g.B2 (s1.g.locked + t)))) t) := by
        unfold gResd
        rw [hE]
        rfl
      rw [e]
      unfold Par.ext
      rw [dif_pos hi, g1, g7]
      refine congrArg E.kern.sqrt (congrFun (congrArg T.rowR ?_) _)
      funext j t
      rw [hres, ← cutV_axpy T E]
      rfl
    | false =>
      have e : (gResd T E f k s).1 = ext 0 fun t : Fin u => E.kern.sqrt (T.rowR (fun j (t : Fin u) =>
          E.kern.normp2 (cutV c j (A.axpy (E.kern.ofBase (-f t)) (s1.g.B2 (s1.g.locked + t))
            (s1.g.B (s1.g.locked + t))))) t) := by
        unfold gResd
        rw [hE]
        rfl
      rw [e]
      unfold Par.ext
      rw [dif_pos hi, g1]
      rfl

/-- The Ritz values on the device after Rayleigh-Ritz. -/
theorem rr_ritz (n : ℕ) (s : GG K R r c) {i : ℕ} (hi : i < n) : (gRr T E n s).2.ritz i = (gRr T E n s).1 i := by
  show writeAt _ 0 n (gRr T E n s).1 i = _
  rw [writeAt, if_pos ⟨by omega, by omega⟩, Nat.sub_zero]

/-- The vectors on the device after Rayleigh-Ritz of the last columns. -/
theorem rr_device (hE : E.aware = false) (s : GG K R r c) (hl : s.g.locked ≤ E.nevex) (p : Pos r c) :
    getBlk s.g.locked (E.nevex - s.g.locked) ((gRr T E (E.nevex - s.g.locked) s).2.oth p).C =
      cutM r p.1 (getBlk s.g.locked (E.nevex - s.g.locked) (gRr T E (E.nevex - s.g.locked) s).2.g.C) := by
  set n := E.nevex - s.g.locked with hn
  have e : E.nevex - n = s.g.locked := by omega
  ext a t
  unfold gRr
  rw [hE]
  dsimp only
  rw [e]
  show setBlk s.g.locked _ _ (s.g.locked + t) a = setBlk s.g.locked _ _ (s.g.locked + t) _
  rw [setBlk_mem (by omega) (by omega), setBlk_mem (by omega) (by omega)]
  rfl

/-! ### The matrices -/

/-- The host's matrix is never written. -/
theorem host_keep (H0 : Matrix (Fin N) (Fin N) K) : Keeps (ggOps T E) (fun s => s.g.H = H0) where
  checkSymmetryEasy := fun _ h => h
  start := fun _ h => h
  finish := fun s h => by
    show (if E.aware then _ else s : GG K R r c).g.H = H0
    split_ifs <;> exact h
  initVecs := fun b s h => by cases b <;> exact h
  qr := fun k x s h => by
    obtain ⟨b, t, ht, e⟩ := qr_form T E k x s
    rw [e]
    exact ht.2.2.2.2.trans h
  lanczos1 := fun _ _ h => h
  lanczosN := fun _ _ _ h => h
  lanczosDos := fun _ _ _ _ h => h
  shift := fun _ _ _ h => h
  hemm := fun n a b o s h => ((hemm_frame T E n _ _ o s).2.2.2.2.2.2).trans h
  rr := fun n s h => ((rr_frame T E n s).2.2.2.1).trans h
  resd := fun f k s h => ((resd_frame T E f k s).2.2.2.2.2).trans h
  lock := fun _ _ h => h
  swap := fun _ _ _ h => h

/-- From `initVecs` on the matrix on the device is the host's matrix after the shifts made so far. -/
theorem device_keep (H0 : Matrix (Fin N) (Fin N) K) :
    KeepsAfter (quiet E.nevex (ggOps T E)) (fun p => p.1.g.H = H0 ∧ shiftsOf p.2.1 = [])
      (fun p => p.1.dH = afterShifts (distArith T E.toDEnv) H0 (shiftsOf p.2.1)) := by
  have app : ∀ {s : GG K R r c} {H : Matrix (Fin N) (Fin N) K} {tr : List (Call R)} {x : Call R}, s.dH = H →
      shiftsOf [x] = [] → H = afterShifts (distArith T E.toDEnv) H0 (shiftsOf tr) →
      s.dH = afterShifts (distArith T E.toDEnv) H0 (shiftsOf (tr ++ [x])) := by
    intro s H tr x h1 h2 h3
    rw [shiftsOf_append, h2, List.append_nil, h1, h3]
  exact {
    checkSymmetryEasy := fun p h => ⟨h.1, by
      show shiftsOf (p.2.1 ++ [_]) = []
      rw [shiftsOf_append, h.2]; rfl⟩
    start := fun p h => ⟨h.1, by
      show shiftsOf (p.2.1 ++ [_]) = []
      rw [shiftsOf_append, h.2]; rfl⟩
    initVecs := fun b p h => by
      show p.1.g.H = afterShifts (distArith T E.toDEnv) H0 (shiftsOf (p.2.1 ++ [_]))
      rw [shiftsOf_append, h.2]
      exact h.1
    qr := fun k x p h => app (by
      obtain ⟨b, t, ht, e⟩ := qr_form T E k x p.1
      show ((ggOps T E).qr k x p.1).dH = p.1.dH
      rw [e]
      exact ht.2.2.2.1) rfl h
    lanczos1 := fun _ _ h => app rfl rfl h
    lanczosN := fun _ _ _ h => app rfl rfl h
    lanczosDos := fun _ _ _ _ h => app rfl rfl h
    shift := fun x b p h => by
      show shiftH (distArith T E.toDEnv) (E.kern.ofBase x) p.1.dH =
        afterShifts (distArith T E.toDEnv) H0 (shiftsOf (p.2.1 ++ [.shift x b]))
      rw [shiftsOf_append, h]
      exact (afterShifts_append (distArith T E.toDEnv) H0 _ x).symm
    hemm := fun n a b o p h => app (hemm_frame T E n _ _ o p.1).2.2.2.2.2.1 rfl h
    rr := fun n p h => app (rr_frame T E n p.1).2.2.1 rfl h
    resd := fun f k p h => app (resd_frame T E f k p.1).2.2.2.2.1 rfl h
    lock := fun _ _ h => app rfl rfl h
    swap := fun _ _ _ h => h }

/-- The phases of the recorder. -/
def phS (H0 : Matrix (Fin N) (Fin N) K) : Phases (GG K R r c × List (Call R) × (ℕ → Option (List (Call R)))) where
  pre := fun s => (phases E).pre s.1 ∧ (s.1.g.H = H0 ∧ shiftsOf s.2.1 = [])
  inv := fun s => (phases E).inv s.1 ∧ s.1.dH = afterShifts (distArith T E.toDEnv) H0 (shiftsOf s.2.1)
  ready := fun s => (phases E).ready s.1 ∧ s.1.dH = afterShifts (distArith T E.toDEnv) H0 (shiftsOf s.2.1)
  synced := fun s => (phases E).synced s.1 ∧ s.1.dH = afterShifts (distArith T E.toDEnv) H0 (shiftsOf s.2.1)

theorem frameS (H0 : Matrix (Fin N) (Fin N) K) : Frame (quiet E.nevex (ggOps T E)) (fun s i => (cols s.1 i, s.2.2 i))
    (fun s => nl s.1) (phS T E H0) N E.nevex :=
  ((frame T E).quiet).keepAfter (device_keep T E H0)

theorem makesResidualsS (hY : IgnoresTarget E) (hres : SameResidual E) (H0 : Matrix (Fin N) (Fin N) K) :
    MakesResiduals (quiet E.nevex (ggOps T E)) (fun s i => (cols s.1 i, s.2.2 i)) (fun s => nl s.1) (phS T E H0)
    (fun x v ρ => ∃ t, v.2 = some t ∧ Par.Measured T E.toDEnv (afterShifts (distArith T E.toDEnv) H0 (shiftsOf t)) x v.1 ρ)
    E.nevex := by
  rintro f p ⟨hph, hH⟩ hl hf i hi
  obtain ⟨h1, h2, h3⟩ := (frame T E).rr p.1 hph hl
  have hl' : p.1.g.locked ≤ E.nevex := hl
  have hi' : i < E.nevex - p.1.g.locked := hi
  have hf' : f i = (gRr T E (E.nevex - p.1.g.locked) p.1).1 i := hf i hi
  have hlk : (gRr T E (E.nevex - p.1.g.locked) p.1).2.g.locked = p.1.g.locked := h1
  refine ⟨p.2.1, ?_, ?_⟩
  · show writeAt p.2.2 (E.nevex - (E.nevex - p.1.g.locked)) (E.nevex - p.1.g.locked) (fun _ => some p.2.1)
      (p.1.g.locked + i) = some p.2.1
    unfold writeAt
    rw [if_pos (by omega)]
  · have key := resd_measured T E hY hres f p.1.g.locked (gRr T E (E.nevex - p.1.g.locked) p.1).2
      (fun j _ hj => h2.2.2 j (by rw [hlk] at hj; omega))
      (fun hE q => by rw [hlk]; exact rr_device T E hE p.1 hl' q) i hi'
    rw [rr_ritz T E _ p.1 hi', ← hf', ite_self, hlk, (rr_frame T E _ p.1).2.2.1, hH] at key
    exact key

end

section
variable {K R : Type} {N : ℕ} {r c : Layout N} (T : Red1 K R r c) (E : GEnv K R)
variable [Add R] [Sub R] [Mul R] [Div R] [Neg R] [Zero R] [One R] [NatCast R] [LinearOrder R]

theorem makesAscendingS (hE : Ascends E.toDEnv) (ph : Phases (GG K R r c × List (Call R) × (ℕ → Option (List (Call R))))) :
    MakesAscending (quiet E.nevex (ggOps T E)) (fun s => nl s.1) ph E.nevex := by
  intro s _ i j hij hj
  dsimp only at hj
  have e : ∀ (k : ℕ) (h : k < E.nevex - nl s.1), ((ggOps T E).rr (E.nevex - nl s.1) s.1).1 k =
      (E.kern.heevd _).1 ⟨k, h⟩ := fun k h => dif_pos h
  show ((ggOps T E).rr (E.nevex - nl s.1) s.1).1 i ≤ ((ggOps T E).rr (E.nevex - nl s.1) s.1).1 j
  rw [e i (by omega), e j hj]
  exact hE _ _ _ _ hij

/-- **Where the residuals come from, in every arithmetic**, staged and CUDA-aware, with and without ScaLAPACK.  As
`Par.measured_at_end`; the matrix is that of the host. -/
theorem measured_at_end (hY : IgnoresTarget E) (hres : SameResidual E) (hE : Ascends E.toDEnv) (P : Plat R)
    (hP : SortsIndices P) (hkeep : SortKeepsSorted P) (cfg : Config R)
    (hN : cfg.N = N) (hsz : cfg.nev + cfg.nex = E.nevex) (hmax : Even cfg.maxDeg) (ritzv0 resid0 : ℕ → R)
    (s : GG K R r c) (out : Outcome R (GG K R r c × List (Call R)))
    (h : solve P (traced (ggOps T E)) cfg ritzv0 resid0 (s, []) = .ok out)
    (hsym : cfg.symCheck = true → symCheckG T E.toDEnv s.g.H = true) (hit : 0 < out.iterations) :
    ∃ σ : Equiv.Perm ℕ, PermOn 0 cfg.nev σ ∧ (out.iterations = 1 → σ = 1) ∧ ∀ i, i < cfg.nev + cfg.nex →
      ∃ xs : List R, xs.length ≤ out.iterations ∧ (∀ x ∈ pairsOf xs, x ∈ shiftsOf out.be.2) ∧
        Par.Measured T E.toDEnv (afterShifts (distArith T E.toDEnv) s.g.H (pairsOf xs)) (out.ritzv i) (out.be.1.g.C (σ i))
          (out.resid (σ i)) := by
  have hpath := C57_call_protocol hP.permutes ritzv0 resid0 s out h hsym
  have hsim := solve_sim (quiet_sim E.nevex (ggOps T E)) P cfg ritzv0 resid0
    (be := (s, [], fun _ => none)) (be' := (s, [])) ⟨rfl, rfl⟩
  rw [h] at hsim
  generalize hx : solve P (quiet E.nevex (ggOps T E)) cfg ritzv0 resid0 (s, [], fun _ => none) = x at hsim
  cases hsim with
  | @ok o _ hr =>
    obtain ⟨hbe1, hbe2⟩ := hr.be
    obtain ⟨be0, st, -, -, -, -, σ, hσ, -, -, -, h1, hm⟩ := C05_noSwap_partial P (quiet E.nevex (ggOps T E)) _ _
      (phS T E s.g.H) (fun _ _ => True) _ cfg hP (by rw [hsz, hN]; exact frameS T E s.g.H) (fun _ _ _ => rfl) hmax
      (by rw [hsz]; exact makesAscendingS T E hE _) (fun _ _ _ _ => trivial)
      (by rw [hsz]; exact makesResidualsS T E hY hres s.g.H) ritzv0 resid0 (s, [], fun _ => none) ⟨trivial, rfl, rfl⟩ o
      hsym hx (by rw [hr.iterations]; exact hit)
    have htag := (quiet_stamps E.nevex (ggOps T E)).solve hx (by intro i t h; cases h)
    refine ⟨σ, hσ, fun h => h1 (by rw [hr.iterations]; exact h), fun i hi => ?_⟩
    obtain ⟨t, ht, hmt⟩ := hm hkeep i hi
    obtain ⟨b, hb⟩ := htag (σ i) t ht
    rw [hbe2] at hb
    obtain ⟨t', hb', rfl⟩ := prefix_of_filter _ _ hb
    dsimp only at hmt
    rw [hbe1, shiftsOf_filter, hr.ritzv, hr.resid] at hmt
    obtain ⟨xs, h1, h2, h3⟩ := shifts_before_rr hpath hb'
    rw [h2] at hmt h3
    exact ⟨xs, h1, h3, hmt⟩

end

section
variable {K R : Type} {N : ℕ} {r c : Layout N} (T : Red1 K R r c) (E : GEnv K R)
variable [Add R] [Sub R] [Mul R] [Div R] [Neg R] [Zero R] [One R] [NatCast R] [LT R] [DecidableLT R]

/-- The last call of a solve that made a round is `finish`. -/
theorem solve_finish {S : Type*} {P : Plat R} {ops : Chase R S} {cfg : Config R} {ritzv0 resid0 : ℕ → R} {be : S}
    {out : Outcome R S} (h : solve P ops cfg ritzv0 resid0 be = .ok out) (hit : 0 < out.iterations) :
    ∃ t, out.be = ops.finish t := by
  unfold solve at h
  dsimp only at h
  generalize (if cfg.symCheck then ops.checkSymmetryEasy be else (true, be)) = x at h
  split at h
  · cases h; exact absurd hit (by simp)
  · split at h
    · cases h
    · split at h
      · cases h
      · split at h
        · cases h
        · cases h
          exact ⟨_, rfl⟩

end
end ParGpu
end Rounded
end Verif
