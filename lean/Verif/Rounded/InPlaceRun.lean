/-
The pointer-swapping backends in arbitrary arithmetic: the bookkeeping contract, the matrix, and where the residuals come
from.
-/
import Verif.Rounded.InPlace
import Verif.Rounded.Ortho
import Verif.Solver.Parity

set_option linter.unusedSectionVars false

namespace Verif

section
variable {R S V : Type*} [Add R] [Sub R] [Mul R] [Div R] [Neg R] [Zero R] [One R] [NatCast R] [LT R] [DecidableLT R]
  {ops : Chase R S} {cols : S → ℕ → V} {nl : S → ℕ} {ph : Phases S} {N n : ℕ}

/-- Watching the recorder is watching the backend. -/
theorem watch_traced_sim (bad : ℕ → R → S → Prop) (ops : Chase R S) :
    Sim (watch (fun k c (s : S × List (Call R)) => bad k c s.1) (traced ops)) (watch bad ops)
      (fun p q => (p.1.1, p.2) = q) := by
  constructor <;> intros <;> subst_vars <;> simp [watch, traced]

end

namespace Rounded
namespace InPlace

open Verif.InPlace (Kind)

variable {K R : Type*} {N : ℕ} {A : Arith K R N} {E : Params} {k : Kind}

/-- What the Cholesky variant chosen for the estimate `cond` returns: its `info` and the columns. -/
def chosen (A : Arith K R N) (cond : R) (X : ℕ → Fin N → K) : ℤ × (ℕ → Fin N → K) :=
  if A.above cond then A.shiftedcholQR2 X else if A.below cond then A.cholQR1 X else A.cholQR2 X

/-- A call of `QR` in which Cholesky QR is allowed and reports failure after it has changed a locked column (the columns
are factored in place; Householder QR then starts from the changed columns and saves the changed locked ones). -/
def GaveUp (A : Arith K R N) (E : Params) (_ : ℕ) (cond : R) (s : St K R N) : Prop :=
  cholDisable E.doCholQR E.envDisable ≠ 1 ∧ (chosen A cond s.V1).1 ≠ 0 ∧
    ∃ j, j < s.locked ∧ (chosen A cond s.V1).2 j ≠ s.V1 j

/-- The phases: the number of locked columns is in range; after `QR` the second buffer has the locked columns too. -/
def phases (E : Params) : Phases (St K R N) where
  pre := fun _ => True
  inv := fun s => s.locked ≤ E.nevex
  ready := fun s => s.locked ≤ E.nevex ∧ ∀ j, j < s.locked → s.V2 j = s.V1 j
  synced := fun s => s.locked ≤ E.nevex

/-- The locked columns are put back. -/
def putBack (s : St K R N) (Y : ℕ → Fin N → K) : St K R N :=
  { s with V1 := copyCols 0 s.locked s.V1 Y, V2 := copyCols 0 s.locked s.V1 s.V2 }

theorem putBack_low (s : St K R N) (Y : ℕ → Fin N → K) {j : ℕ} (hj : j < s.locked) :
    (putBack s Y).V1 j = s.V1 j ∧ (putBack s Y).V2 j = s.V1 j := by
  constructor
  · show copyCols 0 s.locked s.V1 Y j = _
    rw [copyCols_apply, if_pos ⟨by omega, by omega⟩]
  · show copyCols 0 s.locked s.V1 s.V2 j = _
    rw [copyCols_apply, if_pos ⟨by omega, by omega⟩]

theorem putBack_high (s : St K R N) (Y : ℕ → Fin N → K) {j : ℕ} (hj : s.locked ≤ j) : (putBack s Y).V1 j = Y j := by
  show copyCols 0 s.locked s.V1 Y j = _
  rw [copyCols_apply, if_neg (by omega)]

theorem lockCopy_save (s : St K R N) (Y : ℕ → Fin N → K) :
    lockVectorCopy s.locked { saveLocked s.locked s with V1 := Y } = putBack s Y := by
  unfold lockVectorCopy saveLocked putBack
  congr 1
  funext j
  simp only [copyCols_apply]
  split_ifs <;> rfl

/-- `QR`, unless a Cholesky variant fails halfway. -/
theorem qr_form [Neg R] [Zero R] (m : ℕ) (c : R) (s : St K R N) (h : ¬ GaveUp A E m c s) :
    (ops A E k).qr m c s = putBack s (qrCols A E c s.V1) := by
  show qrSelect _ _ _ _ _ s = _
  have main : ∀ y : ℤ × (ℕ → Fin N → K), (y.1 ≠ 0 → ∀ j, j < s.locked → y.2 j = s.V1 j) →
      (if y.1 ≠ 0 then (qrRoutines A s.locked).lockCopy true
          ((qrRoutines A s.locked).hhQR { saveLocked s.locked s with V1 := y.2 })
        else (qrRoutines A s.locked).lockCopy false { saveLocked s.locked s with V1 := y.2 }) =
      putBack s (if y.1 ≠ 0 then A.hhQR y.2 else y.2) := by
    intro y hy
    by_cases h0 : y.1 ≠ 0
    · rw [if_pos h0, if_pos h0, ← lockCopy_save]
      have e : saveLocked s.locked { saveLocked s.locked s with V1 := y.2 } =
          { saveLocked s.locked s with V1 := y.2 } := by
        unfold saveLocked
        congr 1
        funext j
        simp only [copyCols_apply]
        split_ifs with hj
        · exact hy h0 j (by omega)
        · rfl
      show lockVectorCopy s.locked { saveLocked s.locked { saveLocked s.locked s with V1 := y.2 } with V1 := _ } = _
      rw [e]
    · rw [if_neg h0, if_neg h0, ← lockCopy_save]
      rfl
  unfold qrSelect qrCols
  by_cases hd : cholDisable E.doCholQR E.envDisable = 1
  · rw [if_pos hd, if_pos hd, ← lockCopy_save]
    rfl
  · rw [if_neg hd, if_neg hd]
    have hy : (chosen A c s.V1).1 ≠ 0 → ∀ j, j < s.locked → (chosen A c s.V1).2 j = s.V1 j := by
      intro h0 j hj
      by_contra hne
      exact h ⟨hd, h0, j, hj, hne⟩
    have key := main (chosen A c s.V1) hy
    unfold chosen at key
    dsimp only
    split_ifs at key ⊢ with h1 h2 <;> first | exact key | contradiction

theorem resd_frame [Neg R] (z : R) (ritzv : ℕ → R) (l u : ℕ) (s : St K R N) :
    let r := resd A z k ritzv l u s
    r.2.H = s.H ∧ r.2.hostH = s.hostH ∧ r.2.V1 = s.V1 ∧ r.2.flipped = s.flipped ∧ r.2.locked = s.locked :=
  forRange_pres _ (fun p : (ℕ → R) × St K R N => p.2.H = s.H ∧ p.2.hostH = s.hostH ∧ p.2.V1 = s.V1 ∧
    p.2.flipped = s.flipped ∧ p.2.locked = s.locked) ⟨rfl, rfl, rfl, rfl, rfl⟩ (fun _ _ _ _ h => h)

theorem qr_frame [Neg R] [Zero R] (m : ℕ) (c : R) (s : St K R N) :
    ((ops A E k).qr m c s).H = s.H ∧ ((ops A E k).qr m c s).hostH = s.hostH ∧
    ((ops A E k).qr m c s).flipped = s.flipped ∧ ((ops A E k).qr m c s).locked = s.locked := by
  show (qrSelect _ _ _ _ _ s).H = _ ∧ (qrSelect _ _ _ _ _ s).hostH = _ ∧ (qrSelect _ _ _ _ _ s).flipped = _ ∧
    (qrSelect _ _ _ _ _ s).locked = _
  unfold qrSelect
  dsimp only
  split_ifs <;> exact ⟨rfl, rfl, rfl, rfl⟩

open Classical in
/-- The QR of the backend, with Householder QR in the situations `GaveUp`.  Not in the code: an auxiliary backend for the
proofs. -/
noncomputable def safeQr [Neg R] [Zero R] (A : Arith K R N) (E : Params) (k : Kind) (m : ℕ) (c : R) (s : St K R N) :
    St K R N :=
  if GaveUp A E m c s then putBack s (A.hhQR s.V1) else (ops A E k).qr m c s

/-- The auxiliary backend for the proofs. -/
noncomputable def safeOps [Neg R] [Zero R] (A : Arith K R N) (E : Params) (k : Kind) : Chase R (St K R N) :=
  (ops A E k).withQr (safeQr A E k)

theorem safeQr_agree [Neg R] [Zero R] (m : ℕ) (c : R) (s : St K R N) (h : ¬ GaveUp A E m c s) :
    safeQr A E k m c s = (ops A E k).qr m c s := if_neg h

theorem safeQr_form [Neg R] [Zero R] (m : ℕ) (c : R) (s : St K R N) : ∃ Y, safeQr A E k m c s = putBack s Y := by
  unfold safeQr
  split_ifs with h
  · exact ⟨_, rfl⟩
  · exact ⟨_, qr_form m c s h⟩

variable [Add R] [Sub R] [Mul R] [Div R] [Neg R] [Zero R] [One R] [NatCast R] [LT R] [DecidableLT R]

/-- The buffers have the locked columns they had at `s`, exchanged if the roles of the buffers are. -/
def SameLow (s t : St K R N) : Prop :=
  t.locked = s.locked ∧ ∀ j, j < s.locked →
    if t.flipped = s.flipped then t.V1 j = s.V1 j ∧ t.V2 j = s.V2 j else t.V1 j = s.V2 j ∧ t.V2 j = s.V1 j

theorem hemm_low (n off : ℕ) (a b : R) {s t : St K R N} (h : SameLow s t) :
    SameLow s ((ops A E k).hemm n a b off t) := by
  obtain ⟨h1, h2⟩ := h
  refine ⟨h1, fun j hj => ?_⟩
  have e : setBlk (t.locked + off) (A.gemm false t.H (A.ofBase a) (A.ofBase b) (getBlk (t.locked + off) n t.V1)
      (getBlk (t.locked + off) n t.V2)) t.V2 j = t.V2 j := setBlk_not_mem (by omega)
  have h3 := h2 j hj
  show if (!t.flipped) = s.flipped then setBlk _ _ t.V2 j = _ ∧ t.V1 j = _ else setBlk _ _ t.V2 j = _ ∧ t.V1 j = _
  rw [e]
  cases hf : t.flipped <;> cases hg : s.flipped <;> simp [hf, hg] at h3 ⊢ <;> exact ⟨h3.2, h3.1⟩

/-- **The pointer-swapping backends keep the bookkeeping contract, whatever their numerical kernels compute**, as long as
no Cholesky QR gives up after it has changed a locked column. -/
theorem bookkeeping : Bookkeeping (safeOps A E k) St.V1 St.locked (phases E) N E.nevex where
  swap := fun i j s _ _ => rfl
  swap_nl := fun i j s => rfl
  swap_inv := fun i j s _ _ _ _ h => h
  swap_synced := fun i j s _ _ _ _ h => h
  filter := by
    rintro deg av degrees lambda lower upper s s' h3 hdeg hs hd h
    have hn := filter_toggle (ops := safeOps A E k) (p := fun s : St K R N => s.flipped) (fun _ _ _ => rfl)
      (fun _ _ _ _ _ => rfl) hs (fun j h1 h2 => (hd j h1 h2).2) hdeg h
    have hf := filter_frame (ops := safeOps A E k) (P := fun t : St K R N => SameLow s t) (fun _ _ _ h => h)
      (fun n α β off t h => hemm_low (A := A) (E := E) (k := k) n off α β h)
      hs (fun j h1 h2 => (hd j h1 h2).2) h ⟨rfl, fun j hj => by rw [if_pos rfl]; exact ⟨rfl, rfl⟩⟩
    obtain ⟨f1, f2⟩ := hf
    refine ⟨f1, by show s'.locked ≤ _; rw [f1]; exact h3, fun j hj => ?_⟩
    have := f2 j hj
    rw [if_pos hn] at this
    exact this.1
  qr := by
    rintro m c s h3
    obtain ⟨Y, e⟩ := safeQr_form (A := A) (E := E) (k := k) m c s
    have e' : (safeOps A E k).qr m c s = putBack s Y := e
    rw [e']
    exact ⟨rfl, h3, ⟨h3, fun j hj => (putBack_low s Y hj).2.trans (putBack_low s Y hj).1.symm⟩,
      fun j hj => (putBack_low s Y hj).1⟩
  rr := by
    rintro s ⟨h3, h4⟩ _
    refine ⟨rfl, h3, fun j hj => ?_⟩
    show setBlk s.locked _ (setBlk s.locked _ s.V2) j = s.V1 j
    rw [setBlk_not_mem (by omega), setBlk_not_mem (by omega), h4 j hj]
  resd := by
    rintro f m s h3
    obtain ⟨-, -, a3, -, a5⟩ := resd_frame (A := A) (k := k) 0 f s.locked (E.nevex - m) s
    exact ⟨a5, a5.le.trans h3, a3⟩
  lock := fun m s h3 hk => ⟨rfl, hk, rfl⟩
  start := fun s h => ⟨rfl, h⟩
  check := fun s h => h
  initVecs := by
    intro b s h hl
    have hl' : ((ops A E k).initVecs b s).locked = 0 := by
      cases k <;> cases b <;> exact hl
    exact ⟨hl', by show ((ops A E k).initVecs b s).locked ≤ _; rw [hl']; omega⟩
  lanczos1 := fun m s h hl => ⟨hl, h⟩
  lanczosN := fun m j s h hl => ⟨hl, h⟩
  lanczosDos := fun i m z s h hl => ⟨hl, h⟩
  finish := fun s => by cases k <;> rfl

/-! ### The matrix -/

/-- On the CPU the matrix is changed by the shifts only. -/
theorem matrix_keep (H0 : Matrix (Fin N) (Fin N) K) :
    Keeps (traced (ops A E .cpu)) (fun p => p.1.H = afterShifts A H0 (shiftsOf p.2)) := by
  have app : ∀ {s : St K R N} {H : Matrix (Fin N) (Fin N) K} {tr : List (Call R)} {c : Call R}, s.H = H →
      shiftsOf [c] = [] → H = afterShifts A H0 (shiftsOf tr) → s.H = afterShifts A H0 (shiftsOf (tr ++ [c])) := by
    intro s H tr c h1 h2 h3
    rw [shiftsOf_append, h2, List.append_nil, h1, h3]
  exact {
    checkSymmetryEasy := fun _ h => app rfl rfl h
    start := fun _ h => app rfl rfl h
    finish := fun _ h => app rfl rfl h
    initVecs := fun b _ h => app (by cases b <;> rfl) rfl h
    qr := fun k c p h => app (qr_frame (A := A) (E := E) (k := .cpu) k c p.1).1 rfl h
    lanczos1 := fun _ _ h => app rfl rfl h
    lanczosN := fun _ _ _ h => app rfl rfl h
    lanczosDos := fun _ _ _ _ h => app rfl rfl h
    shift := fun c b p h => by
      show shiftH A (A.ofBase c) p.1.H = afterShifts A H0 (shiftsOf (p.2 ++ [.shift c b]))
      rw [shiftsOf_append, h]
      exact (afterShifts_append A H0 _ c).symm
    hemm := fun n a b o p h => app rfl rfl h
    rr := fun _ _ h => app rfl rfl h
    resd := fun f k p h => app (resd_frame (A := A) (k := .cpu) 0 f p.1.locked (E.nevex - k) p.1).1 rfl h
    lock := fun _ _ h => app rfl rfl h
    swap := fun _ _ _ h => app rfl rfl h }

/-- The GPU backend never writes to the user's matrix. -/
theorem host_keep (H0 : Matrix (Fin N) (Fin N) K) : Keeps (ops A E .cuda) (fun s : St K R N => s.hostH = H0) where
  checkSymmetryEasy := fun _ h => h
  start := fun _ h => h
  finish := fun _ h => h
  initVecs := fun b _ h => by cases b <;> exact h
  qr := fun k c s h => ((qr_frame (A := A) (E := E) (k := .cuda) k c s).2.1).trans h
  lanczos1 := fun _ _ h => h
  lanczosN := fun _ _ _ h => h
  lanczosDos := fun _ _ _ _ h => h
  shift := fun _ _ _ h => h
  hemm := fun _ _ _ _ _ h => h
  rr := fun _ _ h => h
  resd := fun f j s h => ((resd_frame (A := A) (k := .cuda) 0 f s.locked (E.nevex - j) s).2.1).trans h
  lock := fun _ _ h => h
  swap := fun _ _ _ h => h

/-- From `initVecs` on the matrix used in products is the user's matrix after the shifts made so far. -/
theorem product_keep (H0 : Matrix (Fin N) (Fin N) K) :
    KeepsAfter (traced (safeOps A E k)) (fun p => p.1.userH k = H0 ∧ shiftsOf p.2 = [])
      (fun p => p.1.H = afterShifts A H0 (shiftsOf p.2)) := by
  have app : ∀ {s : St K R N} {H : Matrix (Fin N) (Fin N) K} {tr : List (Call R)} {c : Call R}, s.H = H →
      shiftsOf [c] = [] → H = afterShifts A H0 (shiftsOf tr) → s.H = afterShifts A H0 (shiftsOf (tr ++ [c])) := by
    intro s H tr c h1 h2 h3
    rw [shiftsOf_append, h2, List.append_nil, h1, h3]
  exact {
    checkSymmetryEasy := fun p h => ⟨by cases k <;> exact h.1, by
      show shiftsOf (p.2 ++ [_]) = []
      rw [shiftsOf_append, h.2]; rfl⟩
    start := fun p h => ⟨by cases k <;> exact h.1, by
      show shiftsOf (p.2 ++ [_]) = []
      rw [shiftsOf_append, h.2]; rfl⟩
    initVecs := fun b p h => by
      have e : (safeOps A E k).initVecs b p.1 = initVecs E k (if b then initRndVecs A E p.1 else p.1) := rfl
      show ((safeOps A E k).initVecs b p.1).H = afterShifts A H0 (shiftsOf (p.2 ++ [_]))
      rw [shiftsOf_append, h.2, e]
      show _ = H0
      rw [← h.1]
      cases k <;> cases b <;> rfl
    qr := fun m c p h => app (by
      obtain ⟨Y, e⟩ := safeQr_form (A := A) (E := E) (k := k) m c p.1
      show (safeQr A E k m c p.1).H = p.1.H
      rw [e]
      rfl) rfl h
    lanczos1 := fun _ _ h => app rfl rfl h
    lanczosN := fun _ _ _ h => app rfl rfl h
    lanczosDos := fun _ _ _ _ h => app rfl rfl h
    shift := fun c b p h => by
      show shiftH A (A.ofBase c) p.1.H = afterShifts A H0 (shiftsOf (p.2 ++ [.shift c b]))
      rw [shiftsOf_append, h]
      exact (afterShifts_append A H0 _ c).symm
    hemm := fun n a b o p h => app rfl rfl h
    rr := fun _ _ h => app rfl rfl h
    resd := fun f j p h => app (resd_frame (A := A) (k := k) 0 f p.1.locked (E.nevex - j) p.1).1 rfl h
    lock := fun _ _ h => app rfl rfl h
    swap := fun _ _ _ h => app rfl rfl h }

/-! ### The residuals -/

/-- `Resd` computes the residuals of the columns; the values are its argument on the CPU and those left by the last
Rayleigh-Ritz step on the GPU. -/
theorem resd_measured (z : R) (ritzv : ℕ → R) (l u : ℕ) (s : St K R N) :
    let vals := match k with
      | .cpu => ritzv
      | .cuda => s.dRitz
    ∀ i, i < u → Measured A s.H (vals i) (s.V1 (l + i)) ((resd A z k ritzv l u s).1 i) := by
  intro vals
  set s1 : St K R N := { s with V2 := setBlk l (A.gemm true s.H A.one A.zero (getBlk l u s.V1) (getBlk l u s.V2)) s.V2 }
    with hs1
  have h := forRange_inv (Nat.zero_le u)
    (fun i (p : (ℕ → R) × St K R N) =>
      (Function.update p.1 i (A.nrm2 ((Function.update p.2.V2 (l + i)
        (A.axpy (A.ofBase (-vals i)) (p.2.V1 (l + i)) (p.2.V2 (l + i)))) (l + i))),
        { p.2 with
          V2 := Function.update p.2.V2 (l + i) (A.axpy (A.ofBase (-vals i)) (p.2.V1 (l + i)) (p.2.V2 (l + i))) }))
    (fun m p => p.2.V1 = s.V1 ∧ (∀ j, l + m ≤ j → p.2.V2 j = s1.V2 j) ∧
      ∀ i, i < m → Measured A s.H (vals i) (s.V1 (l + i)) (p.1 i))
    (s := (fun _ => z, s1)) ⟨rfl, fun _ _ => rfl, by omega⟩ ?_
  · exact h.2.2
  · rintro m p - hm ⟨a6, a7, a8⟩
    refine ⟨a6, ?_, ?_⟩
    · intro j hj
      show Function.update p.2.V2 (l + m) _ j = _
      rw [Function.update_of_ne (by omega)]
      exact a7 j (by omega)
    · intro i hi
      show Measured A s.H (vals i) (s.V1 (l + i)) (Function.update p.1 m _ i)
      by_cases h : i = m
      · subst h
        rw [Function.update_self, Function.update_self, a6, a7 _ le_rfl]
        refine ⟨u, getBlk l u s.V1, getBlk l u s.V2, ⟨i, hm⟩, rfl, ?_⟩
        congr 2
        show setBlk l _ s.V2 (l + i) = _
        rw [setBlk_mem (by omega) (by omega)]
        funext r
        congr 1
        ext
        simp
      · rw [Function.update_of_ne h]
        exact a8 i (by omega)

/-- The GPU backend keeps the values it returns. -/
theorem rr_device (z : R) (b l : ℕ) (s : St K R N) {i : ℕ} (hi : i < b) :
    (rr A z b l s).2.dRitz i = (rr A z b l s).1 i := by
  show writeAt s.dRitz 0 b (rr A z b l s).1 i = (rr A z b l s).1 i
  rw [writeAt, if_pos ⟨by omega, by omega⟩, Nat.sub_zero]

/-- The stamp of a column names the calls before the Rayleigh-Ritz step that made it. -/
noncomputable abbrev opsS (A : Arith K R N) (E : Params) (k : Kind) :=
  stamped E.nevex (fun s : St K R N × List (Call R) => s.2) (traced (safeOps A E k))

/-- The phases of the stamped recorder. -/
def phS (A : Arith K R N) (E : Params) (k : Kind) (H0 : Matrix (Fin N) (Fin N) K) :
    Phases ((St K R N × List (Call R)) × (ℕ → Option (List (Call R)))) where
  pre := fun s => (phases E).pre s.1.1 ∧ (s.1.1.userH k = H0 ∧ shiftsOf s.1.2 = [])
  inv := fun s => (phases E).inv s.1.1 ∧ s.1.1.H = afterShifts A H0 (shiftsOf s.1.2)
  ready := fun s => (phases E).ready s.1.1 ∧ s.1.1.H = afterShifts A H0 (shiftsOf s.1.2)
  synced := fun s => (phases E).synced s.1.1 ∧ s.1.1.H = afterShifts A H0 (shiftsOf s.1.2)

theorem bookkeepingS (H0 : Matrix (Fin N) (Fin N) K) : Bookkeeping (opsS A E k) (fun s i => (s.1.1.V1 i, s.2 i))
    (fun s => s.1.1.locked) (phS A E k H0) N E.nevex :=
  ((bookkeeping (A := A) (E := E) (k := k)).traced.keepAfter (product_keep H0)).stamped _

theorem makesResidualsS (H0 : Matrix (Fin N) (Fin N) K) : MakesResiduals (opsS A E k) (fun s i => (s.1.1.V1 i, s.2 i))
    (fun s => s.1.1.locked) (phS A E k H0)
    (fun x v ρ => ∃ t, v.2 = some t ∧ Measured A (afterShifts A H0 (shiftsOf t)) x v.1 ρ) E.nevex := by
  rintro f p ⟨hph, hH⟩ hl hf i hi
  dsimp only at hl hi
  refine ⟨p.1.2, ?_, ?_⟩
  · show writeAt p.2 (E.nevex - (E.nevex - p.1.1.locked)) (E.nevex - p.1.1.locked) (fun _ => some p.1.2)
      (p.1.1.locked + i) = some p.1.2
    unfold writeAt
    rw [if_pos (by omega)]
  · have := resd_measured (A := A) (k := k) 0 f p.1.1.locked (E.nevex - p.1.1.locked)
      ((ops A E k).rr (E.nevex - p.1.1.locked) p.1.1).2 i hi
    rw [← hH]
    cases k
    · exact this
    · have e : ((ops A E .cuda).rr (E.nevex - p.1.1.locked) p.1.1).2.dRitz i = f i := by
        rw [hf i hi]
        exact rr_device (A := A) 0 (E.nevex - p.1.1.locked) p.1.1.locked p.1.1 hi
      dsimp only at this
      rw [e] at this
      exact this

/-- A run in which no Cholesky QR gives up halfway is a run of the auxiliary backend. -/
theorem solve_safe {cfg : Config R} {P : Plat R} (r0 s0 : ℕ → R) (s : St K R N)
    (out : Outcome R (St K R N × List (Call R)))
    (h : solve P (traced (ops A E k)) cfg r0 s0 (s, []) = .ok out)
    (hq : QrAvoids P (ops A E k) cfg r0 s0 s (GaveUp A E)) :
    solve P (traced (safeOps A E k)) cfg r0 s0 (s, []) = .ok out := by
  refine solve_withQr (q := (traced (safeOps A E k)).qr) (bad := fun k c s => GaveUp A E k c s.1) h ?_ ?_
  · intro o ho hm
    have hs := solve_sim (watch_traced_sim (GaveUp A E) (ops A E k)) P cfg r0 s0 (be := ((s, []), False))
      (be' := (s, False)) rfl
    rw [ho] at hs
    generalize hx : solve P (watch (GaveUp A E) (ops A E k)) cfg r0 s0 (s, False) = x at hs
    cases hs with
    | @ok _ b hr =>
      refine hq b hx ?_
      have := congrArg Prod.snd hr.be
      rw [← this]
      exact hm
  · intro m c s hs
    show (safeQr A E k m c s.1, _) = ((ops A E k).qr m c s.1, _)
    rw [safeQr_agree m c s.1 hs]

/-- **Where the residuals come from, in every arithmetic.**  After a solve with at least one round in which no Cholesky QR
gave up after it had changed a locked column, the residual of every pair is what the kernels compute for its value and its
vector in the current buffer, with the matrix handed in as it was, after some complete pairs of shifts, when Rayleigh-Ritz
was called in one of the rounds. -/
theorem measured_at_end (P : Plat R) (hP : PermutesIndices P) (cfg : Config R) (hN : cfg.N = N)
    (hsz : cfg.nev + cfg.nex = E.nevex) (hmax : Even cfg.maxDeg) (ritzv0 resid0 : ℕ → R) (s : St K R N)
    (out : Outcome R (St K R N × List (Call R)))
    (h : solve P (traced (ops A E k)) cfg ritzv0 resid0 (s, []) = .ok out)
    (hq : QrAvoids P (ops A E k) cfg ritzv0 resid0 s (GaveUp A E))
    (hsym : cfg.symCheck = true → A.symCheck (s.userH k) = true) (hit : 0 < out.iterations) :
    ∃ σ : Equiv.Perm ℕ, PermOn 0 cfg.nev σ ∧ ∀ i, i < cfg.nev + cfg.nex →
      ∃ xs : List R, xs.length ≤ out.iterations ∧ (∀ c ∈ pairsOf xs, c ∈ shiftsOf out.be.2) ∧
        Measured A (afterShifts A (s.userH k) (pairsOf xs)) (out.ritzv i) (out.be.1.V1 i) (out.resid (σ i)) := by
  have hpath := C57_call_protocol hP ritzv0 resid0 s out h hsym
  replace h := solve_safe ritzv0 resid0 s out h hq
  have hsim := solve_sim (stamped_sim E.nevex (fun s : St K R N × List (Call R) => s.2) (traced (safeOps A E k)))
    P cfg ritzv0 resid0 (be := ((s, []), fun _ => none)) (be' := (s, [])) rfl
  rw [h] at hsim
  generalize hx : solve P (opsS A E k) cfg ritzv0 resid0 ((s, []), fun _ => none) = x at hsim
  cases hsim with
  | @ok o _ hr =>
    obtain ⟨σ, hσ, hm⟩ := C06_residuals_arith_partial P (opsS A E k) _ _ (phS A E k (s.userH k)) _ cfg hP
      (by rw [hsz, hN]; exact bookkeepingS (s.userH k)) hmax (by rw [hsz]; exact makesResidualsS (s.userH k))
      ritzv0 resid0 ((s, []), fun _ => none)
      ⟨trivial, rfl, rfl⟩ o hsym hx (by rw [hr.iterations]; exact hit)
    have htag := (stamps_keep (safeOps A E k) E.nevex).solve hx (by intro i t h; cases h)
    refine ⟨σ, hσ, fun i hi => ?_⟩
    obtain ⟨t, ht, hmt⟩ := hm i hi
    obtain ⟨b, hb⟩ := htag i t ht
    have hbe : o.be.1 = out.be := hr.be
    rw [hbe] at hb hmt
    rw [hr.ritzv, hr.resid] at hmt
    obtain ⟨xs, h1, h2, h3⟩ := shifts_before_rr hpath hb
    rw [h2] at hmt h3
    exact ⟨xs, h1, h3, hmt⟩

/-- The user's matrix after a solve on the CPU: every round has subtracted and added a number. -/
theorem matrix_at_end (P : Plat R) (hP : PermutesIndices P) (cfg : Config R) (ritzv0 resid0 : ℕ → R) (s : St K R N)
    (out : Outcome R (St K R N × List (Call R)))
    (h : solve P (traced (ops A E .cpu)) cfg ritzv0 resid0 (s, []) = .ok out)
    (hsym : cfg.symCheck = true → A.symCheck s.H = true) :
    ∃ xs : List R, xs.length = out.iterations ∧ shiftsOf out.be.2 = pairsOf xs ∧
      out.be.1.H = afterShifts A s.H (pairsOf xs) := by
  have hpath := C57_call_protocol hP ritzv0 resid0 s out h hsym
  obtain ⟨xs, h1, h2⟩ := shiftsAt_path hpath
  have := (matrix_keep (A := A) (E := E) s.H).solve h rfl
  rw [h2] at this
  exact ⟨xs, h1, h2, this⟩

/-- The bit that tells in which buffer the current vectors are. -/
theorem toggles : Toggles (ops A E k) St.flipped where
  checkSymmetryEasy := fun _ => rfl
  start := fun _ => rfl
  finish := fun s => by cases k <;> rfl
  initVecs := fun b s => by cases k <;> cases b <;> rfl
  qr := fun m c s => (qr_frame (A := A) (E := E) (k := k) m c s).2.2.1
  lanczos1 := fun _ _ => rfl
  lanczosN := fun _ _ _ => rfl
  lanczosDos := fun _ _ _ _ => rfl
  shift := fun _ _ _ => rfl
  hemm := fun _ _ _ _ _ => rfl
  rr := fun _ _ => rfl
  resd := fun f j s => (resd_frame (A := A) (k := k) 0 f s.locked (E.nevex - j) s).2.2.2.1
  lock := fun _ _ => rfl
  swap := fun _ _ _ => rfl

/-- Where the user finds the vectors of the current buffer: on the GPU backend always, on the CPU backend after an even
number of rounds. -/
theorem user_at_end (P : Plat R) (hP : PermutesIndices P) (cfg : Config R)
    (hsz : cfg.nev + cfg.nex = E.nevex) (hmax : Even cfg.maxDeg) (ritzv0 resid0 : ℕ → R) (s : St K R N)
    (hfl : s.flipped = false) (out : Outcome R (St K R N))
    (h : solve P (ops A E k) cfg ritzv0 resid0 s = .ok out)
    (hsym : cfg.symCheck = true → A.symCheck (s.userH k) = true) (hk : k = .cuda ∨ out.iterations % 2 = 0) :
    ∀ j, j < cfg.nev + cfg.nex → out.be.userV k j = out.be.V1 j := by
  intro j hj
  have hsym' : cfg.symCheck = true → ((ops A E k).checkSymmetryEasy s).1 = true := hsym
  cases k with
  | cuda =>
    obtain ⟨be0, st0, st, -, -, -, -, -, rfl⟩ := solve_ok h hsym'
    show copyCols 0 E.nevex _ _ j = _
    rw [copyCols_apply, if_pos ⟨Nat.zero_le _, by omega⟩]
    rfl
  | cpu =>
    have hk : out.iterations % 2 = 0 := by simpa using hk
    have := parity_at_end (toggles (A := A) (E := E) (k := .cpu)) hP hmax hsym' h
    rw [hfl, hk] at this
    show (if out.be.flipped = true then out.be.V2 else out.be.V1) j = _
    rw [this]
    rfl

end InPlace
end Rounded
end Verif
