/-
The returned vectors are orthonormal up to rounding errors: the contract of the kernels, and the invariant of a solve.
-/
import Verif.Rounded.OrthoLin
import Verif.Rounded.ParRun
import Verif.Rounded.ParError
import Verif.Solver.Watch
import Verif.Solver.EndProof

set_option linter.unusedSectionVars false

namespace Verif
namespace Rounded

open Matrix Finset

/-! ### Specification -/

/-- The kernels of the Rayleigh-Ritz step for at most `n` vectors: every entry of the product of the search space with
the small matrix is an inner product computed in some order of operations of depth at most `d`; the eigenvectors of a
small matrix are, column by column, within `δ` of exactly orthonormal ones. -/
structure OrthoKernels {K 𝕜 R : Type*} [RCLike 𝕜] {N : ℕ} (F : Fl K 𝕜) (A : Arith K R N) (n d : ℕ) (δ : ℝ) : Prop where
  back : ∀ {b : ℕ}, b ≤ n → ∀ (X : Matrix (Fin N) (Fin b) K) (Z : Matrix (Fin b) (Fin b) K) (i : Fin N) (j : Fin b),
    ∃ d' ≤ d, Dot F (univ.val.map fun k => (X i k, Z k j)) d' (A.gemmBack X Z i j)
  heevd : ∀ {b : ℕ}, b ≤ n → ∀ M : Matrix (Fin b) (Fin b) K, ∃ W : Matrix (Fin b) (Fin b) 𝕜, Wᴴ * W = 1 ∧
    ∀ j, Verif.nrm2 (fun k => F.val ((A.heevd M).2 k j) - W k j) ≤ δ

/-- The columns which `QR` computes from the columns `X` when the estimate of the condition number is `cond`, before
the locked ones are put back: chase_mpi 351-427. -/
def qrCols {K R : Type*} {N : ℕ} (A : Arith K R N) (E : Params) (cond : R) (X : ℕ → Fin N → K) : ℕ → Fin N → K :=
  if cholDisable E.doCholQR E.envDisable = 1 then A.hhQR X
  else
    let y := if A.above cond then A.shiftedcholQR2 X else if A.below cond then A.cholQR1 X else A.cholQR2 X
    if y.1 ≠ 0 then A.hhQR y.2 else y.2

/-- A call of `QR` whose result is not an accurate orthonormal factor of the columns it was called with. -/
def Inaccurate {K 𝕜 R : Type*} [RCLike 𝕜] {N : ℕ} (F : Fl K 𝕜) (A : Arith K R N) (E : Params) (ε : ℝ) (_ : ℕ) (cond : R)
    (X : ℕ → Fin N → K) : Prop :=
  ¬ QrOf ε E.nevex (fun j => valV F (X j)) (fun j => valV F (qrCols A E cond X j))

/-! ### The invariant, for any backend -/

section
variable {R S V 𝕜 : Type*} [RCLike 𝕜] {N : ℕ}

/-- The phases of a backend with the mark of `watch`: unless the mark is set, the locked columns are nearly orthonormal
between the rounds, and all columns are after a Rayleigh-Ritz step. -/
def nearPh (ph : Phases S) (cols : S → ℕ → V) (nl : S → ℕ) (φ : V → Fin N → 𝕜) (n : ℕ) (τ ε : ℝ) : Phases (S × Prop) where
  pre := fun p => ph.pre p.1
  inv := fun p => ph.inv p.1 ∧ (¬ p.2 → NearOrtho τ (nl p.1) fun j => φ (cols p.1 j))
  ready := fun p => ph.ready p.1 ∧ (¬ p.2 → (NearOrtho τ (nl p.1) fun j => φ (cols p.1 j)) ∧
    ReadyOrtho ε (nl p.1) n fun j => φ (cols p.1 j))
  synced := fun p => ph.synced p.1 ∧ (¬ p.2 → NearOrtho τ n fun j => φ (cols p.1 j))

variable [Add R] [Sub R] [Mul R] [Div R] [Neg R] [Zero R] [One R] [NatCast R] [LT R] [DecidableLT R]
  {ops : Chase R S} {cols : S → ℕ → V} {nl : S → ℕ} {ph : Phases S} {M n : ℕ} {φ : V → Fin N → 𝕜} {τ ε : ℝ}
  {bad : ℕ → R → S → Prop}

theorem filter_watch {m u deg dsize p0 av : ℕ} {degrees : ℕ → ℕ} {l a b : R} {s s' : S × Prop}
    (h : filter (watch bad ops) m u deg degrees dsize p0 l a b s = .ok (av, s')) :
    filter ops m u deg degrees dsize p0 l a b s.1 = .ok (av, s'.1) ∧ s'.2 = s.2 := by
  constructor
  · have h1 := filter_sim (watch_sim bad ops) m u deg degrees dsize p0 l a b (be := s) (be' := s.1) rfl
    rw [h] at h1
    cases hf : filter ops m u deg degrees dsize p0 l a b s.1 with
    | error e => rw [hf] at h1; cases h1
    | ok w =>
      rw [hf] at h1
      cases h1 with
      | ok h1 => obtain ⟨w1, w2⟩ := w; obtain ⟨a1, a2⟩ := h1; dsimp only at a1 a2; rw [a1, a2]
  · exact filter_pres (fun t => t.2 = s.2) (fun _ _ _ h => h) (fun _ _ _ _ _ h => h) h rfl

/-- The columns, with the mark behind the last one. -/
def markedCols (cols : S → ℕ → V) (n : ℕ) (p : S × Prop) (j : ℕ) : V × Prop := (cols p.1 j, j = n ∧ p.2)

theorem markedCols_eq {p p' : S × Prop} {i : ℕ} (hi : i < n) (h : cols p.1 i = cols p'.1 i) :
    markedCols cols n p i = markedCols cols n p' i := by
  unfold markedCols
  rw [h]
  simp [Nat.ne_of_lt hi]

/-- Near-orthonormality of the locked columns is kept by every call, given what `QR`, the Rayleigh-Ritz step and `Swap`
do to it. -/
theorem Frame.near (hb : Frame ops cols nl ph M n) (hnl : ∀ s, ph.inv s → nl s ≤ n)
    (hqr : ∀ k c s, ph.inv s → ¬ bad k c s → ReadyOrtho ε (nl s) n fun j => φ (cols (ops.qr k c s) j))
    (hrr : ∀ s, ph.ready s → nl s ≤ n → (NearOrtho τ (nl s) fun j => φ (cols s j)) →
      (ReadyOrtho ε (nl s) n fun j => φ (cols s j)) → NearOrtho τ n fun j => φ (cols (ops.rr (n - nl s) s).2 j))
    (hsw : ∀ i j s, i < n → j < n → (NearOrtho τ n fun k => φ (cols s k)) →
      NearOrtho τ n fun k => φ (cols (ops.swap i j s) k)) :
    Frame (watch bad ops) (markedCols cols n) (fun p => nl p.1) (nearPh ph cols nl φ n τ ε) M n where
  swap_low := fun i j s h1 h2 h3 h4 k hk =>
    markedCols_eq (by omega) (hb.swap_low i j s.1 h1 h2 h3 h4 k hk)
  swap_nl := fun i j s => hb.swap_nl i j s.1
  swap_inv := by
    rintro i j s hi hj hi' hj' ⟨h1, h2⟩
    refine ⟨hb.swap_inv i j s.1 hi hj hi' hj' h1, fun hm => ?_⟩
    have e : nl ((watch bad ops).swap i j s).1 = nl s.1 := hb.swap_nl i j s.1
    rw [e]
    exact (h2 hm).congr fun k hk => congrArg φ (hb.swap_low i j s.1 hi hj hi' hj' k hk)
  swap_synced := by
    rintro i j s hi hj hi' hj' ⟨h1, h2⟩
    exact ⟨hb.swap_synced i j s.1 hi hj hi' hj' h1, fun hm => hsw i j s.1 hi' hj' (h2 hm)⟩
  filter := by
    rintro deg av degrees lambda lower upper s s' ⟨h1, h2⟩ hdeg hs hd h
    obtain ⟨f1, f2⟩ := filter_watch h
    obtain ⟨a1, a2, a3⟩ := hb.filter deg av degrees lambda lower upper s.1 s'.1 h1 hdeg hs hd f1
    have hl := hnl _ h1
    refine ⟨a1, ⟨a2, fun hm => ?_⟩, fun i hi => markedCols_eq (by omega) (a3 i hi)⟩
    rw [f2] at hm
    rw [a1]
    exact (h2 hm).congr fun k hk => congrArg φ (a3 k hk)
  qr := by
    rintro k c s ⟨h1, h2⟩
    obtain ⟨a1, a2, a3, a4⟩ := hb.qr k c s.1 h1
    have e : nl ((watch bad ops).qr k c s).1 = nl s.1 := a1
    have near : ¬ ((watch bad ops).qr k c s).2 →
        NearOrtho τ (nl s.1) fun j => φ (cols ((watch bad ops).qr k c s).1 j) := fun hm =>
      (h2 (not_or.mp hm).1).congr fun i hi => congrArg φ (a4 i hi)
    have hl := hnl _ h1
    refine ⟨a1, ⟨a2, fun hm => by rw [e]; exact near hm⟩, ⟨a3, fun hm => ?_⟩,
      fun i hi => markedCols_eq (by omega) (a4 i hi)⟩
    rw [e]
    exact ⟨near hm, hqr k c s.1 h1 (not_or.mp hm).2⟩
  rr := by
    rintro s ⟨h1, h2⟩ hl
    obtain ⟨a1, a2, a3⟩ := hb.rr s.1 h1 hl
    exact ⟨a1, ⟨a2, fun hm => hrr s.1 h1 hl (h2 hm).1 (h2 hm).2⟩, fun i hi => markedCols_eq (by omega) (a3 i hi)⟩
  resd := by
    rintro f k s ⟨h1, h2⟩
    obtain ⟨a1, a2, a3⟩ := hb.resd f k s.1 h1
    exact ⟨a1, ⟨a2, fun hm => (h2 hm).congr fun i _ => congrArg φ (congrFun a3 i)⟩,
      funext fun i => Prod.ext (congrFun a3 i) rfl⟩
  lock := by
    rintro k s ⟨h1, h2⟩ hl
    obtain ⟨a1, a2, a3⟩ := hb.lock k s.1 h1 hl
    refine ⟨a1, ⟨a2, fun hm => ?_⟩, funext fun i => Prod.ext (congrFun a3 i) rfl⟩
    have e : nl ((watch bad ops).lock k s).1 = nl s.1 + k := a1
    rw [e]
    exact ((h2 hm).mono hl).congr fun i _ => congrArg φ (congrFun a3 i)
  start := fun s h => hb.start s.1 h
  check := fun s h => hb.check s.1 h
  initVecs := by
    intro b s h hl
    obtain ⟨a1, a2⟩ := hb.initVecs b s.1 h hl
    have e : nl ((watch bad ops).initVecs b s).1 = 0 := a1
    exact ⟨a1, a2, fun _ => by rw [e]; exact ⟨fun _ h => absurd h (Nat.not_lt_zero _), fun _ _ h => absurd h (Nat.not_lt_zero _)⟩⟩
  lanczos1 := by
    intro m s h hl
    obtain ⟨a1, a2⟩ := hb.lanczos1 m s.1 h.1 hl
    have e : nl ((watch bad ops).lanczos1 m s).2.1 = 0 := a1
    exact ⟨a1, a2, fun _ => by rw [e]; exact ⟨fun _ h => absurd h (Nat.not_lt_zero _), fun _ _ h => absurd h (Nat.not_lt_zero _)⟩⟩
  lanczosN := by
    intro m k s h hl
    obtain ⟨a1, a2⟩ := hb.lanczosN m k s.1 h.1 hl
    have e : nl ((watch bad ops).lanczosN m k s).2.1 = 0 := a1
    exact ⟨a1, a2, fun _ => by rw [e]; exact ⟨fun _ h => absurd h (Nat.not_lt_zero _), fun _ _ h => absurd h (Nat.not_lt_zero _)⟩⟩
  lanczosDos := by
    intro i m z s h hl
    obtain ⟨a1, a2⟩ := hb.lanczosDos i m z s.1 h.1 hl
    have e : nl ((watch bad ops).lanczosDos i m z s).1 = 0 := a1
    exact ⟨a1, a2, fun _ => by rw [e]; exact ⟨fun _ h => absurd h (Nat.not_lt_zero _), fun _ _ h => absurd h (Nat.not_lt_zero _)⟩⟩
  finish := fun s => funext fun i => Prod.ext (congrFun (hb.finish s.1) i) rfl

/-- A contract that says what `Swap` does. -/
theorem Frame.bookkeeping (hb : Frame ops cols nl ph M n) (hs : SwapsColumns ops cols n) :
    Bookkeeping ops cols nl ph M n where
  swap := hs
  swap_nl := hb.swap_nl
  swap_inv := hb.swap_inv
  swap_synced := hb.swap_synced
  filter := hb.filter
  qr := hb.qr
  rr := hb.rr
  resd := hb.resd
  lock := hb.lock
  start := hb.start
  check := hb.check
  initVecs := hb.initVecs
  lanczos1 := hb.lanczos1
  lanczosN := hb.lanczosN
  lanczosDos := hb.lanczosDos
  finish := hb.finish

end

/-! ### The Rayleigh-Ritz step and the orthogonalisation -/

section
variable {K 𝕜 R : Type*} [RCLike 𝕜] {N : ℕ} {F : Fl K 𝕜} {A : Arith K R N} {E : Params} {d : ℕ} {ε δ : ℝ}

theorem OrthoKernels.mul {n b : ℕ} (hA : OrthoKernels F A n d δ) (hb : b ≤ n) (X : Matrix (Fin N) (Fin b) K)
    (Z : Matrix (Fin b) (Fin b) K) (j : Fin b) :
    Verif.nrm2 ((fun i => F.val (A.gemmBack X Z i j)) - ∑ k, F.val (Z k j) • fun i => F.val (X i k)) ≤
      gam F.u d * ∑ k, ‖F.val (Z k j)‖ * Verif.nrm2 fun i => F.val (X i k) := by
  have hγ : 0 ≤ gam F.u d := by
    have := F.u_nonneg
    unfold gam
    linarith [one_le_pow₀ (n := d) (a := 1 + F.u) (by linarith)]
  have h1 : ∀ i, ‖((fun i => F.val (A.gemmBack X Z i j)) - ∑ k, F.val (Z k j) • fun i => F.val (X i k)) i‖ ≤
      gam F.u d * ∑ k, ‖F.val (Z k j)‖ * ‖F.val (X i k)‖ := by
    intro i
    obtain ⟨d', hd, h⟩ := hA.back hb X Z i j
    have := h.error_le hd
    have es : F.sum (univ.val.map fun k => (X i k, Z k j)) = ∑ k, F.val (Z k j) * F.val (X i k) := by
      unfold Fl.sum
      rw [Multiset.map_map]
      exact Finset.sum_congr rfl fun k _ => mul_comm _ _
    have ea : F.abs (univ.val.map fun k => (X i k, Z k j)) = ∑ k, ‖F.val (Z k j)‖ * ‖F.val (X i k)‖ := by
      unfold Fl.abs
      rw [Multiset.map_map]
      exact Finset.sum_congr rfl fun k _ => mul_comm _ _
    rw [es, ea] at this
    simpa [gam, Finset.sum_apply] using this
  have h2 : Verif.nrm2 ((fun i => F.val (A.gemmBack X Z i j)) - ∑ k, F.val (Z k j) • fun i => F.val (X i k)) ≤
      Verif.nrm2 (gam F.u d • ∑ k, ‖F.val (Z k j)‖ • fun i => ‖F.val (X i k)‖ : Fin N → ℝ) := by
    refine nrm2_le fun i => (h1 i).trans (le_of_eq ?_)
    rw [Pi.smul_apply, smul_eq_mul, Finset.sum_apply, Real.norm_eq_abs, abs_of_nonneg]
    · rfl
    · refine mul_nonneg hγ (Finset.sum_nonneg fun k _ => ?_)
      exact mul_nonneg (norm_nonneg _) (norm_nonneg _)
  refine h2.trans ?_
  rw [nrm2_smul, Real.norm_eq_abs, abs_of_nonneg hγ]
  refine mul_le_mul_of_nonneg_left ?_ hγ
  rw [nrm2_eq_norm, WithLp.toLp_sum]
  refine (norm_sum_le _ _).trans (Finset.sum_le_sum fun k _ => ?_)
  rw [WithLp.toLp_smul, norm_smul, norm_norm, ← nrm2_eq_norm]
  refine mul_le_mul_of_nonneg_left (le_of_eq ?_) (norm_nonneg _)
  unfold Verif.nrm2
  simp

/-- The Rayleigh-Ritz step makes all columns nearly orthonormal. -/
theorem rr_near [Zero R] (hA : OrthoKernels F A E.nevex d δ) (hε : 0 ≤ ε) (hδ : 0 ≤ δ) (z : R) (s : Seq.St K N)
    (hr : (phases E).ready s)
    (h1 : NearOrtho (tau E.nevex ε δ (gam F.u d)) s.locked fun j => valV F (s.C j))
    (h2 : ReadyOrtho ε s.locked E.nevex fun j => valV F (s.C j)) :
    NearOrtho (tau E.nevex ε δ (gam F.u d)) E.nevex fun j =>
      valV F ((rr A z (E.nevex - s.locked) s.locked s).2.C j) := by
  obtain ⟨-, hl, hc⟩ := hr
  have hγ : 0 ≤ gam F.u d := by
    have := F.u_nonneg
    unfold gam
    linarith [one_le_pow₀ (n := d) (a := 1 + F.u) (by linarith)]
  set b := E.nevex - s.locked with hb
  set Mt := A.gemmProj (getBlk s.locked b (asynCxHGatherC A s.locked b s).B2)
    (getBlk s.locked b (asynCxHGatherC A s.locked b s).B) with hM
  obtain ⟨W, hW, hZ⟩ := hA.heevd (b := b) (by omega) Mt
  have eC : (rr A z b s.locked s).2.C = setBlk s.locked (A.gemmBack (getBlk s.locked b s.C2) (A.heevd Mt).2) s.C := rfl
  refine h2.rr (W := W) (Z := fun k j => F.val ((A.heevd Mt).2 k j)) hε hδ hγ hl h1 hW hZ (fun i hi => ?_) fun j => ?_
  · rw [eC, setBlk_not_mem (Or.inl hi)]
  · have hm := hA.mul (b := b) (by omega) (getBlk s.locked b s.C2) (A.heevd Mt).2 j
    have e1 : ∀ k : Fin b, (fun i => F.val (getBlk s.locked b s.C2 i k)) = valV F (s.C (s.locked + k)) := by
      intro k
      funext i
      show F.val (s.C2 (s.locked + k) i) = _
      rw [hc _ (by omega)]
      rfl
    have e2 : valV F ((rr A z b s.locked s).2.C (s.locked + j)) =
        fun i => F.val (A.gemmBack (getBlk s.locked b s.C2) (A.heevd Mt).2 i j) := by
      rw [eC, setBlk_mem (by omega) (by omega)]
      funext i
      simp [valV]
    simp only [e1] at hm
    rw [e2]
    exact hm

theorem qr_cols [Neg R] [Zero R] (k : ℕ) (c : R) (s : Seq.St K N) :
    (ops A E).qr k c s = lockVectorCopy E s.locked { s with C := qrCols A E c s.C } := by
  show qrSelect _ _ _ _ _ s = _
  unfold qrSelect qrCols
  dsimp only
  split_ifs <;> first | rfl | contradiction

theorem lockCopy_ready {s : Seq.St K N} {Y : ℕ → Fin N → K} (hl : s.locked ≤ E.nevex)
    (hc : ∀ j, j < s.locked → s.C2 j = s.C j) (h : QrOf ε E.nevex (fun j => valV F (s.C j)) fun j => valV F (Y j)) :
    ReadyOrtho ε s.locked E.nevex fun j => valV F ((lockVectorCopy E s.locked { s with C := Y }).C j) := by
  refine h.ready hl (fun i hi => ?_) fun i hi _ => ?_
  · exact congrArg (valV F) ((lockCopy_spec (E := E) s (Y := Y) hc).1 i hi)
  · show valV F (copyCols 0 s.locked s.C2 Y i) = _
    rw [copyCols_apply, if_neg (by omega)]

theorem swapAt_near {n i j : ℕ} {τ : ℝ} {X : ℕ → Fin N → K} (hi : i < n) (hj : j < n)
    (h : NearOrtho τ n fun k => valV F (X k)) : NearOrtho τ n fun k => valV F (swapAt X i j k) := by
  have := h.comp (Equiv.swap i j).injective fun k hk => by
    rw [Equiv.swap_apply_def]; split_ifs <;> omega
  refine this.congr fun k _ => ?_
  show valV F _ = valV F (X (Equiv.swap i j k))
  rw [swapAt_apply, Equiv.swap_apply_def]
  split_ifs <;> simp_all

variable [Add R] [Sub R] [Mul R] [Div R] [Neg R] [Zero R] [One R] [NatCast R] [LT R] [DecidableLT R]

/-- The sequential backend. -/
theorem near_bookkeeping (hA : OrthoKernels F A E.nevex d δ) (hε : 0 ≤ ε) (hδ : 0 ≤ δ) :
    Bookkeeping (watch (fun k c s => Inaccurate F A E ε k c s.C) (ops A E)) (markedCols Seq.St.C E.nevex) (fun p => p.1.locked)
      (nearPh (phases E) Seq.St.C Seq.St.locked (valV F) E.nevex (tau E.nevex ε δ (gam F.u d)) ε) N E.nevex := by
  refine Frame.bookkeeping (Frame.near (bookkeeping (A := A) (E := E)).frame (fun _ h => h.2.1) ?_ ?_ ?_) ?_
  · rintro k c s ⟨-, hl, hc⟩ hb
    rw [qr_cols]
    exact lockCopy_ready hl hc (not_not.mp hb)
  · intro s hr _ h1 h2
    exact rr_near hA hε hδ 0 s hr h1 h2
  · intro i j s hi hj h
    exact swapAt_near hi hj h
  · intro i j s hi hj
    funext k
    show (swapAt s.1.C i j k, k = E.nevex ∧ s.2) = _
    rw [swapAt_apply, swapAt_apply]
    unfold markedCols
    split_ifs with h1 h2
    · simp [h1, Nat.ne_of_lt hi, Nat.ne_of_lt hj]
    · simp [h2, Nat.ne_of_lt hi, Nat.ne_of_lt hj]
    · rfl

end

/-! ### The distributed backend -/

namespace Par
open Mpi (Layout GSt)
open Seq (NextOp)

variable {K R 𝕜 : Type} [RCLike 𝕜] {N : ℕ} {r c : Layout N} {T : Red1 K R r c} {E : DEnv K R} {F : Fl K 𝕜} {d : ℕ} {ε δ : ℝ}

/-- The kernels of the Rayleigh-Ritz step on every process, for at most `n` vectors; every process has the same
eigenvectors of the small matrix (`C77_outcome_partial`). -/
structure OrthoPar (F : Fl K 𝕜) (r : Layout N) (E : DEnv K R) (n d : ℕ) (δ : ℝ) : Prop where
  back : ∀ (p : Fin r.procs) {b : ℕ}, b ≤ n → ∀ (X : Matrix (Fin (r.size p)) (Fin b) K) (Z : Matrix (Fin b) (Fin b) K)
    (i : Fin (r.size p)) (j : Fin b),
    ∃ d' ≤ d, Dot F (univ.val.map fun k => (X i k, Z k j)) d' (E.kern.back X Z i j)
  heevd : ∀ {b : ℕ}, b ≤ n → ∀ M : Matrix (Fin b) (Fin b) K, ∃ W : Matrix (Fin b) (Fin b) 𝕜, Wᴴ * W = 1 ∧
    ∀ j, Verif.nrm2 (fun k => F.val ((E.kern.heevd M).2 k j) - W k j) ≤ δ

theorem OrthoPar.kernels [Neg R] [Zero R] {n : ℕ} (h : OrthoPar F r E n d δ) :
    OrthoKernels F (distArith T E) n d δ where
  heevd := h.heevd
  back := by
    intro b hb X Z i j
    obtain ⟨p, a, rfl⟩ := r.exists_glob i
    have e : (distArith T E).gemmBack X Z (r.glob p a) j = E.kern.back (cutM r p X) Z a j := by
      show Mpi.assemble r (fun p a => E.kern.back (cutM r p X) Z a j) (r.glob p a) = _
      rw [Mpi.assemble_apply]
    rw [e]
    exact h.back p hb (cutM r p X) Z a j

variable [Add R] [Sub R] [Mul R] [Div R] [Neg R] [Zero R] [One R] [NatCast R] [LT R] [DecidableLT R]

theorem gQr_cols (k : ℕ) (x : R) (g : GSt K N) (hnext : g.next = .bAc) :
    (gOps T E).qr k x g = { g with toSt := (lockVectorCopy E.toParams g.locked
      { g.toSt with C := qrCols (distArith T E) E.toParams x g.C }) } := by
  show qrSelect _ _ _ _ _ g = _
  have hh : ∀ C, (gQrRoutines T E g.locked).hhQR { g with C := C } = { g with C := (distArith T E).hhQR C } := by
    intro C
    show ({ g with C := _, next := if E.scalapack then g.next else .bAc } : GSt K N) = _
    rw [hnext, ite_self]
  unfold qrSelect qrCols
  by_cases hd : cholDisable E.doCholQR E.envDisable = 1
  · rw [if_pos hd, if_pos hd]
    show (gQrRoutines T E g.locked).lockCopy true ((gQrRoutines T E g.locked).hhQR { g with C := g.C }) = _
    rw [hh]
    rfl
  · rw [if_neg hd, if_neg hd]
    have main : ∀ p : ℤ × (ℕ → Fin N → K),
        (if p.1 ≠ 0 then (gQrRoutines T E g.locked).lockCopy true ((gQrRoutines T E g.locked).hhQR { g with C := p.2 })
          else (gQrRoutines T E g.locked).lockCopy false { g with C := p.2 }) =
          { g with toSt := (lockVectorCopy E.toParams g.locked
            { g.toSt with C := if p.1 ≠ 0 then (distArith T E).hhQR p.2 else p.2 }) } := by
      intro p
      split_ifs
      · rw [hh]; rfl
      · rfl
    have ea : (distArith T E).above x = E.kern.above x := rfl
    have eb : (distArith T E).below x = E.kern.below x := rfl
    rw [ea, eb]
    cases E.kern.above x
    · cases E.kern.below x
      · exact main (chol2 T E g.C)
      · exact main (chol1 T E g.C)
    · exact main (shiftedChol2 T E g.C)

/-- The distributed backend. -/
theorem near_frame (hA : OrthoPar F r E E.nevex d δ) (hε : 0 ≤ ε) (hδ : 0 ≤ δ) :
    Frame (watch (fun k x g => Inaccurate F (distArith T E) E.toParams ε k x g.C) (gOps T E)) (markedCols gCols E.nevex)
      (fun p => gNl p.1) (nearPh (gPhases E) gCols gNl (valV F) E.nevex (tau E.nevex ε δ (gam F.u d)) ε) N E.nevex := by
  refine Frame.near (gFrame T E) (fun _ h => h.2.1) ?_ ?_ ?_
  · rintro k x g ⟨hn, hl, hc⟩ hb
    rw [gQr_cols k x g hn]
    exact lockCopy_ready (E := E.toParams) (s := g.toSt) hl hc (not_not.mp hb)
  · intro g hr _ h1 h2
    exact rr_near (hA.kernels (T := T)) hε hδ 0 g.toSt hr h1 h2
  · exact fun _ _ _ _ _ h => h

end Par
end Rounded
end Verif
