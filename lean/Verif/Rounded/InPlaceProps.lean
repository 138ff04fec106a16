/-
C73, C74, C84, C85, C90 and C91 in floating-point arithmetic for the two backends that exchange their buffers: the
in-place CPU backend (`k = .cpu`) and the single-process GPU backend (`k = .cuda`).  `s.userH k` is the matrix handed in,
`s.userV k` the array of vectors handed in.  On the CPU the vectors are in that array after an even number of rounds only
(C41); statements about vectors have this as a hypothesis.
-/
import Verif.Rounded.InPlaceRun
import Verif.Rounded.SumProps
import Verif.Rounded.VectorProps
import Verif.Solver.WatchMore

set_option linter.unusedSectionVars false

namespace Verif
namespace Rounded
namespace InPlace

open Matrix Finset
open Verif.InPlace (Kind)

section
variable {K 𝕜 R : Type*} [RCLike 𝕜] {N : ℕ}
variable [Add R] [Sub R] [Mul R] [Div R] [Neg R] [Zero R] [One R] [NatCast R] [LT R] [DecidableLT R]
  {F : Fl K 𝕜} {valR : R → ℝ} {A : Arith K R N} {E : Params} {k : Kind} {d d' : ℕ} {ν ε δ : ℝ}

/-- **C74**, single-process GPU backend: the matrix handed in is the same after the solve, bit for bit, in every
arithmetic. -/
theorem C74_cuda (P : Plat R) (cfg : Config R) (ritzv0 resid0 : ℕ → R) (s : St K R N) (out : Outcome R (St K R N))
    (h : solve P (ops A E .cuda) cfg ritzv0 resid0 s = .ok out) : out.be.userH .cuda = s.userH .cuda :=
  (host_keep (A := A) (E := E) s.hostH).solve h rfl

/-- **C74**, in-place CPU backend (partial): as `C74_drift_partial`. -/
theorem C74_drift_inplace_partial (hA : Accurate F valR A d ν) (P : Plat R) (hP : PermutesIndices P) (cfg : Config R)
    (ritzv0 resid0 : ℕ → R) (s : St K R N) (out : Outcome R (St K R N × List (Call R)))
    (h : solve P (traced (ops A E .cpu)) cfg ritzv0 resid0 (s, []) = .ok out)
    (hsym : cfg.symCheck = true → A.symCheck (s.userH .cpu) = true)
    {C : ℝ} (hC : ∀ c ∈ shiftsOf out.be.2, |valR c| ≤ C) :
    (∀ i j, i ≠ j → out.be.1.userH .cpu i j = s.userH .cpu i j) ∧
    ∀ i, ‖F.val (out.be.1.userH .cpu i i) - F.val (s.userH .cpu i i)‖ ≤
      ((1 + F.u) ^ (2 * out.iterations) - 1) * (‖F.val (s.userH .cpu i i)‖ + C) := by
  obtain ⟨xs, h1, h2, h3⟩ := matrix_at_end P hP cfg ritzv0 resid0 s out h hsym
  rw [h2] at hC
  obtain ⟨a, b⟩ := drift hA s.H xs hC
  show (∀ i j, i ≠ j → out.be.1.H i j = s.H i j) ∧ ∀ i, ‖F.val (out.be.1.H i i) - F.val (s.H i i)‖ ≤ _
  rw [h3, ← h1]
  exact ⟨a, b⟩

/-- A bound for the shifts of a run with a round is not negative. -/
theorem bound_nonneg {P : Plat R} (hP : PermutesIndices P) {cfg : Config R} {ritzv0 resid0 : ℕ → R} {s : St K R N}
    {out : Outcome R (St K R N × List (Call R))}
    (h : solve P (traced (ops A E k)) cfg ritzv0 resid0 (s, []) = .ok out)
    (hsym : cfg.symCheck = true → A.symCheck (s.userH k) = true) (hit : 0 < out.iterations)
    {C : ℝ} (hC : ∀ c ∈ shiftsOf out.be.2, |valR c| ≤ C) : 0 ≤ C := by
  obtain ⟨ys, hy1, hy2⟩ := shiftsAt_path (C57_call_protocol hP ritzv0 resid0 s out h hsym)
  cases ys with
  | nil => simp at hy1; omega
  | cons y ys => exact (abs_nonneg _).trans (hC (-y) (by rw [hy2]; simp [pairsOf]))

/-- The residuals, for the vectors in the current buffer. -/
theorem residual_buffer (hA : Accurate F valR A d ν) (hν : 0 ≤ ν) (P : Plat R) (hP : PermutesIndices P)
    (cfg : Config R) (hN : cfg.N = N) (hsz : cfg.nev + cfg.nex = E.nevex) (hmax : Even cfg.maxDeg)
    (ritzv0 resid0 : ℕ → R) (s : St K R N) (hH : (valM F (s.userH k)).IsHermitian)
    (out : Outcome R (St K R N × List (Call R)))
    (h : solve P (traced (ops A E k)) cfg ritzv0 resid0 (s, []) = .ok out)
    (hq : QrAvoids P (ops A E k) cfg ritzv0 resid0 s (GaveUp A E))
    (hsym : cfg.symCheck = true → A.symCheck (s.userH k) = true) (hit : 0 < out.iterations)
    {C : ℝ} (hC : ∀ c ∈ shiftsOf out.be.2, |valR c| ≤ C) :
    ∃ σ : Equiv.Perm ℕ, PermOn 0 cfg.nev σ ∧ ∀ i, i < cfg.nev + cfg.nex →
      let x := valR (out.ritzv i)
      let v := valV F (out.be.1.V1 i)
      let r := Verif.nrm2 ((valM F (s.userH k)).mulVec v - (x : 𝕜) • v)
      |valR (out.resid (σ i)) - r| ≤
        ν * r + (1 + ν) * (slack F.u d out.iterations (frob (valM F (s.userH k))) C x * Verif.nrm2 v) := by
  have hu := F.u_nonneg
  obtain ⟨σ, hσ, hm⟩ := measured_at_end P hP cfg hN hsz hmax ritzv0 resid0 s out h hq hsym hit
  refine ⟨σ, hσ, fun i hi => ?_⟩
  obtain ⟨xs, hlen, hxs, hmes⟩ := hm i hi
  have hC0 := bound_nonneg hP h hsym hit hC
  generalize s.userH k = H0 at hH hmes ⊢
  obtain ⟨hoff, hdiag⟩ := drift hA H0 xs fun c hc => hC c (hxs c hc)
  set D := gam F.u (2 * out.iterations) * (frob (valM F H0) + C) with hD
  have hD0 : 0 ≤ D := mul_nonneg (gam_nonneg hu _) (add_nonneg (frob_nonneg _) hC0)
  have hdiag' : ∀ i, ‖F.val (afterShifts A H0 (pairsOf xs) i i) - F.val (H0 i i)‖ ≤ D := by
    intro i
    refine (hdiag i).trans (mul_le_mul (gam_mono hu (by omega)) ?_ ?_ (gam_nonneg hu _))
    · have : ‖F.val (H0 i i)‖ ≤ frob (valM F H0) := norm_le_frob (valM F H0) i i
      linarith
    · have := norm_nonneg (F.val (H0 i i))
      linarith
  have key := measured_error hA hν hD0 (fun i j hij => by rw [hoff i j hij]) hdiag' hmes
  rw [hH.eq] at key
  exact key

/-- Where the user finds the vectors, for the recorder. -/
theorem user_traced (P : Plat R) (hP : PermutesIndices P) (cfg : Config R)
    (hsz : cfg.nev + cfg.nex = E.nevex) (hmax : Even cfg.maxDeg) (ritzv0 resid0 : ℕ → R) (s : St K R N)
    (hfl : s.flipped = false) (out : Outcome R (St K R N × List (Call R)))
    (h : solve P (traced (ops A E k)) cfg ritzv0 resid0 (s, []) = .ok out)
    (hsym : cfg.symCheck = true → A.symCheck (s.userH k) = true) (hk : k = .cuda ∨ out.iterations % 2 = 0) :
    ∀ j, j < cfg.nev + cfg.nex → out.be.1.userV k j = out.be.1.V1 j := by
  have h1 := solve_sim (traced_sim (ops A E k)) P cfg ritzv0 resid0 (be := (s, [])) (be' := s) rfl
  rw [h] at h1
  cases hw : solve P (ops A E k) cfg ritzv0 resid0 s with
  | error e => rw [hw] at h1; cases h1
  | ok o =>
    rw [hw] at h1
    cases h1 with
    | ok h1 =>
      have e : out.be.1 = o.be := h1.be
      rw [e]
      exact user_at_end P hP cfg hsz hmax ritzv0 resid0 s hfl o hw hsym (by rw [← h1.iterations]; exact hk)

/-- **C73**, in-place CPU backend and single-process GPU backend (partial): as `C73_residual_partial`, for the vectors the
user reads from their array.  The hypothesis `hk` excludes the runs of the in-place backend after which the vectors are
not there, `hq` those in which Cholesky QR fails after it has changed a locked column. -/
theorem C73_residual_inplace_partial (hA : Accurate F valR A d ν) (hν : 0 ≤ ν) (P : Plat R) (hP : PermutesIndices P)
    (cfg : Config R) (hN : cfg.N = N) (hsz : cfg.nev + cfg.nex = E.nevex) (hmax : Even cfg.maxDeg)
    (ritzv0 resid0 : ℕ → R) (s : St K R N) (hfl : s.flipped = false) (hH : (valM F (s.userH k)).IsHermitian)
    (out : Outcome R (St K R N × List (Call R)))
    (h : solve P (traced (ops A E k)) cfg ritzv0 resid0 (s, []) = .ok out)
    (hq : QrAvoids P (ops A E k) cfg ritzv0 resid0 s (GaveUp A E))
    (hsym : cfg.symCheck = true → A.symCheck (s.userH k) = true) (hit : 0 < out.iterations)
    (hk : k = .cuda ∨ out.iterations % 2 = 0)
    {C : ℝ} (hC : ∀ c ∈ shiftsOf out.be.2, |valR c| ≤ C) :
    ∃ σ : Equiv.Perm ℕ, PermOn 0 cfg.nev σ ∧ ∀ i, i < cfg.nev + cfg.nex →
      let x := valR (out.ritzv i)
      let v := valV F (out.be.1.userV k i)
      let r := Verif.nrm2 ((valM F (s.userH k)).mulVec v - (x : 𝕜) • v)
      |valR (out.resid (σ i)) - r| ≤
        ν * r + (1 + ν) * (slack F.u d out.iterations (frob (valM F (s.userH k))) C x * Verif.nrm2 v) := by
  obtain ⟨σ, hσ, hm⟩ := residual_buffer hA hν P hP cfg hN hsz hmax ritzv0 resid0 s hH out h hq hsym hit hC
  refine ⟨σ, hσ, fun i hi => ?_⟩
  rw [user_traced P hP cfg hsz hmax ritzv0 resid0 s hfl out h hsym hk i hi]
  exact hm i hi

/-! ### Orthonormality -/

/-- The situations that are excluded: an inaccurate QR, or a Cholesky QR that fails after it has changed a locked
column. -/
def BadQr (F : Fl K 𝕜) (A : Arith K R N) (E : Params) (ε : ℝ) (m : ℕ) (c : R) (s : St K R N) : Prop :=
  Inaccurate F A E ε m c s.V1 ∨ GaveUp A E m c s

/-- The Rayleigh-Ritz step makes all columns nearly orthonormal. -/
theorem rr_near (hA : OrthoKernels F A E.nevex d δ) (hε : 0 ≤ ε) (hδ : 0 ≤ δ) (z : R) (s : St K R N)
    (hl : s.locked ≤ E.nevex) (hc : ∀ j, j < s.locked → s.V2 j = s.V1 j)
    (h1 : NearOrtho (tau E.nevex ε δ (gam F.u d)) s.locked fun j => valV F (s.V1 j))
    (h2 : ReadyOrtho ε s.locked E.nevex fun j => valV F (s.V1 j)) :
    NearOrtho (tau E.nevex ε δ (gam F.u d)) E.nevex fun j =>
      valV F ((rr A z (E.nevex - s.locked) s.locked s).2.V1 j) := by
  have hγ : 0 ≤ gam F.u d := gam_nonneg F.u_nonneg d
  set b := E.nevex - s.locked with hb
  set V2 := setBlk s.locked (A.gemm true s.H A.one A.zero (getBlk s.locked b s.V1) (getBlk s.locked b s.V2)) s.V2 with hV2
  set Mt := A.gemmProj (getBlk s.locked b V2) (getBlk s.locked b s.V1) with hM
  obtain ⟨W, hW, hZ⟩ := hA.heevd (b := b) (by omega) Mt
  have eC : (rr A z b s.locked s).2.V1 = setBlk s.locked (A.gemmBack (getBlk s.locked b s.V1) (A.heevd Mt).2) V2 := rfl
  refine h2.rr (W := W) (Z := fun k j => F.val ((A.heevd Mt).2 k j)) hε hδ hγ hl h1 hW hZ (fun i hi => ?_) fun j => ?_
  · rw [eC, setBlk_not_mem (Or.inl hi), hV2, setBlk_not_mem (Or.inl hi), hc i hi]
  · have hm := hA.mul (b := b) (by omega) (getBlk s.locked b s.V1) (A.heevd Mt).2 j
    have e1 : ∀ k : Fin b, (fun i => F.val (getBlk s.locked b s.V1 i k)) = valV F (s.V1 (s.locked + k)) := fun k => rfl
    have e2 : valV F ((rr A z b s.locked s).2.V1 (s.locked + j)) =
        fun i => F.val (A.gemmBack (getBlk s.locked b s.V1) (A.heevd Mt).2 i j) := by
      rw [eC, setBlk_mem (by omega) (by omega)]
      funext i
      simp [valV]
    simp only [e1] at hm
    rw [e2]
    exact hm

theorem near_bookkeeping (hA : OrthoKernels F A E.nevex d δ) (hε : 0 ≤ ε) (hδ : 0 ≤ δ) :
    Bookkeeping (watch (BadQr F A E ε) (safeOps A E k)) (markedCols St.V1 E.nevex) (fun p => p.1.locked)
      (nearPh (phases E) St.V1 St.locked (valV F) E.nevex (tau E.nevex ε δ (gam F.u d)) ε) N E.nevex := by
  refine Frame.bookkeeping (Frame.near (bookkeeping (A := A) (E := E) (k := k)).frame (fun _ h => h) ?_ ?_ ?_) ?_
  · rintro m c s hl hb
    unfold BadQr at hb
    rw [not_or] at hb
    have e : (safeOps A E k).qr m c s = putBack s (qrCols A E c s.V1) :=
      (safeQr_agree m c s hb.2).trans (qr_form m c s hb.2)
    rw [e]
    refine (not_not.mp hb.1).ready hl (fun i hi => ?_) fun i hi _ => ?_
    · exact congrArg (valV F) (putBack_low s _ hi).1
    · exact congrArg (valV F) (putBack_high s _ hi)
  · rintro s ⟨hl, hc⟩ _ h1 h2
    exact rr_near hA hε hδ 0 s hl hc h1 h2
  · intro i j s hi hj h
    exact swapAt_near hi hj h
  · intro i j s hi hj
    funext m
    show (swapAt s.1.V1 i j m, m = E.nevex ∧ s.2) = _
    rw [swapAt_apply, swapAt_apply]
    unfold markedCols
    split_ifs with h1 h2
    · simp [h1, Nat.ne_of_lt hi, Nat.ne_of_lt hj]
    · simp [h2, Nat.ne_of_lt hi, Nat.ne_of_lt hj]
    · rfl

/-- Orthonormality of the vectors in the current buffer. -/
theorem ortho_buffer (hA : OrthoKernels F A E.nevex d δ) (hε : 0 ≤ ε) (hδ : 0 ≤ δ) (P : Plat R)
    (hP : PermutesIndices P) (cfg : Config R) (hN : cfg.N = N) (hsz : cfg.nev + cfg.nex = E.nevex)
    (hmax : Even cfg.maxDeg) (ritzv0 resid0 : ℕ → R) (s : St K R N) (out : Outcome R (St K R N))
    (h : solve P (ops A E k) cfg ritzv0 resid0 s = .ok out)
    (hsym : cfg.symCheck = true → A.symCheck (s.userH k) = true) (hit : 0 < out.iterations)
    (hq : QrAvoids P (ops A E k) cfg ritzv0 resid0 s (BadQr F A E ε)) :
    NearOrtho (tau (cfg.nev + cfg.nex) ε δ (gam F.u d)) (cfg.nev + cfg.nex) fun j => valV F (out.be.V1 j) := by
  obtain ⟨o, ho, hm, hbe, hi⟩ := watched h hq
  have ho' : solve P (watch (BadQr F A E ε) (safeOps A E k)) cfg ritzv0 resid0 (s, False) = .ok o :=
    solve_watch (q := safeQr A E k) (fun m c s hb => safeQr_agree m c s fun hg => hb (Or.inr hg)) ho hm
  obtain ⟨t, σ, ht, hσ, e⟩ := columns_at_end hP (by rw [hN, hsz]; exact near_bookkeeping hA hε hδ) hmax
    (be := (s, False)) trivial hsym ho' (by omega)
  rw [hsz] at hσ ⊢
  have e1 : ∀ j, o.be.1.V1 j = t.1.V1 (σ j) := fun j => congrArg Prod.fst (congrFun e j)
  have e2 : (E.nevex = E.nevex ∧ o.be.2) = (σ E.nevex = E.nevex ∧ t.2) := congrArg Prod.snd (congrFun e E.nevex)
  rw [hσ E.nevex (by omega)] at e2
  simp only [true_and] at e2
  have key := (ht.2 (by rw [← e2]; exact hm)).comp σ.injective fun i hi => (hσ.mem (Nat.zero_le _) hi).2
  refine key.congr fun j _ => ?_
  rw [← hbe, e1]
  rfl

/-- **C84**, in-place CPU backend and single-process GPU backend (partial): as `C84_orthonormal_partial`, for the vectors
the user reads from their array.  The hypotheses `hk` and `hq` are those of `C73_residual_inplace_partial`, `hq` also asks
for an accurate QR. -/
theorem C84_orthonormal_inplace_partial (hA : OrthoKernels F A E.nevex d δ) (hε : 0 ≤ ε) (hδ : 0 ≤ δ) (P : Plat R)
    (hP : PermutesIndices P) (cfg : Config R) (hN : cfg.N = N) (hsz : cfg.nev + cfg.nex = E.nevex)
    (hmax : Even cfg.maxDeg) (ritzv0 resid0 : ℕ → R) (s : St K R N) (hfl : s.flipped = false)
    (out : Outcome R (St K R N)) (h : solve P (ops A E k) cfg ritzv0 resid0 s = .ok out)
    (hsym : cfg.symCheck = true → A.symCheck (s.userH k) = true) (hit : 0 < out.iterations)
    (hk : k = .cuda ∨ out.iterations % 2 = 0)
    (hq : QrAvoids P (ops A E k) cfg ritzv0 resid0 s (BadQr F A E ε)) :
    NearOrtho (tau (cfg.nev + cfg.nex) ε δ (gam F.u d)) (cfg.nev + cfg.nex) fun j => valV F (out.be.userV k j) :=
  (ortho_buffer hA hε hδ P hP cfg hN hsz hmax ritzv0 resid0 s out h hsym hit hq).congr fun j hj =>
    congrArg (valV F) (user_at_end P hP cfg hsz hmax ritzv0 resid0 s hfl out h hsym hk j hj)

/-- With Householder QR the conditions on the calls are one on the kernel. -/
theorem householder_ok (hd : cholDisable E.doCholQR E.envDisable = 1)
    (hq : ∀ X, QrOf ε E.nevex (fun j => valV F (X j)) fun j => valV F (A.hhQR X j)) (P : Plat R) (cfg : Config R)
    (r0 s0 : ℕ → R) (s : St K R N) : QrAvoids P (ops A E k) cfg r0 s0 s (BadQr F A E ε) := by
  have key : ∀ m c (t : St K R N), ¬ BadQr F A E ε m c t := by
    rintro m c t (h | h)
    · apply h
      have e : qrCols A E c t.V1 = A.hhQR t.V1 := if_pos hd
      rw [e]
      exact hq t.V1
    · exact h.1 hd
  exact QrAvoids.of_est (fun _ => key _ _ _) (fun _ _ _ _ _ _ _ _ => key _ _ _) _ cfg r0 s0 s

/-- **C84** with Householder QR, single-process GPU backend: as `C84_householder`. -/
theorem C84_householder_cuda (hA : OrthoKernels F A E.nevex d δ) (hε : 0 ≤ ε) (hδ : 0 ≤ δ)
    (hd : cholDisable E.doCholQR E.envDisable = 1)
    (hq : ∀ X, QrOf ε E.nevex (fun j => valV F (X j)) fun j => valV F (A.hhQR X j)) (P : Plat R)
    (hP : PermutesIndices P) (cfg : Config R) (hN : cfg.N = N) (hsz : cfg.nev + cfg.nex = E.nevex)
    (hmax : Even cfg.maxDeg) (ritzv0 resid0 : ℕ → R) (s : St K R N) (hfl : s.flipped = false)
    (out : Outcome R (St K R N)) (h : solve P (ops A E .cuda) cfg ritzv0 resid0 s = .ok out)
    (hsym : cfg.symCheck = true → A.symCheck (s.userH .cuda) = true) (hit : 0 < out.iterations) :
    NearOrtho (tau (cfg.nev + cfg.nex) ε δ (gam F.u d)) (cfg.nev + cfg.nex) fun j =>
      valV F (out.be.userV .cuda j) :=
  C84_orthonormal_inplace_partial hA hε hδ P hP cfg hN hsz hmax ritzv0 resid0 s hfl out h hsym hit (.inl rfl)
    (householder_ok hd hq P cfg ritzv0 resid0 s)

/-! ### The values -/

theorem ortho_traced (hA : OrthoKernels F A E.nevex d δ) (hε : 0 ≤ ε) (hδ : 0 ≤ δ) (P : Plat R)
    (hP : PermutesIndices P) (cfg : Config R) (hN : cfg.N = N) (hsz : cfg.nev + cfg.nex = E.nevex)
    (hmax : Even cfg.maxDeg) (ritzv0 resid0 : ℕ → R) (s : St K R N) (out : Outcome R (St K R N × List (Call R)))
    (h : solve P (traced (ops A E k)) cfg ritzv0 resid0 (s, []) = .ok out)
    (hsym : cfg.symCheck = true → A.symCheck (s.userH k) = true) (hit : 0 < out.iterations)
    (hq : QrAvoids P (ops A E k) cfg ritzv0 resid0 s (BadQr F A E ε)) :
    NearOrtho (tau (cfg.nev + cfg.nex) ε δ (gam F.u d)) (cfg.nev + cfg.nex) fun j => valV F (out.be.1.V1 j) := by
  have h1 := solve_sim (traced_sim (ops A E k)) P cfg ritzv0 resid0 (be := (s, [])) (be' := s) rfl
  rw [h] at h1
  cases hw : solve P (ops A E k) cfg ritzv0 resid0 s with
  | error e => rw [hw] at h1; cases h1
  | ok o =>
    rw [hw] at h1
    cases h1 with
    | ok h1 =>
      have e : out.be.1 = o.be := h1.be
      rw [e]
      exact ortho_buffer hA hε hδ P hP cfg hN hsz hmax ritzv0 resid0 s o hw hsym
        (by rw [← h1.iterations]; exact hit) hq

/-- **C84 with C73**, in-place CPU backend and single-process GPU backend (partial): as `C84_eigenvalue_partial`.  The
number of rounds does not matter. -/
theorem C84_eigenvalue_inplace_partial (hA : OrthoKernels F A E.nevex d δ) (hε : 0 ≤ ε) (hδ : 0 ≤ δ)
    (hacc : Accurate F valR A d' ν) (hν : 0 ≤ ν) (hν1 : ν ≤ 1) (P : Plat R)
    (hP : PermutesIndices P) (cfg : Config R) (hN : cfg.N = N) (hsz : cfg.nev + cfg.nex = E.nevex)
    (hmax : Even cfg.maxDeg) (ritzv0 resid0 : ℕ → R) (s : St K R N) (hH : (valM F (s.userH k)).IsHermitian)
    (out : Outcome R (St K R N × List (Call R)))
    (h : solve P (traced (ops A E k)) cfg ritzv0 resid0 (s, []) = .ok out)
    (hsym : cfg.symCheck = true → A.symCheck (s.userH k) = true) (hit : 0 < out.iterations)
    (hq : QrAvoids P (ops A E k) cfg ritzv0 resid0 s (BadQr F A E ε))
    (hτ : tau (cfg.nev + cfg.nex) ε δ (gam F.u d) < 1) {C : ℝ} (hC : ∀ c ∈ shiftsOf out.be.2, |valR c| ≤ C) :
    ∃ σ : Equiv.Perm ℕ, PermOn 0 cfg.nev σ ∧ ∀ i, i < cfg.nev + cfg.nex →
      let x := valR (out.ritzv i)
      let τ := tau (cfg.nev + cfg.nex) ε δ (gam F.u d)
      ∃ μ, IsEigenvalue (valM F (s.userH k)) μ ∧ (1 - ν) * (1 - τ) * |μ - x| ≤ valR (out.resid (σ i)) +
        (1 + ν) * (1 + τ) * slack F.u d' out.iterations (frob (valM F (s.userH k))) C x := by
  obtain ⟨σ, hσ, hm⟩ := residual_buffer hacc hν P hP cfg hN hsz hmax ritzv0 resid0 s hH out h
    (hq.mono fun _ _ _ => Or.inr) hsym hit hC
  have hn := ortho_traced hA hε hδ P hP cfg hN hsz hmax ritzv0 resid0 s out h hsym hit hq
  refine ⟨σ, hσ, fun i hi => ?_⟩
  have hs : 0 ≤ slack F.u d' out.iterations (frob (valM F (s.userH k))) C (valR (out.ritzv i)) :=
    slack_nonneg F.u_nonneg (bound_nonneg hP h hsym hit hC) (frob_nonneg _)
  refine absolute (hn.1 i hi) hτ hν hν1 hs fun hv => ?_
  have key := hm i hi
  dsimp only at key
  obtain ⟨μ, h1, h2⟩ := eigenvalue_of_residual hH hv (valR (out.ritzv i))
  refine ⟨μ, h1, ?_⟩
  have h3 := mul_le_mul_of_nonneg_left h2 (show 0 ≤ 1 - ν by linarith)
  linarith [(abs_le.mp key).1]

/-- **C85 in floating-point arithmetic**, in-place CPU backend and single-process GPU backend (partial): as
`C85_rounded_partial`.  The number of rounds does not matter. -/
theorem C85_rounded_inplace_partial (hA : OrthoKernels F A E.nevex d δ) (hε : 0 ≤ ε) (hδ : 0 ≤ δ)
    (hacc : Accurate F valR A d' ν) (hν : 0 ≤ ν) (hν1 : ν < 1) (P : Plat R)
    (hP : PermutesIndices P) (cfg : Config R) (hN : cfg.N = N) (hsz : cfg.nev + cfg.nex = E.nevex)
    (hmax : Even cfg.maxDeg) (ritzv0 resid0 : ℕ → R) (s : St K R N) (hH : (valM F (s.userH k)).IsHermitian)
    (out : Outcome R (St K R N × List (Call R)))
    (h : solve P (traced (ops A E k)) cfg ritzv0 resid0 (s, []) = .ok out)
    (hsym : cfg.symCheck = true → A.symCheck (s.userH k) = true) (hit : 0 < out.iterations)
    (hq : QrAvoids P (ops A E k) cfg ritzv0 resid0 s (BadQr F A E ε))
    {C V D : ℝ} (hC : ∀ c ∈ shiftsOf out.be.2, |valR c| ≤ C)
    (hV : ∀ i, i < cfg.nev + cfg.nex → |valR (out.ritzv i)| ≤ V)
    (hD : ∀ i j, i < cfg.nev + cfg.nex → j < cfg.nev + cfg.nex → |valR (out.ritzv i) - valR (out.ritzv j)| ≤ 2 * D)
    (m : ℕ) (hm : m = cfg.nev ∨ m = cfg.nev + cfg.nex) :
    let n := cfg.nev + cfg.nex
    let τ := tau n ε δ (gam F.u d)
    let ρ := (Real.sqrt (∑ i ∈ range m, valR (out.resid i) ^ 2) +
      Real.sqrt m * ((1 + ν) * (1 + τ) * slack F.u d' out.iterations (frob (valM F (s.userH k))) C V)) / (1 - ν)
    2 * τ + 2 * τ * (1 + τ) * n < 1 →
    StandForDifferent (valM F (s.userH k)) (range m) (fun i => valR (out.ritzv i)) (distB τ m ρ D) := by
  intro n τ ρ hpos
  obtain ⟨σ, hσ, hr⟩ := residual_buffer hacc hν P hP cfg hN hsz hmax ritzv0 resid0 s hH out h
    (hq.mono fun _ _ _ => Or.inr) hsym hit hC
  exact standFor_run (vals := fun i => valR (out.ritzv i)) (resid := fun i => valR (out.resid i)) hH
    (ortho_traced hA hε hδ P hP cfg hN hsz hmax ritzv0 resid0 s out h hsym hit hq)
    (tau_nonneg hε hδ F.u_nonneg) F.u_nonneg (bound_nonneg hP h hsym hit hC) hpos hν hν1 (by omega) (by omega) hσ hr hV hD

/-- **C90 in floating-point arithmetic**, in-place CPU backend and single-process GPU backend (partial): as
`C90_rounded_partial`.  The number of rounds does not matter. -/
theorem C90_rounded_inplace_partial (hA : OrthoKernels F A E.nevex d δ) (hε : 0 ≤ ε) (hδ : 0 ≤ δ)
    (hacc : Accurate F valR A d' ν) (hν : 0 ≤ ν) (hν1 : ν < 1) (P : Plat R)
    (hP : PermutesIndices P) (cfg : Config R) (hN : cfg.N = N) (hsz : cfg.nev + cfg.nex = E.nevex)
    (hmax : Even cfg.maxDeg) (ritzv0 resid0 : ℕ → R) (s : St K R N) (hH : (valM F (s.userH k)).IsHermitian)
    (out : Outcome R (St K R N × List (Call R)))
    (h : solve P (traced (ops A E k)) cfg ritzv0 resid0 (s, []) = .ok out)
    (hsym : cfg.symCheck = true → A.symCheck (s.userH k) = true) (hit : 0 < out.iterations)
    (hq : QrAvoids P (ops A E k) cfg ritzv0 resid0 s (BadQr F A E ε))
    {C V D : ℝ} (hC : ∀ c ∈ shiftsOf out.be.2, |valR c| ≤ C)
    (hV : ∀ i, i < cfg.nev + cfg.nex → |valR (out.ritzv i)| ≤ V)
    (hD : ∀ i j, i < cfg.nev + cfg.nex → j < cfg.nev + cfg.nex → |valR (out.ritzv i) - valR (out.ritzv j)| ≤ 2 * D)
    (m : ℕ) (hm : m = cfg.nev ∨ m = cfg.nev + cfg.nex) :
    let n := cfg.nev + cfg.nex
    let τ := tau n ε δ (gam F.u d)
    let ρ := (Real.sqrt (∑ i ∈ range m, valR (out.resid i) ^ 2) +
      Real.sqrt m * ((1 + ν) * (1 + τ) * slack F.u d' out.iterations (frob (valM F (s.userH k))) C V)) / (1 - ν)
    2 * τ + 2 * τ * (1 + τ) * n < 1 →
    VariationalUpTo (valM F (s.userH k)) m (fun i => valR (out.ritzv i)) (distB τ m ρ D) := fun hpos =>
  variational_of_standFor (C85_rounded_inplace_partial hA hε hδ hacc hν hν1 P hP cfg hN hsz hmax ritzv0 resid0 s hH out h
    hsym hit hq hC hV hD m hm hpos)

/-- **C91 in floating-point arithmetic**, in-place CPU backend and single-process GPU backend (partial: as
`C91_rounded_partial`), for the vectors the user reads from their array.  The hypotheses `hk` and `hq` are those of
`C73_residual_inplace_partial`. -/
theorem C91_rounded_inplace_partial (hA : Accurate F valR A d ν) (hν : 0 ≤ ν) (hν1 : ν < 1) (P : Plat R)
    (hP : PermutesIndices P) (cfg : Config R) (hN : cfg.N = N) (hsz : cfg.nev + cfg.nex = E.nevex)
    (hmax : Even cfg.maxDeg) (ritzv0 resid0 : ℕ → R) (s : St K R N) (hfl : s.flipped = false)
    (hH : (valM F (s.userH k)).IsHermitian) (out : Outcome R (St K R N × List (Call R)))
    (h : solve P (traced (ops A E k)) cfg ritzv0 resid0 (s, []) = .ok out)
    (hq : QrAvoids P (ops A E k) cfg ritzv0 resid0 s (GaveUp A E))
    (hsym : cfg.symCheck = true → A.symCheck (s.userH k) = true) (hit : 0 < out.iterations)
    (hk : k = .cuda ∨ out.iterations % 2 = 0)
    {C : ℝ} (hC : ∀ c ∈ shiftsOf out.be.2, |valR c| ≤ C) :
    ∃ σ : Equiv.Perm ℕ, PermOn 0 cfg.nev σ ∧ ∀ i, i < cfg.nev + cfg.nex →
      let x := valR (out.ritzv i)
      let v := valV F (out.be.1.userV k i)
      NearEigenvector (valM F (s.userH k)) x v ((valR (out.resid (σ i)) +
        (1 + ν) * (slack F.u d out.iterations (frob (valM F (s.userH k))) C x * Verif.nrm2 v)) / (1 - ν)) := by
  obtain ⟨σ, hσ, hm⟩ := C73_residual_inplace_partial hA hν P hP cfg hN hsz hmax ritzv0 resid0 s hfl hH out h hq hsym hit
    hk hC
  exact ⟨σ, hσ, fun i hi => nearEigenvector_of_computed hH hν1 (hm i hi)⟩

end

/-! ### Runs that meet the hypotheses -/

namespace Two
open Rounded.Two (arith arithQ plat params ritzv0 accurate accurateQ plat_permutes start_hermitian)

/-- The diagonal matrix of `2^-60` and `4`, and the unit vectors as start vectors. -/
def start : St (Fp 53) (Fp 53) 2 where
  H := (Rounded.Two.start 53).H
  hostH := (Rounded.Two.start 53).H
  V1 := (Rounded.Two.start 53).C
  V2 := fun _ _ => 0
  user := (Rounded.Two.start 53).C
  flipped := false
  dRitz := fun _ => 0
  locked := 0
  isSym := false

/-- A matrix that is not diagonal. -/
def H2 : Matrix (Fin 2) (Fin 2) (Fp 53) := fun i j => if i = j then (if i = 0 then ⟨1 / 2 ^ 60⟩ else ⟨4⟩) else ⟨1⟩

/-- The start with this matrix. -/
def start2 : St (Fp 53) (Fp 53) 2 := { start with H := H2, hostH := H2 }

theorem hermitian (k : Kind) : (valM (Fp.fl 53) (start.userH k)).IsHermitian := by
  cases k <;> exact start_hermitian 53

theorem hermitian2 (k : Kind) : (valM (Fp.fl 53) (start2.userH k)).IsHermitian := by
  have h : (valM (Fp.fl 53) H2).IsHermitian := by
    ext i j
    show star ((Fp.fl 53).val (H2 j i)) = (Fp.fl 53).val (H2 i j)
    by_cases hij : i = j
    · subst hij; simp
    · have h1 : H2 j i = ⟨1⟩ := if_neg (Ne.symm hij)
      have h2 : H2 i j = ⟨1⟩ := if_neg hij
      rw [h1, h2]; simp
  cases k <;> exact h

/-- Two rounds on the in-place CPU backend in double precision. -/
theorem run2 : ∃ out, solve (plat 53) (traced (ops (arith 53 ⟨8⟩) params .cpu)) (Rounded.Two.cfg 53) (ritzv0 53) (fun _ => 0)
      (start2, []) = .ok out ∧ out.iterations = 2 ∧ out.be.1.H 0 0 = ⟨0⟩ := by
  obtain ⟨out, h, g⟩ := Toy.okAnd_elim (p := fun out : Outcome (Fp 53) (St (Fp 53) (Fp 53) 2 × List (Call (Fp 53))) =>
      decide (out.iterations = 2 ∧ out.be.1.H 0 0 = ⟨0⟩))
    (x := solve (plat 53) (traced (ops (arith 53 ⟨8⟩) params .cpu)) (Rounded.Two.cfg 53) (ritzv0 53) (fun _ => 0) (start2, []))
    (by rw [Toy.solve_eq_solveE]; decide +kernel)
  exact ⟨out, h, of_decide_eq_true g⟩

theorem never_gives_up {A : Arith (Fp 53) (Fp 53) 2} (k : Kind) (P : Plat (Fp 53)) (cfg : Config (Fp 53))
    (r0 s0 : ℕ → Fp 53) (s : St (Fp 53) (Fp 53) 2) : QrAvoids P (ops A params k) cfg r0 s0 s (GaveUp A params) :=
  QrAvoids.of_est (fun _ h => h.1 rfl) (fun _ _ _ _ _ _ _ _ h => h.1 rfl) _ cfg r0 s0 s

/-- Every solve from `start` is defined and has a round. -/
theorem defined {S : Type} (o : Chase (Fp 53) S) (s : S) (hs : (o.checkSymmetryEasy s).1 = true) :
    ∃ out, solve (plat 53) o (Rounded.Two.cfg 53) (ritzv0 53) (fun _ => 0) s = .ok out ∧ 0 < out.iterations := by
  obtain ⟨out, h1, h2⟩ := C51_approx_solve_defined (plat 53) o (Rounded.Two.cfg 53) rfl (by decide) (by decide)
    (by decide) (by decide) (by decide) (by decide) (by decide) (by intro h; cases h) (ritzv0 53) (fun _ => 0) s
  exact ⟨out, h1, h2 (fun _ => hs) (by decide)⟩

/-- Non-vacuity of `C73_residual_inplace_partial`, `C74_drift_inplace_partial` and `C91_rounded_inplace_partial`, in-place
CPU backend: double precision, two rounds.  The matrix has changed. -/
example : Accurate (Fp.fl 53) Fp.toReal (arith 53 ⟨8⟩) 2 (1 / 2) ∧ PermutesIndices (plat 53) ∧ (Rounded.Two.cfg 53).N = 2 ∧
    (Rounded.Two.cfg 53).nev + (Rounded.Two.cfg 53).nex = params.nevex ∧ Even (Rounded.Two.cfg 53).maxDeg ∧ start2.flipped = false ∧
    (valM (Fp.fl 53) (start2.userH .cpu)).IsHermitian ∧ (arith 53 ⟨8⟩).symCheck (start2.userH .cpu) = true ∧
    QrAvoids (plat 53) (ops (arith 53 ⟨8⟩) params .cpu) (Rounded.Two.cfg 53) (ritzv0 53) (fun _ => 0) start2
      (GaveUp (arith 53 ⟨8⟩) params) ∧
    ∃ (out : _) (C : ℝ), solve (plat 53) (traced (ops (arith 53 ⟨8⟩) params .cpu)) (Rounded.Two.cfg 53) (ritzv0 53) (fun _ => 0) (start2, [])
      = .ok out ∧ 0 < out.iterations ∧ out.iterations % 2 = 0 ∧ (∀ c ∈ shiftsOf out.be.2, |Fp.toReal c| ≤ C) ∧
      out.be.1.userH .cpu 0 0 ≠ start2.userH .cpu 0 0 := by
  obtain ⟨out, h, h1, h2⟩ := run2
  obtain ⟨C, -, -, hC, -⟩ := exists_bounds ((shiftsOf out.be.2).map Fp.toReal) (fun i => (out.ritzv i).toReal) 2
  refine ⟨accurate 53 _, plat_permutes 53, rfl, rfl, by decide, rfl, hermitian2 .cpu, rfl, never_gives_up _ _ _ _ _ _, out, C,
    h, by omega, by omega, fun c hc => hC _ (List.mem_map_of_mem hc), ?_⟩
  show out.be.1.H 0 0 ≠ _
  rw [h2]
  intro e
  have := congrArg Fp.toReal e
  simp [start2, St.userH, H2, Fp.toReal] at this
  norm_num at this

/-- Non-vacuity of the other theorems and of those on the GPU backend: double precision, a Householder QR with error
`2^-40`. -/
example (k : Kind) : OrthoKernels (Fp.fl 53) arithQ params.nevex 3 0 ∧ cholDisable params.doCholQR params.envDisable = 1 ∧
    (∀ X, QrOf ((1 / 2) ^ 40) params.nevex (fun j => valV (Fp.fl 53) (X j)) fun j => valV (Fp.fl 53) (arithQ.hhQR X j)) ∧
    Accurate (Fp.fl 53) Fp.toReal arithQ 2 (1 / 2) ∧ (valM (Fp.fl 53) (start.userH k)).IsHermitian ∧
    arithQ.symCheck (start.userH k) = true ∧
    QrAvoids (plat 53) (ops arithQ params k) (Rounded.Two.cfg 53) (ritzv0 53) (fun _ => 0) start
      (BadQr (Fp.fl 53) arithQ params ((1 / 2) ^ 40)) ∧
    (∃ out, solve (plat 53) (ops arithQ params k) (Rounded.Two.cfg 53) (ritzv0 53) (fun _ => 0) start = .ok out ∧
      0 < out.iterations) ∧
    (∃ (out : _) (C V D : ℝ), solve (plat 53) (traced (ops arithQ params k)) (Rounded.Two.cfg 53) (ritzv0 53) (fun _ => 0)
      (start, []) = .ok out ∧ 0 < out.iterations ∧ (∀ c ∈ shiftsOf out.be.2, |c.toReal| ≤ C) ∧
      (∀ i, i < 2 → |(out.ritzv i).toReal| ≤ V) ∧
      ∀ i j, i < 2 → j < 2 → |(out.ritzv i).toReal - (out.ritzv j).toReal| ≤ 2 * D) ∧
    tau 2 ((1 / 2) ^ 40) 0 (gam (Fp.fl 53).u 3) < 1 ∧
    (let τ := tau 2 ((1 / 2) ^ 40) 0 (gam (Fp.fl 53).u 3)
     2 * τ + 2 * τ * (1 + τ) * 2 < 1) := by
  have hq : ∀ X, QrOf ((1 / 2) ^ 40) params.nevex (fun j => valV (Fp.fl 53) (X j))
      fun j => valV (Fp.fl 53) (arithQ.hhQR X j) := fun X => hhqr_ok le_rfl X
  have hs : arithQ.symCheck (start.userH k) = true := rfl
  obtain ⟨out, h, hit⟩ := defined (traced (ops arithQ params k)) (start, []) hs
  obtain ⟨C, V, D, hC, hV, hD⟩ := exists_bounds ((shiftsOf out.be.2).map Fp.toReal) (fun i => (out.ritzv i).toReal) 2
  refine ⟨Rounded.Two.orthoKernels, rfl, hq, accurateQ, hermitian k, hs, householder_ok rfl hq _ _ _ _ _,
    defined _ start hs, ⟨out, C, V, D, h, hit, fun c hc => hC _ (List.mem_map_of_mem hc), hV, hD⟩, tau_small, ?_⟩
  have ht := tau_tiny
  have h0 : 0 ≤ tau 2 ((1 / 2) ^ 40) 0 (gam ((1 / 2) ^ 53) 3) := tau_nonneg (by positivity) le_rfl (by positivity)
  show 2 * tau 2 ((1 / 2) ^ 40) 0 (gam ((1 / 2) ^ 53) 3) + 2 * tau 2 ((1 / 2) ^ 40) 0 (gam ((1 / 2) ^ 53) 3) *
    (1 + tau 2 ((1 / 2) ^ 40) 0 (gam ((1 / 2) ^ 53) 3)) * 2 < 1
  generalize tau 2 ((1 / 2) ^ 40) 0 (gam ((1 / 2) ^ 53) 3) = x at *
  nlinarith

end Two

/-- **C74 is false on the in-place CPU backend** too: as `C74_refuted`, after two rounds. -/
theorem C74_inplace_refuted : ∃ (A : Arith (Fp 53) (Fp 53) 2) (E : Params) (P : Plat (Fp 53)) (cfg : Config (Fp 53))
    (ritzv0 resid0 : ℕ → Fp 53) (s : St (Fp 53) (Fp 53) 2) (out : Outcome (Fp 53) (St (Fp 53) (Fp 53) 2 × List (Call (Fp 53)))),
    Accurate (Fp.fl 53) Fp.toReal A 2 (1 / 2) ∧ PermutesIndices P ∧ cfg.N = 2 ∧ cfg.nev + cfg.nex = E.nevex ∧
    (valM (Fp.fl 53) (s.userH .cpu)).IsHermitian ∧ solve P (traced (ops A E .cpu)) cfg ritzv0 resid0 (s, []) = .ok out ∧
    (s.userH .cpu 0 0).toReal = (1 / 2) ^ 60 ∧ (out.be.1.userH .cpu 0 0).toReal = 0 := by
  obtain ⟨out, h, h1, h2⟩ := Two.run2
  refine ⟨Rounded.Two.arith 53 ⟨8⟩, Rounded.Two.params, Rounded.Two.plat 53, Rounded.Two.cfg 53, Rounded.Two.ritzv0 53, fun _ => 0,
    Two.start2, out, Rounded.Two.accurate 53 _, Rounded.Two.plat_permutes 53, rfl, rfl, Two.hermitian2 .cpu, h, ?_, ?_⟩
  · show ((1 / 2 ^ 60 : ℚ) : ℝ) = _
    push_cast
    norm_num
  · show (out.be.1.H 0 0).toReal = 0
    rw [h2]
    simp [Fp.toReal]

end InPlace
end Rounded
end Verif
