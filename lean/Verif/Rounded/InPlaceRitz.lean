/-
Where the values of a solve come from, in every arithmetic: the backends that exchange two buffers.
-/
import Verif.Rounded.RitzRun
import Verif.Rounded.InPlaceProps

set_option linter.unusedSectionVars false

namespace Verif
namespace Rounded
namespace InPlace

open Matrix Finset
open Verif.InPlace (Kind)

section
variable {K 𝕜 R : Type*} [RCLike 𝕜] {N : ℕ} {F : Fl K 𝕜} {A : Arith K R N} {E : Params} {k : Kind} {d : ℕ} {ε δ : ℝ}

/-- A Rayleigh-Ritz step right after the orthogonalisation. -/
theorem rr_pair (z : R) (s : St K R N) (hl : s.locked ≤ E.nevex)
    (h2 : ReadyOrtho ε s.locked E.nevex fun j => valV F (s.V1 j)) {i : ℕ} (hi : i < E.nevex - s.locked) :
    RitzPair F A E.nevex ε s.H ((rr A z (E.nevex - s.locked) s.locked s).1 i)
      ((rr A z (E.nevex - s.locked) s.locked s).2.V1 (s.locked + i)) := by
  set b := E.nevex - s.locked with hb
  have e1 : getBlk s.locked b (setBlk s.locked (A.gemm true s.H A.one A.zero (getBlk s.locked b s.V1)
      (getBlk s.locked b s.V2)) s.V2) =
      A.gemm true s.H A.one A.zero (getBlk s.locked b s.V1) (getBlk s.locked b s.V2) := by
    funext r m
    show setBlk s.locked _ s.V2 (s.locked + m) r = _
    rw [setBlk_mem (by omega) (by omega)]
    simp
  refine ⟨b, by omega, getBlk s.locked b s.V1, getBlk s.locked b s.V2, _, ⟨i, hi⟩, fun m => h2.norm_le m, .inr rfl, ?_, ?_⟩
  · show (if h : i < b then (A.heevd (A.gemmProj (getBlk s.locked b (setBlk s.locked
      (A.gemm true s.H A.one A.zero (getBlk s.locked b s.V1) (getBlk s.locked b s.V2)) s.V2))
      (getBlk s.locked b s.V1))).1 ⟨i, h⟩ else z) = _
    rw [dif_pos hi, e1]
  · show setBlk s.locked (A.gemmBack (getBlk s.locked b s.V1) (A.heevd (A.gemmProj (getBlk s.locked b (setBlk s.locked
      (A.gemm true s.H A.one A.zero (getBlk s.locked b s.V1) (getBlk s.locked b s.V2)) s.V2))
      (getBlk s.locked b s.V1))).2) _ (s.locked + i) = _
    rw [setBlk_mem (by omega) (by omega), e1]
    simp

variable [Add R] [Sub R] [Mul R] [Div R] [Neg R] [Zero R] [One R] [NatCast R] [LT R] [DecidableLT R]

/-- The phases of the recorder. -/
def phT (A : Arith K R N) (E : Params) (k : Kind) (H0 : Matrix (Fin N) (Fin N) K) :
    Phases (St K R N × List (Call R)) where
  pre := fun s => (phases E).pre s.1 ∧ (s.1.userH k = H0 ∧ shiftsOf s.2 = [])
  inv := fun s => (phases E).inv s.1 ∧ s.1.H = afterShifts A H0 (shiftsOf s.2)
  ready := fun s => (phases E).ready s.1 ∧ s.1.H = afterShifts A H0 (shiftsOf s.2)
  synced := fun s => (phases E).synced s.1 ∧ s.1.H = afterShifts A H0 (shiftsOf s.2)

/-- The recorder of the auxiliary backend, watched for inaccurate calls of `QR`. -/
noncomputable abbrev opsW (F : Fl K 𝕜) (A : Arith K R N) (E : Params) (k : Kind) (ε : ℝ) :
    Chase R ((St K R N × List (Call R)) × Prop) :=
  watch (fun m c (t : St K R N × List (Call R)) => BadQr F A E ε m c t.1) (traced (safeOps A E k))

theorem bookkeepingW (hA : OrthoKernels F A E.nevex d δ) (hε : 0 ≤ ε) (hδ : 0 ≤ δ) (H0 : Matrix (Fin N) (Fin N) K) :
    Bookkeeping (opsW F A E k ε) (markedCols (fun s => s.1.V1) E.nevex) (fun p => p.1.1.locked)
      (nearPh (phT A E k H0) (fun s => s.1.V1) (fun s => s.1.locked) (valV F) E.nevex (tau E.nevex ε δ (gam F.u d)) ε)
      N E.nevex := by
  refine Frame.bookkeeping (Frame.near (ph := phT A E k H0)
    ((bookkeeping (A := A) (E := E) (k := k)).traced.keepAfter (product_keep H0)).frame (fun _ h => h.1) ?_ ?_ ?_) ?_
  · rintro m c s ⟨hl, -⟩ hb
    show ReadyOrtho ε s.1.locked E.nevex fun j => valV F (((safeOps A E k).qr m c s.1).V1 j)
    unfold BadQr at hb
    rw [not_or] at hb
    have e : (safeOps A E k).qr m c s.1 = putBack s.1 (qrCols A E c s.1.V1) :=
      (safeQr_agree m c s.1 hb.2).trans (qr_form m c s.1 hb.2)
    rw [e]
    refine (not_not.mp hb.1).ready hl (fun i hi => ?_) fun i hi _ => ?_
    · exact congrArg (valV F) (putBack_low s.1 _ hi).1
    · exact congrArg (valV F) (putBack_high s.1 _ hi)
  · rintro s ⟨⟨hl, hc⟩, -⟩ _ h1 h2
    exact rr_near hA hε hδ 0 s.1 hl hc h1 h2
  · intro i j s hi hj h
    exact swapAt_near hi hj h
  · intro i j s hi hj
    funext m
    show (swapAt s.1.1.V1 i j m, m = E.nevex ∧ s.2) = _
    rw [swapAt_apply, swapAt_apply]
    unfold markedCols
    split_ifs with h1 h2
    · simp [h1, Nat.ne_of_lt hi, Nat.ne_of_lt hj]
    · simp [h2, Nat.ne_of_lt hi, Nat.ne_of_lt hj]
    · rfl

/-- The recorder with stamps. -/
noncomputable abbrev opsWS (F : Fl K 𝕜) (A : Arith K R N) (E : Params) (k : Kind) (ε : ℝ) :=
  stamped E.nevex callsAndMark (opsW F A E k ε)

/-- **Where the values come from, in every arithmetic**: as `Rounded.ritz_at_end`, for the vectors in the current
buffer. -/
theorem ritz_at_end (hA : OrthoKernels F A E.nevex d δ) (hε : 0 ≤ ε) (hδ : 0 ≤ δ) (P : Plat R) (hP : PermutesIndices P)
    (cfg : Config R) (hN : cfg.N = N) (hsz : cfg.nev + cfg.nex = E.nevex) (hmax : Even cfg.maxDeg) (ritzv0 resid0 : ℕ → R)
    (s : St K R N) (out : Outcome R (St K R N × List (Call R)))
    (h : solve P (traced (ops A E k)) cfg ritzv0 resid0 (s, []) = .ok out)
    (hsym : cfg.symCheck = true → A.symCheck (s.userH k) = true) (hit : 0 < out.iterations)
    (hq : QrAvoids P (ops A E k) cfg ritzv0 resid0 s (BadQr F A E ε)) :
    ∀ i, i < cfg.nev + cfg.nex → ∃ xs : List R, xs.length ≤ out.iterations ∧ (∀ c ∈ pairsOf xs, c ∈ shiftsOf out.be.2) ∧
      RitzPair F A (cfg.nev + cfg.nex) ε (afterShifts A (s.userH k) (pairsOf xs)) (out.ritzv i) (out.be.1.V1 i) := by
  have hpath := C57_call_protocol hP ritzv0 resid0 s out h hsym
  have hres : MakesResiduals (opsWS F A E k ε) (fun p i => (markedCols (fun s => s.1.V1) E.nevex p.1 i, p.2 i))
      (fun p => p.1.1.1.locked)
      ⟨fun p => (nearPh (phT A E k (s.userH k)) (fun s => s.1.V1) (fun s => s.1.locked) (valV F) E.nevex
          (tau E.nevex ε δ (gam F.u d)) ε).pre p.1,
        fun p => (nearPh (phT A E k (s.userH k)) (fun s => s.1.V1) (fun s => s.1.locked) (valV F) E.nevex
          (tau E.nevex ε δ (gam F.u d)) ε).inv p.1,
        fun p => (nearPh (phT A E k (s.userH k)) (fun s => s.1.V1) (fun s => s.1.locked) (valV F) E.nevex
          (tau E.nevex ε δ (gam F.u d)) ε).ready p.1,
        fun p => (nearPh (phT A E k (s.userH k)) (fun s => s.1.V1) (fun s => s.1.locked) (valV F) E.nevex
          (tau E.nevex ε δ (gam F.u d)) ε).synced p.1⟩
      (fun x v _ => ∃ t : List (Call R) × Prop, v.2 = some t ∧
        (¬ t.2 → RitzPair F A E.nevex ε (afterShifts A (s.userH k) (shiftsOf t.1)) x v.1.1)) E.nevex := by
    rintro f p ⟨⟨hph, hH⟩, hn⟩ hl hf i hi
    refine ⟨callsAndMark p.1, ?_, fun hm => ?_⟩
    · show writeAt p.2 (E.nevex - (E.nevex - p.1.1.1.locked)) (E.nevex - p.1.1.1.locked)
        (fun _ => some (callsAndMark p.1)) (p.1.1.1.locked + i) = some _
      dsimp only at hl hi
      unfold writeAt
      rw [if_pos (by omega)]
    · rw [hf i hi]
      have := rr_pair (A := A) 0 p.1.1.1 hph.1 (hn hm).2 hi
      rw [hH] at this
      exact this
  have hpre : (phT A E k (s.userH k)).pre (s, []) := ⟨trivial, rfl, rfl⟩
  have h1 := solve_sim (watch_sim (fun m c (t : St K R N × List (Call R)) => BadQr F A E ε m c t.1)
    (traced (ops A E k))) P cfg ritzv0 resid0 (be := ((s, []), False)) (be' := (s, [])) rfl
  rw [h] at h1
  generalize hw : solve P (watch (fun m c (t : St K R N × List (Call R)) => BadQr F A E ε m c t.1)
    (traced (ops A E k))) cfg ritzv0 resid0 ((s, []), False) = x at h1
  cases h1 with
  | @ok o1 _ hr1 =>
    have hm : ¬ o1.be.2 := hq.traced o1 hw
    have hw' : solve P (opsW F A E k ε) cfg ritzv0 resid0 ((s, []), False) = .ok o1 :=
      solve_watch (q := (traced (safeOps A E k)).qr) (fun m c t hb => by
        show (safeQr A E k m c t.1, _) = ((ops A E k).qr m c t.1, _)
        rw [safeQr_agree m c t.1 fun hg => hb (Or.inr hg)]) hw hm
    have h2 := solve_sim (stamped_sim E.nevex callsAndMark (opsW F A E k ε)) P cfg ritzv0 resid0
      (be := (((s, []), False), fun _ => none)) (be' := ((s, []), False)) rfl
    rw [hw'] at h2
    generalize hx : solve P (opsWS F A E k ε) cfg ritzv0 resid0 (((s, []), False), fun _ => none) = y at h2
    cases h2 with
    | @ok o _ hr =>
      obtain ⟨σ, -, hend⟩ := C06_residuals_arith_partial P (opsWS F A E k ε) _ _ _ _ cfg hP
        (by rw [hsz, hN]; exact (bookkeepingW hA hε hδ (s.userH k)).stamped callsAndMark) hmax (by rw [hsz]; exact hres)
        ritzv0 resid0 (((s, []), False), fun _ => none) hpre o hsym hx
        (by rw [hr.iterations, hr1.iterations]; exact hit)
      have htag := (stamps_keep_marked _ (safeOps A E k) E.nevex).solve hx (by intro i t h; cases h)
      intro i hi
      obtain ⟨t, ht, hpair⟩ := hend i hi
      obtain ⟨⟨b, hb⟩, hmk⟩ := htag i t ht
      have hbe : o.be.1 = o1.be := hr.be
      have hbe1 : o1.be.1 = out.be := hr1.be
      rw [hbe] at hmk hb
      rw [hbe1] at hb
      have hp := hpair fun g => hm (hmk g)
      have ecol : (markedCols (fun s : St K R N × List (Call R) => s.1.V1) E.nevex o.be.1 i).1 = out.be.1.V1 i := by
        show o.be.1.1.1.V1 i = _
        rw [hbe, hbe1]
      rw [ecol, hr.ritzv, hr1.ritzv] at hp
      obtain ⟨xs, h1, h2, h3⟩ := shifts_before_rr hpath hb
      rw [h2] at hp h3
      rw [hsz]
      exact ⟨xs, h1, h3, hp⟩

end
end InPlace
end Rounded
end Verif
