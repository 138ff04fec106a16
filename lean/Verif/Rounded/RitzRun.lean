/-
Where the values of a solve come from, in every arithmetic: from a Rayleigh-Ritz step, made with columns which the
orthogonalisation had left with norms near one.
-/
import Verif.Rounded.Ritz
import Verif.Solver.Still

set_option linter.unusedSectionVars false

namespace Verif

section
variable {R S V : Type*} [Add R] [Sub R] [Mul R] [Div R] [Neg R] [Zero R] [One R] [NatCast R] [LT R] [DecidableLT R]

/-- Recording the calls does not change what is avoided. -/
theorem QrAvoids.traced {P : Plat R} {ops : Chase R S} {cfg : Config R} {r0 s0 : ℕ → R} {s : S} {bad : ℕ → R → S → Prop}
    (hq : QrAvoids P ops cfg r0 s0 s bad) :
    QrAvoids P (traced ops) cfg r0 s0 (s, []) fun k c t => bad k c t.1 :=
  QrAvoids.of_sim (π := Prod.fst) (s := (s, [])) (traced_sim ops) hq

/-- The stamp of a column: the calls before the Rayleigh-Ritz step that made it, and the mark at that time. -/
def callsAndMark (p : (S × List (Call R)) × Prop) : List (Call R) × Prop := (p.1.2, p.2)

/-- The calls in a stamp are followed by that step in the trace, and a mark stays. -/
theorem stamps_keep_marked (bad : ℕ → R → S × List (Call R) → Prop) (ops : Chase R S) (n : ℕ) :
    Keeps (stamped n callsAndMark (watch bad (traced ops)))
      (fun s => ∀ i t, s.2 i = some t → (∃ b, t.1 ++ [Call.rr b] <+: s.1.1.2) ∧ (t.2 → s.1.2)) := by
  have ext : ∀ {tr : List (Call R)} {c : Call R} {m m' : Prop} {tag : ℕ → Option (List (Call R) × Prop)}, (m → m') →
      (∀ i t, tag i = some t → (∃ b, t.1 ++ [Call.rr b] <+: tr) ∧ (t.2 → m)) →
      ∀ i t, tag i = some t → (∃ b, t.1 ++ [Call.rr b] <+: tr ++ [c]) ∧ (t.2 → m') := by
    intro tr c m m' tag hm h i t ht
    obtain ⟨⟨b, hb⟩, h2⟩ := h i t ht
    exact ⟨⟨b, hb.trans (List.prefix_append _ _)⟩, fun g => hm (h2 g)⟩
  exact {
    checkSymmetryEasy := fun _ h => ext id h
    start := fun _ h => ext id h
    finish := fun _ h => ext id h
    initVecs := fun _ _ h => ext id h
    qr := fun _ _ _ h => ext Or.inl h
    lanczos1 := fun _ _ h => ext id h
    lanczosN := fun _ _ _ h => ext id h
    lanczosDos := fun _ _ _ _ h => ext id h
    shift := fun _ _ _ h => ext id h
    hemm := fun _ _ _ _ _ h => ext id h
    rr := fun b s h i t ht => by
      have ht' : writeAt s.2 (n - b) b (fun _ => some (callsAndMark s.1)) i = some t := ht
      unfold writeAt at ht'
      split_ifs at ht' with hc
      · cases ht'
        exact ⟨⟨b, List.prefix_refl _⟩, id⟩
      · exact ext id h i t ht'
    resd := fun _ _ _ h => ext id h
    lock := fun _ _ h => ext id h
    swap := fun i j s h k t ht => by
      have ht' : swapAt s.2 i j k = some t := ht
      rw [swapAt_apply] at ht'
      split_ifs at ht' <;> exact ext id h _ t ht' }

end

namespace Rounded

open Matrix Finset

section
variable {K 𝕜 R : Type*} [RCLike 𝕜] {N : ℕ} {F : Fl K 𝕜} {A : Arith K R N} {E : Params} {d : ℕ} {ε δ : ℝ}

/-- The projected matrix: the columns with their products, in one of the two orders (blaslapack 241-243;
inplace 220-222). -/
def Projected (A : Arith K R N) {b : ℕ} (H : Matrix (Fin N) (Fin N) K) (X Y : Matrix (Fin N) (Fin b) K)
    (M : Matrix (Fin b) (Fin b) K) : Prop :=
  M = A.gemmProj X (A.gemm true H A.one A.zero X Y) ∨ M = A.gemmProj (A.gemm true H A.one A.zero X Y) X

/-- The pair `(x, v)` comes out of a Rayleigh-Ritz step with the matrix `H` and at most `n` columns of norm at most
`1 + ε`. -/
def RitzPair (F : Fl K 𝕜) (A : Arith K R N) (n : ℕ) (ε : ℝ) (H : Matrix (Fin N) (Fin N) K) (x : R) (v : Fin N → K) : Prop :=
  ∃ b ≤ n, ∃ (X Y : Matrix (Fin N) (Fin b) K) (M : Matrix (Fin b) (Fin b) K) (j : Fin b),
    (∀ k, Verif.nrm2 (fun i => F.val (X i k)) ≤ 1 + ε) ∧ Projected A H X Y M ∧
    x = (A.heevd M).1 j ∧ v = fun i => A.gemmBack X (A.heevd M).2 i j

theorem ReadyOrtho.norm_le {l n : ℕ} {X : ℕ → Fin N → 𝕜} (h : ReadyOrtho ε l n X) (k : Fin (n - l)) :
    Verif.nrm2 (X (l + k)) ≤ 1 + ε := by
  obtain ⟨q, hq, hx, -⟩ := h
  have h1 := norm_add_le (q k) (WithLp.toLp 2 (X (l + k)) - q k)
  rw [add_sub_cancel, hq.1 k] at h1
  rw [nrm2_eq_norm]
  linarith [hx k]

/-- A Rayleigh-Ritz step right after the orthogonalisation. -/
theorem rr_pair (z : R) (s : Seq.St K N) (hr : (phases E).ready s)
    (h2 : ReadyOrtho ε s.locked E.nevex fun j => valV F (s.C j)) {i : ℕ} (hi : i < E.nevex - s.locked) :
    RitzPair F A E.nevex ε s.H ((rr A z (E.nevex - s.locked) s.locked s).1 i)
      ((rr A z (E.nevex - s.locked) s.locked s).2.C (s.locked + i)) := by
  obtain ⟨-, hl, hc⟩ := hr
  set b := E.nevex - s.locked with hb
  have e1 : getBlk s.locked b s.C2 = getBlk s.locked b s.C := by
    funext r k
    show s.C2 (s.locked + k) r = s.C (s.locked + k) r
    rw [hc _ (by omega)]
  have e2 : getBlk s.locked b (asynCxHGatherC A s.locked b s).B2 = getBlk s.locked b s.C := by
    funext r k
    show copyCols s.locked b s.C2 s.B2 (s.locked + k) r = s.C (s.locked + k) r
    rw [copyCols_apply, if_pos ⟨by omega, by omega⟩, hc _ (by omega)]
  have e3 : getBlk s.locked b (asynCxHGatherC A s.locked b s).B =
      A.gemm true s.H A.one A.zero (getBlk s.locked b s.C) (getBlk s.locked b s.B) := by
    funext r k
    show setBlk s.locked (A.gemm true s.H A.one A.zero (getBlk s.locked b s.C) (getBlk s.locked b s.B)) s.B
      (s.locked + k) r = _
    rw [setBlk_mem (by omega) (by omega)]
    simp
  refine ⟨b, by omega, getBlk s.locked b s.C, getBlk s.locked b s.B, _, ⟨i, hi⟩, fun k => h2.norm_le k,
    .inl rfl, ?_, ?_⟩
  · show (if h : i < b then (A.heevd (A.gemmProj (getBlk s.locked b (asynCxHGatherC A s.locked b s).B2)
      (getBlk s.locked b (asynCxHGatherC A s.locked b s).B))).1 ⟨i, h⟩ else z) = _
    rw [dif_pos hi, e2, e3]
  · show setBlk s.locked (A.gemmBack (getBlk s.locked b s.C2)
      (A.heevd (A.gemmProj (getBlk s.locked b (asynCxHGatherC A s.locked b s).B2)
        (getBlk s.locked b (asynCxHGatherC A s.locked b s).B))).2) s.C (s.locked + i) = _
    rw [setBlk_mem (by omega) (by omega), e1, e2, e3]
    simp

variable [Add R] [Sub R] [Mul R] [Div R] [Neg R] [Zero R] [One R] [NatCast R] [LT R] [DecidableLT R]

/-- The phases of the recorder. -/
def phT (A : Arith K R N) (E : Params) (H0 : Matrix (Fin N) (Fin N) K) : Phases (Seq.St K N × List (Call R)) where
  pre := fun s => (phases E).pre s.1 ∧ s.1.H = afterShifts A H0 (shiftsOf s.2)
  inv := fun s => (phases E).inv s.1 ∧ s.1.H = afterShifts A H0 (shiftsOf s.2)
  ready := fun s => (phases E).ready s.1 ∧ s.1.H = afterShifts A H0 (shiftsOf s.2)
  synced := fun s => (phases E).synced s.1 ∧ s.1.H = afterShifts A H0 (shiftsOf s.2)

/-- The recorder, watched for inaccurate calls of `QR`. -/
abbrev opsW (F : Fl K 𝕜) (A : Arith K R N) (E : Params) (ε : ℝ) : Chase R ((Seq.St K N × List (Call R)) × Prop) :=
  watch (fun k c (t : Seq.St K N × List (Call R)) => Inaccurate F A E ε k c t.1.C) (traced (ops A E))

theorem bookkeepingW (hA : OrthoKernels F A E.nevex d δ) (hε : 0 ≤ ε) (hδ : 0 ≤ δ) (H0 : Matrix (Fin N) (Fin N) K) :
    Bookkeeping (opsW F A E ε) (markedCols (fun s => s.1.C) E.nevex) (fun p => p.1.1.locked)
      (nearPh (phT A E H0) (fun s => s.1.C) (fun s => s.1.locked) (valV F) E.nevex (tau E.nevex ε δ (gam F.u d)) ε)
      N E.nevex := by
  refine Frame.bookkeeping (Frame.near (ph := phT A E H0)
    ((bookkeeping (A := A) (E := E)).traced.keep (matrix_keep H0)).frame (fun _ h => h.1.2.1) ?_ ?_ ?_) ?_
  · rintro k c s ⟨⟨-, hl, hc⟩, -⟩ hb
    show ReadyOrtho ε s.1.locked E.nevex fun j => valV F (((ops A E).qr k c s.1).C j)
    rw [qr_cols]
    exact lockCopy_ready hl hc (not_not.mp hb)
  · intro s hr _ h1 h2
    exact rr_near hA hε hδ 0 s.1 hr.1 h1 h2
  · intro i j s hi hj h
    exact swapAt_near hi hj h
  · intro i j s hi hj
    funext k
    show (swapAt s.1.1.C i j k, k = E.nevex ∧ s.2) = _
    rw [swapAt_apply, swapAt_apply]
    unfold markedCols
    split_ifs with h1 h2
    · simp [h1, Nat.ne_of_lt hi, Nat.ne_of_lt hj]
    · simp [h2, Nat.ne_of_lt hi, Nat.ne_of_lt hj]
    · rfl

/-- The recorder with stamps. -/
abbrev opsWS (F : Fl K 𝕜) (A : Arith K R N) (E : Params) (ε : ℝ) := stamped E.nevex callsAndMark (opsW F A E ε)

/-- **Where the values come from, in every arithmetic.**  After a solve with at least one round in which every
orthogonalisation was accurate, every returned pair comes out of a Rayleigh-Ritz step with the matrix as it was, after
some complete pairs of shifts, in one of the rounds. -/
theorem ritz_at_end (hA : OrthoKernels F A E.nevex d δ) (hε : 0 ≤ ε) (hδ : 0 ≤ δ) (P : Plat R) (hP : PermutesIndices P)
    (cfg : Config R) (hN : cfg.N = N) (hsz : cfg.nev + cfg.nex = E.nevex) (hmax : Even cfg.maxDeg) (ritzv0 resid0 : ℕ → R)
    (s : Seq.St K N) (out : Outcome R (Seq.St K N × List (Call R)))
    (h : solve P (traced (ops A E)) cfg ritzv0 resid0 (s, []) = .ok out)
    (hsym : cfg.symCheck = true → A.symCheck s.H = true) (hit : 0 < out.iterations)
    (hq : QrAvoids P (ops A E) cfg ritzv0 resid0 s fun k c t => Inaccurate F A E ε k c t.C) :
    ∀ i, i < cfg.nev + cfg.nex → ∃ xs : List R, xs.length ≤ out.iterations ∧ (∀ c ∈ pairsOf xs, c ∈ shiftsOf out.be.2) ∧
      RitzPair F A (cfg.nev + cfg.nex) ε (afterShifts A s.H (pairsOf xs)) (out.ritzv i) (out.be.1.C i) := by
  have hpath := C57_call_protocol hP ritzv0 resid0 s out h hsym
  have hres : MakesResiduals (opsWS F A E ε) (fun p i => (markedCols (fun s => s.1.C) E.nevex p.1 i, p.2 i))
      (fun p => p.1.1.1.locked)
      ⟨fun p => (nearPh (phT A E s.H) (fun s => s.1.C) (fun s => s.1.locked) (valV F) E.nevex
          (tau E.nevex ε δ (gam F.u d)) ε).pre p.1,
        fun p => (nearPh (phT A E s.H) (fun s => s.1.C) (fun s => s.1.locked) (valV F) E.nevex
          (tau E.nevex ε δ (gam F.u d)) ε).inv p.1,
        fun p => (nearPh (phT A E s.H) (fun s => s.1.C) (fun s => s.1.locked) (valV F) E.nevex
          (tau E.nevex ε δ (gam F.u d)) ε).ready p.1,
        fun p => (nearPh (phT A E s.H) (fun s => s.1.C) (fun s => s.1.locked) (valV F) E.nevex
          (tau E.nevex ε δ (gam F.u d)) ε).synced p.1⟩
      (fun x v _ => ∃ t : List (Call R) × Prop, v.2 = some t ∧
        (¬ t.2 → RitzPair F A E.nevex ε (afterShifts A s.H (shiftsOf t.1)) x v.1.1)) E.nevex := by
    rintro f p ⟨⟨hph, hH⟩, hn⟩ hl hf i hi
    refine ⟨callsAndMark p.1, ?_, fun hm => ?_⟩
    · show writeAt p.2 (E.nevex - (E.nevex - p.1.1.1.locked)) (E.nevex - p.1.1.1.locked)
        (fun _ => some (callsAndMark p.1)) (p.1.1.1.locked + i) = some _
      dsimp only at hl hi
      unfold writeAt
      rw [if_pos (by omega)]
    · rw [hf i hi]
      have := rr_pair (A := A) 0 p.1.1.1 hph (hn hm).2 hi
      rw [hH] at this
      exact this
  have hpre : (phT A E s.H).pre (s, []) := ⟨trivial, rfl⟩
  have h1 := solve_sim (watch_sim (fun k c (t : Seq.St K N × List (Call R)) => Inaccurate F A E ε k c t.1.C)
    (traced (ops A E))) P cfg ritzv0 resid0 (be := ((s, []), False)) (be' := (s, [])) rfl
  rw [h] at h1
  generalize hw : solve P (opsW F A E ε) cfg ritzv0 resid0 ((s, []), False) = x at h1
  cases h1 with
  | @ok o1 _ hr1 =>
    have hm : ¬ o1.be.2 := hq.traced o1 hw
    have h2 := solve_sim (stamped_sim E.nevex callsAndMark (opsW F A E ε)) P cfg ritzv0 resid0
      (be := (((s, []), False), fun _ => none)) (be' := ((s, []), False)) rfl
    rw [hw] at h2
    generalize hx : solve P (opsWS F A E ε) cfg ritzv0 resid0 (((s, []), False), fun _ => none) = y at h2
    cases h2 with
    | @ok o _ hr =>
      obtain ⟨σ, -, hend⟩ := C06_residuals_arith_partial P (opsWS F A E ε) _ _ _ _ cfg hP
        (by rw [hsz, hN]; exact (bookkeepingW hA hε hδ s.H).stamped callsAndMark) hmax (by rw [hsz]; exact hres)
        ritzv0 resid0 (((s, []), False), fun _ => none) hpre o hsym hx
        (by rw [hr.iterations, hr1.iterations]; exact hit)
      have htag := (stamps_keep_marked _ (ops A E) E.nevex).solve hx (by intro i t h; cases h)
      intro i hi
      obtain ⟨t, ht, hpair⟩ := hend i hi
      obtain ⟨⟨b, hb⟩, hmk⟩ := htag i t ht
      have hbe : o.be.1 = o1.be := hr.be
      have hbe1 : o1.be.1 = out.be := hr1.be
      rw [hbe] at hmk hb
      rw [hbe1] at hb
      have hp := hpair fun g => hm (hmk g)
      have ecol : (markedCols (fun s : Seq.St K N × List (Call R) => s.1.C) E.nevex o.be.1 i).1 = out.be.1.C i := by
        show o.be.1.1.1.C i = _
        rw [hbe, hbe1]
      rw [ecol, hr.ritzv, hr1.ritzv] at hp
      obtain ⟨xs, h1, h2, h3⟩ := shifts_before_rr hpath hb
      rw [h2] at hp h3
      rw [hsz]
      exact ⟨xs, h1, h3, hp⟩

end

/-! ### The error of one step -/

section
variable {K 𝕜 R : Type*} [RCLike 𝕜] {N : ℕ} {F : Fl K 𝕜} {valR : R → ℝ} {A : Arith K R N} {n d1 d2 d3 : ℕ} {ε δ η ν D V : ℝ}

/-- The product with the matrix. -/
theorem gemm_error [Neg R] (hA : Accurate F valR A d1 ν) {H0 H : Matrix (Fin N) (Fin N) K} (hD : 0 ≤ D)
    (hoff : ∀ i j, i ≠ j → F.val (H i j) = F.val (H0 i j)) (hdiag : ∀ i, ‖F.val (H i i) - F.val (H0 i i)‖ ≤ D) {b : ℕ}
    (X Y : Matrix (Fin N) (Fin b) K) (j : Fin b) :
    Verif.nrm2 ((fun i => F.val (A.gemm true H A.one A.zero X Y i j)) - (valM F H0)ᴴ.mulVec fun i => F.val (X i j)) ≤
      (gam F.u d1 * (frob (valM F H0) + D) + D) * Verif.nrm2 fun i => F.val (X i j) := by
  set v : Fin N → 𝕜 := fun i => F.val (X i j) with hv
  set g := gam F.u d1 with hg
  have hg0 : 0 ≤ g := gam_nonneg F.u_nonneg d1
  have entry : ∀ i, ‖((fun i => F.val (A.gemm true H A.one A.zero X Y i j)) - (valM F H0)ᴴ.mulVec v) i‖ ≤
      g * (∑ k, ‖valM F H0 k i‖ * ‖v k‖) + (g * D + D) * ‖v i‖ := by
    intro i
    obtain ⟨d', hd', h1⟩ := hA.gemm H X Y i j
    have e1 := h1.error_le hd'
    have es1 : F.sum (univ.val.map fun k => (F.conj (H k i), X k j)) = ∑ k, star (F.val (H k i)) * v k := by
      unfold Fl.sum
      rw [Multiset.map_map, Finset.sum]
      simp only [Function.comp_def, F.val_conj, hv]
    have ea1 : F.abs (univ.val.map fun k => (F.conj (H k i), X k j)) = ∑ k, ‖F.val (H k i)‖ * ‖v k‖ := by
      unfold Fl.abs
      rw [Multiset.map_map, Finset.sum]
      simp only [Function.comp_def, F.val_conj, hv, norm_star]
    rw [es1, ea1] at e1
    set p : 𝕜 := ∑ k, star (F.val (H k i)) * v k with hp
    set p0 : 𝕜 := ∑ k, star (F.val (H0 k i)) * v k with hp0
    set S : ℝ := ∑ k, ‖F.val (H k i)‖ * ‖v k‖ with hS
    set S0 : ℝ := ∑ k, ‖F.val (H0 k i)‖ * ‖v k‖ with hS0
    have hpp : ‖p - p0‖ ≤ D * ‖v i‖ := by
      have : p - p0 = star (F.val (H i i) - F.val (H0 i i)) * v i := by
        rw [hp, hp0, ← Finset.sum_sub_distrib, Finset.sum_eq_single i]
        · rw [star_sub]; ring
        · intro k _ hk
          rw [hoff k i hk, sub_self]
        · intro h; exact absurd (Finset.mem_univ i) h
      rw [this, norm_mul, norm_star]
      exact mul_le_mul_of_nonneg_right (hdiag i) (norm_nonneg _)
    have hSS : S ≤ S0 + D * ‖v i‖ := by
      have : S - S0 = (‖F.val (H i i)‖ - ‖F.val (H0 i i)‖) * ‖v i‖ := by
        rw [hS, hS0, ← Finset.sum_sub_distrib, Finset.sum_eq_single i]
        · ring
        · intro k _ hk
          rw [hoff k i hk, sub_self]
        · intro h; exact absurd (Finset.mem_univ i) h
      have h3 : (‖F.val (H i i)‖ - ‖F.val (H0 i i)‖) * ‖v i‖ ≤ D * ‖v i‖ :=
        mul_le_mul_of_nonneg_right ((norm_sub_norm_le _ _).trans (hdiag i)) (norm_nonneg _)
      linarith
    have e0 : ((fun i => F.val (A.gemm true H A.one A.zero X Y i j)) - (valM F H0)ᴴ.mulVec v) i =
        (F.val (A.gemm true H A.one A.zero X Y i j) - p) + (p - p0) := by
      show F.val (A.gemm true H A.one A.zero X Y i j) - p0 = _
      ring
    rw [e0]
    refine (norm_add_le _ _).trans ((add_le_add e1 hpp).trans ?_)
    have h4 : ((1 + F.u) ^ d1 - 1) * S ≤ g * (S0 + D * ‖v i‖) := mul_le_mul_of_nonneg_left hSS hg0
    show ((1 + F.u) ^ d1 - 1) * S + D * ‖v i‖ ≤ g * S0 + (g * D + D) * ‖v i‖
    linarith
  have hc0 : 0 ≤ g * D + D := by positivity
  have h1 : Verif.nrm2 ((fun i => F.val (A.gemm true H A.one A.zero X Y i j)) - (valM F H0)ᴴ.mulVec v) ≤
      Verif.nrm2 (((g : ℝ) • fun i => ∑ k, ‖valM F H0 k i‖ * ‖v k‖) + (g * D + D : ℝ) • fun i => ‖v i‖ : Fin N → ℝ) := by
    refine nrm2_le fun i => (entry i).trans (le_of_eq ?_)
    rw [Real.norm_eq_abs]
    refine (abs_of_nonneg (a := g * (∑ k, ‖valM F H0 k i‖ * ‖v k‖) + (g * D + D) * ‖v i‖) ?_).symm
    exact add_nonneg (mul_nonneg hg0 (Finset.sum_nonneg fun _ _ => by positivity)) (mul_nonneg hc0 (norm_nonneg _))
  have h2 := h1.trans (nrm2_add_le _ _)
  rw [nrm2_smul, nrm2_smul, Real.norm_eq_abs, Real.norm_eq_abs, abs_of_nonneg hg0, abs_of_nonneg hc0] at h2
  have h3 : Verif.nrm2 (fun i => ‖v i‖ : Fin N → ℝ) = Verif.nrm2 v := by
    unfold Verif.nrm2; simp
  have h4 := mul_le_mul_of_nonneg_left (nrm2_abs_mul_le (valM F H0) v) hg0
  rw [h3] at h2
  refine h2.trans ((add_le_add_left h4 _).trans (le_of_eq ?_))
  ring

/-- The projected matrix. -/
theorem proj_error [Neg R] (hA : Accurate F valR A d1 ν) (hR : RitzKernels F valR A n d2 η) (hε : 0 ≤ ε)
    {H0 H : Matrix (Fin N) (Fin N) K} (hH : (valM F H0).IsHermitian) (hD : 0 ≤ D)
    (hoff : ∀ i j, i ≠ j → F.val (H i j) = F.val (H0 i j)) (hdiag : ∀ i, ‖F.val (H i i) - F.val (H0 i i)‖ ≤ D) {b : ℕ}
    (hb : b ≤ n) (X Y : Matrix (Fin N) (Fin b) K) (hX : ∀ k, Verif.nrm2 (fun i => F.val (X i k)) ≤ 1 + ε) (i k : Fin b) :
    ‖F.val (A.gemmProj X (A.gemm true H A.one A.zero X Y) i k) -
      dotc (fun r => F.val (X r i)) ((valM F H0).mulVec fun r => F.val (X r k))‖ ≤
      projB F.u d1 d2 ε (frob (valM F H0)) D := by
  set f := frob (valM F H0) with hf
  have hf0 : 0 ≤ f := frob_nonneg _
  set g1 := gam F.u d1 with hg1
  set g2 := gam F.u d2 with hg2
  have h10 : 0 ≤ g1 := gam_nonneg F.u_nonneg _
  have h20 : 0 ≤ g2 := gam_nonneg F.u_nonneg _
  set ci : Fin N → 𝕜 := fun r => F.val (X r i) with hci
  set ck : Fin N → 𝕜 := fun r => F.val (X r k) with hck
  set B : Fin N → 𝕜 := fun r => F.val (A.gemm true H A.one A.zero X Y r k) with hB
  have eB := gemm_error hA hD hoff hdiag X Y k
  rw [hH] at eB
  have hcin : Verif.nrm2 ci ≤ 1 + ε := hX i
  have hckn : Verif.nrm2 ck ≤ 1 + ε := hX k
  have hci0 : 0 ≤ Verif.nrm2 ci := Real.sqrt_nonneg _
  have hck0 : 0 ≤ Verif.nrm2 ck := Real.sqrt_nonneg _
  have eB1 : Verif.nrm2 (B - (valM F H0).mulVec ck) ≤ (g1 * (f + D) + D) * (1 + ε) :=
    eB.trans (mul_le_mul_of_nonneg_left hckn (by positivity))
  have hBn : Verif.nrm2 B ≤ (1 + g1) * (f + D) * (1 + ε) := by
    have h1 := nrm2_add_le ((valM F H0).mulVec ck) (B - (valM F H0).mulVec ck)
    rw [add_sub_cancel] at h1
    have h2 := (nrm2_mulVec_le hH ck).trans (mul_le_mul_of_nonneg_left hckn hf0)
    rw [← hf] at h2
    nlinarith
  obtain ⟨d', hd', h1⟩ := hR.proj hb X (A.gemm true H A.one A.zero X Y) i k
  have e1 := h1.error_le hd'
  have es1 : F.sum (univ.val.map fun r => (F.conj (X r i), A.gemm true H A.one A.zero X Y r k)) = dotc ci B := by
    unfold Fl.sum dotc
    rw [Multiset.map_map, Finset.sum]
    simp only [Function.comp_def, F.val_conj, hci, hB]
  have ea1 : F.abs (univ.val.map fun r => (F.conj (X r i), A.gemm true H A.one A.zero X Y r k)) = ∑ r, ‖ci r‖ * ‖B r‖ := by
    unfold Fl.abs
    rw [Multiset.map_map, Finset.sum]
    simp only [Function.comp_def, F.val_conj, hci, hB, norm_star]
  rw [es1, ea1] at e1
  have hcs : ∑ r, ‖ci r‖ * ‖B r‖ ≤ Verif.nrm2 ci * Verif.nrm2 B := by
    unfold Verif.nrm2
    rw [← Real.sqrt_mul (Finset.sum_nonneg fun _ _ => sq_nonneg _)]
    exact Real.le_sqrt_of_sq_le (Finset.sum_mul_sq_le_sq_mul_sq univ _ _)
  have hcs' : ∑ r, ‖ci r‖ * ‖B r‖ ≤ (1 + ε) * ((1 + g1) * (f + D) * (1 + ε)) :=
    hcs.trans (mul_le_mul hcin hBn (Real.sqrt_nonneg _) (by linarith))
  have e2 : ‖dotc ci B - dotc ci ((valM F H0).mulVec ck)‖ ≤ (1 + ε) * ((g1 * (f + D) + D) * (1 + ε)) := by
    have e : dotc ci B - dotc ci ((valM F H0).mulVec ck) = dotc ci (B - (valM F H0).mulVec ck) := by
      simp only [dotc, Pi.sub_apply, mul_sub, Finset.sum_sub_distrib]
    rw [e]
    exact (dotc_le _ _).trans (mul_le_mul hcin eB1 (Real.sqrt_nonneg _) (by linarith))
  have e3 := mul_le_mul_of_nonneg_left hcs' h20
  have e0 : F.val (A.gemmProj X (A.gemm true H A.one A.zero X Y) i k) - dotc ci ((valM F H0).mulVec ck) =
      (F.val (A.gemmProj X (A.gemm true H A.one A.zero X Y) i k) - dotc ci B) +
        (dotc ci B - dotc ci ((valM F H0).mulVec ck)) := by ring
  rw [e0]
  refine (norm_add_le _ _).trans ((add_le_add (e1.trans e3) e2).trans (le_of_eq ?_))
  unfold projB
  rw [← hg1, ← hg2]
  ring

/-- The same with the factors in the other order. -/
theorem proj_error_swapped [Neg R] (hA : Accurate F valR A d1 ν) (hR : RitzKernels F valR A n d2 η) (hε : 0 ≤ ε)
    {H0 H : Matrix (Fin N) (Fin N) K} (hH : (valM F H0).IsHermitian) (hD : 0 ≤ D)
    (hoff : ∀ i j, i ≠ j → F.val (H i j) = F.val (H0 i j)) (hdiag : ∀ i, ‖F.val (H i i) - F.val (H0 i i)‖ ≤ D) {b : ℕ}
    (hb : b ≤ n) (X Y : Matrix (Fin N) (Fin b) K) (hX : ∀ k, Verif.nrm2 (fun i => F.val (X i k)) ≤ 1 + ε) (i k : Fin b) :
    ‖F.val (A.gemmProj (A.gemm true H A.one A.zero X Y) X i k) -
      dotc (fun r => F.val (X r i)) ((valM F H0).mulVec fun r => F.val (X r k))‖ ≤
      projB F.u d1 d2 ε (frob (valM F H0)) D := by
  set f := frob (valM F H0) with hf
  have hf0 : 0 ≤ f := frob_nonneg _
  set g1 := gam F.u d1 with hg1
  set g2 := gam F.u d2 with hg2
  have h10 : 0 ≤ g1 := gam_nonneg F.u_nonneg _
  have h20 : 0 ≤ g2 := gam_nonneg F.u_nonneg _
  set ci : Fin N → 𝕜 := fun r => F.val (X r i) with hci
  set ck : Fin N → 𝕜 := fun r => F.val (X r k) with hck
  set B : Fin N → 𝕜 := fun r => F.val (A.gemm true H A.one A.zero X Y r i) with hB
  have eB := gemm_error hA hD hoff hdiag X Y i
  rw [hH] at eB
  have hcin : Verif.nrm2 ci ≤ 1 + ε := hX i
  have hckn : Verif.nrm2 ck ≤ 1 + ε := hX k
  have hci0 : 0 ≤ Verif.nrm2 ci := Real.sqrt_nonneg _
  have hck0 : 0 ≤ Verif.nrm2 ck := Real.sqrt_nonneg _
  have eB1 : Verif.nrm2 (B - (valM F H0).mulVec ci) ≤ (g1 * (f + D) + D) * (1 + ε) :=
    eB.trans (mul_le_mul_of_nonneg_left hcin (by positivity))
  have hBn : Verif.nrm2 B ≤ (1 + g1) * (f + D) * (1 + ε) := by
    have h1 := nrm2_add_le ((valM F H0).mulVec ci) (B - (valM F H0).mulVec ci)
    rw [add_sub_cancel] at h1
    have h2 := (nrm2_mulVec_le hH ci).trans (mul_le_mul_of_nonneg_left hcin hf0)
    rw [← hf] at h2
    nlinarith
  obtain ⟨d', hd', h1⟩ := hR.proj hb (A.gemm true H A.one A.zero X Y) X i k
  have e1 := h1.error_le hd'
  have es1 : F.sum (univ.val.map fun r => (F.conj (A.gemm true H A.one A.zero X Y r i), X r k)) = dotc B ck := by
    unfold Fl.sum dotc
    rw [Multiset.map_map, Finset.sum]
    simp only [Function.comp_def, F.val_conj, hck, hB]
  have ea1 : F.abs (univ.val.map fun r => (F.conj (A.gemm true H A.one A.zero X Y r i), X r k)) = ∑ r, ‖B r‖ * ‖ck r‖ := by
    unfold Fl.abs
    rw [Multiset.map_map, Finset.sum]
    simp only [Function.comp_def, F.val_conj, hck, hB, norm_star]
  rw [es1, ea1] at e1
  have hcs : ∑ r, ‖B r‖ * ‖ck r‖ ≤ Verif.nrm2 B * Verif.nrm2 ck := by
    unfold Verif.nrm2
    rw [← Real.sqrt_mul (Finset.sum_nonneg fun _ _ => sq_nonneg _)]
    exact Real.le_sqrt_of_sq_le (Finset.sum_mul_sq_le_sq_mul_sq univ _ _)
  have hcs' : ∑ r, ‖B r‖ * ‖ck r‖ ≤ (1 + g1) * (f + D) * (1 + ε) * (1 + ε) :=
    hcs.trans (mul_le_mul hBn hckn hck0 (by positivity))
  have eH : dotc ci ((valM F H0).mulVec ck) = dotc ((valM F H0).mulVec ci) ck := by
    simp only [dotc, Matrix.mulVec, dotProduct, star_sum, star_mul', Finset.mul_sum, Finset.sum_mul]
    rw [Finset.sum_comm]
    refine Finset.sum_congr rfl fun r _ => Finset.sum_congr rfl fun q _ => ?_
    rw [hH.apply q r]
    ring
  have e2 : ‖dotc B ck - dotc ci ((valM F H0).mulVec ck)‖ ≤ (g1 * (f + D) + D) * (1 + ε) * (1 + ε) := by
    have e : dotc B ck - dotc ci ((valM F H0).mulVec ck) = dotc (B - (valM F H0).mulVec ci) ck := by
      rw [eH]
      simp only [dotc, Pi.sub_apply, star_sub, sub_mul, Finset.sum_sub_distrib]
    rw [e]
    exact (dotc_le _ _).trans (mul_le_mul eB1 hckn hck0 (by positivity))
  have e3 := mul_le_mul_of_nonneg_left hcs' h20
  have e0 : F.val (A.gemmProj (A.gemm true H A.one A.zero X Y) X i k) - dotc ci ((valM F H0).mulVec ck) =
      (F.val (A.gemmProj (A.gemm true H A.one A.zero X Y) X i k) - dotc B ck) +
        (dotc B ck - dotc ci ((valM F H0).mulVec ck)) := by ring
  rw [e0]
  refine (norm_add_le _ _).trans ((add_le_add (e1.trans e3) e2).trans (le_of_eq ?_))
  unfold projB
  rw [← hg1, ← hg2]
  ring

/-- The matrix given by the lower triangle is as near as the whole. -/
theorem lower_error {b : ℕ} {M : Matrix (Fin b) (Fin b) K} {G : Matrix (Fin b) (Fin b) 𝕜} (hG : G.IsHermitian) {ω : ℝ}
    (h : ∀ i k, ‖F.val (M i k) - G i k‖ ≤ ω) (i k : Fin b) : ‖lowerH F M i k - G i k‖ ≤ ω := by
  unfold lowerH
  split_ifs with h1 h2
  · exact h i k
  · rw [← hG.apply i k, ← star_sub, norm_star]
    exact h k i
  · obtain rfl : i = k := le_antisymm (not_lt.mp h1) (not_lt.mp h2)
    have e : G i i = ((RCLike.re (G i i) : ℝ) : 𝕜) := (RCLike.conj_eq_iff_re.mp (hG.apply i i)).symm
    rw [e, ← RCLike.ofReal_sub, ← map_sub, RCLike.norm_ofReal]
    exact (RCLike.abs_re_le_norm _).trans (h i i)

/-- **Each value of a Rayleigh-Ritz step is the Rayleigh quotient of its vector**, with the matrix handed in and up to
rounding errors. -/
theorem ritz_error [Neg R] (hA : Accurate F valR A d1 ν) (hR : RitzKernels F valR A n d2 η) (hO : OrthoKernels F A n d3 δ)
    (hε : 0 ≤ ε) (hδ : 0 ≤ δ) (hη : 0 ≤ η) {H0 H : Matrix (Fin N) (Fin N) K} (hH : (valM F H0).IsHermitian) (hD : 0 ≤ D)
    (hoff : ∀ i j, i ≠ j → F.val (H i j) = F.val (H0 i j)) (hdiag : ∀ i, ‖F.val (H i i) - F.val (H0 i i)‖ ≤ D)
    {x : R} {v : Fin N → K} (hp : RitzPair F A n ε H x v) (hV : |valR x| ≤ V) :
    ‖dotc (valV F v) ((valM F H0).mulVec (valV F v)) - (valR x : 𝕜)‖ ≤
      ritzB n ε δ η (gam F.u d3) (frob (valM F H0)) V (projB F.u d1 d2 ε (frob (valM F H0)) D) := by
  obtain ⟨b, hb, X, Y, M, j, hX, hM, rfl, rfl⟩ := hp
  have hM' : ∀ i k, ‖F.val (M i k) - dotc (fun r => F.val (X r i)) ((valM F H0).mulVec fun r => F.val (X r k))‖ ≤
      projB F.u d1 d2 ε (frob (valM F H0)) D := by
    rcases hM with rfl | rfl
    · exact proj_error hA hR hε hH hD hoff hdiag hb X Y hX
    · exact proj_error_swapped hA hR hε hH hD hoff hdiag hb X Y hX
  set c : Fin b → Fin N → 𝕜 := fun k i => F.val (X i k) with hc
  have hω : 0 ≤ projB F.u d1 d2 ε (frob (valM F H0)) D := by
    have := frob_nonneg (valM F H0)
    have h1 := gam_nonneg F.u_nonneg d1
    have h2 := gam_nonneg F.u_nonneg d2
    unfold projB
    positivity
  obtain ⟨W, hW, hZ⟩ := hO.heevd hb M
  have hG : (Matrix.of fun i k => dotc (c i) ((valM F H0).mulVec (c k)) : Matrix (Fin b) (Fin b) 𝕜).IsHermitian := by
    refine Matrix.IsHermitian.ext fun i k => ?_
    show star (dotc (c k) ((valM F H0).mulVec (c i))) = dotc (c i) ((valM F H0).mulVec (c k))
    simp only [dotc, Matrix.mulVec, dotProduct, star_sum, star_mul', star_star, Finset.mul_sum]
    rw [Finset.sum_comm]
    refine Finset.sum_congr rfl fun r _ => Finset.sum_congr rfl fun q _ => ?_
    have := hH.apply r q
    rw [this]
    ring
  refine ritz_value hb hH hε hδ hη (gam_nonneg F.u_nonneg d3) hω (c := c) hX (L := lowerH F M)
    (fun i k => lower_error hG hM' i k)
    (z := fun k => F.val ((A.heevd M).2 k j)) ?_ (hR.heevd hb M j) hV (hO.mul hb X (A.heevd M).2 j)
  have hWj : Verif.nrm2 (fun k => W k j) = 1 := by
    have h1 := congrFun (congrFun hW j) j
    rw [Matrix.mul_apply, Matrix.one_apply_eq] at h1
    have h2 : ((∑ k, ‖W k j‖ ^ 2 : ℝ) : 𝕜) = 1 := by
      rw [← h1]
      push_cast
      refine Finset.sum_congr rfl fun k _ => ?_
      rw [Matrix.conjTranspose_apply]
      exact (RCLike.conj_mul _).symm
    have h3 : ∑ k, ‖W k j‖ ^ 2 = 1 := by exact_mod_cast h2
    unfold Verif.nrm2
    rw [h3, Real.sqrt_one]
  have := (nrm2_sub_le (fun k => F.val ((A.heevd M).2 k j)) fun k => W k j).trans (hZ j)
  rwa [hWj] at this

end
end Rounded
end Verif
