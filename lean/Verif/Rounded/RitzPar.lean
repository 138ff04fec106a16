/-
Where the values of a solve of the distributed backend come from, in every arithmetic, and the accuracy of the
Rayleigh-Ritz step that the processes make together.
-/
import Verif.Rounded.RitzRun

set_option linter.unusedSectionVars false

namespace Verif
namespace Rounded
namespace Par

open Matrix Finset
open Mpi (Layout GSt)

/-- The kernels of the Rayleigh-Ritz step on the parts: `proj` the local contributions to the projected matrix
(chase_mpidla 951-966), `rowK` the reduction of these, `heevd` as in `RitzKernels`. -/
structure RitzPar {K R 𝕜 : Type} [RCLike 𝕜] {N : ℕ} {r c : Layout N} (F : Fl K 𝕜) (FR : Fl R ℝ) (T : Red1 K R r c)
    (E : DEnv K R) (n d e : ℕ) (η : ℝ) : Prop where
  proj : ∀ (q : Fin c.procs) {b : ℕ}, b ≤ n → ∀ (X Y : Matrix (Fin (c.size q)) (Fin b) K) (i j : Fin b),
    ∃ d' ≤ d, Dot F (univ.val.map fun k => (F.conj (X k i), Y k j)) d' (E.kern.proj X Y i j)
  rowK : ∀ {ι : Type} (x : Fin c.procs → ι → K) (t : ι), ∃ e' ≤ e,
    Sum F (fun j => x j t) Finset.univ.val e' (T.rowK x t)
  heevd : ∀ {b : ℕ}, b ≤ n → ∀ (M : Matrix (Fin b) (Fin b) K) (j : Fin b),
    Verif.nrm2 ((lowerH F M).mulVec (fun k => F.val ((E.kern.heevd M).2 k j)) -
      (FR.val ((E.kern.heevd M).1 j) : 𝕜) • fun k => F.val ((E.kern.heevd M).2 k j)) ≤ η * frob (lowerH F M)

section
variable {K R 𝕜 : Type} [RCLike 𝕜] {N : ℕ} {r c : Layout N} {T : Red1 K R r c} {E : DEnv K R} {F : Fl K 𝕜} {FR : Fl R ℝ}
  {n d e : ℕ} {η : ℝ}

theorem RitzPar.kernels [Neg R] [Zero R] (h : RitzPar F FR T E n d e η) : RitzKernels F FR.val (distArith T E) n (d + e) η where
  heevd := h.heevd
  proj := by
    intro b hb X Y i j
    obtain ⟨e', he', hsum⟩ := h.rowK (fun q => flat (E.kern.proj (cutM c q X) (cutM c q Y))) (i, j)
    obtain ⟨d', h1, h2⟩ := hsum.dot (m := fun q => Finset.univ.val.map fun a =>
        (F.conj (X (c.glob q a) i), Y (c.glob q a) j)) (d := d)
      fun q => h.proj q hb (cutM c q X) (cutM c q Y) i j
    rw [parts_map c fun n => (F.conj (X n i), Y n j)] at h2
    exact ⟨d', by omega, h2⟩

end

section
variable {K R : Type} {N : ℕ}

/-- The stamp of a column: the record before the Rayleigh-Ritz step that made it, and the mark at that time. -/
def recordAndMark {S Q : Type*} (p : (S × List (Call R) × Q) × Prop) : List (Call R) × Prop := (p.1.2.1, p.2)

theorem still_stamps {S : Type*} (bad : ℕ → R → S × List (Call R) × (ℕ → Option (List (Call R))) → Prop) (ops : Chase R S)
    (n : ℕ) : Keeps (still n recordAndMark (watch bad (quiet n ops)))
      (fun s => ∀ i t, s.2 i = some t → (∃ b, t.1 ++ [Call.rr b] <+: s.1.1.2.1) ∧ (t.2 → s.1.2)) := by
  have ext : ∀ {tr : List (Call R)} {c : Call R} {m m' : Prop} {tag : ℕ → Option (List (Call R) × Prop)}, (m → m') →
      (∀ i t, tag i = some t → (∃ b, t.1 ++ [Call.rr b] <+: tr) ∧ (t.2 → m)) →
      ∀ i t, tag i = some t → (∃ b, t.1 ++ [Call.rr b] <+: tr ++ [c]) ∧ (t.2 → m') := by
    intro tr c m m' tag hm h i t ht
    obtain ⟨⟨b, hb⟩, h2⟩ := h i t ht
    exact ⟨⟨b, hb.trans (List.prefix_append _ _)⟩, fun g => hm (h2 g)⟩
  exact {
    checkSymmetryEasy := fun _ h => ext id h
    start := fun _ h => ext id h
    finish := fun _ h => ext id h
    initVecs := fun _ _ h => ext id h
    qr := fun _ _ _ h => ext Or.inl h
    lanczos1 := fun _ _ h => ext id h
    lanczosN := fun _ _ _ h => ext id h
    lanczosDos := fun _ _ _ _ h => ext id h
    shift := fun _ _ _ h => ext id h
    hemm := fun _ _ _ _ _ h => ext id h
    rr := fun b s h i t ht => by
      have ht' : writeAt s.2 (n - b) b (fun _ => some (recordAndMark s.1)) i = some t := ht
      unfold writeAt at ht'
      split_ifs at ht' with hc
      · cases ht'
        exact ⟨⟨b, List.prefix_refl _⟩, id⟩
      · exact ext id h i t ht'
    resd := fun _ _ _ h => ext id h
    lock := fun _ _ h => ext id h
    swap := fun _ _ _ h => h }

end

section
variable {K R 𝕜 : Type} [RCLike 𝕜] [LinearOrder R] [Add R] [Sub R] [Mul R] [Div R] [Neg R] [Zero R] [One R] [NatCast R]
  {N : ℕ} {r c : Layout N} {T : Red1 K R r c} {E : DEnv K R} {F : Fl K 𝕜} {d : ℕ} {ε δ : ℝ}

/-- The recorder, watched for inaccurate calls of `QR`. -/
noncomputable abbrev gOpsW (T : Red1 K R r c) (E : DEnv K R) (F : Fl K 𝕜) (ε : ℝ) :
    Chase R ((GSt K N × List (Call R) × (ℕ → Option (List (Call R)))) × Prop) :=
  watch (fun k x (t : GSt K N × List (Call R) × (ℕ → Option (List (Call R)))) =>
    Inaccurate F (distArith T E) E.toParams ε k x t.1.C) (quiet E.nevex (gOps T E))

theorem gFrameW (hA : OrthoPar F r E E.nevex d δ) (hε : 0 ≤ ε) (hδ : 0 ≤ δ) (H0 : Matrix (Fin N) (Fin N) K) :
    Frame (gOpsW T E F ε) (markedCols (fun s i => (gCols s.1 i, s.2.2 i)) E.nevex) (fun p => gNl p.1.1)
      (nearPh (gPhS T E H0) (fun s i => (gCols s.1 i, s.2.2 i)) (fun s => gNl s.1) (fun v => valV F v.1) E.nevex
        (tau E.nevex ε δ (gam F.u d)) ε) N E.nevex := by
  refine Frame.near (gFrameS T E H0) (fun _ h => h.1.2.1) ?_ ?_ ?_
  · rintro k x g ⟨⟨hn, hl, hc⟩, -⟩ hb
    show ReadyOrtho ε (gNl g.1) E.nevex fun j => valV F (((gOps T E).qr k x g.1).C j)
    rw [gQr_cols k x g.1 hn]
    exact lockCopy_ready (E := E.toParams) (s := g.1.toSt) hl hc (not_not.mp hb)
  · intro g hr _ h1 h2
    exact rr_near (hA.kernels (T := T)) hε hδ 0 g.1.toSt hr.1 h1 h2
  · exact fun _ _ _ _ _ h => h

/-- **Where the values come from, in every arithmetic.**  After a solve with at least one round in which every
orthogonalisation was accurate: the value at position `i` and the column at position `σ i` come out of a Rayleigh-Ritz
step with the matrix as it was, after some complete pairs of shifts, in one of the rounds; with a sort that keeps ascending
lists, the residual at position `σ i` is theirs. -/
theorem pairs_at_end (hA : OrthoPar F r E E.nevex d δ) (hε : 0 ≤ ε) (hδ : 0 ≤ δ) (hE : Ascends E) (P : Plat R)
    (hP : SortsIndices P) (cfg : Config R) (hN : cfg.N = N) (hsz : cfg.nev + cfg.nex = E.nevex) (hmax : Even cfg.maxDeg)
    (ritzv0 resid0 : ℕ → R) (g : GSt K N) (out : Outcome R (GSt K N × List (Call R)))
    (h : solve P (traced (gOps T E)) cfg ritzv0 resid0 (g, []) = .ok out)
    (hsym : cfg.symCheck = true → symCheckG T E g.H = true) (hit : 0 < out.iterations)
    (hq : QrAvoids P (gOps T E) cfg ritzv0 resid0 g fun k x t => Inaccurate F (distArith T E) E.toParams ε k x t.C) :
    ∃ σ : Equiv.Perm ℕ, PermOn 0 cfg.nev σ ∧ (out.iterations = 1 → σ = 1) ∧ ∀ i, i < cfg.nev + cfg.nex →
      (∃ xs : List R, xs.length ≤ out.iterations ∧ (∀ x ∈ pairsOf xs, x ∈ shiftsOf out.be.2) ∧
        RitzPair F (distArith T E) (cfg.nev + cfg.nex) ε (afterShifts (distArith T E) g.H (pairsOf xs)) (out.ritzv i)
          (out.be.1.C (σ i))) ∧
      (SortKeepsSorted P → ∃ xs : List R, xs.length ≤ out.iterations ∧ (∀ x ∈ pairsOf xs, x ∈ shiftsOf out.be.2) ∧
        Measured T E (afterShifts (distArith T E) g.H (pairsOf xs)) (out.ritzv i) (out.be.1.C (σ i))
          (out.resid (σ i))) := by
  have hpath := C57_call_protocol hP.permutes ritzv0 resid0 g out h hsym
  have hsim := solve_sim (quiet_sim E.nevex (gOps T E)) P cfg ritzv0 resid0
    (be := (g, [], fun _ => none)) (be' := (g, [])) ⟨rfl, rfl⟩
  rw [h] at hsim
  generalize hx : solve P (quiet E.nevex (gOps T E)) cfg ritzv0 resid0 (g, [], fun _ => none) = x at hsim
  cases hsim with
  | @ok o0 _ hr0 =>
    obtain ⟨hbe1, hbe2⟩ := hr0.be
    have h1 := solve_sim (watch_sim (fun k x (t : GSt K N × List (Call R) × (ℕ → Option (List (Call R)))) =>
      Inaccurate F (distArith T E) E.toParams ε k x t.1.C) (quiet E.nevex (gOps T E))) P cfg ritzv0 resid0
      (be := ((g, [], fun _ => none), False)) (be' := (g, [], fun _ => none)) rfl
    rw [hx] at h1
    generalize hw : solve P (gOpsW T E F ε) cfg ritzv0 resid0 ((g, [], fun _ => none), False) = y at h1
    cases h1 with
    | @ok o1 _ hr1 =>
      have hm : ¬ o1.be.2 := QrAvoids.of_sim (π := fun p : GSt K N × List (Call R) × (ℕ → Option (List (Call R))) => p.1)
        (s := (g, [], fun _ => none)) (quiet_sim_ops E.nevex (gOps T E)) hq o1 hw
      have h2 := solve_sim (still_sim E.nevex recordAndMark (gOpsW T E F ε)) P cfg ritzv0 resid0
        (be := (((g, [], fun _ => none), False), fun _ => none)) (be' := ((g, [], fun _ => none), False)) rfl
      rw [hw] at h2
      generalize hz : solve P (still E.nevex recordAndMark (gOpsW T E F ε)) cfg ritzv0 resid0
        (((g, [], fun _ => none), False), fun _ => none) = z at h2
      cases h2 with
      | @ok o _ hr =>
        have hf := (gFrameW (T := T) hA hε hδ g.H).still recordAndMark
        obtain ⟨be0, st, -, -, -, -, σ, hσ, -, hpair, -, hone, hmeas⟩ := C05_noSwap_partial P
          (still E.nevex recordAndMark (gOpsW T E F ε)) _ _ _
          (fun x (v : (((Fin N → K) × Option (List (Call R))) × Prop) × Option (List (Call R) × Prop)) =>
            ∃ t : List (Call R) × Prop, v.2 = some t ∧
            (¬ t.2 → RitzPair F (distArith T E) E.nevex ε (afterShifts (distArith T E) g.H (shiftsOf t.1)) x v.1.1.1))
          (fun x v ρ => ∃ t, v.1.1.2 = some t ∧
            Measured T E (afterShifts (distArith T E) g.H (shiftsOf t)) x v.1.1.1 ρ) cfg hP (by rw [hsz, hN]; exact hf) (fun _ _ _ => rfl) hmax
          (by
            rw [hsz]
            exact fun s _ => gMakesAscending T E hE ⟨fun _ => True, fun _ => True, fun _ => True, fun _ => True⟩ s.1.1.1
              trivial)
          (by
            rw [hsz]
            rintro p ⟨⟨hph, hH⟩, hn⟩ i hi
            have hl : p.1.1.1.locked ≤ E.nevex := hph.2.1
            have hi' : i < E.nevex - p.1.1.1.locked := hi
            refine ⟨recordAndMark p.1, ?_, fun hm => ?_⟩
            · show writeAt p.2 (E.nevex - (E.nevex - p.1.1.1.locked)) (E.nevex - p.1.1.1.locked)
                (fun _ => some (recordAndMark p.1)) (p.1.1.1.locked + i) = some _
              unfold writeAt
              rw [if_pos (by omega)]
            · have := rr_pair (A := distArith T E) (E := E.toParams) 0 p.1.1.1.toSt hph (hn hm).2 hi
              rw [hH] at this
              exact this)
          (by rw [hsz]; exact fun f p hp => gMakesResidualsS T E g.H f p.1.1 hp.1) ritzv0 resid0 (((g, [], fun _ => none), False), fun _ => none)
          ((⟨trivial, rfl⟩ : (gPhS T E g.H).pre (g, [], fun _ => none))) o hsym hz
          (by rw [hr.iterations, hr1.iterations, hr0.iterations]; exact hit)
        have htag := (still_stamps _ (gOps T E) E.nevex).solve hz (by intro i t h; cases h)
        have htag0 := (quiet_stamps E.nevex (gOps T E)).solve hx (by intro i t h; cases h)
        have hbo : o.be.1 = o1.be := hr.be
        have hbo1 : o1.be.1 = o0.be := hr1.be
        refine ⟨σ, hσ, fun h => hone (by rw [hr.iterations, hr1.iterations, hr0.iterations]; exact h),
          fun i hi => ⟨?_, fun hkeep => ?_⟩⟩
        rotate_left
        · obtain ⟨t, ht, hmt⟩ := hmeas hkeep i hi
          have ht' : o0.be.2.2 (σ i) = some t := by
            rw [← hbo1, ← hbo]
            exact ht
          obtain ⟨b, hb⟩ := htag0 (σ i) t ht'
          rw [hbe2] at hb
          obtain ⟨t', hb', rfl⟩ := prefix_of_filter _ _ hb
          have ecol : (markedCols (fun s : GSt K N × List (Call R) × (ℕ → Option (List (Call R))) =>
              fun i => (gCols s.1 i, s.2.2 i)) E.nevex o.be.1 (σ i)).1.1 = out.be.1.C (σ i) := by
            show o.be.1.1.1.C (σ i) = _
            rw [hbo, hbo1, hbe1]
          rw [ecol, shiftsOf_filter, hr.ritzv, hr1.ritzv, hr0.ritzv, hr.resid, hr1.resid, hr0.resid] at hmt
          obtain ⟨xs, h1, h2, h3⟩ := shifts_before_rr hpath hb'
          rw [h2] at hmt h3
          exact ⟨xs, h1, h3, hmt⟩
        obtain ⟨t, ht, hp⟩ := hpair i hi
        obtain ⟨⟨b, hb⟩, hmk⟩ := htag (σ i) t ht
        rw [hbo] at hmk hb
        rw [hbo1, hbe2] at hb
        have hp := hp fun g => hm (hmk g)
        have ecol : (markedCols (fun s : GSt K N × List (Call R) × (ℕ → Option (List (Call R))) =>
            fun i => (gCols s.1 i, s.2.2 i)) E.nevex o.be.1 (σ i)).1.1 = out.be.1.C (σ i) := by
          show o.be.1.1.1.C (σ i) = _
          rw [hbo, hbo1, hbe1]
        rw [ecol, hr.ritzv, hr1.ritzv, hr0.ritzv] at hp
        obtain ⟨t', hb', e'⟩ := prefix_of_filter _ _ hb
        rw [← e', shiftsOf_filter] at hp
        obtain ⟨xs, h1, h2, h3⟩ := shifts_before_rr hpath hb'
        rw [h2] at hp h3
        rw [hsz]
        exact ⟨xs, h1, h3, hp⟩

end
end Par
end Rounded
end Verif
