/-
A solve of the distributed backend in arbitrary arithmetic: what happens to the matrix, and from which values the
residuals are computed.  Stated for the program on global data (`gOps`, which is what the processes compute together
by `C77_outcome_partial`).
-/
import Verif.Rounded.ParGlobal
import Verif.Rounded.Run
import Verif.Solver.Quiet

set_option linter.unusedSectionVars false

namespace Verif
namespace Rounded
namespace Par

open Matrix
open Seq (NextOp)
open Mpi (Layout GSt)

section
variable {K R : Type} {N : ℕ} {r c : Layout N} (T : Red1 K R r c) (E : DEnv K R)

/-- The phases, columns and number of locked columns: those of the sequential backend. -/
def gPhases : Phases (GSt K N) where
  pre := fun _ => True
  inv := fun g => (Rounded.phases E.toParams).inv g.toSt
  ready := fun g => (Rounded.phases E.toParams).ready g.toSt
  synced := fun g => (Rounded.phases E.toParams).synced g.toSt
def gCols (g : GSt K N) : ℕ → Fin N → K := g.C
def gNl (g : GSt K N) : ℕ := g.locked

/-- Only the two calls of a filter. -/
def filterOnly [Zero R] {S : Type*} (ops : Chase R S) : Chase R S where
  checkSymmetryEasy := fun s => (true, s)
  start := id
  finish := id
  initVecs := fun _ s => s
  qr := fun _ _ s => s
  lanczos1 := fun _ s => (0, s)
  lanczosN := fun _ _ s => (⟨0, fun _ => 0, fun _ => 0, fun _ => 0⟩, s)
  lanczosDos := fun _ _ _ s => s
  shift := ops.shift
  hemm := ops.hemm
  rr := fun _ s => (fun _ => 0, s)
  resd := fun _ _ s => (fun _ => 0, s)
  lock := fun _ s => s
  swap := fun _ _ s => s

variable [Add R] [Sub R] [Mul R] [Div R] [Neg R] [Zero R] [One R] [NatCast R] [LT R] [DecidableLT R]

theorem filterOnly_sim : Sim (filterOnly (gOps T E)) (filterOnly (ops (distArith T E) E.toParams))
    (fun g s => g.toSt = s ∧ g.fresh = false) := by
  constructor
  case shift =>
    rintro x b g s ⟨rfl, h⟩
    refine ⟨?_, rfl⟩
    show ({ g.toSt with H := shiftH (distArith T E) (E.kern.ofBase x) g.H, next := if g.fresh then .bAc else g.next } :
      Seq.St K N) = _
    rw [h]
    rfl
  case hemm =>
    rintro n a b o g s ⟨rfl, h⟩
    exact ⟨rfl, h⟩
  all_goals
    intros
    first | assumption | exact ⟨rfl, by assumption⟩

/-- A filter call of the distributed backend is one of the sequential backend with the same arithmetic. -/
theorem gFilter {lambda1 lower upper : R} {n u deg : ℕ} {degrees : ℕ → ℕ} {dsize p0 : ℕ}
    {g g' : GSt K N} {av : ℕ} (hnext : g.next = .bAc)
    (h : filter (gOps T E) n u deg degrees dsize p0 lambda1 lower upper g = .ok (av, g')) :
    filter (ops (distArith T E) E.toParams) n u deg degrees dsize p0 lambda1 lower upper g.toSt = .ok (av, g'.toSt) := by
  have h1 : filter (gOps T E) n u deg degrees dsize p0 lambda1 lower upper g =
      filter (filterOnly (gOps T E)) n u deg degrees dsize p0 lambda1 lower upper { g with fresh := false } := by
    have e : ∀ x b, (gOps T E).shift x b g = (gOps T E).shift x b { g with fresh := false } := by
      intro x b
      show ({ g with H := _, next := _, fresh := false } : GSt K N) = { g with H := _, next := _, fresh := false }
      rw [hnext]
      simp
    unfold filter
    dsimp only
    rw [e]
    rfl
  have h2 := filter_sim (filterOnly_sim T E) n u deg degrees dsize p0 lambda1 lower upper
    (be := { g with fresh := false }) (be' := g.toSt) ⟨rfl, rfl⟩
  rw [← h1, h] at h2
  have h3 : filter (filterOnly (ops (distArith T E) E.toParams)) n u deg degrees dsize p0 lambda1 lower upper g.toSt =
    filter (ops (distArith T E) E.toParams) n u deg degrees dsize p0 lambda1 lower upper g.toSt := rfl
  rw [h3] at h2
  generalize filter (ops (distArith T E) E.toParams) n u deg degrees dsize p0 lambda1 lower upper g.toSt = y at h2 ⊢
  cases h2 with
  | ok hh =>
    rename_i b
    obtain ⟨a, b⟩ := b
    obtain ⟨e1, e2, -⟩ := hh
    dsimp only at e1 e2
    rw [e1, e2]

theorem gQr_form (k : ℕ) (x : R) (g : GSt K N) (hnext : g.next = .bAc) :
    ∃ Y, (gOps T E).qr k x g = { g with toSt := lockVectorCopy E.toParams g.locked { g.toSt with C := Y } } := by
  show ∃ Y, qrSelect _ _ _ _ _ g = _
  have hh : ∀ C, (gQrRoutines T E g.locked).hhQR { g with C := C } = { g with C := (distArith T E).hhQR C } := by
    intro C
    show ({ g with C := _, next := if E.scalapack then g.next else .bAc } : GSt K N) = _
    rw [hnext, ite_self]
  unfold qrSelect
  by_cases hd : cholDisable E.doCholQR E.envDisable = 1
  · rw [if_pos hd]
    refine ⟨(distArith T E).hhQR g.C, ?_⟩
    show (gQrRoutines T E g.locked).lockCopy true ((gQrRoutines T E g.locked).hhQR { g with C := g.C }) = _
    rw [hh]
    rfl
  · rw [if_neg hd]
    have main : ∀ p : ℤ × (ℕ → Fin N → K), ∃ Y,
        (if p.1 ≠ 0 then (gQrRoutines T E g.locked).lockCopy true ((gQrRoutines T E g.locked).hhQR { g with C := p.2 })
          else (gQrRoutines T E g.locked).lockCopy false { g with C := p.2 }) =
          { g with toSt := lockVectorCopy E.toParams g.locked { g.toSt with C := Y } } := by
      intro p
      split_ifs
      · rw [hh]; exact ⟨_, rfl⟩
      · exact ⟨p.2, rfl⟩
    split_ifs <;> exact main _

/-- **The distributed backend keeps the frame contract, whatever its numerical kernels and reductions compute.** -/
theorem gFrame : Frame (gOps T E) gCols gNl (gPhases E) N E.nevex := by
  have hb := bookkeeping (A := distArith T E) (E := E.toParams)
  refine
    { swap_low := fun _ _ _ _ _ _ _ _ _ => rfl
      swap_nl := fun _ _ _ => rfl
      swap_inv := fun _ _ _ _ _ _ _ h => h
      swap_synced := fun _ _ _ _ _ _ _ h => h
      filter := ?_
      qr := ?_
      rr := fun g h hl => hb.rr g.toSt h hl
      resd := fun f k g h => ⟨rfl, h, rfl⟩
      lock := fun k g h hl => hb.lock k g.toSt h hl
      start := fun g h => hb.start g.toSt h
      check := fun g h => h
      initVecs := fun b g h hl => hb.initVecs b g.toSt h hl
      lanczos1 := fun _ _ h hl => ⟨hl, h⟩
      lanczosN := fun m k g h hl => hb.lanczosN m k g.toSt h hl
      lanczosDos := fun i m z g h hl => hb.lanczosDos i m z g.toSt h hl
      finish := fun _ => rfl }
  · intro deg av degrees lambda lower upper g g' h1 h2 h3 h4 h
    exact hb.filter deg av degrees lambda lower upper g.toSt g'.toSt h1 h2 h3 h4 (gFilter T E h1.1 h)
  · rintro k x g ⟨h2, h3, h4⟩
    obtain ⟨Y, e⟩ := gQr_form T E k x g h2
    obtain ⟨a1, a2⟩ := lockCopy_spec (E := E.toParams) g.toSt (Y := Y) h4
    rw [e]
    exact ⟨rfl, ⟨h2, h3, fun j hj => a2 j (lt_of_lt_of_le hj h3)⟩, ⟨h2, h3, a2⟩, a1⟩

/-- `ρ` is what `Resd` computes for the value `x` and the vector `v` with the matrix `H`: the norm of the result of the
update kernel, applied to a column of the product; the sums of squares on the processes are reduced together with those
of other vectors. -/
def Measured (H : Matrix (Fin N) (Fin N) K) (x : R) (v : Fin N → K) (ρ : R) : Prop :=
  ∃ (b : ℕ) (X Y : Matrix (Fin N) (Fin b) K) (j : Fin b) (w : Fin b → Fin N → K), (fun i => X i j) = v ∧
    w j = (distArith T E).axpy ((distArith T E).ofBase (-x)) v
      (fun i => (distArith T E).gemm true H (distArith T E).one (distArith T E).zero X Y i j) ∧
    ρ = E.kern.sqrt (T.rowR (fun q t => E.kern.normp2 (cutV c q (w t))) j)

/-- `Resd` computes the residuals of the columns. -/
theorem gResd_measured (ritzv : ℕ → R) (l u : ℕ) (s : Seq.St K N) (hc : ∀ j, l ≤ j → j < l + u → s.C2 j = s.C j) :
    ∀ i, i < u → Measured T E s.H (ritzv i) (s.C (l + i)) ((gResd T E ritzv l u s).1 i) := by
  intro i hi
  set A := distArith T E with hA
  set s1 := asynCxHGatherC A l u s with hs1
  refine ⟨u, getBlk l u s.C, getBlk l u s.B, ⟨i, hi⟩,
    fun t => A.axpy (A.ofBase (-ritzv t)) (s1.B2 (l + t)) (s1.B (l + t)), rfl, ?_, ?_⟩
  · dsimp only
    have g2 : s1.B2 (l + i) = s.C (l + i) := by
      show copyCols l u s.C2 s.B2 (l + i) = _
      rw [copyCols_apply, if_pos ⟨by omega, by omega⟩, hc _ (by omega) (by omega)]
    rw [g2]
    congr 1
    show setBlk l _ s.B (l + i) = _
    rw [setBlk_mem (by omega) (by omega)]
    funext q
    congr 1
    ext
    simp
  · unfold gResd ext
    dsimp only
    rw [dif_pos hi]

/-- The matrix is changed by the shifts only. -/
theorem gMatrix_keep (H0 : Matrix (Fin N) (Fin N) K) :
    Keeps (quiet E.nevex (gOps T E)) (fun p => p.1.H = afterShifts (distArith T E) H0 (shiftsOf p.2.1)) := by
  have app : ∀ {g : GSt K N} {H : Matrix (Fin N) (Fin N) K} {tr : List (Call R)} {x : Call R}, g.H = H →
      shiftsOf [x] = [] → H = afterShifts (distArith T E) H0 (shiftsOf tr) →
      g.H = afterShifts (distArith T E) H0 (shiftsOf (tr ++ [x])) := by
    intro g H tr x h1 h2 h3
    rw [shiftsOf_append, h2, List.append_nil, h1, h3]
  have hqr : ∀ (k : ℕ) (x : R) (g : GSt K N), ((gOps T E).qr k x g).H = g.H := by
    intro k x g
    show (qrSelect _ _ _ _ _ g).H = g.H
    unfold qrSelect
    dsimp only
    split_ifs <;> rfl
  exact {
    checkSymmetryEasy := fun _ h => app rfl rfl h
    start := fun _ h => app rfl rfl h
    finish := fun _ h => app rfl rfl h
    initVecs := fun b _ h => app (by cases b <;> rfl) rfl h
    qr := fun k x p h => app (hqr k x p.1) rfl h
    lanczos1 := fun _ _ h => app rfl rfl h
    lanczosN := fun _ _ _ h => app rfl rfl h
    lanczosDos := fun _ _ _ _ h => app rfl rfl h
    shift := fun x b p h => by
      show shiftH (distArith T E) (E.kern.ofBase x) p.1.H =
        afterShifts (distArith T E) H0 (shiftsOf (p.2.1 ++ [.shift x b]))
      rw [shiftsOf_append, h]
      exact (afterShifts_append (distArith T E) H0 _ x).symm
    hemm := fun n a b o p h => app (by
      obtain ⟨⟨⟨H, C, B, C2, B2, next, locked, isSym⟩, fresh⟩, tr⟩ := p
      cases next <;> rfl) rfl h
    rr := fun _ _ h => app rfl rfl h
    resd := fun f k p h => app rfl rfl h
    lock := fun _ _ h => app rfl rfl h
    swap := fun _ _ _ h => h }

theorem shiftsOf_filter (tr : List (Call R)) : shiftsOf (tr.filter Call.moves) = shiftsOf tr := by
  induction tr with
  | nil => rfl
  | cons x t ih => cases x <;> simp [List.filter_cons, Call.moves, shiftsOf, ih]

/-- The phases of the recorder. -/
def gPhS (H0 : Matrix (Fin N) (Fin N) K) : Phases (GSt K N × List (Call R) × (ℕ → Option (List (Call R)))) where
  pre := fun s => (gPhases E).pre s.1 ∧ s.1.H = afterShifts (distArith T E) H0 (shiftsOf s.2.1)
  inv := fun s => (gPhases E).inv s.1 ∧ s.1.H = afterShifts (distArith T E) H0 (shiftsOf s.2.1)
  ready := fun s => (gPhases E).ready s.1 ∧ s.1.H = afterShifts (distArith T E) H0 (shiftsOf s.2.1)
  synced := fun s => (gPhases E).synced s.1 ∧ s.1.H = afterShifts (distArith T E) H0 (shiftsOf s.2.1)

theorem gFrameS (H0 : Matrix (Fin N) (Fin N) K) : Frame (quiet E.nevex (gOps T E)) (fun s i => (gCols s.1 i, s.2.2 i))
    (fun s => gNl s.1) (gPhS T E H0) N E.nevex :=
  ((gFrame T E).quiet).keep (gMatrix_keep T E H0)

theorem gMakesResidualsS (H0 : Matrix (Fin N) (Fin N) K) :
    MakesResiduals (quiet E.nevex (gOps T E)) (fun s i => (gCols s.1 i, s.2.2 i)) (fun s => gNl s.1) (gPhS T E H0)
    (fun x v ρ => ∃ t, v.2 = some t ∧ Measured T E (afterShifts (distArith T E) H0 (shiftsOf t)) x v.1 ρ) E.nevex := by
  rintro f p ⟨hph, hH⟩ hl hf i hi
  obtain ⟨h1, h2, h3⟩ := (gFrame T E).rr p.1 hph hl
  have hl' : p.1.locked ≤ E.nevex := hl
  have hi' : i < E.nevex - p.1.locked := hi
  refine ⟨p.2.1, ?_, ?_⟩
  · show writeAt p.2.2 (E.nevex - (E.nevex - p.1.locked)) (E.nevex - p.1.locked) (fun _ => some p.2.1)
      (p.1.locked + i) = some p.2.1
    unfold writeAt
    rw [if_pos (by omega)]
  · have := gResd_measured T E f p.1.locked (E.nevex - p.1.locked)
      ((gOps T E).rr (E.nevex - p.1.locked) p.1).2.toSt (fun j _ hj => h2.2.2 j (by omega)) i hi
    rw [← hH]
    exact this

end

section
variable {K R : Type} {N : ℕ} {r c : Layout N} (T : Red1 K R r c) (E : DEnv K R)
variable [Add R] [Sub R] [Mul R] [Div R] [Neg R] [Zero R] [One R] [NatCast R] [LinearOrder R]

/-- The dense eigensolver returns its values in ascending order. -/
def Ascends (E : DEnv K R) : Prop :=
  ∀ (b : ℕ) (M : Matrix (Fin b) (Fin b) K) (i j : Fin b), i ≤ j → (E.kern.heevd M).1 i ≤ (E.kern.heevd M).1 j

theorem gMakesAscending (hE : Ascends E) (ph : Phases (GSt K N)) : MakesAscending (gOps T E) gNl ph E.nevex := by
  intro g _ i j hij hj
  have e : ∀ (k : ℕ) (h : k < E.nevex - gNl g), ((gOps T E).rr (E.nevex - gNl g) g).1 k =
      (E.kern.heevd _).1 ⟨k, h⟩ := fun k h => dif_pos h
  rw [e i (by omega), e j hj]
  exact hE _ _ _ _ hij

theorem gMakesAscendingS (hE : Ascends E) (ph : Phases (GSt K N × List (Call R) × (ℕ → Option (List (Call R))))) :
    MakesAscending (quiet E.nevex (gOps T E)) (fun s => gNl s.1) ph E.nevex :=
  fun s _ => gMakesAscending T E hE ⟨fun _ => True, fun _ => True, fun _ => True, fun _ => True⟩ s.1 trivial

/-- **Where the residuals come from, in every arithmetic.**  After a solve with at least one round, with a sort that
keeps ascending lists: the value at position `i` belongs to the column and the residual at position `σ i`, where `σ` is
the rearrangement made by the final sort.  That residual is what the kernels and reductions compute for this value and
column with the matrix as it was, after some complete pairs of shifts, when Rayleigh-Ritz was called in one of the
rounds. -/
theorem measured_at_end (hE : Ascends E) (P : Plat R) (hP : SortsIndices P) (hkeep : SortKeepsSorted P) (cfg : Config R)
    (hN : cfg.N = N) (hsz : cfg.nev + cfg.nex = E.nevex) (hmax : Even cfg.maxDeg) (ritzv0 resid0 : ℕ → R) (g : GSt K N)
    (out : Outcome R (GSt K N × List (Call R)))
    (h : solve P (traced (gOps T E)) cfg ritzv0 resid0 (g, []) = .ok out)
    (hsym : cfg.symCheck = true → symCheckG T E g.H = true) (hit : 0 < out.iterations) :
    ∃ σ : Equiv.Perm ℕ, PermOn 0 cfg.nev σ ∧ (out.iterations = 1 → σ = 1) ∧ ∀ i, i < cfg.nev + cfg.nex →
      ∃ xs : List R, xs.length ≤ out.iterations ∧ (∀ x ∈ pairsOf xs, x ∈ shiftsOf out.be.2) ∧
        Measured T E (afterShifts (distArith T E) g.H (pairsOf xs)) (out.ritzv i) (out.be.1.C (σ i))
          (out.resid (σ i)) := by
  have hpath := C57_call_protocol hP.permutes ritzv0 resid0 g out h hsym
  have hsim := solve_sim (quiet_sim E.nevex (gOps T E)) P cfg ritzv0 resid0
    (be := (g, [], fun _ => none)) (be' := (g, [])) ⟨rfl, rfl⟩
  rw [h] at hsim
  generalize hx : solve P (quiet E.nevex (gOps T E)) cfg ritzv0 resid0 (g, [], fun _ => none) = x at hsim
  cases hsim with
  | @ok o _ hr =>
    obtain ⟨hbe1, hbe2⟩ := hr.be
    obtain ⟨be0, st, -, -, -, -, σ, hσ, -, -, -, h1, hm⟩ := C05_noSwap_partial P (quiet E.nevex (gOps T E)) _ _
      (gPhS T E g.H) (fun _ _ => True) _ cfg hP (by rw [hsz, hN]; exact gFrameS T E g.H) (fun _ _ _ => rfl) hmax
      (by rw [hsz]; exact gMakesAscendingS T E hE _) (fun _ _ _ _ => trivial)
      (by rw [hsz]; exact gMakesResidualsS T E g.H) ritzv0 resid0 (g, [], fun _ => none) ⟨trivial, rfl⟩ o hsym hx
      (by rw [hr.iterations]; exact hit)
    have htag := (quiet_stamps E.nevex (gOps T E)).solve hx (by intro i t h; cases h)
    refine ⟨σ, hσ, fun h => h1 (by rw [hr.iterations]; exact h), fun i hi => ?_⟩
    obtain ⟨t, ht, hmt⟩ := hm hkeep i hi
    obtain ⟨b, hb⟩ := htag (σ i) t ht
    rw [hbe2] at hb
    obtain ⟨t', hb', rfl⟩ := prefix_of_filter _ _ hb
    dsimp only at hmt
    rw [hbe1, shiftsOf_filter, hr.ritzv, hr.resid] at hmt
    obtain ⟨xs, h1, h2, h3⟩ := shifts_before_rr hpath hb'
    rw [h2] at hmt h3
    exact ⟨xs, h1, h3, hmt⟩

end

section
variable {K R : Type} {N : ℕ} {r c : Layout N} (T : Red1 K R r c) (E : DEnv K R)
variable [Add R] [Sub R] [Mul R] [Div R] [Neg R] [Zero R] [One R] [NatCast R] [LT R] [DecidableLT R]

/-- The matrix after a solve: every round has subtracted and added a number. -/
theorem matrix_at_end (P : Plat R) (hP : PermutesIndices P) (cfg : Config R) (ritzv0 resid0 : ℕ → R) (g : GSt K N)
    (out : Outcome R (GSt K N × List (Call R)))
    (h : solve P (traced (gOps T E)) cfg ritzv0 resid0 (g, []) = .ok out)
    (hsym : cfg.symCheck = true → symCheckG T E g.H = true) :
    ∃ xs : List R, xs.length = out.iterations ∧ shiftsOf out.be.2 = pairsOf xs ∧
      out.be.1.H = afterShifts (distArith T E) g.H (pairsOf xs) := by
  have hpath := C57_call_protocol hP ritzv0 resid0 g out h hsym
  obtain ⟨xs, h1, h2⟩ := shiftsAt_path hpath
  have hsim := solve_sim (quiet_sim E.nevex (gOps T E)) P cfg ritzv0 resid0
    (be := (g, [], fun _ => none)) (be' := (g, [])) ⟨rfl, rfl⟩
  rw [h] at hsim
  generalize hx : solve P (quiet E.nevex (gOps T E)) cfg ritzv0 resid0 (g, [], fun _ => none) = x at hsim
  cases hsim with
  | @ok o _ hr =>
    obtain ⟨hbe1, hbe2⟩ := hr.be
    have := (gMatrix_keep T E g.H).solve hx rfl
    rw [hbe1, hbe2, shiftsOf_filter, h2] at this
    exact ⟨xs, h1, h2, this⟩

end
end Par
end Rounded
end Verif
