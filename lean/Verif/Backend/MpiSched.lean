/-
The operations of the distributed backend as collective operations in the sense of Dist/Schedule: each of
them reads data of the own grid column, of the own grid row, or of the own process only.  C56 for the
filter, the Rayleigh-Ritz step and the residuals.
-/
import Verif.Backend.MpiProps
import Verif.Dist.Schedule
import Verif.Solver.Count

namespace Verif
namespace Mpi

open Matrix
open Seq (NextOp)
open Sched

variable {K : Type*} [RCLike K] {N : ℕ} (r c : Layout N) (E : MEnv K)

/-- The processes of the grid and their data. -/
abbrev Grid : Type := Fin r.procs × Fin c.procs
abbrev Data (K : Type*) {N : ℕ} (r c : Layout N) (p : Grid r c) : Type _ := Proc K (r.size p.1) (c.size p.2)

variable {r c}

/-- The data of all processes, as a function of two indices and of a pair. -/
def toFam (x : ∀ p : Grid r c, Data K r c p) : Fam K r c := fun i j => x (i, j)
def ofFam (s : Fam K r c) : ∀ p : Grid r c, Data K r c p := fun p => s p.1 p.2

/-- An operation every process performs on its own. -/
def alone (f : ∀ p : Grid r c, Data K r c p → Data K r c p) : Coll (Grid r c) (Data K r c) where
  comm := Eq
  equiv := ⟨fun _ => rfl, fun h => h.symm, fun h h' => h.trans h'⟩
  act := fun x p => f p (x p)
  own := fun x y p h => by rw [h p rfl]

/-- An operation on the column communicators: `f j` sees the data of the processes of grid column `j`. -/
def inColumn (f : ∀ j : Fin c.procs, (∀ i : Fin r.procs, Proc K (r.size i) (c.size j)) →
    ∀ i : Fin r.procs, Proc K (r.size i) (c.size j)) : Coll (Grid r c) (Data K r c) where
  comm := fun p q => p.2 = q.2
  equiv := ⟨fun _ => rfl, fun h => h.symm, fun h h' => h.trans h'⟩
  act := fun x p => f p.2 (fun i => x (i, p.2)) p.1
  own := fun x y p h => by
    have : (fun i => x (i, p.2)) = fun i => y (i, p.2) := funext fun i => h (i, p.2) rfl
    rw [this]

/-- An operation on the row communicators. -/
def inRow (f : ∀ i : Fin r.procs, (∀ j : Fin c.procs, Proc K (r.size i) (c.size j)) →
    ∀ j : Fin c.procs, Proc K (r.size i) (c.size j)) : Coll (Grid r c) (Data K r c) where
  comm := fun p q => p.1 = q.1
  equiv := ⟨fun _ => rfl, fun h => h.symm, fun h h' => h.trans h'⟩
  act := fun x p => f p.1 (fun j => x (p.1, j)) p.2
  own := fun x y p h => by
    have : (fun j => x (p.1, j)) = fun j => y (p.1, j) := funext fun j => h (p.1, j) rfl
    rw [this]

/-! ### The filter -/

/-- `Shift`: no communication (dla 725-741). -/
def shiftColl (x : K) : Coll (Grid r c) (Data K r c) := alone fun p d =>
  { d with
    next := if d.fresh then .bAc else d.next
    fresh := false
    H := shiftLocal (r.tab p.1) (c.tab p.2) x d.H }

/-- `HEMM`: a reduction over the columns or over the rows of the grid (dla 472-523). -/
def hemmColl (dir : NextOp) (α β : K) (offset block locked : ℕ) : Coll (Grid r c) (Data K r c) :=
  match dir with
  | .bAc => inColumn fun _ d i =>
    { d i with
      B := setBlk (locked + offset)
        (∑ i' : Fin r.procs, gemmB α β (locked + offset) block i' (d i')) (d i).B
      next := .cAb }
  | .cAb => inRow fun _ d j =>
    { d j with
      C := setBlk (locked + offset)
        (∑ j' : Fin c.procs, gemmC α β (locked + offset) block j' (d j')) (d j).C
      next := .bAc }

/-- The other direction. -/
def flip : NextOp → NextOp
  | .bAc => .cAb
  | .cAb => .bAc

/-- The calls a filter makes. -/
inductive FCall where
  | shift (x : ℝ) (un : Bool)
  | hemm (block : ℕ) (α β : ℝ) (offset : ℕ)

/-- Such a call as recorded by `traced`. -/
def FCall.toCall : FCall → Call ℝ
  | .shift x un => .shift x un
  | .hemm block α β offset => .hemm block α β offset

/-- The effect of a call. -/
noncomputable def FCall.run {S : Type*} (ops : Chase ℝ S) (s : S) : FCall → S
  | .shift x un => ops.shift x un s
  | .hemm block α β offset => ops.hemm block α β offset s

/-- The program of every process for a sequence of calls, when the first product goes into direction
`dir`. -/
def progOf (r c : Layout N) (locked : ℕ) : NextOp → List FCall → List (Coll (Grid r c) (Data K r c))
  | _, [] => []
  | dir, .shift x _ :: t => shiftColl (x : K) :: progOf r c locked dir t
  | dir, .hemm block α β offset :: t =>
    hemmColl dir (α : K) (β : K) offset block locked :: progOf r c locked (flip dir) t

theorem shiftColl_act (x : K) (s : Fam K r c) : (shiftColl x).act (ofFam s) = ofFam (shift x s) := rfl

theorem hemmColl_act {dir : NextOp} {locked : ℕ} (α β : ℝ) (offset block : ℕ) {s : Fam K r c}
    (hn : ∀ i j, (s i j).next = dir) (hl : ∀ i j, (s i j).locked = locked) (i0 : Fin r.procs)
    (j0 : Fin c.procs) :
    (hemmColl dir (α : K) (β : K) offset block locked).act (ofFam s) =
      ofFam ((opsAt E i0 j0).hemm block α β offset s) := by
  funext p
  obtain ⟨i, j⟩ := p
  show _ = apply (α : K) (β : K) offset block (s i j).locked s i j
  unfold apply
  rw [hl, hn]
  cases dir <;> rfl

/-- All processes in step perform the program of a sequence of calls: the calls one after another. -/
theorem progOf_fold {locked : ℕ} (i0 : Fin r.procs) (j0 : Fin c.procs) (calls : List FCall)
    (dir : NextOp) (s : Fam K r c) (hn : ∀ i j, (s i j).next = dir)
    (hl : ∀ i j, (s i j).locked = locked) (hf : ∀ i j, (s i j).fresh = false) :
    (progOf r c locked dir calls).foldl (fun x op => op.act x) (ofFam s) =
      ofFam (calls.foldl (FCall.run (opsAt E i0 j0)) s) := by
  induction calls generalizing dir s with
  | nil => rfl
  | cons call t ih =>
    cases call with
    | shift x un =>
      show (progOf r c locked dir t).foldl _ (ofFam (shift (x : K) s)) = _
      refine ih dir (shift (x : K) s) (fun i j => ?_) hl (fun _ _ => rfl)
      show (if (s i j).fresh then .bAc else (s i j).next) = dir
      rw [hf, hn]; rfl
    | hemm block α β offset =>
      show (progOf r c locked (flip dir) t).foldl _ ((hemmColl dir (α : K) (β : K) offset block locked).act
        (ofFam s)) = _
      rw [hemmColl_act E α β offset block hn hl i0 j0]
      have happ : ∀ i j, ((opsAt E i0 j0).hemm block α β offset s i j).next = flip dir ∧
          ((opsAt E i0 j0).hemm block α β offset s i j).locked = locked ∧
          ((opsAt E i0 j0).hemm block α β offset s i j).fresh = false := by
        intro i j
        have h : (opsAt E i0 j0).hemm block α β offset s i j =
          apply (α : K) (β : K) offset block (s i j).locked s i j := rfl
        rw [h]
        unfold apply
        rw [hn, hl]
        cases dir
        · exact ⟨rfl, hl i j, hf i j⟩
        · exact ⟨rfl, hl i j, hf i j⟩
      exact ih (flip dir) _ (fun i j => (happ i j).1) (fun i j => (happ i j).2.1) fun i j => (happ i j).2.2

/-- A filter starts with a shift, and its effect is that of the calls it makes. -/
theorem filter_calls {S : Type*} {ops : Chase ℝ S} {n u deg : ℕ} {degrees : ℕ → ℕ}
    {dsize p0 : ℕ} {l lo up : ℝ} {s s' : S} {tr tr' : List (Call ℝ)} {av : ℕ}
    (h : filter (traced ops) n u deg degrees dsize p0 l lo up (s, tr) = .ok (av, s', tr')) :
    ∃ (x : ℝ) (t : List FCall), tr' = tr ++ (FCall.shift x false :: t).map FCall.toCall ∧
      s' = (FCall.shift x false :: t).foldl (FCall.run ops) s := by
  unfold filter at h
  split_ifs at h
  dsimp only at h
  split at h
  · cases h
  · split at h
    · cases h
    · rename_i st hst
      have key : ∃ t : List FCall,
          st.be.2 = tr ++ (FCall.shift (-((up + lo) / 2)) false :: t).map FCall.toCall ∧
          st.be.1 = (FCall.shift (-((up + lo) / 2)) false :: t).foldl (FCall.run ops) s := by
        refine forRangeM_pres_partial _
          (fun st : FilterSt ℝ (S × List (Call ℝ)) => ∃ t : List FCall,
            st.be.2 = tr ++ (FCall.shift (-((up + lo) / 2)) false :: t).map FCall.toCall ∧
            st.be.1 = (FCall.shift (-((up + lo) / 2)) false :: t).foldl (FCall.run ops) s) ?_ ?_ hst
        · refine ⟨[.hemm u _ _ _], ?_, rfl⟩
          show (tr ++ [_]) ++ [_] = _
          rw [List.append_assoc]
          rfl
        · rintro i st1 st2 _ _ ⟨t, h1, h1'⟩ h2
          unfold filterStep at h2
          split_ifs at h2
          dsimp only at h2
          split at h2
          · cases h2
          · cases h2
            refine ⟨t ++ [.hemm st1.unprocessed
              (2 * (1 / (2 / ((up - lo) / 2 / (l - (up + lo) / 2)) - st1.sigma)) / ((up - lo) / 2))
              (-st1.sigma * (1 / (2 / ((up - lo) / 2 / (l - (up + lo) / 2)) - st1.sigma)))
              (st1.offset / n)], ?_, ?_⟩
            · show st1.be.2 ++ [_] = _
              rw [h1, ← List.cons_append, List.map_append, List.append_assoc]
              rfl
            · show ops.hemm _ _ _ _ st1.be.1 = _
              rw [h1', ← List.cons_append, List.foldl_append]
              rfl
      obtain ⟨t, h1, h2⟩ := key
      simp only [Except.ok.injEq, Prod.mk.injEq] at h
      obtain ⟨-, h⟩ := h
      refine ⟨-((up + lo) / 2), t ++ [.shift ((up + lo) / 2) true], ?_, ?_⟩
      · rw [← List.cons_append, List.map_append, ← List.append_assoc, ← h1]
        exact (congrArg Prod.snd h).symm
      · rw [← List.cons_append, List.foldl_append, ← h2]
        exact (congrArg Prod.fst h).symm

/-- **C56** (filter) The processes may run through the calls of a filter in any interleaving that
the collective operations allow: when all are through, their data are those of the lockstep model
`opsAt`. -/
theorem C56_filter {locked : ℕ} (i0 : Fin r.procs) (j0 : Fin c.procs) {n u deg : ℕ} {degrees : ℕ → ℕ}
    {dsize p0 av : ℕ} {lambda1 lower upper : ℝ} {s s' : Fam K r c} {calls : List (Call ℝ)}
    (h : filter (traced (opsAt E i0 j0)) n u deg degrees dsize p0 lambda1 lower upper (s, []) =
      .ok (av, s', calls))
    (hn : ∀ i j, (s i j).next = .bAc) (hl : ∀ i j, (s i j).locked = locked) :
    ∃ fcalls : List FCall, calls = fcalls.map FCall.toCall ∧
      ∀ (m : ℕ) (conf : Conf (Grid r c) (Data K r c)),
        Runs (progOf r c locked .bAc fcalls) ⟨fun _ => 0, ofFam s⟩ m conf →
        (∀ p, conf.pos p = (progOf (K := K) r c locked .bAc fcalls).length) → conf.data = ofFam s' := by
  obtain ⟨x, t, h1, h2⟩ := filter_calls h
  refine ⟨.shift x false :: t, h1, fun m conf hr hd => ?_⟩
  rw [C56_schedule_independent _ _ hr hd, h2]
  show (progOf r c locked .bAc t).foldl _ (ofFam (shift (x : K) s)) = _
  refine progOf_fold E i0 j0 t .bAc (shift (x : K) s) (fun i j => ?_) hl (fun _ _ => rfl)
  show (if (s i j).fresh then .bAc else (s i j).next) = _
  rw [hn]
  exact ite_self _

/-! ### Rayleigh-Ritz and residuals -/

/-- The product and the redistribution within the grid columns: dla 657-716. -/
def gatherColl (locked block : ℕ) : Coll (Grid r c) (Data K r c) := inColumn fun j d i =>
  { d i with
    B2 := writeAt (d i).B2 locked block (fun k =>
      redist E.cRuns (fun i' => (d i').C2 (locked + k)) j ((d i).B2 (locked + k)))
    B := setBlk locked (∑ i', (d i').Hᴴ * getBlk locked block (d i').C) (d i).B }

/-- The projected matrix summed over the grid rows, and the back-transformation: dla 957-981. -/
def rrColl (locked block : ℕ) : Coll (Grid r c) (Data K r c) := inRow fun _ d j =>
  let Z := (E.base.lapack.heevd
    (∑ j', (getBlk locked block (d j').B2)ᴴ * getBlk locked block (d j').B)).2
  let C := setBlk locked (getBlk locked block (d j).C2 * Z) (d j).C
  { d j with C := C, C2 := copyCols locked block C (d j).C2 }

/-- The residual vectors, each process for its part: dla 996-1004. -/
noncomputable def resdColl (ritzv : ℕ → ℝ) (locked u : ℕ) : Coll (Grid r c) (Data K r c) := alone fun _ d =>
  { d with B := (resdLocal ritzv locked u d).2 }

/-- **C56** (Rayleigh-Ritz) Any interleaving ends with the data of `rr`. -/
theorem C56_rr {locked block : ℕ} {s : Fam K r c} {m : ℕ} {conf : Conf (Grid r c) (Data K r c)}
    (hr : Runs [gatherColl E locked block, rrColl E locked block] ⟨fun _ => 0, ofFam s⟩ m conf)
    (hd : ∀ p, conf.pos p = 2) :
    conf.data = ofFam (rr E block (fun _ _ => locked) s).2 :=
  C56_schedule_independent _ _ hr hd

/-- **C56** (residuals) Any interleaving ends with the data of `resd`. -/
theorem C56_resd {ritzv : ℕ → ℝ} {locked fixednev : ℕ} {s : Fam K r c} {m : ℕ}
    {conf : Conf (Grid r c) (Data K r c)}
    (hr : Runs [gatherColl E locked (E.base.nevex - fixednev),
      resdColl ritzv locked (E.base.nevex - fixednev)] ⟨fun _ => 0, ofFam s⟩ m conf)
    (hd : ∀ p, conf.pos p = 2) :
    conf.data = ofFam (resd E ritzv fixednev (fun _ _ => locked) s).2 :=
  C56_schedule_independent _ _ hr hd

/-! ### Orthogonalisation -/

/-- The Gram matrix summed over the grid columns, factorised and applied: dla 1145-1179. -/
noncomputable def cholQR1Coll : Coll (Grid r c) (Data K r c) := inColumn fun _ d i =>
  { d i with C := (cholQR1 E E.base.nevex fun i => (d i).C).2 i }

/-- Assembling the vectors in the grid columns and factorising them: dla 1054-1118. -/
noncomputable def hhQRColl : Coll (Grid r c) (Data K r c) := inColumn fun _ d i =>
  { d i with
    C := setBlk 0 (fun a k => E.base.lapack.hhqr (getBlk 0 E.base.nevex
      (fun k => assemble r fun i' => (d i').C k)) (r.glob i a) k) (d i).C
    next := if E.scalapack then (d i).next else .bAc }

/-- Restoring the locked columns: dla 1344-1358. -/
def lockCopyColl (locked : ℕ) : Coll (Grid r c) (Data K r c) := alone fun _ d =>
  let C := copyCols 0 locked d.C2 d.C
  { d with C := C, C2 := copyCols locked (E.base.nevex - locked) C d.C2 }

/-- **C56** (QR, Householder) Any interleaving ends with the data of the lockstep model. -/
theorem C56_hhQR {locked : ℕ} {s : Fam K r c} {m : ℕ} {conf : Conf (Grid r c) (Data K r c)}
    (hr : Runs [hhQRColl E, lockCopyColl E locked] ⟨fun _ => 0, ofFam s⟩ m conf)
    (hd : ∀ p, conf.pos p = 2) :
    conf.data = ofFam (lockVectorCopy E (fun _ _ => locked) (hhQR E s)) :=
  C56_schedule_independent _ _ hr hd

/-- **C56** (QR, Cholesky once) Any interleaving ends with the data of the lockstep model. -/
theorem C56_cholQR1 (j0 : Fin c.procs) {locked : ℕ} {s : Fam K r c} {m : ℕ}
    {conf : Conf (Grid r c) (Data K r c)}
    (hr : Runs [cholQR1Coll E, lockCopyColl E locked] ⟨fun _ => 0, ofFam s⟩ m conf)
    (hd : ∀ p, conf.pos p = 2) :
    conf.data = ofFam (lockVectorCopy E (fun _ _ => locked)
      ((qrRoutines E j0 fun _ _ => locked).cholQR1 s).2) :=
  C56_schedule_independent _ _ hr hd

/-- Non-vacuity: for every program and every start there is a run to the end. -/
theorem exists_run {P : Type*} [Fintype P] {D : P → Type*} (prog : List (Coll P D)) (x : ∀ p, D p) :
    ∃ m s, Runs prog ⟨fun _ => 0, x⟩ m s ∧ ∀ p, s.pos p = prog.length := by
  by_contra hno
  push Not at hno
  have : ∀ m, ∃ s, Runs prog ⟨fun _ => 0, x⟩ m s := by
    intro m
    induction m with
    | zero => exact ⟨_, .start⟩
    | succ m ih =>
      obtain ⟨s, hs⟩ := ih
      rcases C49_no_deadlock prog x hs with h | ⟨t, ht⟩
      · obtain ⟨p, hp⟩ := hno m s hs
        exact absurd (h p) hp
      · exact ⟨t, .more hs ht⟩
  obtain ⟨s, hs⟩ := this (Fintype.card P * prog.length + 1)
  have := C49_runs_end prog x hs
  omega

end Mpi
end Verif
