/-
C75: solving again and again with one solver object does not use more and more memory.
C76: a solver object that is destroyed gives back everything it acquired.
-/
import Verif.Memory.Proof
import Verif.Solver.ToyProof

set_option linter.unusedSectionVars false

namespace Verif.Memory

/-- Number of elements of a block of memory. -/
def Res.elems : Res → ℕ
  | .host k | .device k => k
  | _ => 0

/-- All memory in use, host and device. -/
def Heap.elements (h : Heap) : ℕ := (h.live.map (fun x => x.2.elems)).sum

/-- How many resources of a kind are held. -/
def Heap.count (h : Heap) (r : Res) : ℕ := (h.live.map (·.2)).count r

section
variable {R : Type*} [Add R] [Sub R] [Mul R] [Div R] [Neg R] [Zero R] [One R] [NatCast R] [LT R] [DecidableLT R]

/-- `tr` lists the calls of a completed solve (of any problem, with any options and any backend behaviour) in which the
bounds were estimated with `w` Lanczos vectors: the configured number, or one if start vectors were given. -/
def Completed (tr : List (Call R)) (w : ℕ) : Prop :=
  ∃ (S : Type) (P : Plat R) (ops : Chase R S) (cfg : Config R) (ritzv0 resid0 : ℕ → R) (s : S)
    (out : Outcome R (S × List (Call R))),
    PermutesIndices P ∧ (cfg.symCheck = true → (ops.checkSymmetryEasy s).1 = true) ∧
      solve P (traced ops) cfg ritzv0 resid0 (s, []) = .ok out ∧ tr = out.be.2 ∧
      w = if cfg.approx then 1 else cfg.numLanczos

/-! ### Which Lanczos calls a solve makes -/

/-- Numbers of vectors of the Lanczos calls. -/
def widths : List (Call R) → List ℕ
  | [] => []
  | .lanczos1 _ :: t => 1 :: widths t
  | .lanczosN _ w :: t => w :: widths t
  | _ :: t => widths t

/-- Number of exchanges of columns. -/
def swaps : List (Call R) → ℕ
  | [] => 0
  | .swap _ _ :: t => swaps t + 1
  | _ :: t => swaps t

/-- The arguments of the `initVecs` calls. -/
def inits : List (Call R) → List Bool
  | [] => []
  | .initVecs r :: t => r :: inits t
  | _ :: t => inits t

theorem widths_append (a b : List (Call R)) : widths (a ++ b) = widths a ++ widths b := by
  induction a with
  | nil => rfl
  | cons c t ih => cases c <;> simp [widths, ih]

theorem inits_append (a b : List (Call R)) : inits (a ++ b) = inits a ++ inits b := by
  induction a with
  | nil => rfl
  | cons c t ih => cases c <;> simp [inits, ih]

theorem mem_inits {b : Bool} {tr : List (Call R)} : b ∈ inits tr ↔ Call.initVecs b ∈ tr := by
  induction tr with
  | nil => simp [inits]
  | cons c t ih => cases c <;> simp [inits, ih]

/-- The Lanczos calls on a path to a phase. -/
def WidthAt (nl : ℕ) (ws : List ℕ) (is : List Bool) : Phase R → Prop
  | .fresh | .checked | .begun => ws = [] ∧ is = []
  | .random | .orth => ws = [] ∧ is = [true]
  | .given => ws = [] ∧ is = [false]
  | _ => (ws = [nl] ∧ is = [true] ∧ 1 ≤ nl) ∨ (ws = [1] ∧ is = [false])

theorem WidthAt.next {N nev nex nl : ℕ} {ws : List ℕ} {is : List Bool} {q q' : Phase R} {c : Call R}
    (hn : Next N nev nex nl q c q') (h : WidthAt nl ws is q) :
    WidthAt nl (ws ++ widths [c]) (is ++ inits [c]) q' := by
  induction hn with
  | initRandom => exact ⟨by rw [h.1]; rfl, by rw [h.2]; rfl⟩
  | initGiven => exact ⟨by rw [h.1]; rfl, by rw [h.2]; rfl⟩
  | lanczos1 => exact .inr ⟨by rw [h.1]; rfl, by rw [h.2]; rfl⟩
  | lanczosN _ _ _ h1 => exact .inl ⟨by rw [h.1]; rfl, by rw [h.2]; rfl, h1⟩
  | skipDos _ ih => exact ih h
  | _ =>
    have e1 := List.append_nil ws
    have e2 := List.append_nil is
    exact (congrArg₂ (fun a b => WidthAt nl a b _) e1 e2).mpr h

theorem widthAt_path {N nev nex nl : ℕ} {tr : List (Call R)} {q : Phase R} (h : Path N nev nex nl .fresh tr q) :
    WidthAt nl (widths tr) (inits tr) q := by
  induction h with
  | nil => exact ⟨rfl, rfl⟩
  | snoc _ hn ih => rw [widths_append, inits_append]; exact ih.next hn

/-- Whether start vectors are given is passed on to the backend. -/
theorem solve_inits {S : Type*} {P : Plat R} {ops : Chase R S} {cfg : Config R} {ritzv0 resid0 : ℕ → R} {s : S}
    {out : Outcome R (S × List (Call R))} (hsym : cfg.symCheck = true → (ops.checkSymmetryEasy s).1 = true)
    (h : solve P (traced ops) cfg ritzv0 resid0 (s, []) = .ok out) : Call.initVecs (!cfg.approx) ∈ out.be.2 := by
  let c0 : Call R := .initVecs (!cfg.approx)
  have hsim : Sim (traced ops) (traced ops) (fun a b => a = b ∧ c0 ∈ a.2) := by
    constructor <;> intros <;> rename_i hr <;> obtain ⟨rfl, hj⟩ := hr
    case checkSymmetryEasy | lanczos1 | lanczosN | rr | resd =>
      exact ⟨rfl, rfl, List.mem_append_left _ hj⟩
    all_goals exact ⟨rfl, List.mem_append_left _ hj⟩
  obtain ⟨be0, st0, st, -, hinit, hsteps, -, -, rfl⟩ := solve_ok h hsym
  obtain ⟨be1, l, hbe1, hl, -, hst0⟩ := initState_ok hinit
  have h1 : c0 ∈ be1.2 := by
    rw [hbe1]
    split_ifs
    · exact List.mem_append_left _ (List.mem_append_right _ (List.mem_singleton_self _))
    · exact List.mem_append_right _ (List.mem_singleton_self _)
  have h2 : c0 ∈ l.be.2 := by
    have := lanczos_sim hsim P cfg.N cfg.numLanczos (min (cfg.nev + cfg.nex) (min (cfg.N / 2) cfg.lanczosIter))
      (cfg.nev + cfg.nex) (!cfg.approx) ritzv0 (be := be1) (be' := be1) ⟨rfl, h1⟩
    rw [hl] at this
    cases this with
    | ok h => exact h.be.2
  have h3 : c0 ∈ st.be.2 := by
    have h0 : c0 ∈ st0.be.2 := by rw [hst0]; exact h2
    clear hinit hst0 h
    induction hsteps with
    | refl => exact h0
    | tail _ hs ih =>
      have := iter_sim hsim P cfg (p := _) (p' := _) ⟨rfl, rfl, rfl, rfl, rfl, rfl, rfl, rfl, rfl, rfl, rfl, rfl, ih⟩
      rw [hs.2] at this
      cases this with
      | ok h => exact h.be.2
  have h4 := (finalSort_sim hsim cfg.nev st.ritzv (be := st.be) (be' := st.be) ⟨rfl, h3⟩).2.2
  exact List.mem_append_left _ h4

/-- A completed solve makes exactly one Lanczos call, with at least one vector. -/
theorem Completed.widths {tr : List (Call R)} {w : ℕ} (h : Completed tr w) : widths tr = [w] ∧ 1 ≤ w := by
  obtain ⟨S, P, ops, cfg, ritzv0, resid0, s, out, hP, hsym, h, rfl, rfl⟩ := h
  have h1 := widthAt_path (C57_call_protocol hP ritzv0 resid0 s out h hsym)
  have h2 := mem_inits.mpr (solve_inits hsym h)
  rcases h1 with ⟨h3, h4, h5⟩ | ⟨h3, h4⟩
  · rw [h4] at h2
    have : cfg.approx = false := by simpa using h2
    rw [this]
    exact ⟨h3, h5⟩
  · rw [h4] at h2
    have : cfg.approx = true := by simpa using h2
    rw [this]
    exact ⟨h3, Nat.le_refl 1⟩

/-! ### Sums -/

theorem elements_perm {h : Heap} {l : List (ℕ × Res)} (hl : h.live.Perm l) :
    h.elements = (l.map (fun x => x.2.elems)).sum := (hl.map _).sum_eq

theorem sum_elems_map (l : List (ℕ × Res)) : (l.map (fun x => x.2.elems)).sum = ((l.map (·.2)).map Res.elems).sum := by
  rw [List.map_map]; rfl

/-- What a program that does `Runs` or `Loses` does to the memory in use. -/
theorem Loses.elements {p : Prog Unit} {L : List Res} (hp : Loses p L) {h : Heap} (hw : h.WF) :
    ∃ h', p h = some ((), h') ∧ h'.WF ∧ h'.elements = h.elements + (L.map Res.elems).sum ∧
      ∀ r, h'.count r = h.count r + L.count r := by
  obtain ⟨a, h', bs, h1, h2, h3, h4⟩ := hp h h.live hw (.refl _)
  refine ⟨h', h1, h2, ?_, fun r => ?_⟩
  · rw [elements_perm h3, List.map_append, List.sum_append, sum_elems_map bs, ((h4.map _).sum_eq), add_comm]
    rfl
  · unfold Heap.count
    rw [(h3.map _).count_eq, List.map_append, List.count_append, h4.count_eq, add_comm]

/-- What all solves lose. -/
def allLeaks (E : Env) (b : Backend) (path : ℕ → ℕ → QrPath) : List (List (Call R)) → ℕ → List Res
  | [], _ => []
  | tr :: trs, k => leaks E b (path k) tr 0 ++ allLeaks E b path trs (k + 1)

theorem solves_runs (E : Env) (b : Backend) (path : ℕ → ℕ → QrPath) (trs : List (List (Call R))) (k : ℕ) (o : Obj) :
    Runs o (solves E b path trs k o) (allLeaks E b path trs k) := by
  induction trs generalizing k o with
  | nil => exact Runs.pure o
  | cons tr trs ih => exact Runs.bind (calls_runs E b (path k) tr 0 o) (fun o' => ih (k + 1) o')

theorem session_does (E : Env) (b : Backend) (path : ℕ → ℕ → QrPath) (trs : List (List (Call R))) :
    Triple [] (session E b path trs) fun o bs =>
      ∃ lost, bs.Perm (o.blocks ++ lost) ∧ (lost.map (·.2)).Perm (allLeaks E b path trs 0 ++ b.lost E) := by
  refine (construct_does E b).bind fun o bs ⟨l1, h1, _, h2⟩ => ?_
  refine (((solves_runs E b path trs 0 o).frame l1).perm h1).conseq fun o' cs ⟨b0, ⟨l2, g1, g2⟩, e⟩ => ?_
  refine ⟨l2 ++ l1, ?_, ?_⟩
  · rw [e, ← List.append_assoc]; exact g1.append_right _
  · rw [List.map_append, h2]; exact g2.append_right _

/-- A lifetime loses what its solves lose, and what the destructor forgets. -/
theorem lifetime_loses (E : Env) (b : Backend) (path : ℕ → ℕ → QrPath) (trs : List (List (Call R))) :
    Loses (lifetime E b path trs) (allLeaks E b path trs 0 ++ b.lost E) := by
  refine (session_does E b path trs).bind fun o bs ⟨lost, h1, h2⟩ => ?_
  refine (((destruct_does o).frame lost).perm h1).conseq fun _ cs ⟨b0, hb, e⟩ => ?_
  subst hb; subst e
  exact h2

theorem leaks_ge (E : Env) (b : Backend) (path : ℕ → QrPath) (tr : List (Call R)) (k : ℕ) :
    ((widths tr).flatMap fun w => lanczosMats E w b).Sublist (leaks E b path tr k) := by
  induction tr generalizing k with
  | nil => exact .refl _
  | cons c t ih =>
    show List.Sublist _ (leak E b (path k) c ++ leaks E b path t (k + 1))
    cases c
    case lanczos1 m =>
      exact List.Sublist.append (l₁ := lanczosMats E 1 b) (.refl _) (ih (k + 1))
    case lanczosN m w =>
      exact List.Sublist.append (l₁ := lanczosMats E w b) (.refl _) (ih (k + 1))
    all_goals exact (ih (k + 1)).trans (List.sublist_append_right _ _)

/-- Elements of the Lanczos matrices for one vector. -/
def lanczosElems (E : Env) : Backend → ℕ
  | .seq | .inplace | .cuda => 3 * E.N
  | .mpi _ => 3 * E.m + E.n
  | .mgpu _ _ => 2 * (3 * E.m + E.n)

theorem lanczosMats_elems (E : Env) (b : Backend) (w : ℕ) :
    ((lanczosMats E w b).map Res.elems).sum = lanczosElems E b * w := by
  cases b <;> simp [lanczosMats, lanczosElems, matrix, Res.elems] <;> ring

theorem sublist_sum_le {l₁ l₂ : List ℕ} (h : l₁.Sublist l₂) : l₁.sum ≤ l₂.sum := by
  induction h with
  | slnil => exact Nat.le_refl _
  | cons a _ ih => rw [List.sum_cons]; omega
  | cons_cons a _ ih => rw [List.sum_cons, List.sum_cons]; omega

theorem allLeaks_ge (E : Env) (b : Backend) (path : ℕ → ℕ → QrPath) (trs : List (List (Call R))) (k : ℕ)
    (hs : ∀ tr ∈ trs, ∃ w, Completed tr w) :
    trs.length * lanczosElems E b ≤ ((allLeaks E b path trs k).map Res.elems).sum := by
  induction trs generalizing k with
  | nil => simp
  | cons tr trs ih =>
    show _ ≤ ((leaks E b (path k) tr 0 ++ allLeaks E b path trs (k + 1)).map Res.elems).sum
    rw [List.map_append, List.sum_append, List.length_cons, Nat.succ_mul, Nat.add_comm]
    refine Nat.add_le_add ?_ (ih (k + 1) fun t ht => hs t (List.mem_cons_of_mem _ ht))
    obtain ⟨w, hw⟩ := hs tr List.mem_cons_self
    have h1 := sublist_sum_le ((leaks_ge E b (path k) tr 0).map Res.elems)
    rw [hw.widths.1] at h1
    simp only [List.flatMap_cons, List.flatMap_nil, List.append_nil] at h1
    rw [lanczosMats_elems] at h1
    exact le_trans (Nat.le_mul_of_pos_right _ hw.widths.2) h1

/-! ### C75 -/

/-- **C75, refuted for every backend:** however a solver object is used, each further completed solve leaves memory
behind that nothing refers to any more: `3 * N` elements at least on one process, `3 * m + n` on a process of the
distributed version (on host *and* device with GPUs).  It is not released by the destructor either. -/
theorem C75_memory_grows_refuted (E : Env) (b : Backend) (path : ℕ → ℕ → QrPath) (trs : List (List (Call R)))
    (hs : ∀ tr ∈ trs, ∃ w, Completed tr w) (h : Heap) (hw : h.WF) :
    (∃ o h', session E b path trs h = some (o, h') ∧ h.elements + trs.length * lanczosElems E b ≤ h'.elements) ∧
    (∃ h', lifetime E b path trs h = some ((), h') ∧ h.elements + trs.length * lanczosElems E b ≤ h'.elements) := by
  have hge := allLeaks_ge E b path trs 0 hs
  constructor
  · obtain ⟨o, h', bs, h1, _, h3, lost, h4, h5⟩ := session_does E b path trs h h.live hw (.refl _)
    refine ⟨o, h', h1, ?_⟩
    have h6 := (h3.trans ((h4.append_right h.live)))
    rw [elements_perm h6, List.map_append, List.map_append, List.sum_append, List.sum_append, sum_elems_map lost,
      (h5.map _).sum_eq, List.map_append, List.sum_append]
    have : h.elements = (h.live.map (fun x => x.2.elems)).sum := rfl
    omega
  · obtain ⟨h', h1, _, h3, _⟩ := (lifetime_loses E b path trs).elements hw
    refine ⟨h', h1, ?_⟩
    rw [h3, List.map_append, List.sum_append]
    omega

/-- What the solves of the sequential backend lose: three matrices per solve. -/
theorem seq_leaks (E : Env) (hd : E.display = true → E.zdouble = true) (path : ℕ → QrPath) (tr : List (Call R)) (k : ℕ) :
    leaks E .seq path tr k = (widths tr).flatMap fun w => lanczosMats E w .seq := by
  induction tr generalizing k with
  | nil => rfl
  | cons c t ih =>
    show leak E .seq (path k) c ++ leaks E .seq path t (k + 1) = _
    rw [ih]
    cases c <;> try rfl
    rename_i locked cond
    show leak E .seq (path k) (.qr locked cond) ++ _ = (widths t).flatMap _
    have : leak E .seq (path k) (.qr locked cond) = [] := by
      unfold leak
      cases path k with
      | householder => rfl
      | cholesky sh fa =>
        have h1 : ¬ (E.display = true ∧ ¬ E.zdouble = true) := fun h => h.2 (hd h.1)
        dsimp only
        rw [if_neg h1, if_neg (fun h => by cases h.2)]
        split_ifs <;> rfl
    rw [this, List.nil_append]

/-- **C75 for the sequential backend, exactly** (`_partial`: the growth of `3 * N * w` elements per solve is what the
property excludes; nothing else is left behind).  `ws` lists the numbers of Lanczos vectors of the solves.  Condition
numbers must not be displayed, unless the scalars are complex in double precision. -/
theorem C75_seq_partial (E : Env) (hd : E.display = true → E.zdouble = true) (path : ℕ → ℕ → QrPath)
    (trs : List (List (Call R))) (ws : List ℕ) (hs : List.Forall₂ Completed trs ws) (h : Heap) (hw : h.WF) :
    ∃ h', lifetime E .seq path trs h = some ((), h') ∧ h'.elements = h.elements + 3 * E.N * ws.sum := by
  obtain ⟨h', h1, -, h3, -⟩ := (lifetime_loses E .seq path trs).elements hw
  refine ⟨h', h1, ?_⟩
  rw [h3]
  congr 1
  show ((allLeaks E .seq path trs 0 ++ []).map Res.elems).sum = _
  rw [List.append_nil]
  clear h1 h3
  suffices ∀ k, ((allLeaks E .seq path trs k).map Res.elems).sum = 3 * E.N * ws.sum from this 0
  induction hs with
  | nil => intro k; rfl
  | cons hc _ ih =>
    intro k
    show ((leaks E .seq (path k) _ 0 ++ allLeaks E .seq path _ (k + 1)).map Res.elems).sum = _
    rw [List.map_append, List.sum_append, ih, seq_leaks E hd, hc.widths.1, List.flatMap_cons, List.flatMap_nil,
      List.append_nil, lanczosMats_elems, List.sum_cons, Nat.mul_add]
    rfl

/-- What the solves of the in-place backend lose. -/
theorem inplace_leaks_elems (E : Env) (hd : E.display = true → E.zdouble = true) (path : ℕ → QrPath)
    (tr : List (Call R)) (k : ℕ) :
    ((leaks E .inplace path tr k).map Res.elems).sum = 3 * E.N * (widths tr).sum + E.N * swaps tr := by
  induction tr generalizing k with
  | nil => simp [leaks, widths, swaps]
  | cons c t ih =>
    show ((leak E .inplace (path k) c ++ leaks E .inplace path t (k + 1)).map Res.elems).sum = _
    rw [List.map_append, List.sum_append, ih]
    cases c
    case qr locked cond =>
      show ((leak E .inplace (path k) (.qr locked cond)).map Res.elems).sum + _ =
        3 * E.N * (widths t).sum + E.N * swaps t
      have : leak E .inplace (path k) (.qr locked cond) = [] := by
        unfold leak
        cases path k with
        | householder => rfl
        | cholesky sh fa =>
          have h1 : ¬ (E.display = true ∧ ¬ E.zdouble = true) := fun h => h.2 (hd h.1)
          dsimp only
          rw [if_neg h1, if_neg (fun h => by cases h.2)]
          split_ifs <;> rfl
      rw [this, List.map_nil, List.sum_nil, Nat.zero_add]
    case lanczos1 m =>
      show ((lanczosMats E 1 .inplace).map Res.elems).sum + _ = 3 * E.N * (1 :: widths t).sum + E.N * swaps t
      rw [lanczosMats_elems, List.sum_cons]
      show 3 * E.N * 1 + _ = _
      ring
    case lanczosN m w =>
      show ((lanczosMats E w .inplace).map Res.elems).sum + _ = 3 * E.N * (w :: widths t).sum + E.N * swaps t
      rw [lanczosMats_elems, List.sum_cons]
      show 3 * E.N * w + _ = _
      ring
    case swap i j =>
      show ((leak E .inplace (path k) (.swap i j)).map Res.elems).sum + _ =
        3 * E.N * (widths t).sum + E.N * (swaps t + 1)
      have : leak E .inplace (path k) (Call.swap (R := R) i j) = [.host E.N] := rfl
      rw [this]
      show E.N + 0 + _ = _
      ring
    all_goals exact Nat.zero_add _

/-- **C75 for the in-place backend, exactly:** three matrices per solve and one column per exchange of columns. -/
theorem C75_inplace_partial (E : Env) (hd : E.display = true → E.zdouble = true) (path : ℕ → ℕ → QrPath)
    (trs : List (List (Call R))) (ws : List ℕ) (hs : List.Forall₂ Completed trs ws) (h : Heap) (hw : h.WF) :
    ∃ h', lifetime E .inplace path trs h = some ((), h') ∧
      h'.elements = h.elements + 3 * E.N * ws.sum + E.N * (trs.map swaps).sum := by
  obtain ⟨h', h1, -, h3, -⟩ := (lifetime_loses E .inplace path trs).elements hw
  refine ⟨h', h1, ?_⟩
  rw [h3, Nat.add_assoc]
  congr 1
  show ((allLeaks E .inplace path trs 0 ++ []).map Res.elems).sum = _
  rw [List.append_nil]
  clear h1 h3
  suffices ∀ k, ((allLeaks E .inplace path trs k).map Res.elems).sum =
    3 * E.N * ws.sum + E.N * (trs.map swaps).sum from this 0
  induction hs with
  | nil => intro k; simp [allLeaks]
  | cons hc _ ih =>
    intro k
    show ((leaks E .inplace (path k) _ 0 ++ allLeaks E .inplace path _ (k + 1)).map Res.elems).sum = _
    rw [List.map_append, List.sum_append, ih, inplace_leaks_elems E hd, hc.widths.1, List.map_cons, List.sum_cons,
      List.sum_cons, List.sum_cons, List.sum_nil]
    ring

/-! ### C76 -/

/-- **C76** for the sequential backends: an object that is constructed and destroyed leaves nothing behind. -/
theorem C76_seq_partial (E : Env) (b : Backend) (hb : b = .seq ∨ b = .inplace) (path : ℕ → ℕ → QrPath) (h : Heap)
    (hw : h.WF) : ∃ h', lifetime (R := R) E b path [] h = some ((), h') ∧ h'.live.Perm h.live := by
  obtain ⟨a, h', bs, h1, _, h3, h4⟩ := lifetime_loses (R := R) E b path [] h h.live hw (.refl _)
  refine ⟨h', h1, ?_⟩
  have h5 : b.lost E = [] := by rcases hb with rfl | rfl <;> rfl
  rw [h5] at h4
  obtain rfl : bs = [] := by simpa using h4.eq_nil
  exact h3

/-- Any number of lifetimes. -/
theorem lifetimes_count (E : Env) (b : Backend) (path : ℕ → ℕ → QrPath) (trs : List (List (Call R))) (r : Res) (c : ℕ)
    (hr : c ≤ (b.lost E).count r) (n : ℕ) (h : Heap) (hw : h.WF) :
    ∃ h', repeatProg (lifetime E b path trs) n h = some ((), h') ∧ h.count r + c * n ≤ h'.count r := by
  induction n generalizing h with
  | zero => exact ⟨h, rfl, Nat.le_refl _⟩
  | succ n ih =>
    obtain ⟨h1, e1, w1, -, c1⟩ := (lifetime_loses E b path trs).elements hw
    obtain ⟨h2, e2, c2⟩ := ih h1 w1
    refine ⟨h2, ?_, ?_⟩
    · show (lifetime E b path trs h).bind (fun x => repeatProg _ n x.2) = _
      rw [e1]
      exact e2
    · have := c1 r
      rw [List.count_append] at this
      rw [Nat.mul_succ]
      omega

/-- **C76, refuted for the distributed backends:** every object leaves six communicators behind on every process, so
that `n` objects leave `6 * n`, and at least one datatype for each row and column of the process grid; with ScaLAPACK
also two process grids. -/
theorem C76_mpi_refuted (E : Env) (b : Backend) (sc : Bool) (hb : b = .mpi sc ∨ ∃ aw, b = .mgpu aw sc)
    (path : ℕ → ℕ → QrPath) (trs : List (List (Call R))) (n : ℕ) (h : Heap) (hw : h.WF) :
    ∃ h', repeatProg (lifetime E b path trs) n h = some ((), h') ∧
      h.count .comm + 6 * n ≤ h'.count .comm ∧
      h.count .mpiType + (E.rows + E.cols) * n ≤ h'.count .mpiType ∧
      (sc = true → h.count .context + 2 * n ≤ h'.count .context) := by
  have k1 : 6 ≤ (b.lost E).count .comm := by
    rcases hb with rfl | ⟨aw, rfl⟩ <;> cases sc <;> simp [Backend.lost, dlaLost, List.count_replicate]
  have k2 : E.rows + E.cols ≤ (b.lost E).count .mpiType := by
    rcases hb with rfl | ⟨aw, rfl⟩ <;> cases sc <;> simp [Backend.lost, dlaLost, List.count_replicate]
  obtain ⟨h', e1, c1⟩ := lifetimes_count E b path trs .comm 6 k1 n h hw
  obtain ⟨h2, e2, c2⟩ := lifetimes_count E b path trs .mpiType _ k2 n h hw
  rw [e1] at e2
  obtain rfl : h' = h2 := by cases e2; rfl
  refine ⟨h', e1, c1, c2, fun hsc => ?_⟩
  subst hsc
  have k3 : 2 ≤ (b.lost E).count .context := by
    rcases hb with rfl | ⟨aw, rfl⟩ <;> simp [Backend.lost, dlaLost, List.count_replicate]
  obtain ⟨h3, e3, c3⟩ := lifetimes_count E b path trs .context 2 k3 n h hw
  rw [e1] at e3
  obtain rfl : h' = h3 := by cases e3; rfl
  exact c3

/-- **C76, refuted for the GPU backends:** every object leaves a handle of cuBLAS behind, the one for a single GPU also
a stream, the one for several GPUs also device memory for a local column and a local row (`m` and `n` elements). -/
theorem C76_gpu_refuted (E : Env) (b : Backend) (hb : b = .cuda ∨ ∃ aw sc, b = .mgpu aw sc)
    (path : ℕ → ℕ → QrPath) (trs : List (List (Call R))) (n : ℕ) (h : Heap) (hw : h.WF) :
    ∃ h', repeatProg (lifetime E b path trs) n h = some ((), h') ∧ h.count .handle + n ≤ h'.count .handle ∧
      (b = .cuda → h.count .stream + n ≤ h'.count .stream) ∧
      (b ≠ .cuda → h.count (.device E.m) + n ≤ h'.count (.device E.m) ∧
        h.count (.device E.n) + n ≤ h'.count (.device E.n)) := by
  have k1 : 1 ≤ (b.lost E).count .handle := by
    rcases hb with rfl | ⟨aw, sc, rfl⟩
    · simp [Backend.lost]
    · cases sc <;> simp [Backend.lost, dlaLost, List.count_replicate]
  obtain ⟨h', e1, c1⟩ := lifetimes_count E b path trs .handle 1 k1 n h hw
  rw [Nat.one_mul] at c1
  have key : ∀ x : Res, 1 ≤ (b.lost E).count x → h.count x + n ≤ h'.count x := by
    intro x hx
    obtain ⟨h2, e2, c2⟩ := lifetimes_count E b path trs x 1 hx n h hw
    rw [e1] at e2
    obtain rfl : h' = h2 := by cases e2; rfl
    rwa [Nat.one_mul] at c2
  refine ⟨h', e1, c1, fun hc => key _ (by subst hc; simp [Backend.lost]), fun hc => ?_⟩
  obtain ⟨aw, sc, rfl⟩ := hb.resolve_left hc
  have hm : ∀ x ∈ Backend.lost E (.mgpu aw sc), 1 ≤ (Backend.lost E (.mgpu aw sc)).count x :=
    fun x hx => List.count_pos_iff.mpr hx
  exact ⟨key _ (hm _ (by simp [Backend.lost])), key _ (hm _ (by simp [Backend.lost]))⟩

/-- **C76** (partial): whatever the object is used for, its destruction succeeds (nothing is released twice) and
releases everything that still belongs to it; apart from what the solves have left behind, what remains is exactly the
list `b.lost E` of things that the constructor acquired and the destructor forgets. -/
theorem C76_destroyed_partial (E : Env) (b : Backend) (path : ℕ → ℕ → QrPath) (trs : List (List (Call R))) (h : Heap)
    (hw : h.WF) : ∃ o h1 h2 lost forgotten, session E b path trs h = some (o, h1) ∧ destruct o h1 = some ((), h2) ∧
      h1.live.Perm (o.blocks ++ (lost ++ forgotten ++ h.live)) ∧ h2.live.Perm (lost ++ forgotten ++ h.live) ∧
      forgotten.map (·.2) = b.lost E ∧ (trs = [] → lost = []) := by
  obtain ⟨o0, h0, bs, e0, w0, p0, l1, q1, -, q2⟩ := construct_does E b h h.live hw (.refl _)
  have p1 : h0.live.Perm (o0.blocks ++ (l1 ++ h.live)) := by
    rw [← List.append_assoc]; exact p0.trans (q1.append_right _)
  obtain ⟨o, h1, cs, e1, w1, p2, l2, q3, q4⟩ := solves_runs E b path trs 0 o0 h0 (l1 ++ h.live) w0 p1
  have p3 : h1.live.Perm (o.blocks ++ (l2 ++ l1 ++ h.live)) := by
    rw [List.append_assoc l2, ← List.append_assoc o.blocks]; exact p2.trans (q3.append_right _)
  obtain ⟨⟨⟩, h2, ds, e2, w2, p4, q5⟩ := destruct_does o h1 (l2 ++ l1 ++ h.live) w1 p3
  refine ⟨o, h1, h2, l2, l1, ?_, e2, p3, ?_, q2, ?_⟩
  · show (construct E b h).bind (fun x => solves E b path trs 0 x.1 x.2) = _
    rw [e0]; exact e1
  · rw [q5] at p4; exact p4
  · rintro rfl
    simpa using q4.eq_nil

end

/-! ### Non-vacuity -/

/-- The run of the examples of C42 is a completed solve; its bounds are estimated with two vectors. -/
theorem toy_completed : ∃ tr : List (Call ℚ), Completed tr Toy.cfg1.numLanczos ∧ 0 < swaps tr := by
  have h1 : Toy.okAnd (fun out => decide (0 < swaps out.be.2))
      (solve Toy.plat (traced (Toy.ops Toy.vals1 Toy.res1 true)) Toy.cfg1 (fun _ => 0) (fun _ => 0)
        (Toy.start, [])) = true := by
    rw [Toy.solve_eq_solveE]; decide +kernel
  obtain ⟨out, e, hp⟩ := Toy.okAnd_elim h1
  exact ⟨out.be.2, ⟨_, Toy.plat, _, Toy.cfg1, _, _, _, out, Toy.plat_sorts.permutes, fun _ => rfl, e, rfl, rfl⟩,
    by simpa using hp⟩

/-- The empty heap is well formed. -/
theorem empty_wf : (⟨0, [], []⟩ : Heap).WF := ⟨List.nodup_nil, fun _ h => by cases h⟩

/-- A problem of order 1000 for 100 pairs, on one process of a grid of 2 by 2. -/
def exampleEnv : Env :=
  { N := 1000, nev := 80, nex := 20, m := 500, n := 500, rows := 2, cols := 2, sameDist := true, maxRun := 0, types := 2
    diag := 500, work := 1000, display := false, zdouble := true }

/-- Ten solves of a problem of order 1000 on one process lose at least 30000 elements. -/
example (path : ℕ → ℕ → QrPath) : ∃ trs : List (List (Call ℚ)), trs.length = 10 ∧
    ∃ h', lifetime exampleEnv .seq path trs ⟨0, [], []⟩ = some ((), h') ∧ 30000 ≤ h'.elements := by
  obtain ⟨tr, htr, -⟩ := toy_completed
  refine ⟨List.replicate 10 tr, List.length_replicate .., ?_⟩
  obtain ⟨h', h1, h2⟩ := (C75_memory_grows_refuted exampleEnv .seq path (List.replicate 10 tr)
    (fun t ht => ⟨_, (List.eq_of_mem_replicate ht).symm ▸ htr⟩) ⟨0, [], []⟩ empty_wf).2
  exact ⟨h', h1, by simpa [lanczosElems, exampleEnv, Heap.elements] using h2⟩

/-- The hypotheses of the exact statements are met. -/
example : ∃ tr : List (Call ℚ), List.Forall₂ Completed [tr, tr] [Toy.cfg1.numLanczos, Toy.cfg1.numLanczos] ∧
    0 < (([tr, tr] : List (List (Call ℚ))).map swaps).sum ∧ (exampleEnv.display = true → exampleEnv.zdouble = true) := by
  obtain ⟨tr, h1, h2⟩ := toy_completed
  exact ⟨tr, .cons h1 (.cons h1 .nil), by simp; omega, fun _ => rfl⟩

/-- A hundred distributed solver objects, none of which is ever used, leave 600 communicators behind. -/
example (path : ℕ → ℕ → QrPath) : ∃ h', repeatProg (lifetime (R := ℚ) exampleEnv (.mpi true) path []) 100 ⟨0, [], []⟩ =
    some ((), h') ∧ 600 ≤ h'.count .comm := by
  obtain ⟨h', h1, h2, -⟩ := C76_mpi_refuted (R := ℚ) exampleEnv (.mpi true) true (.inl rfl) path [] 100 ⟨0, [], []⟩ empty_wf
  exact ⟨h', h1, by simpa [Heap.count] using h2⟩

/-- What the constructor acquires is not trivial: the sequential one holds 430100 elements. -/
example : (Backend.seq.owned exampleEnv).length = 5 ∧ ((Backend.seq.owned exampleEnv).map Res.elems).sum = 430100 := by
  decide +kernel

end Verif.Memory
