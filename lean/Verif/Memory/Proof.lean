/-
Proofs about acquired and released resources: a small separation logic for `Memory.Prog`, and what the calls leave
behind.
-/
import Verif.Memory.Model
import Verif.Solver.Protocol
import Mathlib.Data.List.Perm.Basic
import Mathlib.Data.List.Nodup
import Mathlib.Tactic

namespace Verif.Memory

/-- A heap in which different resources have different numbers, smaller than the next number. -/
structure Heap.WF (h : Heap) : Prop where
  nodup : (h.live.map (·.1)).Nodup
  lt : ∀ p ∈ h.live, p.1 < h.next

/-- Started with the resources `pre` (and others), the program ends with `bs` (and the same others), such that `post`
holds of the result and of `bs`. -/
def Triple {α : Type} (pre : List (ℕ × Res)) (p : Prog α) (post : α → List (ℕ × Res) → Prop) : Prop :=
  ∀ (h : Heap) (F : List (ℕ × Res)), h.WF → h.live.Perm (pre ++ F) →
    ∃ a h' bs, p h = some (a, h') ∧ h'.WF ∧ h'.live.Perm (bs ++ F) ∧ post a bs

variable {α β : Type} {pre : List (ℕ × Res)} {p : Prog α} {post : α → List (ℕ × Res) → Prop}

theorem Triple.conseq {post' : α → List (ℕ × Res) → Prop} (h : Triple pre p post)
    (hp : ∀ a bs, post a bs → post' a bs) : Triple pre p post' := by
  intro hh F hw hl
  obtain ⟨a, h', bs, h1, h2, h3, h4⟩ := h hh F hw hl
  exact ⟨a, h', bs, h1, h2, h3, hp a bs h4⟩

theorem Triple.perm {pre' : List (ℕ × Res)} (h : Triple pre p post) (hp : pre'.Perm pre) : Triple pre' p post :=
  fun hh F hw hl => h hh F hw (hl.trans (hp.append_right F))

theorem Triple.frame (h : Triple pre p post) (G : List (ℕ × Res)) :
    Triple (pre ++ G) p (fun a bs => ∃ b0, post a b0 ∧ bs = b0 ++ G) := by
  intro hh F hw hl
  obtain ⟨a, h', bs, h1, h2, h3, h4⟩ := h hh (G ++ F) hw (by rw [← List.append_assoc]; exact hl)
  exact ⟨a, h', bs ++ G, h1, h2, by rw [List.append_assoc]; exact h3, bs, h4, rfl⟩

theorem Triple.pure (a : α) : Triple pre (Pure.pure a) (fun x bs => x = a ∧ bs = pre) :=
  fun h _ hw hl => ⟨a, h, pre, rfl, hw, hl, rfl, rfl⟩

theorem Triple.bind {f : α → Prog β} {post' : β → List (ℕ × Res) → Prop} (h : Triple pre p post)
    (hf : ∀ a bs, post a bs → Triple bs (f a) post') : Triple pre (p >>= f) post' := by
  intro hh F hw hl
  obtain ⟨a, h', bs, h1, h2, h3, h4⟩ := h hh F hw hl
  obtain ⟨b, h'', cs, g1, g2, g3, g4⟩ := hf a bs h4 h' F h2 h3
  refine ⟨b, h'', cs, ?_, g2, g3, g4⟩
  show (p hh).bind (fun x => f x.1 x.2) = _
  rw [h1]
  exact g1

theorem Triple.new (r : Res) : Triple [] (new r) (fun a bs => bs = [a] ∧ a.2 = r) := by
  intro h F hw hl
  refine ⟨(h.next, r), _, [(h.next, r)], rfl, ⟨?_, ?_⟩, ?_, rfl, rfl⟩
  · rw [List.map_cons, List.nodup_cons]
    refine ⟨fun hm => ?_, hw.nodup⟩
    obtain ⟨x, hx, e⟩ := List.mem_map.mp hm
    exact absurd (hw.lt x hx) (by rw [e]; exact lt_irrefl _)
  · intro x hx
    rcases List.mem_cons.mp hx with rfl | hx
    · exact Nat.lt_succ_self _
    · exact Nat.lt_succ_of_lt (hw.lt x hx)
  · exact List.Perm.cons _ hl

theorem Triple.delete (a : ℕ × Res) : Triple [a] (delete a) (fun _ bs => bs = []) := by
  intro h F hw hl
  have hm : a ∈ h.live := hl.mem_iff.mpr (by simp)
  refine ⟨(), ⟨h.next, h.live.erase a, h.past⟩, [], if_pos hm, ⟨?_, fun x hx => hw.lt x (List.mem_of_mem_erase hx)⟩, ?_, rfl⟩
  · exact hw.nodup.sublist (List.erase_sublist.map _)
  · have := hl.erase a
    rwa [List.singleton_append, List.erase_cons_head] at this

/-- A program that needs nothing. -/
theorem Triple.bind0 {f : α → Prog β} {q : List (ℕ × Res)} {post' : β → List (ℕ × Res) → Prop} (h : Triple [] p post)
    (hf : ∀ a bs, post a bs → Triple (bs ++ q) (f a) post') : Triple q (p >>= f) post' :=
  (h.frame q).bind fun a _ ⟨b0, hb, e⟩ => by rw [e]; exact hf a b0 hb

theorem Triple.newAll (rs : List Res) : Triple [] (newAll rs) (fun as bs => bs = as ∧ as.map (·.2) = rs) := by
  induction rs with
  | nil => exact (Triple.pure _).conseq fun a bs ⟨h1, h2⟩ => by rw [h1, h2]; exact ⟨rfl, rfl⟩
  | cons r rs ih =>
    refine (Triple.new r).bind fun a bs ⟨h1, h2⟩ => ?_
    subst h1
    refine ih.bind0 fun as bs ⟨h3, h4⟩ => ?_
    subst h3
    refine Triple.perm (pre := a :: bs) ((Triple.pure _).conseq fun x y ⟨e1, e2⟩ => ?_) (List.perm_append_singleton a bs)
    rw [e1, e2]
    exact ⟨rfl, by rw [List.map_cons, h2, h4]⟩

theorem Triple.deleteAll (as : List (ℕ × Res)) : Triple as (deleteAll as) (fun _ bs => bs = []) := by
  induction as with
  | nil => exact (Triple.pure ()).conseq fun a bs h => h.2
  | cons a as ih =>
    have h1 : Triple (a :: as) (Memory.delete a) _ := (Triple.delete a).frame as
    exact h1.bind fun _ bs ⟨b0, hb, e⟩ => by rw [e, hb]; exact ih

theorem Triple.locals {rs : List Res} (h : Triple pre p post) : Triple pre (locals rs p) post := by
  unfold Memory.locals
  refine (Triple.newAll rs).bind0 fun as bs ⟨h1, _⟩ => ?_
  subst h1
  refine ((h.frame bs).perm List.perm_append_comm).bind fun x cs ⟨b0, hb, e⟩ => ?_
  subst e
  have h2 := (Triple.deleteAll bs.reverse).frame b0
  refine (h2.perm ?_).bind fun _ ds ⟨d0, hd, e⟩ => ?_
  · exact List.perm_append_comm.trans ((List.reverse_perm bs).symm.append_right b0)
  · subst e; subst hd
    exact (Triple.pure x).conseq fun y es ⟨e1, e2⟩ => by rw [e1, e2]; exact hb

/-- A program that ends with more resources than it had: those of `L` are lost. -/
def Loses (p : Prog Unit) (L : List Res) : Prop := Triple [] p fun _ bs => (bs.map (·.2)).Perm L

theorem Loses.pure : Loses (Pure.pure ()) [] :=
  (Triple.pure ()).conseq fun _ bs h => by rw [h.2]; exact .refl _

theorem Loses.locals {p : Prog Unit} {L : List Res} (h : Loses p L) {rs : List Res} : Loses (locals rs p) L :=
  Triple.locals h

theorem Loses.seq {p q : Prog Unit} {L M : List Res} (hp : Loses p L) (hq : Loses q M) :
    Loses (do p; q) (L ++ M) := by
  refine Triple.bind hp fun _ bs hb => ?_
  have h2 := (Triple.frame (pre := []) hq bs)
  exact h2.conseq fun _ cs ⟨b0, hb0, e⟩ => by
    rw [e, List.map_append]
    exact (hb0.append hb).trans List.perm_append_comm

theorem Loses.perm {p : Prog Unit} {L M : List Res} (hp : Loses p L) (h : L.Perm M) : Loses p M :=
  Triple.conseq hp fun _ _ hb => hb.trans h

theorem Loses.newAll (rs : List Res) : Loses (do let _ ← newAll rs; Pure.pure ()) rs := by
  refine (Triple.newAll rs).bind fun as bs ⟨h1, h2⟩ => ?_
  exact (Triple.pure ()).conseq fun _ cs h => by rw [h.2, h1, h2]

theorem Loses.new (r : Res) : Loses (do let _ ← new r; Pure.pure ()) [r] := by
  refine (Triple.new r).bind fun a bs ⟨h1, h2⟩ => ?_
  exact (Triple.pure ()).conseq fun _ cs h => by rw [h.2, h1, ← h2]; exact .refl _

theorem Loses.ite {c : Prop} [Decidable c] {p q : Prog Unit} {L M : List Res} (hp : c → Loses p L) (hq : ¬ c → Loses q M) :
    Loses (if c then p else q) (if c then L else M) := by
  split_ifs with h
  · exact hp h
  · exact hq h

/-! ### What the calls leave behind -/

variable {R : Type*}

/-- The blocks that belong to the object. -/
def Obj.blocks (o : Obj) : List (ℕ × Res) := o.ritzVc.toList ++ (o.full.getD []) ++ o.owned

/-- Starting with an object, the program ends with an object (which may have grown), and loses `L`. -/
def Runs (o : Obj) (p : Prog Obj) (L : List Res) : Prop :=
  Triple o.blocks p fun o' bs => ∃ lost, bs.Perm (o'.blocks ++ lost) ∧ (lost.map (·.2)).Perm L

theorem Runs.pure (o : Obj) : Runs o (Pure.pure o) [] :=
  (Triple.pure o).conseq fun o' bs h => ⟨[], by rw [h.1, h.2, List.append_nil], .refl _⟩

theorem Runs.bind {o : Obj} {p : Prog Obj} {f : Obj → Prog Obj} {L M : List Res} (hp : Runs o p L)
    (hf : ∀ o', Runs o' (f o') M) : Runs o (p >>= f) (L ++ M) := by
  refine Triple.bind hp fun o' bs ⟨lost, h1, h2⟩ => ?_
  refine (((hf o').frame lost).perm h1).conseq fun o'' cs ⟨b0, ⟨l2, g1, g2⟩, e⟩ => ?_
  refine ⟨l2 ++ lost, ?_, ?_⟩
  · rw [e, ← List.append_assoc]; exact g1.append_right lost
  · rw [List.map_append]; exact (g2.append h2).trans List.perm_append_comm

theorem Runs.seq {o : Obj} {p : Prog Unit} {q : Prog Obj} {L M : List Res} (hp : Loses p L) (hq : Runs o q M) :
    Runs o (do p; q) (L ++ M) := by
  refine Triple.bind0 hp fun _ bs hb => ?_
  refine ((hq.frame bs).perm List.perm_append_comm).conseq fun o' cs ⟨b0, ⟨l2, g1, g2⟩, e⟩ => ?_
  refine ⟨l2 ++ bs, ?_, ?_⟩
  · rw [e, ← List.append_assoc]; exact g1.append_right bs
  · rw [List.map_append]; exact (g2.append hb).trans List.perm_append_comm

theorem Runs.locals {o : Obj} {p : Prog Obj} {L : List Res} (h : Runs o p L) {rs : List Res} :
    Runs o (locals rs p) L := Triple.locals h

theorem Runs.perm {o : Obj} {p : Prog Obj} {L M : List Res} (hp : Runs o p L) (h : L.Perm M) : Runs o p M :=
  Triple.conseq hp fun _ _ ⟨l, h1, h2⟩ => ⟨l, h1, h2.trans h⟩

theorem Runs.ofLoses {o : Obj} {p : Prog Unit} {L : List Res} (hp : Loses p L) : Runs o (do p; Pure.pure o) L :=
  (Runs.seq hp (Runs.pure o)).perm (by rw [List.append_nil])

theorem Runs.new_bind {o : Obj} {r : Res} {q : Prog Obj} {M : List Res} (hq : Runs o q M) :
    Runs o (do let _ ← new r; q) (r :: M) := by
  refine (Triple.new r).bind0 fun a bs ⟨h1, h2⟩ => ?_
  subst h1
  refine ((hq.frame [a]).perm List.perm_append_comm).conseq fun o' cs ⟨b0, ⟨l2, g1, g2⟩, e⟩ => ?_
  refine ⟨l2 ++ [a], ?_, ?_⟩
  · rw [e, ← List.append_assoc]; exact g1.append_right _
  · rw [List.map_append, List.map_cons, List.map_nil, h2]
    exact List.perm_append_comm.trans (g2.cons r)

/-- What the Householder orthogonalisation loses. -/
def hhLeak : Backend → List Res
  | .mpi true | .mgpu _ true => [.host 9, .host 9]
  | _ => []

/-- What a call loses. -/
def leak (E : Env) (b : Backend) (path : QrPath) : Call R → List Res
  | .qr locked _ => match path with
    | .householder => hhLeak b
    | .cholesky shifted failed =>
      (if E.display ∧ ¬ E.zdouble then [.host (5 * min E.N (E.nevex - locked))] else []) ++
        (if shifted ∧ b = .cuda then [.device 1] else []) ++ (if failed then hhLeak b else [])
  | .lanczos1 _ => lanczosMats E 1 b
  | .lanczosN _ w => lanczosMats E w b
  | .swap _ _ => if b = .inplace then [.host E.N] else []
  | _ => []

theorem nothing_loses {rs : List Res} : Loses (locals rs (Pure.pure ())) [] := Loses.pure.locals

theorem stemr_loses (E : Env) : Loses (stemr E) [] := nothing_loses

theorem repeat_loses {p : Prog Unit} (h : Loses p []) (k : ℕ) : Loses (repeatProg p k) [] := by
  induction k with
  | zero => exact Loses.pure
  | succ k ih => exact h.seq ih

theorem mLanczos_loses (E : Env) (b : Backend) (w : ℕ) : Loses (mLanczos E b w) (lanczosMats E w b) :=
  (Loses.newAll _).locals

theorem lanczos1_loses (E : Env) (b : Backend) (M : ℕ) : Loses (lanczos1 E b M) (lanczosMats E 1 b) :=
  Loses.locals (((mLanczos_loses E b 1).seq (stemr_loses E).locals).perm (by rw [List.append_nil]))

theorem lanczosN_loses (E : Env) (b : Backend) (M w : ℕ) : Loses (lanczosN E b M w) (lanczosMats E w b) :=
  Loses.locals (Loses.locals
    (((mLanczos_loses E b w).seq (repeat_loses (stemr_loses E) w).locals).perm (by rw [List.append_nil])))

theorem swap_loses (E : Env) (b : Backend) : Loses (swap E b) (if b = .inplace then [.host E.N] else []) := by
  cases b
  · refine (Triple.new _).bind fun a bs ⟨h1, _⟩ => ?_
    subst h1
    exact (Triple.delete a).conseq fun _ cs h => by rw [h]; exact .refl _
  · exact Loses.new _
  all_goals exact Loses.pure

theorem rr_loses (E : Env) (b : Backend) (k : ℕ) : Loses (rr E b k) [] := by
  cases b
  · exact nothing_loses.locals
  · exact nothing_loses
  · exact Loses.pure
  · exact nothing_loses
  · exact Loses.pure

theorem checkSym_loses (E : Env) (b : Backend) : Loses (checkSym E b) [] := by
  cases b <;> exact nothing_loses

theorem condEstimate_loses (E : Env) (k : ℕ) :
    Loses (condEstimate E k) (if E.zdouble then [] else [.host (5 * min E.N k)]) := by
  refine Loses.locals (Triple.bind (Triple.new _) fun a bs ⟨h1, h2⟩ => ?_)
  subst h1
  refine Triple.bind0 (nothing_loses (rs := [.host E.work])) fun _ cs hc => ?_
  obtain rfl : cs = [] := by
    have := hc.eq_nil
    simpa using this
  split_ifs with hz
  · exact (Triple.delete a).conseq fun _ ds h => by rw [h]; exact .refl _
  · exact (Triple.pure ()).conseq fun _ ds h => by
      rw [h.2]
      simp [h2]

theorem full_blocks_perm (o : Obj) (v : List (ℕ × Res)) (h : o.full = none) :
    (v ++ o.blocks).Perm ({ o with full := some v } : Obj).blocks := by
  unfold Obj.blocks
  rw [h]
  simp only [Option.getD_none, List.append_nil, Option.getD_some]
  rw [← List.append_assoc]
  exact (List.perm_append_comm).append_right _

theorem geqrfGqr_loses (E : Env) : Loses (geqrfGqr E) [] := nothing_loses.seq nothing_loses

theorem newAll_seq_loses (rs : List Res) {q : Prog Unit} {L : List Res} (h : Loses q L) :
    Loses (do let _ ← newAll rs; q) (rs ++ L) := by
  refine (Triple.newAll rs).bind fun as bs ⟨h1, h2⟩ => ?_
  subst h1
  refine (Triple.frame (pre := []) h bs).conseq fun _ cs ⟨b0, hb0, e⟩ => ?_
  rw [e, List.map_append, h2]
  exact (hb0.append_right rs).trans List.perm_append_comm

theorem pgeqrfPgqr_loses (E : Env) : Loses (pgeqrfPgqr E) [.host 9, .host 9] :=
  newAll_seq_loses [.host 9] (nothing_loses.seq (newAll_seq_loses [.host 9] nothing_loses))

theorem allocFull_runs (E : Env) (o : Obj) : Runs o (allocFull E o) [] := by
  unfold allocFull
  split
  · exact Runs.pure o
  · rename_i hf
    refine (Triple.newAll _).bind0 fun as bs ⟨h1, _⟩ => ?_
    subst h1
    refine (Triple.pure _).conseq fun o' cs ⟨e1, e2⟩ => ⟨[], ?_, .refl _⟩
    rw [e1, e2, List.append_nil]
    exact full_blocks_perm o bs hf

theorem hhQR_runs (E : Env) (b : Backend) (o : Obj) : Runs o (hhQR E b o) (hhLeak b) := by
  have k1 : Runs o (Memory.locals [.host E.nevex] (do geqrfGqr E; Pure.pure o)) [] :=
    (Runs.ofLoses (geqrfGqr_loses E)).locals
  have k2 : Runs o (Memory.locals [.host E.nevex] (do pgeqrfPgqr E; Pure.pure o)) [.host 9, .host 9] :=
    (Runs.ofLoses (pgeqrfPgqr_loses E)).locals
  have k3 : Runs o (Memory.locals [.host E.nevex] (do let o ← allocFull E o; geqrfGqr E; Pure.pure o)) [] :=
    Runs.locals (Runs.bind (allocFull_runs E o) fun o' => Runs.ofLoses (geqrfGqr_loses E))
  cases b with
  | seq => exact k1
  | inplace => exact k1
  | cuda => exact Runs.pure o
  | mpi sc => cases sc; exacts [k3, k2]
  | mgpu aw sc => cases sc; exacts [k3, k2]

theorem displayCond_loses (E : Env) (locked : ℕ) : Loses (displayCond E locked)
    (if E.display ∧ ¬ E.zdouble then [.host (5 * min E.N (E.nevex - locked))] else []) := by
  unfold displayCond
  by_cases hd : E.display = true
  · rw [if_pos hd]
    refine (condEstimate_loses E _).perm ?_
    by_cases hz : E.zdouble = true <;> simp [hd, hz]
  · rw [if_neg hd, if_neg (by simp [hd])]
    exact Loses.pure

theorem shiftSum_loses (b : Backend) (shifted : Bool) : Loses (shiftSum b shifted)
    (if shifted ∧ b = .cuda then [.device 1] else []) := by
  unfold shiftSum
  split_ifs
  · exact Loses.newAll _
  · exact Loses.pure

theorem qr_runs (E : Env) (b : Backend) (path : QrPath) (locked : ℕ) (c : R) (o : Obj) :
    Runs o (qr E b path locked o) (leak E b path (.qr locked c)) := by
  cases path with
  | householder => exact hhQR_runs E b o
  | cholesky shifted failed =>
    show Runs o _ (_ ++ _ ++ _)
    rw [List.append_assoc]
    refine Runs.seq (displayCond_loses E locked) (Runs.seq (shiftSum_loses b shifted) ?_)
    split_ifs
    · exact hhQR_runs E b o
    · exact Runs.pure o

theorem lanczosDos_runs (b : Backend) (idx m : ℕ) (o : Obj) : Runs o (lanczosDos b idx m o) [] := by
  unfold lanczosDos
  split
  · split
    · exact Runs.pure o
    · rename_i hf
      refine (Triple.new _).bind0 fun a bs ⟨h1, _⟩ => ?_
      subst h1
      refine (Triple.pure _).conseq fun o' cs ⟨e1, e2⟩ => ⟨[], ?_, .refl _⟩
      rw [e1, e2, List.append_nil]
      unfold Obj.blocks
      rw [hf]
      simp
  · exact Runs.pure o

/-- What a call does: it succeeds, keeps what belongs to the object, and loses `leak`. -/
theorem call_runs (E : Env) (b : Backend) (path : QrPath) (c : Call R) (o : Obj) :
    Runs o (call E b path c o) (leak E b path c) := by
  cases c with
  | checkSymmetryEasy => exact Runs.ofLoses (checkSym_loses E b)
  | qr locked cond => exact qr_runs E b path locked cond o
  | lanczos1 m => exact Runs.ofLoses (lanczos1_loses E b m)
  | lanczosN m w => exact Runs.ofLoses (lanczosN_loses E b m w)
  | lanczosDos i m => exact lanczosDos_runs b i m o
  | rr k => exact Runs.ofLoses (rr_loses E b k)
  | swap i j => exact Runs.ofLoses (swap_loses E b)
  | _ => exact Runs.pure o

/-- What calls lose. -/
def leaks (E : Env) (b : Backend) (path : ℕ → QrPath) : List (Call R) → ℕ → List Res
  | [], _ => []
  | c :: t, k => leak E b (path k) c ++ leaks E b path t (k + 1)

theorem calls_runs (E : Env) (b : Backend) (path : ℕ → QrPath) (tr : List (Call R)) (k : ℕ) (o : Obj) :
    Runs o (calls E b path tr k o) (leaks E b path tr k) := by
  induction tr generalizing k o with
  | nil => exact Runs.pure o
  | cons c t ih => exact Runs.bind (call_runs E b (path k) c o) (fun o' => ih (k + 1) o')

theorem construct_does (E : Env) (b : Backend) :
    Triple [] (construct E b) (fun o bs => ∃ lost, bs.Perm (o.blocks ++ lost) ∧ (o.blocks.map (·.2)) = b.owned E ∧
      lost.map (·.2) = b.lost E) := by
  refine (Triple.newAll _).bind fun l bs ⟨h1, h2⟩ => ?_
  subst h1
  refine (Triple.newAll _).bind0 fun as cs ⟨h3, h4⟩ => ?_
  subst h3
  refine (Triple.pure _).conseq fun o ds ⟨e1, e2⟩ => ⟨bs, ?_, ?_, h2⟩
  · rw [e1, e2]; exact .refl _
  · rw [e1]; exact h4

theorem destruct_does (o : Obj) : Triple o.blocks (destruct o) (fun _ bs => bs = []) := by
  unfold Obj.blocks destruct
  rw [List.append_assoc]
  refine ((Triple.deleteAll o.ritzVc.toList).frame _).bind fun _ bs ⟨b0, h, e⟩ => ?_
  subst h; subst e
  refine (((Triple.deleteAll (o.full.getD []).reverse).frame o.owned).perm ?_).bind fun _ bs ⟨b0, h, e⟩ => ?_
  · exact (List.reverse_perm (o.full.getD [])).symm.append_right o.owned
  · subst h; subst e
    exact (Triple.deleteAll o.owned.reverse).perm (List.reverse_perm _).symm

end Verif.Memory
