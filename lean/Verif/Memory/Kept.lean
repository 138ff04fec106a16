/-
What an object keeps: the members that the constructor acquired, and the full block of vectors once it is allocated.
-/
import Verif.Memory.Peak

set_option linter.unusedSectionVars false

namespace Verif.Memory

variable {α β : Type} {R : Type*}

/-- The result of the program, if there is one, is such that `Q`. -/
def Post (p : Prog α) (Q : α → Prop) : Prop := ∀ h x h', p h = some (x, h') → Q x

theorem Post.pure {Q : α → Prop} {x : α} (h : Q x) : Post (Pure.pure x) Q := by
  intro h0 y h1 e
  have e : some (x, h0) = some (y, h1) := e
  injection e with e
  injection e with e1 e2
  exact e1 ▸ h

theorem Post.bind {Q : α → Prop} {Q' : β → Prop} {p : Prog α} {k : α → Prog β} (hp : Post p Q)
    (hk : ∀ x, Q x → Post (k x) Q') : Post (p >>= k) Q' := by
  intro h y h' e
  obtain ⟨x, h1, e1, e2⟩ := bind_some e
  exact hk x (hp h x h1 e1) h1 y h' e2

theorem Post.any {p : Prog α} : Post p fun _ => True := fun _ _ _ _ => trivial

theorem Post.locals {Q : α → Prop} {p : Prog α} (rs : List Res) (hp : Post p Q) : Post (Memory.locals rs p) Q :=
  Post.any.bind fun _ _ => hp.bind fun _ hx => Post.any.bind fun _ _ => Post.pure hx

theorem Post.mono {Q Q' : α → Prop} {p : Prog α} (hp : Post p Q) (h : ∀ x, Q x → Q' x) : Post p Q' :=
  fun h0 x h1 e => h x (hp h0 x h1 e)

/-- The object holds what its constructor acquired, and a full block of vectors if it was allocated. -/
def Good (E : Env) (b : Backend) (o : Obj) : Prop :=
  o.owned.map (·.2) = b.owned E ∧ ∀ v, o.full = some v → v.map (·.2) = matrix 0 (E.N * E.nevex)

/-- Some Householder orthogonalisation happens. -/
def QrPath.toHouseholder : QrPath → Prop
  | .householder => True
  | .cholesky _ failed => failed = true

/-- The object is still good, and still has its full block. -/
def Kept (E : Env) (b : Backend) (o o' : Obj) : Prop := Good E b o' ∧ (o.full ≠ none → o'.full ≠ none)

theorem Kept.refl {E : Env} {b : Backend} {o : Obj} (h : Good E b o) : Kept E b o o := ⟨h, id⟩

theorem allocFull_kept {E : Env} {b : Backend} {o : Obj} (h : Good E b o) :
    Post (allocFull E o) fun o' => Kept E b o o' ∧ o'.full ≠ none := by
  unfold allocFull
  split
  · rename_i hf
    exact Post.pure ⟨Kept.refl h, by rw [hf]; simp⟩
  · intro h0 x h1 e
    obtain ⟨as, h2, e1, e2⟩ := bind_some e
    have e2 : some (({ o with full := some as } : Obj), h2) = some (x, h1) := e2
    injection e2 with e2
    injection e2 with e3 e4
    subst e3
    obtain ⟨a1, -, -⟩ := newAll_weigh (μ := fun _ => 0) _ e1
    refine ⟨⟨⟨h.1, fun v hv => ?_⟩, fun _ => by simp⟩, by simp⟩
    injection hv with hv
    exact hv ▸ a1

theorem hhQR_kept {E : Env} {b : Backend} {o : Obj} (h : Good E b o) : Post (hhQR E b o) fun o' => Kept E b o o' := by
  have hr := Kept.refl h
  have k : Post (Memory.locals [.host E.nevex] (do let o ← allocFull E o; geqrfGqr E; Pure.pure o)) fun o' => Kept E b o o' :=
    Post.locals _ ((allocFull_kept h).bind fun _ hx => Post.any.bind fun _ _ => Post.pure hx.1)
  cases b with
  | seq => exact Post.locals _ (Post.any.bind fun _ _ => Post.pure hr)
  | inplace => exact Post.locals _ (Post.any.bind fun _ _ => Post.pure hr)
  | cuda => exact Post.pure hr
  | mpi sc => cases sc; exacts [k, Post.locals _ (Post.any.bind fun _ _ => Post.pure hr)]
  | mgpu aw sc => cases sc; exacts [k, Post.locals _ (Post.any.bind fun _ _ => Post.pure hr)]

theorem hhQR_full {E : Env} {b : Backend} {o : Obj} (hb : b = .mpi false ∨ ∃ aw, b = .mgpu aw false) (h : Good E b o) :
    Post (hhQR E b o) fun o' => o'.full ≠ none := by
  have k : Post (Memory.locals [.host E.nevex] (do let o ← allocFull E o; geqrfGqr E; Pure.pure o)) fun o' => o'.full ≠ none :=
    Post.locals _ ((allocFull_kept h).bind fun _ hx => Post.any.bind fun _ _ => Post.pure hx.2)
  rcases hb with rfl | ⟨aw, rfl⟩ <;> exact k

theorem lanczosDos_kept {E : Env} {b : Backend} {o : Obj} (i m : ℕ) (h : Good E b o) :
    Post (lanczosDos b i m o) fun o' => Kept E b o o' := by
  have hr := Kept.refl h
  unfold lanczosDos
  split
  · split
    · exact Post.pure hr
    · exact Post.any.bind fun _ _ => Post.pure hr
  · exact Post.pure hr

theorem call_kept {E : Env} {b : Backend} (path : QrPath) (c : Call R) {o : Obj} (h : Good E b o) :
    Post (call E b path c o) fun o' => Kept E b o o' := by
  have hr := Kept.refl h
  cases c with
  | qr locked cond =>
    cases path with
    | householder => exact hhQR_kept h
    | cholesky s f =>
      refine Post.any.bind fun _ _ => Post.any.bind fun _ _ => ?_
      split_ifs
      · exact hhQR_kept h
      · exact Post.pure hr
  | lanczosDos i m => exact lanczosDos_kept i m h
  | checkSymmetryEasy => exact Post.any.bind fun _ _ => Post.pure hr
  | lanczos1 m => exact Post.any.bind fun _ _ => Post.pure hr
  | lanczosN m w => exact Post.any.bind fun _ _ => Post.pure hr
  | rr k => exact Post.any.bind fun _ _ => Post.pure hr
  | swap i j => exact Post.any.bind fun _ _ => Post.pure hr
  | _ => exact Post.pure hr

theorem qr_full {E : Env} {b : Backend} (hb : b = .mpi false ∨ ∃ aw, b = .mgpu aw false) {path : QrPath}
    (hp : path.toHouseholder) (locked : ℕ) (cond : R) {o : Obj} (h : Good E b o) :
    Post (call E b path (.qr locked cond) o) fun o' => o'.full ≠ none := by
  cases path with
  | householder => exact hhQR_full hb h
  | cholesky s f =>
    refine Post.any.bind fun _ _ => Post.any.bind fun _ _ => ?_
    have hp : f = true := hp
    subst hp
    rw [if_pos rfl]
    exact hhQR_full hb h

/-- A Householder orthogonalisation happens during these calls. -/
def Householder (path : ℕ → QrPath) (tr : List (Call R)) (k : ℕ) : Prop :=
  ∃ i locked cond, tr[i]? = some (.qr locked cond) ∧ (path (k + i)).toHouseholder

theorem calls_kept {E : Env} {b : Backend} (path : ℕ → QrPath) (tr : List (Call R)) (k : ℕ) {o : Obj}
    (h : Good E b o) : Post (calls E b path tr k o) fun o' => Kept E b o o' ∧
      ((b = .mpi false ∨ ∃ aw, b = .mgpu aw false) → Householder path tr k → o'.full ≠ none) := by
  induction tr generalizing k o with
  | nil => exact Post.pure ⟨Kept.refl h, fun _ ⟨i, _, _, hi, _⟩ => by simp at hi⟩
  | cons c tr ih =>
    intro h0 x h1 e
    obtain ⟨o1, h2, e1, e2⟩ := bind_some e
    obtain ⟨g1, f1⟩ := call_kept (path k) c h h0 o1 h2 e1
    obtain ⟨⟨g2, f2⟩, f3⟩ := ih (k + 1) g1 h2 x h1 e2
    refine ⟨⟨g2, fun hf => f2 (f1 hf)⟩, fun hb ⟨i, locked, cond, hi, hp⟩ => ?_⟩
    cases i with
    | zero =>
      obtain rfl : c = .qr locked cond := by simpa using hi
      exact f2 (qr_full hb hp locked cond h h0 o1 h2 e1)
    | succ i => exact f3 hb ⟨i, locked, cond, by simpa using hi, by rw [show k + 1 + i = k + (i + 1) by omega]; exact hp⟩

theorem construct_good (E : Env) (b : Backend) : Post (construct E b) (Good E b) := by
  intro h0 x h1 e
  obtain ⟨l, h2, -, e1⟩ := bind_some e
  obtain ⟨as, h3, e3, e4⟩ := bind_some e1
  have e4 : some ((⟨as, none, none⟩ : Obj), h3) = some (x, h1) := e4
  injection e4 with e4
  injection e4 with e5 e6
  subst e5
  obtain ⟨a1, -, -⟩ := newAll_weigh (μ := fun _ => 0) _ e3
  exact ⟨a1, fun v hv => by cases hv⟩

/-- After a solve with a Householder orthogonalisation the object has its full block. -/
theorem session_full {E : Env} {b : Backend} (hb : b = .mpi false ∨ ∃ aw, b = .mgpu aw false) (path : ℕ → ℕ → QrPath)
    (tr : List (Call R)) (hh : Householder (path 0) tr 0) :
    Post (session E b path [tr]) fun o => Good E b o ∧ o.full ≠ none :=
  (construct_good E b).bind fun _ h => (calls_kept (path 0) tr 0 h).bind fun _ h1 => Post.pure ⟨h1.1.1, h1.2 hb hh⟩

end Verif.Memory
