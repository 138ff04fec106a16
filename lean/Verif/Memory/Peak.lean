/-
How much is held at any time: upper bounds for the programs of Model.
-/
import Verif.Memory.Props

set_option linter.unusedSectionVars false

namespace Verif.Memory

/-- The weight of resources, `μ` being the weight of one. -/
def total (μ : Res → ℕ) (rs : List Res) : ℕ := (rs.map μ).sum

/-- The weight of blocks. -/
def weigh (μ : Res → ℕ) (l : List (ℕ × Res)) : ℕ := (l.map fun x => μ x.2).sum

variable {μ : Res → ℕ} {α β : Type}

theorem weigh_eq (l : List (ℕ × Res)) : weigh μ l = total μ (l.map (·.2)) := by
  unfold weigh total
  rw [List.map_map]; rfl

theorem total_append (a b : List Res) : total μ (a ++ b) = total μ a + total μ b := by
  unfold total
  rw [List.map_append, List.sum_append]

theorem total_perm {a b : List Res} (h : a.Perm b) : total μ a = total μ b := (h.map μ).sum_eq

/-- If the program succeeds, what is held in the end plus `f` of the result is at most `g` more than what was held in
the beginning, and at no time more than `b` more was held. -/
def Uses (μ : Res → ℕ) (f : α → ℕ) (p : Prog α) (g b : ℕ) : Prop :=
  ∀ h x h', p h = some (x, h') → weigh μ h'.live + f x ≤ weigh μ h.live + g ∧
    ∀ l ∈ h'.past, l ∈ h.past ∨ weigh μ l ≤ weigh μ h.live + b

theorem Uses.mono {f : α → ℕ} {p : Prog α} {g b g' b' : ℕ} (h : Uses μ f p g b) (hg : g ≤ g') (hb : b ≤ b') :
    Uses μ f p g' b' := by
  intro h0 x h1 e
  obtain ⟨a, c⟩ := h h0 x h1 e
  refine ⟨by omega, fun l hl => (c l hl).imp id fun h => by omega⟩

theorem Uses.pure {f : α → ℕ} (x : α) : Uses μ f (Pure.pure x) (f x) 0 := by
  intro h y h' e
  obtain ⟨rfl, rfl⟩ : x = y ∧ h = h' := by
    have : some (x, h) = some (y, h') := e
    injection this with this; injection this with h1 h2; exact ⟨h1, h2⟩
  exact ⟨le_rfl, fun l hl => Or.inl hl⟩

theorem bind_some {p : Prog α} {k : α → Prog β} {h : Heap} {y : β} {h' : Heap} (e : (p >>= k) h = some (y, h')) :
    ∃ x h1, p h = some (x, h1) ∧ k x h1 = some (y, h') := by
  have e : (p h).bind (fun x => k x.1 x.2) = some (y, h') := e
  obtain ⟨⟨x, h1⟩, e1, e2⟩ := Option.bind_eq_some_iff.mp e
  exact ⟨x, h1, e1, e2⟩

theorem Uses.bind {f : α → ℕ} {f' : β → ℕ} {p : Prog α} {k : α → Prog β} {g b g' b' : ℕ} (hp : Uses μ f p g b)
    (hk : ∀ x, Uses μ f' (k x) (f x + g') (f x + b')) : Uses μ f' (p >>= k) (g + g') (max b (g + b')) := by
  intro h y h' e
  obtain ⟨x, h1, e1, e2⟩ := bind_some e
  obtain ⟨a1, c1⟩ := hp h x h1 e1
  obtain ⟨a2, c2⟩ := hk x h1 y h' e2
  refine ⟨by omega, fun l hl => ?_⟩
  rcases c2 l hl with hl | hl
  · exact (c1 l hl).imp id fun h => by omega
  · exact Or.inr (by omega)

/-- Nothing is remembered of the result. -/
abbrev no : α → ℕ := fun _ => 0

theorem Uses.seq {f : β → ℕ} {p : Prog α} {k : α → Prog β} {g b g' b' : ℕ} (hp : Uses μ no p g b)
    (hk : ∀ x, Uses μ f (k x) g' b') : Uses μ f (p >>= k) (g + g') (max b (g + b')) :=
  hp.bind fun x => (hk x).mono (by simp) (by simp)

theorem new_weigh {r : Res} {h h' : Heap} {a : ℕ × Res} (e : new r h = some (a, h')) :
    a.2 = r ∧ weigh μ h'.live = weigh μ h.live + μ r ∧ ∀ l ∈ h'.past, l ∈ h.past ∨ weigh μ l ≤ weigh μ h.live + μ r := by
  have e : some ((h.next, r), (⟨h.next + 1, (h.next, r) :: h.live, ((h.next, r) :: h.live) :: h.past⟩ : Heap)) = some (a, h') := e
  injection e with e
  injection e with e1 e2
  subst e1; subst e2
  have : weigh μ ((h.next, r) :: h.live) = weigh μ h.live + μ r := by
    unfold weigh
    rw [List.map_cons, List.sum_cons, add_comm]
  refine ⟨rfl, this, fun l hl => ?_⟩
  rcases List.mem_cons.mp hl with rfl | hl
  · exact Or.inr this.le
  · exact Or.inl hl

theorem newAll_weigh (rs : List Res) {h h' : Heap} {as : List (ℕ × Res)} (e : newAll rs h = some (as, h')) :
    as.map (·.2) = rs ∧ weigh μ h'.live = weigh μ h.live + total μ rs ∧
      ∀ l ∈ h'.past, l ∈ h.past ∨ weigh μ l ≤ weigh μ h.live + total μ rs := by
  induction rs generalizing h h' as with
  | nil =>
    have e : some (([] : List (ℕ × Res)), h) = some (as, h') := e
    injection e with e
    injection e with e1 e2
    subst e1; subst e2
    exact ⟨rfl, by simp [total], fun l hl => Or.inl hl⟩
  | cons r rs ih =>
    obtain ⟨a, h1, e1, e2⟩ := bind_some e
    obtain ⟨bs, h2, e3, e4⟩ := bind_some e2
    have e4 : some (a :: bs, h2) = some (as, h') := e4
    injection e4 with e4
    injection e4 with e5 e6
    subst e5; subst e6
    obtain ⟨a1, a2, a3⟩ := new_weigh (μ := μ) e1
    obtain ⟨b1, b2, b3⟩ := ih e3
    have ht : total μ (r :: rs) = μ r + total μ rs := by simp [total]
    refine ⟨by rw [List.map_cons, a1, b1], by omega, fun l hl => ?_⟩
    rcases b3 l hl with hl | hl
    · exact (a3 l hl).imp id fun h => by omega
    · exact Or.inr (by omega)

theorem Uses.newAll (rs : List Res) : Uses μ no (newAll rs) (total μ rs) (total μ rs) := by
  intro h x h' e
  obtain ⟨-, h2, h3⟩ := newAll_weigh (μ := μ) rs e
  exact ⟨by simp [h2], h3⟩

theorem Uses.new (r : Res) : Uses μ no (new r) (μ r) (μ r) := by
  intro h x h' e
  obtain ⟨-, h2, h3⟩ := new_weigh (μ := μ) e
  exact ⟨by simp [h2], h3⟩

theorem weigh_erase {a : ℕ × Res} {l : List (ℕ × Res)} (h : a ∈ l) : weigh μ (l.erase a) + μ a.2 = weigh μ l := by
  unfold weigh
  rw [((List.perm_cons_erase h).map fun x : ℕ × Res => μ x.2).sum_eq, List.map_cons, List.sum_cons, add_comm]

theorem delete_weigh {a : ℕ × Res} {h h' : Heap} {x : Unit} (e : delete a h = some (x, h')) :
    weigh μ h'.live + μ a.2 = weigh μ h.live ∧ h'.past = h.past := by
  unfold delete at e
  split_ifs at e with hm
  injection e with e
  injection e with e1 e2
  subst e2
  exact ⟨weigh_erase hm, rfl⟩

theorem deleteAll_weigh (as : List (ℕ × Res)) {h h' : Heap} {x : Unit} (e : deleteAll as h = some (x, h')) :
    weigh μ h'.live + weigh μ as = weigh μ h.live ∧ h'.past = h.past := by
  induction as generalizing h with
  | nil =>
    have e : some ((), h) = some (x, h') := e
    injection e with e
    injection e with e1 e2
    subst e2
    exact ⟨by simp [weigh], rfl⟩
  | cons a as ih =>
    obtain ⟨y, h1, e1, e2⟩ := bind_some e
    obtain ⟨a1, a2⟩ := delete_weigh (μ := μ) e1
    obtain ⟨b1, b2⟩ := ih e2
    have ht : weigh μ (a :: as) = μ a.2 + weigh μ as := by simp [weigh]
    exact ⟨by omega, b2.trans a2⟩

theorem weigh_reverse (l : List (ℕ × Res)) : weigh μ l.reverse = weigh μ l :=
  ((List.reverse_perm l).map _).sum_eq

theorem Uses.locals {f : α → ℕ} {p : Prog α} {g b : ℕ} (rs : List Res) (hp : Uses μ f p g b) :
    Uses μ f (locals rs p) g (total μ rs + b) := by
  intro h x h' e
  obtain ⟨as, h1, e1, e2⟩ := bind_some e
  obtain ⟨y, h2, e3, e4⟩ := bind_some e2
  obtain ⟨u, h3, e5, e6⟩ := bind_some e4
  have e6 : some (y, h3) = some (x, h') := e6
  injection e6 with e6
  injection e6 with e7 e8
  subst e7; subst e8
  obtain ⟨a1, a2, a3⟩ := newAll_weigh (μ := μ) rs e1
  obtain ⟨b1, b2⟩ := hp h1 y h2 e3
  obtain ⟨c1, c2⟩ := deleteAll_weigh (μ := μ) _ e5
  rw [weigh_reverse, weigh_eq as, a1] at c1
  refine ⟨by omega, fun l hl => ?_⟩
  rw [c2] at hl
  rcases b2 l hl with hl | hl
  · exact (a3 l hl).imp id fun h => by omega
  · exact Or.inr (by omega)

/-- Memory made with `new` and deleted in the end. -/
theorem Uses.newDelete {p : Prog Unit} {g b : ℕ} (r : Res) (hp : Uses μ no p g b) :
    Uses μ no (do let a ← Memory.new r; p; delete a) g (μ r + b) := by
  intro h x h' e
  obtain ⟨a, h1, e1, e2⟩ := bind_some e
  obtain ⟨y, h2, e3, e4⟩ := bind_some e2
  obtain ⟨a1, a2, a3⟩ := new_weigh (μ := μ) e1
  obtain ⟨b1, b2⟩ := hp h1 y h2 e3
  obtain ⟨c1, c2⟩ := delete_weigh (μ := μ) e4
  rw [a1] at c1
  refine ⟨by simp only [no] at b1 ⊢; omega, fun l hl => ?_⟩
  rw [c2] at hl
  rcases b2 l hl with hl | hl
  · exact (a3 l hl).imp id fun h => by omega
  · exact Or.inr (by omega)

/-! ### The calls -/

/-- Temporary memory of `t_geqrf` and `t_gqr`, `t_pgeqrf` and `t_pgqr` or the routines of the GPU, and of `tau`. -/
def hhTemp (μ : Res → ℕ) (E : Env) : Backend → ℕ
  | .cuda => 0
  | _ => total μ [.host E.nevex, .host E.work]

/-- Temporary memory of the condition number. -/
def condTemp (μ : Res → ℕ) (E : Env) (k : ℕ) : ℕ :=
  if E.display then total μ [.host k, .host k, .host (E.N * E.nevex), .host (5 * min E.N k), .host E.work] else 0

variable {R : Type*}

/-- Temporary memory of a call: what it releases before it returns.  -/
def temp (μ : Res → ℕ) (E : Env) (b : Backend) : Call R → ℕ
  | .checkSymmetryEasy => match b with
    | .seq | .inplace | .cuda => total μ [.host E.N, .host E.N, .host E.N]
    | .mpi _ | .mgpu _ _ => total μ [.host E.m, .host E.n, .host E.m, .host E.n]
  | .qr locked _ => condTemp μ E (E.nevex - locked) + hhTemp μ E b
  | .lanczos1 M => total μ [.host M, .host M, .host 1] +
      max (total μ [.host 1, .host 1, .host 1]) (total μ [.host (2 * M), .host M, .host E.work, .host E.work])
  | .lanczosN M w => total μ [.host (w * M), .host (w * M), .host (M * M), .host (w * M), .host (M * M)] +
      (total μ [.host (M * w), .host (M * w), .host w] +
        max (total μ [.host w, .host w, .host w]) (total μ [.host (2 * M), .host E.work, .host E.work]))
  | .rr block => match b with
    | .seq => total μ [.host (block * block), .host E.work, .host E.work, .host E.work]
    | .inplace | .mpi _ => total μ [.host E.work, .host E.work, .host E.work]
    | .cuda | .mgpu _ _ => 0
  | .swap _ _ => if b = .seq then μ (.host E.N) else 0
  | _ => 0

/-- What the object may still acquire and keep: `V___` and, if it takes at most `D`, `d_ritzVc_`. -/
def later (μ : Res → ℕ) (E : Env) (b : Backend) (D : ℕ) (o : Obj) : ℕ :=
  (match b with
    | .mpi false | .mgpu _ false => if o.full = none then total μ (matrix 0 (E.N * E.nevex)) else 0
    | _ => 0) +
  (match b with
    | .mgpu true _ => if o.ritzVc = none then D else 0
    | _ => 0)

theorem Uses.nothing (rs : List Res) : Uses μ no (Memory.locals rs (Pure.pure ())) 0 (total μ rs) :=
  (Uses.locals rs (Uses.pure ())).mono le_rfl (by simp)

theorem total_cons (r : Res) (rs : List Res) : total μ (r :: rs) = μ r + total μ rs := by simp [total]
theorem total_nil : total μ [] = 0 := rfl

theorem stemr_uses (E : Env) : Uses μ no (stemr E) 0 (total μ [.host E.work, .host E.work]) := Uses.nothing _

theorem repeat_uses {p : Prog Unit} {t : ℕ} (h : Uses μ no p 0 t) (k : ℕ) : Uses μ no (repeatProg p k) 0 t := by
  induction k with
  | zero => exact (Uses.pure ()).mono le_rfl (Nat.zero_le _)
  | succ k ih => exact (h.seq fun _ => ih).mono le_rfl (by omega)

theorem mLanczos_uses (E : Env) (b : Backend) (w : ℕ) : Uses μ no (mLanczos E b w) (total μ (lanczosMats E w b))
    (total μ [.host w, .host w, .host w] + total μ (lanczosMats E w b)) :=
  Uses.locals _ (((Uses.newAll _).seq fun _ => Uses.pure ()).mono (by simp) (by simp))

theorem lanczos1_uses (E : Env) (b : Backend) (M : ℕ) : Uses μ no (lanczos1 E b M) (total μ (lanczosMats E 1 b))
    (total μ (lanczosMats E 1 b) + temp μ E b (.lanczos1 M : Call R)) := by
  refine (Uses.locals _ ((mLanczos_uses E b 1).seq fun _ => Uses.locals _ (stemr_uses E))).mono (by simp) ?_
  unfold temp
  simp only [total_cons, total_nil]
  omega

theorem lanczosN_uses (E : Env) (b : Backend) (M w : ℕ) : Uses μ no (lanczosN E b M w) (total μ (lanczosMats E w b))
    (total μ (lanczosMats E w b) + temp μ E b (.lanczosN M w : Call R)) := by
  refine (Uses.locals _ (Uses.locals _ ((mLanczos_uses E b w).seq fun _ =>
    Uses.locals _ (repeat_uses (stemr_uses E) w)))).mono (by simp) ?_
  unfold temp
  simp only [total_cons, total_nil]
  omega

theorem swap_uses (E : Env) (b : Backend) (i j : ℕ) :
    Uses μ no (swap E b) (total μ (leak E b .householder (.swap i j : Call R)))
      (total μ (leak E b .householder (.swap i j : Call R)) + temp μ E b (.swap i j : Call R)) := by
  cases b with
  | seq =>
    have := Uses.newDelete (μ := μ) (.host E.N) (Uses.pure ())
    refine Uses.mono this (Nat.zero_le _) ?_
    simp [temp, leak, total]
  | inplace =>
    refine ((Uses.new (.host E.N)).seq fun _ => Uses.pure ()).mono ?_ ?_ <;> simp [leak, total, temp]
  | _ => exact (Uses.pure ()).mono (Nat.zero_le _) (Nat.zero_le _)

theorem rr_uses (E : Env) (b : Backend) (k : ℕ) : Uses μ no (rr E b k) 0 (temp μ E b (.rr k : Call R)) := by
  cases b with
  | seq =>
    refine (Uses.locals _ (Uses.nothing _)).mono le_rfl ?_
    simp only [temp, total_cons, total_nil]; omega
  | inplace => exact Uses.nothing _
  | cuda => exact Uses.pure ()
  | mpi => exact Uses.nothing _
  | mgpu => exact Uses.pure ()

theorem checkSym_uses (E : Env) (b : Backend) : Uses μ no (checkSym E b) 0 (temp μ E b (.checkSymmetryEasy : Call R)) := by
  cases b <;> exact Uses.nothing _

/-- What the condition number loses. -/
def condLeak (E : Env) (k : ℕ) : List Res := if E.display ∧ ¬ E.zdouble then [.host (5 * min E.N k)] else []

theorem displayCond_uses (E : Env) (locked : ℕ) : Uses μ no (displayCond E locked)
    (total μ (condLeak E (E.nevex - locked))) (condTemp μ E (E.nevex - locked)) := by
  unfold displayCond condTemp condLeak
  by_cases hd : E.display = true
  · rw [if_pos hd, if_pos hd]
    unfold condEstimate
    by_cases hz : E.zdouble = true
    · simp only [hz, if_true]
      refine Uses.mono (Uses.locals _ (Uses.newDelete _ (Uses.nothing _))) (Nat.zero_le _) ?_
      simp only [total_cons, total_nil]; omega
    · simp only [hd, hz, Bool.false_eq_true, if_false, not_false_eq_true, and_self, if_true]
      refine Uses.mono (Uses.locals _ ((Uses.new _).seq fun _ => (Uses.nothing _).seq fun _ => Uses.pure ())) ?_ ?_
      all_goals simp only [total_cons, total_nil, no]; omega
  · rw [if_neg hd]
    exact (Uses.pure ()).mono (Nat.zero_le _) (Nat.zero_le _)

theorem shiftSum_uses (b : Backend) (shifted : Bool) : Uses μ no (shiftSum b shifted)
    (total μ (if shifted ∧ b = .cuda then [.device 1] else []))
    (total μ (if shifted ∧ b = .cuda then [.device 1] else [])) := by
  unfold shiftSum
  split_ifs
  · exact ((Uses.newAll _).seq fun _ => Uses.pure ()).mono (by simp) (by simp)
  · exact Uses.pure ()

theorem geqrfGqr_uses (E : Env) : Uses μ no (geqrfGqr E) 0 (total μ [.host E.work]) :=
  ((Uses.nothing _).seq fun _ => Uses.nothing _).mono le_rfl (by omega)

theorem pgeqrfPgqr_uses (E : Env) : Uses μ no (pgeqrfPgqr E) (total μ [.host 9, .host 9])
    (total μ [.host 9, .host 9] + total μ [.host E.work]) := by
  refine ((Uses.newAll _).seq fun _ => (Uses.nothing _).seq fun _ => (Uses.newAll _).seq fun _ => Uses.nothing _).mono ?_ ?_
  all_goals simp only [total_cons, total_nil]; omega

theorem hhQR_uses (E : Env) (b : Backend) (D : ℕ) (o : Obj) :
    Uses μ (later μ E b D) (hhQR E b o) (later μ E b D o + total μ (hhLeak b))
      (later μ E b D o + total μ (hhLeak b) + hhTemp μ E b) := by
  have k1 : ∀ (b : Backend), b = .seq ∨ b = .inplace → Uses μ (later μ E b D) (Memory.locals [.host E.nevex] (do geqrfGqr E; Pure.pure o))
      (later μ E b D o + total μ (hhLeak b)) (later μ E b D o + total μ (hhLeak b) + hhTemp μ E b) := by
    intro b hb
    refine (Uses.locals _ ((geqrfGqr_uses E).seq fun _ => Uses.pure o)).mono (by omega) ?_
    rcases hb with rfl | rfl <;> simp only [hhTemp, total_cons, total_nil] <;> omega
  have k2 : ∀ (b : Backend), (b = .mpi true ∨ ∃ a, b = .mgpu a true) → Uses μ (later μ E b D) (Memory.locals [.host E.nevex] (do pgeqrfPgqr E; Pure.pure o))
      (later μ E b D o + total μ (hhLeak b)) (later μ E b D o + total μ (hhLeak b) + hhTemp μ E b) := by
    intro b hb
    refine (Uses.locals _ ((pgeqrfPgqr_uses E).seq fun _ => Uses.pure o)).mono ?_ ?_
    · rcases hb with rfl | ⟨a, rfl⟩ <;> simp only [hhLeak] <;> omega
    · rcases hb with rfl | ⟨a, rfl⟩ <;> simp only [hhTemp, hhLeak, total_cons, total_nil] <;> omega
  have k3 : ∀ (b : Backend), (b = .mpi false ∨ ∃ a, b = .mgpu a false) → Uses μ (later μ E b D)
      (Memory.locals [.host E.nevex] (do let o ← allocFull E o; geqrfGqr E; Pure.pure o))
      (later μ E b D o + total μ (hhLeak b)) (later μ E b D o + total μ (hhLeak b) + hhTemp μ E b) := by
    intro b hb
    have ha : Uses μ (later μ E b D) (allocFull E o) (later μ E b D o) (later μ E b D o) := by
      unfold allocFull
      split
      · exact (Uses.pure o).mono le_rfl (Nat.zero_le _)
      · rename_i hf
        have hl : ∀ v, later μ E b D { o with full := some v } + total μ (matrix 0 (E.N * E.nevex)) = later μ E b D o := by
          intro v
          rcases hb with rfl | ⟨a, rfl⟩
          · simp [later, hf]
          · cases a <;> simp [later, hf] <;> omega
        intro h x h' e
        obtain ⟨as, h1, e1, e2⟩ := bind_some e
        have e2 : some (({ o with full := some as } : Obj), h1) = some (x, h') := e2
        injection e2 with e2
        injection e2 with e3 e4
        subst e3; subst e4
        obtain ⟨-, a2, a3⟩ := newAll_weigh (μ := μ) _ e1
        have := hl as
        exact ⟨by omega, fun l hl => (a3 l hl).imp id fun h => by omega⟩
    refine (Uses.locals _ (ha.bind fun o' => ((geqrfGqr_uses E).seq fun _ => Uses.pure o').mono
      (g' := later μ E b D o' + 0) (b' := later μ E b D o' + total μ [.host E.work]) (by omega) (by omega))).mono (by omega) ?_
    rcases hb with rfl | ⟨a, rfl⟩ <;> simp only [hhTemp, total_cons, total_nil] <;> omega
  cases b with
  | seq => exact k1 _ (Or.inl rfl)
  | inplace => exact k1 _ (Or.inr rfl)
  | cuda => exact (Uses.pure o).mono (by omega) (by omega)
  | mpi sc => cases sc; exacts [k3 _ (Or.inl rfl), k2 _ (Or.inl rfl)]
  | mgpu aw sc => cases sc; exacts [k3 _ (Or.inr ⟨aw, rfl⟩), k2 _ (Or.inr ⟨aw, rfl⟩)]

theorem qr_uses (E : Env) (b : Backend) (path : QrPath) (locked : ℕ) (c : R) (D : ℕ) (o : Obj) :
    Uses μ (later μ E b D) (qr E b path locked o) (later μ E b D o + total μ (leak E b path (.qr locked c)))
      (later μ E b D o + total μ (leak E b path (.qr locked c)) + temp μ E b (.qr locked c)) := by
  cases path with
  | householder =>
    refine (hhQR_uses E b D o).mono le_rfl ?_
    simp only [leak, temp]; omega
  | cholesky shifted failed =>
    have hl : total μ (leak E b (.cholesky shifted failed) (.qr locked c)) = total μ (condLeak E (E.nevex - locked)) +
        total μ (if shifted ∧ b = .cuda then [.device 1] else []) + total μ (if failed then hhLeak b else []) := by
      rw [← total_append, ← total_append]; rfl
    have ht : temp μ E b (.qr locked c) = condTemp μ E (E.nevex - locked) + hhTemp μ E b := rfl
    rw [hl, ht]
    refine Uses.mono ((displayCond_uses E locked).seq fun _ => (shiftSum_uses b shifted).seq fun _ =>
      (show Uses μ (later μ E b D) (if failed = true then hhQR E b o else Pure.pure o)
        (later μ E b D o + total μ (if failed then hhLeak b else []))
        (later μ E b D o + total μ (if failed then hhLeak b else []) + hhTemp μ E b) from ?_)) (by omega) (by omega)
    split_ifs
    · exact hhQR_uses E b D o
    · exact (Uses.pure o).mono (by omega) (by omega)

theorem lanczosDos_uses (E : Env) (b : Backend) (D idx m : ℕ) (hD : μ (.device (m * idx)) ≤ D) (o : Obj) :
    Uses μ (later μ E b D) (lanczosDos b idx m o) (later μ E b D o) (later μ E b D o) := by
  unfold lanczosDos
  split
  · split
    · exact (Uses.pure o).mono le_rfl (Nat.zero_le _)
    · rename_i sc _ hf
      intro h x h' e
      obtain ⟨a, h1, e1, e2⟩ := bind_some e
      have e2 : some (({ o with ritzVc := some a } : Obj), h1) = some (x, h') := e2
      injection e2 with e2
      injection e2 with e3 e4
      subst e3; subst e4
      obtain ⟨-, a2, a3⟩ := new_weigh (μ := μ) e1
      have hl : later μ E (.mgpu true sc) D { o with ritzVc := some a } + D = later μ E (.mgpu true sc) D o := by
        cases sc <;> simp [later, hf]
      exact ⟨by omega, fun l hl => (a3 l hl).imp id fun h => by omega⟩
  · exact (Uses.pure o).mono le_rfl (Nat.zero_le _)

theorem Uses.thenObj {p : Prog Unit} {f : Obj → ℕ} {g b : ℕ} (h : Uses μ no p g b) (o : Obj) (hg : g ≤ b) :
    Uses μ f (do p; Pure.pure o) (f o + g) (f o + b) := (h.seq fun _ => Uses.pure o).mono (by omega) (by omega)

/-- What a call does to the memory in use. -/
theorem call_uses (E : Env) (b : Backend) (path : QrPath) (c : Call R) (D : ℕ)
    (hD : ∀ idx m, c = .lanczosDos idx m → μ (.device (m * idx)) ≤ D) (o : Obj) :
    Uses μ (later μ E b D) (call E b path c o) (later μ E b D o + total μ (leak E b path c))
      (later μ E b D o + total μ (leak E b path c) + temp μ E b c) := by
  cases c with
  | checkSymmetryEasy => exact ((checkSym_uses (R := R) E b).thenObj o (Nat.zero_le _)).mono (by omega) (by omega)
  | qr locked cond => exact qr_uses E b path locked cond D o
  | lanczos1 m => exact ((lanczos1_uses (R := R) E b m).thenObj o (by omega)).mono le_rfl (by simp only [leak]; omega)
  | lanczosN m w => exact ((lanczosN_uses (R := R) E b m w).thenObj o (by omega)).mono le_rfl (by simp only [leak]; omega)
  | lanczosDos i m => exact (lanczosDos_uses E b D i m (hD i m rfl) o).mono (by omega) (by omega)
  | rr k => exact ((rr_uses (R := R) E b k).thenObj o (Nat.zero_le _)).mono (by omega) (by omega)
  | swap i j => exact ((swap_uses (R := R) E b i j).thenObj o (by omega)).mono le_rfl (by simp only [leak]; omega)
  | _ => exact (Uses.pure o).mono (by omega) (Nat.zero_le _)

/-- A number `t` bounds the temporary memory of the calls, and `D` the buffer `d_ritzVc_`. -/
def Small (μ : Res → ℕ) (E : Env) (b : Backend) (t D : ℕ) (tr : List (Call R)) : Prop :=
  ∀ c ∈ tr, temp μ E b c ≤ t ∧ ∀ idx m, c = .lanczosDos idx m → μ (.device (m * idx)) ≤ D

theorem calls_uses (E : Env) (b : Backend) (path : ℕ → QrPath) (t D : ℕ) (tr : List (Call R)) (k : ℕ)
    (hs : Small μ E b t D tr) (o : Obj) :
    Uses μ (later μ E b D) (calls E b path tr k o) (later μ E b D o + total μ (leaks E b path tr k))
      (later μ E b D o + total μ (leaks E b path tr k) + t) := by
  induction tr generalizing k o with
  | nil => exact (Uses.pure o).mono (by omega) (Nat.zero_le _)
  | cons c tr ih =>
    obtain ⟨h1, h2⟩ := hs c (by simp)
    have hl : total μ (leaks E b path (c :: tr) k) = total μ (leak E b (path k) c) + total μ (leaks E b path tr (k + 1)) :=
      total_append _ _
    refine ((call_uses E b (path k) c D h2 o).bind (g' := total μ (leaks E b path tr (k + 1)))
      (b' := total μ (leaks E b path tr (k + 1)) + t) fun o' =>
      (ih (k + 1) (fun c hc => hs c (List.mem_cons_of_mem _ hc)) o').mono le_rfl (by omega)).mono (by omega) (by omega)

theorem solves_uses (E : Env) (b : Backend) (path : ℕ → ℕ → QrPath) (t D : ℕ) (trs : List (List (Call R))) (k : ℕ)
    (hs : ∀ tr ∈ trs, Small μ E b t D tr) (o : Obj) :
    Uses μ (later μ E b D) (solves E b path trs k o) (later μ E b D o + total μ (allLeaks E b path trs k))
      (later μ E b D o + total μ (allLeaks E b path trs k) + t) := by
  induction trs generalizing k o with
  | nil => exact (Uses.pure o).mono (by omega) (Nat.zero_le _)
  | cons tr trs ih =>
    have hl : total μ (allLeaks E b path (tr :: trs) k) = total μ (leaks E b (path k) tr 0) +
        total μ (allLeaks E b path trs (k + 1)) := total_append _ _
    refine ((calls_uses E b (path k) t D tr 0 (hs tr (by simp)) o).bind (g' := total μ (allLeaks E b path trs (k + 1)))
      (b' := total μ (allLeaks E b path trs (k + 1)) + t) fun o' =>
      (ih (k + 1) (fun c hc => hs c (List.mem_cons_of_mem _ hc)) o').mono le_rfl (by omega)).mono (by omega) (by omega)

/-- What the object may acquire later, in the beginning. -/
def laterAll (μ : Res → ℕ) (E : Env) (b : Backend) (D : ℕ) : ℕ := later μ E b D ⟨[], none, none⟩

theorem session_uses (E : Env) (b : Backend) (path : ℕ → ℕ → QrPath) (t D : ℕ) (trs : List (List (Call R)))
    (hs : ∀ tr ∈ trs, Small μ E b t D tr) :
    Uses μ (later μ E b D) (session E b path trs)
      (total μ (b.lost E) + total μ (b.owned E) + laterAll μ E b D + total μ (allLeaks E b path trs 0))
      (total μ (b.lost E) + total μ (b.owned E) + laterAll μ E b D + total μ (allLeaks E b path trs 0) + t) := by
  have hc : Uses μ (later μ E b D) (construct E b) (total μ (b.lost E) + total μ (b.owned E) + laterAll μ E b D)
      (total μ (b.lost E) + total μ (b.owned E)) := by
    have hf : ∀ os, Uses μ (later μ E b D) (Pure.pure { owned := os, full := none, ritzVc := none } : Prog Obj)
        (laterAll μ E b D) 0 := fun os => Uses.pure _
    exact ((Uses.newAll _).seq fun _ => (Uses.newAll _).seq fun os => hf os).mono (by omega) (by omega)
  exact (hc.bind fun o => (solves_uses E b path t D trs 0 hs o).mono (g' := later μ E b D o + total μ (allLeaks E b path trs 0))
    (b' := later μ E b D o + (total μ (allLeaks E b path trs 0) + t)) le_rfl (by omega)).mono (by omega) (by omega)

end Verif.Memory
