/-
The recorder of Solver/Stamp for backends whose `Swap` does nothing: calls of `Swap` are not recorded and do not move
stamps.
-/
import Verif.Solver.NoSwap
import Verif.Solver.Stamp

set_option linter.unusedSectionVars false

namespace Verif

variable {R S V : Type*}

/-- Calls other than `Swap`. -/
def Call.moves : Call R → Bool
  | .swap _ _ => false
  | _ => true

/-- The backend with a recorder of all calls but `Swap` and a stamp for every column: `RR` of the last `b` of `n`
columns marks these with the calls before. -/
def quiet (n : ℕ) (ops : Chase R S) : Chase R (S × List (Call R) × (ℕ → Option (List (Call R)))) where
  checkSymmetryEasy := fun s => ((ops.checkSymmetryEasy s.1).1,
    ((ops.checkSymmetryEasy s.1).2, s.2.1 ++ [.checkSymmetryEasy], s.2.2))
  start := fun s => (ops.start s.1, s.2.1 ++ [.start], s.2.2)
  finish := fun s => (ops.finish s.1, s.2.1 ++ [.finish], s.2.2)
  initVecs := fun b s => (ops.initVecs b s.1, s.2.1 ++ [.initVecs b], s.2.2)
  qr := fun k c s => (ops.qr k c s.1, s.2.1 ++ [.qr k c], s.2.2)
  lanczos1 := fun m s => ((ops.lanczos1 m s.1).1, ((ops.lanczos1 m s.1).2, s.2.1 ++ [.lanczos1 m], s.2.2))
  lanczosN := fun m k s => ((ops.lanczosN m k s.1).1, ((ops.lanczosN m k s.1).2, s.2.1 ++ [.lanczosN m k], s.2.2))
  lanczosDos := fun i m z s => (ops.lanczosDos i m z s.1, s.2.1 ++ [.lanczosDos i m], s.2.2)
  shift := fun c b s => (ops.shift c b s.1, s.2.1 ++ [.shift c b], s.2.2)
  hemm := fun k a b o s => (ops.hemm k a b o s.1, s.2.1 ++ [.hemm k a b o], s.2.2)
  rr := fun b s => ((ops.rr b s.1).1,
    ((ops.rr b s.1).2, s.2.1 ++ [.rr b], writeAt s.2.2 (n - b) b fun _ => some s.2.1))
  resd := fun f k s => ((ops.resd f k s.1).1, ((ops.resd f k s.1).2, s.2.1 ++ [.resd k], s.2.2))
  lock := fun k s => (ops.lock k s.1, s.2.1 ++ [.lock k], s.2.2)
  swap := fun i j s => (ops.swap i j s.1, s.2)

/-- Recording does not influence the run, and the record is the trace without the calls of `Swap`. -/
theorem quiet_sim (n : ℕ) (ops : Chase R S) :
    Sim (quiet n ops) (traced ops) (fun p s => p.1 = s.1 ∧ p.2.1 = s.2.filter Call.moves) := by
  constructor <;> intros <;> rename_i h <;> obtain ⟨h1, h2⟩ := h <;>
    simp [quiet, traced, h1, h2, Call.moves, List.filter_append, List.filter_cons]

/-- It runs as the backend itself. -/
theorem quiet_sim_ops (n : ℕ) (ops : Chase R S) : Sim (quiet n ops) ops (fun p s => p.1 = s) := by
  constructor <;> intros <;> subst_vars <;> simp [quiet]

/-- Stamps are followed by a call of `RR` in the record. -/
theorem quiet_stamps (n : ℕ) (ops : Chase R S) :
    Keeps (quiet n ops) (fun s => ∀ i t, s.2.2 i = some t → ∃ b, t ++ [Call.rr b] <+: s.2.1) := by
  have ext : ∀ {tr : List (Call R)} {c : Call R} {tag : ℕ → Option (List (Call R))},
      (∀ i t, tag i = some t → ∃ b, t ++ [Call.rr b] <+: tr) →
      ∀ i t, tag i = some t → ∃ b, t ++ [Call.rr b] <+: tr ++ [c] := by
    intro tr c tag h i t ht
    obtain ⟨b, hb⟩ := h i t ht
    exact ⟨b, hb.trans (List.prefix_append _ _)⟩
  exact {
    checkSymmetryEasy := fun _ h => ext h
    start := fun _ h => ext h
    finish := fun _ h => ext h
    initVecs := fun _ _ h => ext h
    qr := fun _ _ _ h => ext h
    lanczos1 := fun _ _ h => ext h
    lanczosN := fun _ _ _ h => ext h
    lanczosDos := fun _ _ _ _ h => ext h
    shift := fun _ _ _ h => ext h
    hemm := fun _ _ _ _ _ h => ext h
    rr := fun b s h i t ht => by
      have ht' : writeAt s.2.2 (n - b) b (fun _ => some s.2.1) i = some t := ht
      unfold writeAt at ht'
      split_ifs at ht' with hc
      · cases ht'
        exact ⟨b, List.prefix_refl _⟩
      · exact ext h i t ht'
    resd := fun _ _ _ h => ext h
    lock := fun _ _ h => ext h
    swap := fun i j s h => h }

/-- A beginning of the record that ends with a call other than `Swap` comes from a beginning of the trace. -/
theorem prefix_of_filter {c : Call R} (tr : List (Call R)) (t : List (Call R))
    (h : t ++ [c] <+: tr.filter Call.moves) : ∃ t', t' ++ [c] <+: tr ∧ t'.filter Call.moves = t := by
  induction tr generalizing t with
  | nil => simp at h
  | cons x tr ih =>
    cases hx : x.moves with
    | false =>
      rw [List.filter_cons_of_neg (by simp [hx])] at h
      obtain ⟨t', h1, h2⟩ := ih t h
      refine ⟨x :: t', ?_, by rw [List.filter_cons_of_neg (by simp [hx]), h2]⟩
      exact List.cons_prefix_cons.mpr ⟨rfl, h1⟩
    | true =>
      rw [List.filter_cons_of_pos hx] at h
      cases t with
      | nil =>
        have : c = x := (List.cons_prefix_cons.mp h).1
        subst this
        exact ⟨[], List.cons_prefix_cons.mpr ⟨rfl, List.nil_prefix⟩, rfl⟩
      | cons y t =>
        obtain ⟨h1, h2⟩ := List.cons_prefix_cons.mp h
        subst h1
        obtain ⟨t', h3, h4⟩ := ih t h2
        refine ⟨y :: t', List.cons_prefix_cons.mpr ⟨rfl, h3⟩, ?_⟩
        rw [List.filter_cons_of_pos hx, h4]

section
variable [Add R] [Sub R] [Mul R] [Div R] [Neg R] [Zero R] [One R] [NatCast R] [LT R] [DecidableLT R]
  {ops : Chase R S} {cols : S → ℕ → V} {nl : S → ℕ} {ph : Phases S} {N n : ℕ}

/-- Adding to the phases what every call keeps. -/
theorem Frame.keep (hb : Frame ops cols nl ph N n) {J : S → Prop} (h : Keeps ops J) :
    Frame ops cols nl ⟨fun s => ph.pre s ∧ J s, fun s => ph.inv s ∧ J s, fun s => ph.ready s ∧ J s,
      fun s => ph.synced s ∧ J s⟩ N n where
  swap_low := hb.swap_low
  swap_nl := hb.swap_nl
  swap_inv := fun i j s a b c d e => ⟨hb.swap_inv i j s a b c d e.1, h.swap _ _ _ e.2⟩
  swap_synced := fun i j s a b c d e => ⟨hb.swap_synced i j s a b c d e.1, h.swap _ _ _ e.2⟩
  filter := by
    intro deg av degrees lambda lower upper s s' hi hd hs hdd hf
    obtain ⟨a, b, c⟩ := hb.filter deg av degrees lambda lower upper s s' hi.1 hd hs hdd hf
    exact ⟨a, ⟨b, filter_frame h.shift h.hemm hs (fun j h1 h2 => (hdd j h1 h2).2) hf hi.2⟩, c⟩
  qr := by
    intro k c s hi
    obtain ⟨a, b, c', d⟩ := hb.qr k c s hi.1
    exact ⟨a, ⟨b, h.qr _ _ _ hi.2⟩, ⟨c', h.qr _ _ _ hi.2⟩, d⟩
  rr := by
    intro s hi hl
    obtain ⟨a, b, c⟩ := hb.rr s hi.1 hl
    exact ⟨a, ⟨b, h.rr _ _ hi.2⟩, c⟩
  resd := by
    intro f k s hi
    obtain ⟨a, b, c⟩ := hb.resd f k s hi.1
    exact ⟨a, ⟨b, h.resd _ _ _ hi.2⟩, c⟩
  lock := by
    intro k s hi hl
    obtain ⟨a, b, c⟩ := hb.lock k s hi.1 hl
    exact ⟨a, ⟨b, h.lock _ _ hi.2⟩, c⟩
  start := fun s hi => ⟨(hb.start s hi.1).1, (hb.start s hi.1).2, h.start _ hi.2⟩
  check := fun s hi => ⟨hb.check s hi.1, h.checkSymmetryEasy _ hi.2⟩
  initVecs := fun b s hi hl => ⟨(hb.initVecs b s hi.1 hl).1, (hb.initVecs b s hi.1 hl).2, h.initVecs _ _ hi.2⟩
  lanczos1 := fun m s hi hl => ⟨(hb.lanczos1 m s hi.1 hl).1, (hb.lanczos1 m s hi.1 hl).2, h.lanczos1 _ _ hi.2⟩
  lanczosN := fun m k s hi hl =>
    ⟨(hb.lanczosN m k s hi.1 hl).1, (hb.lanczosN m k s hi.1 hl).2, h.lanczosN _ _ _ hi.2⟩
  lanczosDos := fun i m z s hi hl =>
    ⟨(hb.lanczosDos i m z s hi.1 hl).1, (hb.lanczosDos i m z s hi.1 hl).2, h.lanczosDos _ _ _ _ hi.2⟩
  finish := hb.finish

/-- Adding to the phases what every call from `initVecs` on keeps. -/
theorem Frame.keepAfter (hb : Frame ops cols nl ph N n) {J0 J : S → Prop} (h : KeepsAfter ops J0 J) :
    Frame ops cols nl ⟨fun s => ph.pre s ∧ J0 s, fun s => ph.inv s ∧ J s, fun s => ph.ready s ∧ J s,
      fun s => ph.synced s ∧ J s⟩ N n where
  swap_low := hb.swap_low
  swap_nl := hb.swap_nl
  swap_inv := fun i j s a b c d e => ⟨hb.swap_inv i j s a b c d e.1, h.swap _ _ _ e.2⟩
  swap_synced := fun i j s a b c d e => ⟨hb.swap_synced i j s a b c d e.1, h.swap _ _ _ e.2⟩
  filter := by
    intro deg av degrees lambda lower upper s s' hi hd hs hdd hf
    obtain ⟨a, b, c⟩ := hb.filter deg av degrees lambda lower upper s s' hi.1 hd hs hdd hf
    exact ⟨a, ⟨b, filter_frame h.shift h.hemm hs (fun j h1 h2 => (hdd j h1 h2).2) hf hi.2⟩, c⟩
  qr := by
    intro k c s hi
    obtain ⟨a, b, c', d⟩ := hb.qr k c s hi.1
    exact ⟨a, ⟨b, h.qr _ _ _ hi.2⟩, ⟨c', h.qr _ _ _ hi.2⟩, d⟩
  rr := by
    intro s hi hl
    obtain ⟨a, b, c⟩ := hb.rr s hi.1 hl
    exact ⟨a, ⟨b, h.rr _ _ hi.2⟩, c⟩
  resd := by
    intro f k s hi
    obtain ⟨a, b, c⟩ := hb.resd f k s hi.1
    exact ⟨a, ⟨b, h.resd _ _ _ hi.2⟩, c⟩
  lock := by
    intro k s hi hl
    obtain ⟨a, b, c⟩ := hb.lock k s hi.1 hl
    exact ⟨a, ⟨b, h.lock _ _ hi.2⟩, c⟩
  start := fun s hi => ⟨(hb.start s hi.1).1, (hb.start s hi.1).2, h.start _ hi.2⟩
  check := fun s hi => ⟨hb.check s hi.1, h.checkSymmetryEasy _ hi.2⟩
  initVecs := fun b s hi hl => ⟨(hb.initVecs b s hi.1 hl).1, (hb.initVecs b s hi.1 hl).2, h.initVecs _ _ hi.2⟩
  lanczos1 := fun m s hi hl => ⟨(hb.lanczos1 m s hi.1 hl).1, (hb.lanczos1 m s hi.1 hl).2, h.lanczos1 _ _ hi.2⟩
  lanczosN := fun m k s hi hl =>
    ⟨(hb.lanczosN m k s hi.1 hl).1, (hb.lanczosN m k s hi.1 hl).2, h.lanczosN _ _ _ hi.2⟩
  lanczosDos := fun i m z s hi hl =>
    ⟨(hb.lanczosDos i m z s hi.1 hl).1, (hb.lanczosDos i m z s hi.1 hl).2, h.lanczosDos _ _ _ _ hi.2⟩
  finish := hb.finish

/-- The recorder keeps the contract; the columns are pairs of a column and its stamp. -/
theorem Frame.quiet (hb : Frame ops cols nl ph N n) :
    Frame (quiet n ops) (fun s i => (cols s.1 i, s.2.2 i)) (fun s => nl s.1)
      ⟨fun s => ph.pre s.1, fun s => ph.inv s.1, fun s => ph.ready s.1, fun s => ph.synced s.1⟩ N n where
  swap_low := fun i j s a b c d k hk => congrArg (·, s.2.2 k) (hb.swap_low i j s.1 a b c d k hk)
  swap_nl := fun i j s => hb.swap_nl i j s.1
  swap_inv := fun i j s => hb.swap_inv i j s.1
  swap_synced := fun i j s => hb.swap_synced i j s.1
  filter := by
    intro deg av degrees lambda lower upper s s' hi hd hs hdd hf
    have htag : s'.2.2 = s.2.2 := filter_frame
      (P := fun t : S × List (Call R) × (ℕ → Option (List (Call R))) => t.2.2 = s.2.2) (fun _ _ _ h => h)
      (fun _ _ _ _ _ h => h) hs (fun j h1 h2 => (hdd j h1 h2).2) hf rfl
    obtain ⟨t, ht, rfl⟩ := filter_of_sim (quiet_sim_ops n ops) (be := s.1) rfl hf
    obtain ⟨a, b, c⟩ := hb.filter deg av degrees lambda lower upper s.1 _ hi hd hs hdd ht
    exact ⟨a, b, fun i hi => by rw [c i hi, htag]⟩
  qr := fun k c s hi => by
    obtain ⟨a, b, c, d⟩ := hb.qr k c s.1 hi
    exact ⟨a, b, c, fun i hi => congrArg (·, s.2.2 i) (d i hi)⟩
  rr := fun s hi hl => by
    obtain ⟨a, b, c⟩ := hb.rr s.1 hi hl
    refine ⟨a, b, fun i hi => ?_⟩
    show (cols (ops.rr (n - nl s.1) s.1).2 i,
      writeAt s.2.2 (n - (n - nl s.1)) (n - nl s.1) (fun _ => some s.2.1) i) = (cols s.1 i, s.2.2 i)
    rw [c i hi]
    unfold writeAt
    rw [if_neg (by omega)]
  resd := fun f k s hi => by
    obtain ⟨a, b, c⟩ := hb.resd f k s.1 hi
    exact ⟨a, b, funext fun i => congrArg (·, s.2.2 i) (congrFun c i)⟩
  lock := fun k s hi hl => by
    obtain ⟨a, b, c⟩ := hb.lock k s.1 hi hl
    exact ⟨a, b, funext fun i => congrArg (·, s.2.2 i) (congrFun c i)⟩
  start := fun s => hb.start s.1
  check := fun s => hb.check s.1
  initVecs := fun b s => hb.initVecs b s.1
  lanczos1 := fun m s => hb.lanczos1 m s.1
  lanczosN := fun m k s => hb.lanczosN m k s.1
  lanczosDos := fun i m z s => hb.lanczosDos i m z s.1
  finish := fun s => funext fun i => congrArg (·, s.2.2 i) (congrFun (hb.finish s.1) i)

end
end Verif
