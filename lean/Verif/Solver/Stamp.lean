/-
Ghost information carried along with the columns of the search space: when was a column last computed by Rayleigh-Ritz.
Used to relate the residual of a returned pair to the state of the backend at the time it was computed.
-/
import Verif.Solver.EndProof
import Verif.Filter.Proof
import Verif.Solver.ProtocolProps

set_option linter.unusedSectionVars false

namespace Verif

variable {R S V T : Type*}

/-- Every call keeps `J`. -/
structure Keeps (ops : Chase R S) (J : S → Prop) : Prop where
  checkSymmetryEasy : ∀ s, J s → J (ops.checkSymmetryEasy s).2
  start : ∀ s, J s → J (ops.start s)
  finish : ∀ s, J s → J (ops.finish s)
  initVecs : ∀ b s, J s → J (ops.initVecs b s)
  qr : ∀ k c s, J s → J (ops.qr k c s)
  lanczos1 : ∀ m s, J s → J (ops.lanczos1 m s).2
  lanczosN : ∀ m k s, J s → J (ops.lanczosN m k s).2
  lanczosDos : ∀ i m z s, J s → J (ops.lanczosDos i m z s)
  shift : ∀ c b s, J s → J (ops.shift c b s)
  hemm : ∀ n a b o s, J s → J (ops.hemm n a b o s)
  rr : ∀ b s, J s → J (ops.rr b s).2
  resd : ∀ f k s, J s → J (ops.resd f k s).2
  lock : ∀ k s, J s → J (ops.lock k s)
  swap : ∀ i j s, J s → J (ops.swap i j s)

/-- The backend `ops` with a stamp for every column: `RR` of the last `b` of `n` columns marks these with `now` of the
state before the call, `Swap` exchanges the marks. -/
def stamped (n : ℕ) (now : S → T) (ops : Chase R S) : Chase R (S × (ℕ → Option T)) where
  checkSymmetryEasy := fun s => ((ops.checkSymmetryEasy s.1).1, ((ops.checkSymmetryEasy s.1).2, s.2))
  start := fun s => (ops.start s.1, s.2)
  finish := fun s => (ops.finish s.1, s.2)
  initVecs := fun b s => (ops.initVecs b s.1, s.2)
  qr := fun k c s => (ops.qr k c s.1, s.2)
  lanczos1 := fun m s => ((ops.lanczos1 m s.1).1, ((ops.lanczos1 m s.1).2, s.2))
  lanczosN := fun m k s => ((ops.lanczosN m k s.1).1, ((ops.lanczosN m k s.1).2, s.2))
  lanczosDos := fun i m z s => (ops.lanczosDos i m z s.1, s.2)
  shift := fun c b s => (ops.shift c b s.1, s.2)
  hemm := fun k a b o s => (ops.hemm k a b o s.1, s.2)
  rr := fun b s => ((ops.rr b s.1).1, ((ops.rr b s.1).2, writeAt s.2 (n - b) b fun _ => some (now s.1)))
  resd := fun f k s => ((ops.resd f k s.1).1, ((ops.resd f k s.1).2, s.2))
  lock := fun k s => (ops.lock k s.1, s.2)
  swap := fun i j s => (ops.swap i j s.1, swapAt s.2 i j)

/-- Stamping does not influence the run. -/
theorem stamped_sim (n : ℕ) (now : S → T) (ops : Chase R S) :
    Sim (stamped n now ops) ops (fun p s => p.1 = s) := by
  constructor <;> intros <;> subst_vars <;> simp [stamped]

section
variable [Add R] [Sub R] [Mul R] [Div R] [Neg R] [Zero R] [One R] [NatCast R] [LT R] [DecidableLT R]
  {ops : Chase R S} {cols : S → ℕ → V} {nl : S → ℕ} {ph : Phases S} {N n : ℕ}

/-- What every call keeps holds at the end. -/
theorem Keeps.solve {J : S → Prop} (h : Keeps ops J) {P : Plat R} {cfg : Config R} {ritzv0 resid0 : ℕ → R} {be : S}
    {out : Outcome R S} (hs : Verif.solve P ops cfg ritzv0 resid0 be = .ok out) (hb : J be) : J out.be := by
  have hsim : Sim ops ops (fun a b => a = b ∧ J a) := by
    constructor <;> intros <;> rename_i hr <;> obtain ⟨rfl, hj⟩ := hr
    · exact ⟨rfl, rfl, h.checkSymmetryEasy _ hj⟩
    · exact ⟨rfl, h.start _ hj⟩
    · exact ⟨rfl, h.finish _ hj⟩
    · exact ⟨rfl, h.initVecs _ _ hj⟩
    · exact ⟨rfl, h.qr _ _ _ hj⟩
    · exact ⟨rfl, rfl, h.lanczos1 _ _ hj⟩
    · exact ⟨rfl, rfl, h.lanczosN _ _ _ hj⟩
    · exact ⟨rfl, h.lanczosDos _ _ _ _ hj⟩
    · exact ⟨rfl, h.shift _ _ _ hj⟩
    · exact ⟨rfl, h.hemm _ _ _ _ _ hj⟩
    · exact ⟨rfl, rfl, h.rr _ _ hj⟩
    · exact ⟨rfl, rfl, h.resd _ _ _ hj⟩
    · exact ⟨rfl, h.lock _ _ hj⟩
    · exact ⟨rfl, h.swap _ _ _ hj⟩
  have := solve_sim hsim P cfg ritzv0 resid0 (be := be) (be' := be) ⟨rfl, hb⟩
  rw [hs] at this
  cases this with
  | ok h => exact h.be.2

/-- Adding to the phases what every call keeps. -/
theorem Bookkeeping.keep (hb : Bookkeeping ops cols nl ph N n) {J : S → Prop} (h : Keeps ops J) :
    Bookkeeping ops cols nl ⟨fun s => ph.pre s ∧ J s, fun s => ph.inv s ∧ J s, fun s => ph.ready s ∧ J s,
      fun s => ph.synced s ∧ J s⟩ N n where
  swap := hb.swap
  swap_nl := hb.swap_nl
  swap_inv := fun i j s a b c d e => ⟨hb.swap_inv i j s a b c d e.1, h.swap _ _ _ e.2⟩
  swap_synced := fun i j s a b c d e => ⟨hb.swap_synced i j s a b c d e.1, h.swap _ _ _ e.2⟩
  filter := by
    intro deg av degrees lambda lower upper s s' hi hd hs hdd hf
    obtain ⟨a, b, c⟩ := hb.filter deg av degrees lambda lower upper s s' hi.1 hd hs hdd hf
    exact ⟨a, ⟨b, filter_frame h.shift h.hemm hs (fun j h1 h2 => (hdd j h1 h2).2) hf hi.2⟩, c⟩
  qr := by
    intro k c s hi
    obtain ⟨a, b, c', d⟩ := hb.qr k c s hi.1
    exact ⟨a, ⟨b, h.qr _ _ _ hi.2⟩, ⟨c', h.qr _ _ _ hi.2⟩, d⟩
  rr := by
    intro s hi hl
    obtain ⟨a, b, c⟩ := hb.rr s hi.1 hl
    exact ⟨a, ⟨b, h.rr _ _ hi.2⟩, c⟩
  resd := by
    intro f k s hi
    obtain ⟨a, b, c⟩ := hb.resd f k s hi.1
    exact ⟨a, ⟨b, h.resd _ _ _ hi.2⟩, c⟩
  lock := by
    intro k s hi hl
    obtain ⟨a, b, c⟩ := hb.lock k s hi.1 hl
    exact ⟨a, ⟨b, h.lock _ _ hi.2⟩, c⟩
  start := fun s hi => ⟨(hb.start s hi.1).1, (hb.start s hi.1).2, h.start _ hi.2⟩
  check := fun s hi => ⟨hb.check s hi.1, h.checkSymmetryEasy _ hi.2⟩
  initVecs := fun b s hi hl => ⟨(hb.initVecs b s hi.1 hl).1, (hb.initVecs b s hi.1 hl).2, h.initVecs _ _ hi.2⟩
  lanczos1 := fun m s hi hl => ⟨(hb.lanczos1 m s hi.1 hl).1, (hb.lanczos1 m s hi.1 hl).2, h.lanczos1 _ _ hi.2⟩
  lanczosN := fun m k s hi hl =>
    ⟨(hb.lanczosN m k s hi.1 hl).1, (hb.lanczosN m k s hi.1 hl).2, h.lanczosN _ _ _ hi.2⟩
  lanczosDos := fun i m z s hi hl =>
    ⟨(hb.lanczosDos i m z s hi.1 hl).1, (hb.lanczosDos i m z s hi.1 hl).2, h.lanczosDos _ _ _ _ hi.2⟩
  finish := hb.finish

/-- Every call that may follow `initVecs` keeps `J`, and `initVecs` establishes it from `J0`. -/
structure KeepsAfter (ops : Chase R S) (J0 J : S → Prop) : Prop where
  checkSymmetryEasy : ∀ s, J0 s → J0 (ops.checkSymmetryEasy s).2
  start : ∀ s, J0 s → J0 (ops.start s)
  initVecs : ∀ b s, J0 s → J (ops.initVecs b s)
  qr : ∀ k c s, J s → J (ops.qr k c s)
  lanczos1 : ∀ m s, J s → J (ops.lanczos1 m s).2
  lanczosN : ∀ m k s, J s → J (ops.lanczosN m k s).2
  lanczosDos : ∀ i m z s, J s → J (ops.lanczosDos i m z s)
  shift : ∀ c b s, J s → J (ops.shift c b s)
  hemm : ∀ n a b o s, J s → J (ops.hemm n a b o s)
  rr : ∀ b s, J s → J (ops.rr b s).2
  resd : ∀ f k s, J s → J (ops.resd f k s).2
  lock : ∀ k s, J s → J (ops.lock k s)
  swap : ∀ i j s, J s → J (ops.swap i j s)

/-- Adding to the phases what every call keeps. -/
theorem Bookkeeping.keepAfter (hb : Bookkeeping ops cols nl ph N n) {J0 J : S → Prop} (h : KeepsAfter ops J0 J) :
    Bookkeeping ops cols nl ⟨fun s => ph.pre s ∧ J0 s, fun s => ph.inv s ∧ J s, fun s => ph.ready s ∧ J s,
      fun s => ph.synced s ∧ J s⟩ N n where
  swap := hb.swap
  swap_nl := hb.swap_nl
  swap_inv := fun i j s a b c d e => ⟨hb.swap_inv i j s a b c d e.1, h.swap _ _ _ e.2⟩
  swap_synced := fun i j s a b c d e => ⟨hb.swap_synced i j s a b c d e.1, h.swap _ _ _ e.2⟩
  filter := by
    intro deg av degrees lambda lower upper s s' hi hd hs hdd hf
    obtain ⟨a, b, c⟩ := hb.filter deg av degrees lambda lower upper s s' hi.1 hd hs hdd hf
    exact ⟨a, ⟨b, filter_frame h.shift h.hemm hs (fun j h1 h2 => (hdd j h1 h2).2) hf hi.2⟩, c⟩
  qr := by
    intro k c s hi
    obtain ⟨a, b, c', d⟩ := hb.qr k c s hi.1
    exact ⟨a, ⟨b, h.qr _ _ _ hi.2⟩, ⟨c', h.qr _ _ _ hi.2⟩, d⟩
  rr := by
    intro s hi hl
    obtain ⟨a, b, c⟩ := hb.rr s hi.1 hl
    exact ⟨a, ⟨b, h.rr _ _ hi.2⟩, c⟩
  resd := by
    intro f k s hi
    obtain ⟨a, b, c⟩ := hb.resd f k s hi.1
    exact ⟨a, ⟨b, h.resd _ _ _ hi.2⟩, c⟩
  lock := by
    intro k s hi hl
    obtain ⟨a, b, c⟩ := hb.lock k s hi.1 hl
    exact ⟨a, ⟨b, h.lock _ _ hi.2⟩, c⟩
  start := fun s hi => ⟨(hb.start s hi.1).1, (hb.start s hi.1).2, h.start _ hi.2⟩
  check := fun s hi => ⟨hb.check s hi.1, h.checkSymmetryEasy _ hi.2⟩
  initVecs := fun b s hi hl => ⟨(hb.initVecs b s hi.1 hl).1, (hb.initVecs b s hi.1 hl).2, h.initVecs _ _ hi.2⟩
  lanczos1 := fun m s hi hl => ⟨(hb.lanczos1 m s hi.1 hl).1, (hb.lanczos1 m s hi.1 hl).2, h.lanczos1 _ _ hi.2⟩
  lanczosN := fun m k s hi hl =>
    ⟨(hb.lanczosN m k s hi.1 hl).1, (hb.lanczosN m k s hi.1 hl).2, h.lanczosN _ _ _ hi.2⟩
  lanczosDos := fun i m z s hi hl =>
    ⟨(hb.lanczosDos i m z s hi.1 hl).1, (hb.lanczosDos i m z s hi.1 hl).2, h.lanczosDos _ _ _ _ hi.2⟩
  finish := hb.finish

theorem Keeps.after {J : S → Prop} (h : Keeps ops J) : KeepsAfter ops J J where
  checkSymmetryEasy := h.checkSymmetryEasy
  start := h.start
  initVecs := h.initVecs
  qr := h.qr
  lanczos1 := h.lanczos1
  lanczosN := h.lanczosN
  lanczosDos := h.lanczosDos
  shift := h.shift
  hemm := h.hemm
  rr := h.rr
  resd := h.resd
  lock := h.lock
  swap := h.swap

/-- A filter call of a backend that simulates another one is a filter call of that one. -/
theorem filter_of_sim {S' : Type*} {ops' : Chase R S'} {r : S' → S → Prop} (hs : Sim ops' ops r) {k u deg dsize p0 : ℕ}
    {degrees : ℕ → ℕ} {lambda1 lower upper : R} {be : S} {be' : S'} (h : r be' be) {av : ℕ} {t' : S'}
    (hf : filter ops' k u deg degrees dsize p0 lambda1 lower upper be' = .ok (av, t')) :
    ∃ t, filter ops k u deg degrees dsize p0 lambda1 lower upper be = .ok (av, t) ∧ r t' t := by
  have := filter_sim hs k u deg degrees dsize p0 lambda1 lower upper h
  rw [hf] at this
  generalize filter ops k u deg degrees dsize p0 lambda1 lower upper be = x at this ⊢
  cases this with
  | @ok _ b hr =>
    obtain ⟨c, t⟩ := b
    obtain ⟨h1, h2⟩ := hr
    dsimp only at h1 h2
    subst h1
    exact ⟨t, rfl, h2⟩

/-- The recorder keeps the contract. -/
theorem Bookkeeping.traced (hb : Bookkeeping ops cols nl ph N n) :
    Bookkeeping (traced ops) (fun s => cols s.1) (fun s => nl s.1)
      ⟨fun s => ph.pre s.1, fun s => ph.inv s.1, fun s => ph.ready s.1, fun s => ph.synced s.1⟩ N n where
  swap := fun i j s => hb.swap i j s.1
  swap_nl := fun i j s => hb.swap_nl i j s.1
  swap_inv := fun i j s => hb.swap_inv i j s.1
  swap_synced := fun i j s => hb.swap_synced i j s.1
  filter := by
    intro deg av degrees lambda lower upper s s' hi hd hs hdd hf
    obtain ⟨t, ht, rfl⟩ := filter_of_sim (traced_sim ops) (be := s.1) rfl hf
    exact hb.filter deg av degrees lambda lower upper s.1 _ hi hd hs hdd ht
  qr := fun k c s => hb.qr k c s.1
  rr := fun s => hb.rr s.1
  resd := fun f k s => hb.resd f k s.1
  lock := fun k s => hb.lock k s.1
  start := fun s => hb.start s.1
  check := fun s => hb.check s.1
  initVecs := fun b s => hb.initVecs b s.1
  lanczos1 := fun m s => hb.lanczos1 m s.1
  lanczosN := fun m k s => hb.lanczosN m k s.1
  lanczosDos := fun i m z s => hb.lanczosDos i m z s.1
  finish := fun s => hb.finish s.1

/-- With stamps the columns are pairs of a column and its stamp. -/
theorem Bookkeeping.stamped (now : S → T) (hb : Bookkeeping ops cols nl ph N n) :
    Bookkeeping (stamped n now ops) (fun s i => (cols s.1 i, s.2 i)) (fun s => nl s.1)
      ⟨fun s => ph.pre s.1, fun s => ph.inv s.1, fun s => ph.ready s.1, fun s => ph.synced s.1⟩ N n where
  swap := by
    intro i j s hi hj
    funext k
    show (cols (ops.swap i j s.1) k, swapAt s.2 i j k) = _
    rw [hb.swap i j s.1 hi hj, swapAt_apply, swapAt_apply, swapAt_apply]
    split_ifs <;> rfl
  swap_nl := fun i j s => hb.swap_nl i j s.1
  swap_inv := fun i j s => hb.swap_inv i j s.1
  swap_synced := fun i j s => hb.swap_synced i j s.1
  filter := by
    intro deg av degrees lambda lower upper s s' hi hd hs hdd hf
    have htag : s'.2 = s.2 := filter_frame (P := fun t : S × (ℕ → Option T) => t.2 = s.2) (fun _ _ _ h => h)
      (fun _ _ _ _ _ h => h) hs (fun j h1 h2 => (hdd j h1 h2).2) hf rfl
    obtain ⟨t, ht, rfl⟩ := filter_of_sim (stamped_sim n now ops) (be := s.1) rfl hf
    obtain ⟨a, b, c⟩ := hb.filter deg av degrees lambda lower upper s.1 _ hi hd hs hdd ht
    exact ⟨a, b, fun i hi => by rw [c i hi, htag]⟩
  qr := fun k c s hi => by
    obtain ⟨a, b, c, d⟩ := hb.qr k c s.1 hi
    exact ⟨a, b, c, fun i hi => congrArg (·, s.2 i) (d i hi)⟩
  rr := fun s hi hl => by
    obtain ⟨a, b, c⟩ := hb.rr s.1 hi hl
    refine ⟨a, b, fun i hi => ?_⟩
    show (cols (ops.rr (n - nl s.1) s.1).2 i,
      writeAt s.2 (n - (n - nl s.1)) (n - nl s.1) (fun _ => some (now s.1)) i) = (cols s.1 i, s.2 i)
    rw [c i hi]
    unfold writeAt
    rw [if_neg (by omega)]
  resd := fun f k s hi => by
    obtain ⟨a, b, c⟩ := hb.resd f k s.1 hi
    exact ⟨a, b, funext fun i => congrArg (·, s.2 i) (congrFun c i)⟩
  lock := fun k s hi hl => by
    obtain ⟨a, b, c⟩ := hb.lock k s.1 hi hl
    exact ⟨a, b, funext fun i => congrArg (·, s.2 i) (congrFun c i)⟩
  start := fun s => hb.start s.1
  check := fun s => hb.check s.1
  initVecs := fun b s => hb.initVecs b s.1
  lanczos1 := fun m s => hb.lanczos1 m s.1
  lanczosN := fun m k s => hb.lanczosN m k s.1
  lanczosDos := fun i m z s => hb.lanczosDos i m z s.1
  finish := fun s => funext fun i => congrArg (·, s.2 i) (congrFun (hb.finish s.1) i)

/-- Stamps that are the trace before the call are followed by that call in the trace. -/
theorem stamps_keep (ops : Chase R S) (n : ℕ) :
    Keeps (stamped n (fun s : S × List (Call R) => s.2) (traced ops))
      (fun s => ∀ i t, s.2 i = some t → ∃ b, t ++ [Call.rr b] <+: s.1.2) := by
  have ext : ∀ {tr : List (Call R)} {c : Call R} {tag : ℕ → Option (List (Call R))},
      (∀ i t, tag i = some t → ∃ b, t ++ [Call.rr b] <+: tr) →
      ∀ i t, tag i = some t → ∃ b, t ++ [Call.rr b] <+: tr ++ [c] := by
    intro tr c tag h i t ht
    obtain ⟨b, hb⟩ := h i t ht
    exact ⟨b, hb.trans (List.prefix_append _ _)⟩
  exact {
    checkSymmetryEasy := fun _ h => ext h
    start := fun _ h => ext h
    finish := fun _ h => ext h
    initVecs := fun _ _ h => ext h
    qr := fun _ _ _ h => ext h
    lanczos1 := fun _ _ h => ext h
    lanczosN := fun _ _ _ h => ext h
    lanczosDos := fun _ _ _ _ h => ext h
    shift := fun _ _ _ h => ext h
    hemm := fun _ _ _ _ _ h => ext h
    rr := fun b s h i t ht => by
      have ht' : writeAt s.2 (n - b) b (fun _ => some s.1.2) i = some t := ht
      unfold writeAt at ht'
      split_ifs at ht' with hc
      · cases ht'
        exact ⟨b, List.prefix_refl _⟩
      · exact ext h i t ht'
    resd := fun _ _ _ h => ext h
    lock := fun _ _ h => ext h
    swap := fun i j s h k t ht => by
      have ht' : swapAt s.2 i j k = some t := ht
      rw [swapAt_apply] at ht'
      split_ifs at ht' <;> exact ext h _ t ht' }

end
end Verif
