/-
The stamps of Solver/Stamp for backends whose `Swap` does nothing: calls of `Swap` do not move stamps.
-/
import Verif.Solver.Quiet
import Verif.Solver.WatchMore

set_option linter.unusedSectionVars false

namespace Verif

variable {R S S' V τ : Type*}

/-- The backend with a stamp for every column: `RR` of the last `b` of `n` columns marks these with `now`. -/
def still (n : ℕ) (now : S → τ) (ops : Chase R S) : Chase R (S × (ℕ → Option τ)) :=
  { stamped n now ops with swap := fun i j s => (ops.swap i j s.1, s.2) }

theorem still_sim (n : ℕ) (now : S → τ) (ops : Chase R S) : Sim (still n now ops) ops (fun p s => p.1 = s) := by
  constructor <;> intros <;> subst_vars <;> simp [still, stamped]

section
variable [Add R] [Sub R] [Mul R] [Div R] [Neg R] [Zero R] [One R] [NatCast R] [LT R] [DecidableLT R]
  {ops : Chase R S} {cols : S → ℕ → V} {nl : S → ℕ} {ph : Phases S} {N n : ℕ}

theorem Frame.still (hb : Frame ops cols nl ph N n) (now : S → τ) :
    Frame (still n now ops) (fun s i => (cols s.1 i, s.2 i)) (fun s => nl s.1)
      ⟨fun s => ph.pre s.1, fun s => ph.inv s.1, fun s => ph.ready s.1, fun s => ph.synced s.1⟩ N n where
  swap_low := fun i j s a b c d k hk => congrArg (·, s.2 k) (hb.swap_low i j s.1 a b c d k hk)
  swap_nl := fun i j s => hb.swap_nl i j s.1
  swap_inv := fun i j s => hb.swap_inv i j s.1
  swap_synced := fun i j s => hb.swap_synced i j s.1
  filter := by
    intro deg av degrees lambda lower upper s s' hi hd hs hdd hf
    have htag : s'.2 = s.2 := filter_frame (P := fun t : S × (ℕ → Option τ) => t.2 = s.2) (fun _ _ _ h => h)
      (fun _ _ _ _ _ h => h) hs (fun j h1 h2 => (hdd j h1 h2).2) hf rfl
    obtain ⟨t, ht, rfl⟩ := filter_of_sim (still_sim n now ops) (be := s.1) rfl hf
    obtain ⟨a, b, c⟩ := hb.filter deg av degrees lambda lower upper s.1 _ hi hd hs hdd ht
    exact ⟨a, b, fun i hi => by rw [c i hi, htag]⟩
  qr := fun k c s hi => by
    obtain ⟨a, b, c, d⟩ := hb.qr k c s.1 hi
    exact ⟨a, b, c, fun i hi => congrArg (·, s.2 i) (d i hi)⟩
  rr := fun s hi hl => by
    obtain ⟨a, b, c⟩ := hb.rr s.1 hi hl
    refine ⟨a, b, fun i hi => ?_⟩
    show (cols (ops.rr (n - nl s.1) s.1).2 i,
      writeAt s.2 (n - (n - nl s.1)) (n - nl s.1) (fun _ => some (now s.1)) i) = (cols s.1 i, s.2 i)
    rw [c i hi]
    unfold writeAt
    rw [if_neg (by omega)]
  resd := fun f k s hi => by
    obtain ⟨a, b, c⟩ := hb.resd f k s.1 hi
    exact ⟨a, b, funext fun i => congrArg (·, s.2 i) (congrFun c i)⟩
  lock := fun k s hi hl => by
    obtain ⟨a, b, c⟩ := hb.lock k s.1 hi hl
    exact ⟨a, b, funext fun i => congrArg (·, s.2 i) (congrFun c i)⟩
  start := fun s => hb.start s.1
  check := fun s => hb.check s.1
  initVecs := fun b s => hb.initVecs b s.1
  lanczos1 := fun m s => hb.lanczos1 m s.1
  lanczosN := fun m k s => hb.lanczosN m k s.1
  lanczosDos := fun i m z s => hb.lanczosDos i m z s.1
  finish := fun s => funext fun i => congrArg (·, s.2 i) (congrFun (hb.finish s.1) i)

/-- What a backend avoids, a backend that runs in the same way avoids. -/
theorem QrAvoids.of_sim {P : Plat R} {ops : Chase R S} {ops' : Chase R S'} {π : S' → S}
    (hs : Sim ops' ops fun p s => π p = s) {cfg : Config R} {r0 s0 : ℕ → R} {s : S'} {bad : ℕ → R → S → Prop}
    (hq : QrAvoids P ops cfg r0 s0 (π s) bad) : QrAvoids P ops' cfg r0 s0 s fun k c t => bad k c (π t) := by
  have hw : Sim (watch (fun k c (t : S') => bad k c (π t)) ops') (watch bad ops)
      (fun p q => π p.1 = q.1 ∧ (p.2 → q.2)) := by
    constructor
    case checkSymmetryEasy => rintro p q ⟨h1, h2⟩; exact ⟨(hs.checkSymmetryEasy _ _ h1).1, (hs.checkSymmetryEasy _ _ h1).2, h2⟩
    case start => rintro p q ⟨h1, h2⟩; exact ⟨hs.start _ _ h1, h2⟩
    case finish => rintro p q ⟨h1, h2⟩; exact ⟨hs.finish _ _ h1, h2⟩
    case initVecs => rintro b p q ⟨h1, h2⟩; exact ⟨hs.initVecs b _ _ h1, h2⟩
    case qr =>
      rintro k c p q ⟨h1, h2⟩
      refine ⟨hs.qr k c _ _ h1, ?_⟩
      rintro (g | g)
      · exact Or.inl (h2 g)
      · exact Or.inr (h1 ▸ g)
    case lanczos1 => rintro m p q ⟨h1, h2⟩; exact ⟨(hs.lanczos1 m _ _ h1).1, (hs.lanczos1 m _ _ h1).2, h2⟩
    case lanczosN => rintro m k p q ⟨h1, h2⟩; exact ⟨(hs.lanczosN m k _ _ h1).1, (hs.lanczosN m k _ _ h1).2, h2⟩
    case lanczosDos => rintro i m z p q ⟨h1, h2⟩; exact ⟨hs.lanczosDos i m z _ _ h1, h2⟩
    case shift => rintro c b p q ⟨h1, h2⟩; exact ⟨hs.shift c b _ _ h1, h2⟩
    case hemm => rintro k a b o p q ⟨h1, h2⟩; exact ⟨hs.hemm k a b o _ _ h1, h2⟩
    case rr => rintro b p q ⟨h1, h2⟩; exact ⟨(hs.rr b _ _ h1).1, (hs.rr b _ _ h1).2, h2⟩
    case resd => rintro f k p q ⟨h1, h2⟩; exact ⟨(hs.resd f k _ _ h1).1, (hs.resd f k _ _ h1).2, h2⟩
    case lock => rintro k p q ⟨h1, h2⟩; exact ⟨hs.lock k _ _ h1, h2⟩
    case swap => rintro i j p q ⟨h1, h2⟩; exact ⟨hs.swap i j _ _ h1, h2⟩
  intro o ho
  have h1 := solve_sim hw P cfg r0 s0 (be := (s, False)) (be' := (π s, False)) ⟨rfl, id⟩
  rw [ho] at h1
  cases hx : solve P (watch bad ops) cfg r0 s0 (π s, False) with
  | error e => rw [hx] at h1; cases h1
  | ok o' =>
    rw [hx] at h1
    cases h1 with
    | ok h1 => exact fun hm => hq o' hx (h1.be.2 hm)

end
end Verif
