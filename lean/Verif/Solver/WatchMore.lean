/-
More about runs in which every QR call is made in a good situation.
-/
import Verif.Solver.Watch

set_option linter.unusedSectionVars false

namespace Verif

section
variable {R S : Type*} [Add R] [Sub R] [Mul R] [Div R] [Neg R] [Zero R] [One R] [NatCast R] [LT R] [DecidableLT R]

theorem watch_mono {bad bad' : ℕ → R → S → Prop} (h : ∀ k c s, bad k c s → bad' k c s) (ops : Chase R S) :
    Sim (watch bad ops) (watch bad' ops) (fun p p' => p.1 = p'.1 ∧ (p.2 → p'.2)) := by
  constructor
  case qr =>
    rintro k c p p' ⟨h1, h2⟩
    refine ⟨by simp [watch, h1], ?_⟩
    rintro (g | g)
    · exact Or.inl (h2 g)
    · exact Or.inr (h1 ▸ h _ _ _ g)
  all_goals
    intros
    rename_i h
    obtain ⟨h1, h2⟩ := h
    simp [watch, h1]
    try exact h2

/-- A run that avoids more avoids less. -/
theorem QrAvoids.mono {P : Plat R} {ops : Chase R S} {cfg : Config R} {r0 s0 : ℕ → R} {s : S} {bad bad' : ℕ → R → S → Prop}
    (h : ∀ k c s, bad k c s → bad' k c s) (hq : QrAvoids P ops cfg r0 s0 s bad') : QrAvoids P ops cfg r0 s0 s bad := by
  intro o ho
  have h1 := solve_sim (watch_mono h ops) P cfg r0 s0 (be := (s, False)) (be' := (s, False)) ⟨rfl, id⟩
  rw [ho] at h1
  cases hw : solve P (watch bad' ops) cfg r0 s0 (s, False) with
  | error e => rw [hw] at h1; cases h1
  | ok o' =>
    rw [hw] at h1
    cases h1 with
    | ok h1 => exact fun hm => hq o' hw (h1.be.2 hm)

/-- A run avoids what cannot happen in states with a property that every call keeps. -/
theorem QrAvoids.of_inv {ops : Chase R S} {bad : ℕ → R → S → Prop} (I : S → Prop) (hI : Sim ops ops fun s s' => s = s' ∧ I s)
    (hb : ∀ k c s, I s → ¬ bad k c s) (P : Plat R) (cfg : Config R) (r0 s0 : ℕ → R) (s : S) (hs : I s) :
    QrAvoids P ops cfg r0 s0 s bad := by
  have hw : Sim (watch bad ops) ops fun p s' => p.1 = s' ∧ I s' ∧ ¬ p.2 := by
    constructor
    case checkSymmetryEasy => rintro p _ ⟨rfl, h1, h2⟩; exact ⟨rfl, rfl, (hI.checkSymmetryEasy _ _ ⟨rfl, h1⟩).2.2, h2⟩
    case start => rintro p _ ⟨rfl, h1, h2⟩; exact ⟨rfl, (hI.start _ _ ⟨rfl, h1⟩).2, h2⟩
    case finish => rintro p _ ⟨rfl, h1, h2⟩; exact ⟨rfl, (hI.finish _ _ ⟨rfl, h1⟩).2, h2⟩
    case initVecs => rintro b p _ ⟨rfl, h1, h2⟩; exact ⟨rfl, (hI.initVecs b _ _ ⟨rfl, h1⟩).2, h2⟩
    case qr => rintro k c p _ ⟨rfl, h1, h2⟩; exact ⟨rfl, (hI.qr k c _ _ ⟨rfl, h1⟩).2, not_or.mpr ⟨h2, hb k c _ h1⟩⟩
    case lanczos1 => rintro m p _ ⟨rfl, h1, h2⟩; exact ⟨rfl, rfl, (hI.lanczos1 m _ _ ⟨rfl, h1⟩).2.2, h2⟩
    case lanczosN => rintro m k p _ ⟨rfl, h1, h2⟩; exact ⟨rfl, rfl, (hI.lanczosN m k _ _ ⟨rfl, h1⟩).2.2, h2⟩
    case lanczosDos => rintro i m z p _ ⟨rfl, h1, h2⟩; exact ⟨rfl, (hI.lanczosDos i m z _ _ ⟨rfl, h1⟩).2, h2⟩
    case shift => rintro c b p _ ⟨rfl, h1, h2⟩; exact ⟨rfl, (hI.shift c b _ _ ⟨rfl, h1⟩).2, h2⟩
    case hemm => rintro n a b o p _ ⟨rfl, h1, h2⟩; exact ⟨rfl, (hI.hemm n a b o _ _ ⟨rfl, h1⟩).2, h2⟩
    case rr => rintro b p _ ⟨rfl, h1, h2⟩; exact ⟨rfl, rfl, (hI.rr b _ _ ⟨rfl, h1⟩).2.2, h2⟩
    case resd => rintro f k p _ ⟨rfl, h1, h2⟩; exact ⟨rfl, rfl, (hI.resd f k _ _ ⟨rfl, h1⟩).2.2, h2⟩
    case lock => rintro k p _ ⟨rfl, h1, h2⟩; exact ⟨rfl, (hI.lock k _ _ ⟨rfl, h1⟩).2, h2⟩
    case swap => rintro i j p _ ⟨rfl, h1, h2⟩; exact ⟨rfl, (hI.swap i j _ _ ⟨rfl, h1⟩).2, h2⟩
  intro o ho
  have h1 := solve_sim hw P cfg r0 s0 (be := (s, False)) (be' := s) ⟨rfl, hs, id⟩
  rw [ho] at h1
  cases hx : solve P ops cfg r0 s0 s with
  | error e => rw [hx] at h1; cases h1
  | ok o' =>
    rw [hx] at h1
    cases h1 with
    | ok h1 => exact h1.be.2.2
/-- The backend `ops` with a mark that can be computed. -/
def watchB (bad : ℕ → R → S → Bool) (ops : Chase R S) : Chase R (S × Bool) where
  checkSymmetryEasy := fun s => ((ops.checkSymmetryEasy s.1).1, ((ops.checkSymmetryEasy s.1).2, s.2))
  start := fun s => (ops.start s.1, s.2)
  finish := fun s => (ops.finish s.1, s.2)
  initVecs := fun b s => (ops.initVecs b s.1, s.2)
  qr := fun k c s => (ops.qr k c s.1, s.2 || bad k c s.1)
  lanczos1 := fun m s => ((ops.lanczos1 m s.1).1, ((ops.lanczos1 m s.1).2, s.2))
  lanczosN := fun m k s => ((ops.lanczosN m k s.1).1, ((ops.lanczosN m k s.1).2, s.2))
  lanczosDos := fun i m z s => (ops.lanczosDos i m z s.1, s.2)
  shift := fun c b s => (ops.shift c b s.1, s.2)
  hemm := fun n a b o s => (ops.hemm n a b o s.1, s.2)
  rr := fun b s => ((ops.rr b s.1).1, ((ops.rr b s.1).2, s.2))
  resd := fun f k s => ((ops.resd f k s.1).1, ((ops.resd f k s.1).2, s.2))
  lock := fun k s => (ops.lock k s.1, s.2)
  swap := fun i j s => (ops.swap i j s.1, s.2)

theorem watchB_sim {bad : ℕ → R → S → Prop} {badB : ℕ → R → S → Bool} (h : ∀ k c s, bad k c s → badB k c s = true)
    (ops : Chase R S) : Sim (watch bad ops) (watchB badB ops) (fun p p' => p.1 = p'.1 ∧ (p.2 → p'.2 = true)) := by
  constructor
  case qr =>
    rintro k c p p' ⟨h1, h2⟩
    refine ⟨by simp [watch, watchB, h1], ?_⟩
    rintro (g | g)
    · simp [watchB, h2 g]
    · simp [watchB, ← h1, h _ _ _ g]
  all_goals
    intros
    rename_i h
    obtain ⟨h1, h2⟩ := h
    simp [watch, watchB, h1]
    try exact h2

/-- A computed run shows what is avoided. -/
theorem QrAvoids.of_run {P : Plat R} {ops : Chase R S} {cfg : Config R} {r0 s0 : ℕ → R} {s : S} {bad : ℕ → R → S → Prop}
    {badB : ℕ → R → S → Bool} (h : ∀ k c s, bad k c s → badB k c s = true) {out : Outcome R (S × Bool)}
    (ho : solve P (watchB badB ops) cfg r0 s0 (s, false) = .ok out) (hm : out.be.2 = false) :
    QrAvoids P ops cfg r0 s0 s bad := by
  intro o hs
  have h1 := solve_sim (watchB_sim h ops) P cfg r0 s0 (be := (s, False)) (be' := (s, false)) ⟨rfl, False.elim⟩
  rw [hs, ho] at h1
  cases h1 with
  | ok h1 =>
    intro hc
    rw [h1.be.2 hc] at hm
    cases hm
end

end Verif
