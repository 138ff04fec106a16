/-
Backends that exchange two buffers in every product and every Rayleigh-Ritz step: which buffer is
current at the end of a solve.
-/
import Verif.Solver.EndProof
import Verif.Filter.Proof

set_option linter.unusedSectionVars false

namespace Verif

variable {R S : Type*} [Add R] [Sub R] [Mul R] [Div R] [Neg R] [Zero R] [One R] [NatCast R] [LT R] [DecidableLT R]

/-- A bit of the backend state that is flipped by `HEMM` and `RR` and by nothing else. -/
structure Toggles (ops : Chase R S) (p : S → Bool) : Prop where
  checkSymmetryEasy : ∀ s, p (ops.checkSymmetryEasy s).2 = p s
  start : ∀ s, p (ops.start s) = p s
  finish : ∀ s, p (ops.finish s) = p s
  initVecs : ∀ b s, p (ops.initVecs b s) = p s
  qr : ∀ k c s, p (ops.qr k c s) = p s
  lanczos1 : ∀ m s, p (ops.lanczos1 m s).2 = p s
  lanczosN : ∀ m k s, p (ops.lanczosN m k s).2 = p s
  lanczosDos : ∀ i m z s, p (ops.lanczosDos i m z s) = p s
  shift : ∀ c b s, p (ops.shift c b s) = p s
  hemm : ∀ n a b o s, p (ops.hemm n a b o s) = !p s
  rr : ∀ b s, p (ops.rr b s).2 = !p s
  resd : ∀ f k s, p (ops.resd f k s).2 = p s
  lock : ∀ k s, p (ops.lock k s) = p s
  swap : ∀ i j s, p (ops.swap i j s) = p s

/-- The bit compared with the parity of the number of Rayleigh-Ritz calls. -/
def parityBit (p : S → Bool) (s : S × List (Call R)) : Bool :=
  p s.1 ^^ decide (rrCalls s.2 % 2 = 1)

theorem parityBit_rr {ops : Chase R S} {p : S → Bool} (ht : Toggles ops p) (b : ℕ)
    (s : S × List (Call R)) : parityBit p ((traced ops).rr b s).2 = parityBit p s := by
  show (p (ops.rr b s.1).2 ^^ decide (rrCalls (s.2 ++ [.rr b]) % 2 = 1)) = _
  rw [ht.rr, rrCalls_append]
  unfold parityBit
  simp only [rrCalls]
  rcases Nat.mod_two_eq_zero_or_one (rrCalls s.2) with h | h
  · have : (rrCalls s.2 + (0 + 1)) % 2 = 1 := by omega
    simp [h, this]
  · have : (rrCalls s.2 + (0 + 1)) % 2 = 0 := by omega
    simp [h, this]

/-- The recorder with the parity condition keeps the bookkeeping contract. -/
theorem parity_bookkeeping {ops : Chase R S} {p : S → Bool} (ht : Toggles ops p) (b0 : Bool)
    (N nevex : ℕ) :
    Bookkeeping (V := Unit) (traced ops) (fun _ _ => ()) (fun s => lockSum s.2)
      ⟨fun s => lockSum s.2 = 0 ∧ parityBit p s = b0, fun s => parityBit p s = b0,
        fun s => parityBit p s = b0, fun s => parityBit p s = b0⟩ N nevex where
  swap := fun _ _ _ _ _ => rfl
  swap_nl := fun i j s => by simp [traced, lockSum_append, lockSum]
  swap_inv := fun i j s _ _ _ _ h => by
    rw [← h]; simp [parityBit, traced, rrCalls_append, rrCalls, ht.swap]
  swap_synced := fun i j s _ _ _ _ h => by
    rw [← h]; simp [parityBit, traced, rrCalls_append, rrCalls, ht.swap]
  filter := by
    intro deg av degrees lambda lower upper s s' hinv hdeg hs hd h
    refine ⟨?_, ?_, fun _ _ => rfl⟩
    · exact filter_frame (P := fun s' : S × List (Call R) => lockSum s'.2 = lockSum s.2)
        (fun c b s h => by rw [← h]; simp [traced, lockSum_append, lockSum])
        (fun n a b o s h => by rw [← h]; simp [traced, lockSum_append, lockSum])
        hs (fun j h1 h2 => (hd j h1 h2).2) h rfl
    · have := filter_toggle (p := parityBit (R := R) p)
        (fun c b s => by simp [parityBit, traced, rrCalls_append, rrCalls, ht.shift])
        (fun n a b o s => by simp [parityBit, traced, rrCalls_append, rrCalls, ht.hemm])
        hs (fun j h1 h2 => (hd j h1 h2).2) hdeg h
      exact this.trans hinv
  qr := fun k c s h => by
    have : parityBit p ((traced ops).qr k c s) = b0 := by
      rw [← h]; simp [parityBit, traced, rrCalls_append, rrCalls, ht.qr]
    exact ⟨by simp [traced, lockSum_append, lockSum], this, this, fun _ _ => rfl⟩
  rr := fun s h _ => ⟨by simp [traced, lockSum_append, lockSum],
    (parityBit_rr ht _ s).trans h, fun _ _ => rfl⟩
  resd := fun f k s h => ⟨by simp [traced, lockSum_append, lockSum], by
    rw [← h]; simp [parityBit, traced, rrCalls_append, rrCalls, ht.resd], rfl⟩
  lock := fun k s h _ => ⟨by simp [traced, lockSum_append, lockSum], by
    rw [← h]; simp [parityBit, traced, rrCalls_append, rrCalls, ht.lock], rfl⟩
  start := fun s h => by
    have h1 : lockSum ((traced ops).start s).2 = 0 := by
      rw [← h.1]; simp [traced, lockSum_append, lockSum]
    exact ⟨h1, h1, by
      rw [← h.2]; simp [parityBit, traced, rrCalls_append, rrCalls, ht.start]⟩
  check := fun s h => ⟨by rw [← h.1]; simp [traced, lockSum_append, lockSum], by
    rw [← h.2]; simp [parityBit, traced, rrCalls_append, rrCalls, ht.checkSymmetryEasy]⟩
  initVecs := fun b s h _ => ⟨by rw [← h.1]; simp [traced, lockSum_append, lockSum], by
    rw [← h.2]; simp [parityBit, traced, rrCalls_append, rrCalls, ht.initVecs]⟩
  lanczos1 := fun m s h h0 => ⟨by rw [← h0]; simp [traced, lockSum_append, lockSum], by
    rw [← h]; simp [parityBit, traced, rrCalls_append, rrCalls, ht.lanczos1]⟩
  lanczosN := fun m k s h h0 => ⟨by rw [← h0]; simp [traced, lockSum_append, lockSum], by
    rw [← h]; simp [parityBit, traced, rrCalls_append, rrCalls, ht.lanczosN]⟩
  lanczosDos := fun i m z s h h0 => ⟨by rw [← h0]; simp [traced, lockSum_append, lockSum], by
    rw [← h]; simp [parityBit, traced, rrCalls_append, rrCalls, ht.lanczosDos]⟩
  finish := fun _ => rfl

/-- A bit flipped by products and Rayleigh-Ritz steps has changed over a solve iff the number of rounds
is odd: the filter calls contribute an even number of flips each. -/
theorem parity_at_end {P : Plat R} {ops : Chase R S} {p : S → Bool} (ht : Toggles ops p)
    {cfg : Config R} (hP : PermutesIndices P) (hmax : Even cfg.maxDeg)
    {ritzv0 resid0 : ℕ → R} {be : S} {out : Outcome R S}
    (hsym : cfg.symCheck = true → (ops.checkSymmetryEasy be).1 = true)
    (h : solve P ops cfg ritzv0 resid0 be = .ok out) :
    p out.be = (p be ^^ decide (out.iterations % 2 = 1)) := by
  have hs := solve_sim (traced_sim ops) P cfg ritzv0 resid0 (be := (be, [])) (be' := be) rfl
  rw [h] at hs
  generalize hx : solve P (traced ops) cfg ritzv0 resid0 (be, []) = x at hs
  cases hs with
  | @ok out' _ hr =>
    have h1 := (C01_rounds_are_observable P ops cfg ritzv0 resid0 be out' hsym hx).1
    have h2 := holds_at_end (Q := fun s => parityBit p s = p be) hP
      (parity_bookkeeping ht (p be) cfg.N (cfg.nev + cfg.nex)) hmax
      (be := (be, [])) ⟨rfl, by simp [parityBit, rrCalls]⟩ hsym hx (fun s h => h)
      (fun i j s h => by
        rw [← h]; simp [parityBit, traced, rrCalls_append, rrCalls, ht.swap])
      (fun s h => by
        rw [← h]; simp [parityBit, traced, rrCalls_append, rrCalls, ht.finish])
    rw [← hr.iterations, ← h1, ← hr.be, ← h2]
    unfold parityBit
    rw [Bool.xor_assoc, Bool.xor_self, Bool.xor_false]

end Verif
