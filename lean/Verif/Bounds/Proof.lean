/-
Every call of a solve is made with sizes and positions that stay inside the block of vectors.
-/
import Verif.Bounds.Model
import Verif.Solver.ProtocolProps
import Mathlib.Tactic.Ring

set_option linter.unusedSectionVars false

namespace Verif
namespace Bounds

variable {R : Type*}

theorem lockedAfter_append (a b : List (Call R)) (l : ℕ) :
    lockedAfter (a ++ b) l = lockedAfter b (lockedAfter a l) := by
  induction a generalizing l with
  | nil => rfl
  | cons c t ih => cases c <;> exact ih _

/-- What the protocol says about a single call, `L` columns being locked. -/
def Allowed (nev nex nl L : ℕ) : Call R → Prop
  | .qr _ _ => L < nev + nex
  | .lanczos1 m => 1 ≤ m ∧ m ≤ nev + nex
  | .lanczosN m k => 1 ≤ m ∧ m ≤ nev + nex ∧ k = nl
  | .lanczosDos i m => i ≤ m ∧ m ≤ nev + nex
  | .hemm k _ _ o => L + o + k = nev + nex
  | .rr k => L + k = nev + nex ∧ L < nev
  | .resd f => f = L ∧ L ≤ nev + nex
  | .swap i j => i < nev + nex ∧ j < nev + nex
  | _ => True

/-- What the phase says about the number of locked columns. -/
def PhaseInv (nev nex L : ℕ) : Phase R → Prop
  | .fresh => True
  | .checked => True
  | .begun => L = 0
  | .random => L = 0
  | .given => L = 0
  | .orth => L = 0
  | .dos m => L = 0 ∧ m ≤ nev + nex
  | .ready _ l => l = L
  | .shifted _ l _ => l = L ∧ L < nev
  | .mult _ l _ => l = L ∧ L < nev
  | .filtered _ l => l = L ∧ L < nev
  | .orthed _ l => l = L ∧ L < nev
  | .projected _ l => l = L ∧ L < nev
  | .measured _ l => l = L
  | .sorted _ _ => True
  | .done _ _ => True

variable [Neg R] [Zero R] [One R] {N nev nex nl : ℕ}

theorem next_inv (hn : 0 < nev + nex) {q q' : Phase R} {c : Call R} (h : Next N nev nex nl q c q') {L : ℕ}
    (hp : PhaseInv nev nex L q) :
    Allowed nev nex nl L c ∧ PhaseInv nev nex (lockedAfter [c] L) q' := by
  induction h with
  | check => exact ⟨trivial, trivial⟩
  | start => exact ⟨trivial, rfl⟩
  | startChecked => exact ⟨trivial, rfl⟩
  | initRandom => exact ⟨trivial, hp⟩
  | initGiven => exact ⟨trivial, hp⟩
  | qr0 => exact ⟨by obtain rfl : L = 0 := hp; exact hn, hp⟩
  | lanczos1 h1 h2 h3 => exact ⟨⟨h1, h2⟩, (show L = 0 from hp).symm⟩
  | lanczosN h1 h2 h3 h4 => exact ⟨⟨h1, h2, rfl⟩, hp, h2⟩
  | lanczosDos h1 h2 => exact ⟨⟨le_of_lt h2, hp.2⟩, hp.1.symm⟩
  | skipDos _ ih => exact ih hp.1.symm
  | swap h1 h2 h3 h4 => exact ⟨⟨h2, h4⟩, hp⟩
  | shift h1 => obtain rfl : _ = L := hp; exact ⟨trivial, rfl, h1⟩
  | hemm0 h1 => obtain ⟨rfl, h2⟩ := hp; exact ⟨h1, rfl, h2⟩
  | hemm h1 => obtain ⟨rfl, h2⟩ := hp; exact ⟨h1, rfl, h2⟩
  | unshift => exact ⟨trivial, hp⟩
  | qr => obtain ⟨rfl, h2⟩ := hp; exact ⟨Nat.lt_of_lt_of_le h2 (Nat.le_add_right _ _), rfl, h2⟩
  | rr h1 => obtain ⟨rfl, h2⟩ := hp; exact ⟨⟨h1, h2⟩, rfl, h2⟩
  | resd =>
    obtain ⟨rfl, h2⟩ := hp
    exact ⟨⟨rfl, Nat.le_trans (le_of_lt h2) (Nat.le_add_right _ _)⟩, rfl⟩
  | swapLock h1 h2 h3 h4 =>
    exact ⟨⟨Nat.lt_of_lt_of_le h2 (Nat.le_add_right _ _), Nat.lt_of_lt_of_le h4 (Nat.le_add_right _ _)⟩, hp⟩
  | lock h1 => obtain rfl : _ = L := hp; exact ⟨trivial, rfl⟩
  | sort h1 h2 =>
    exact ⟨⟨Nat.lt_of_lt_of_le h1 (Nat.le_add_right _ _), Nat.lt_of_lt_of_le h2 (Nat.le_add_right _ _)⟩, trivial⟩
  | sorts h1 h2 =>
    exact ⟨⟨Nat.lt_of_lt_of_le h1 (Nat.le_add_right _ _), Nat.lt_of_lt_of_le h2 (Nat.le_add_right _ _)⟩, trivial⟩
  | finish => exact ⟨trivial, trivial⟩
  | finishSorted => exact ⟨trivial, trivial⟩

theorem path_allowed (hn : 0 < nev + nex) (l0 : ℕ) {tr : List (Call R)} {q : Phase R}
    (h : Path N nev nex nl .fresh tr q) :
    PhaseInv nev nex (lockedAfter tr l0) q ∧
      ∀ k c, tr[k]? = some c → Allowed nev nex nl (lockedAfter (tr.take k) l0) c := by
  induction h with
  | nil => exact ⟨trivial, by simp⟩
  | @snoc tr q c q' hp hnx ih =>
    have := next_inv hn hnx ih.1
    refine ⟨by rw [lockedAfter_append]; exact this.2, ?_⟩
    intro k c' hk
    rcases Nat.lt_trichotomy k tr.length with hlt | rfl | hgt
    · rw [List.getElem?_append_left hlt] at hk
      rw [List.take_append_of_le_length (le_of_lt hlt)]
      exact ih.2 k c' hk
    · rw [List.getElem?_append_right (le_refl _), Nat.sub_self] at hk
      cases hk
      rw [List.take_left]
      exact this.1
    · rw [List.getElem?_eq_none (by simp; omega)] at hk
      cases hk

/-- `InitVecs` is called in every run that gets past the beginning. -/
theorem path_init {tr : List (Call R)} {q : Phase R} (h : Path N nev nex nl .fresh tr q) :
    (q = .fresh ∨ q = .checked ∨ q = .begun) ∨ ∃ b, Call.initVecs b ∈ tr := by
  have key : ∀ {q c q'}, Next N nev nex nl q c q' →
      (q' = (Phase.checked : Phase R) ∨ q' = .begun) ∨
      (∃ b, c = Call.initVecs b) ∨ ¬ (q = .fresh ∨ q = .checked ∨ q = .begun) := by
    intro q c q' h
    induction h <;> simp
  induction h with
  | nil => exact .inl (.inl rfl)
  | snoc hp hnx ih =>
    rcases key hnx with h | ⟨b, rfl⟩ | h
    · exact .inl (.inr h)
    · exact .inr ⟨b, by simp⟩
    · rcases ih with ih | ⟨b, ih⟩
      · exact absurd ih h
      · exact .inr ⟨b, by simp [ih]⟩

/-- A run started from random vectors makes the density-of-states run of Lanczos. -/
theorem path_lanczosN {tr : List (Call R)} {q : Phase R} (h : Path N nev nex nl .fresh tr q)
    (hr : Call.initVecs true ∈ tr) :
    (q = .random ∨ q = .orth) ∨ ∃ m, Call.lanczosN m nl ∈ tr := by
  have key : ∀ {q c q'}, Next N nev nex nl q c q' → c ≠ Call.initVecs true →
      (q' = (Phase.random : Phase R) ∨ q' = .orth) ∨ (∃ m, c = Call.lanczosN m nl) ∨
      ¬ (q = .random ∨ q = .orth) := by
    intro q c q' h
    induction h <;> simp
  have key2 : ∀ {q q'}, Next N nev nex nl q (Call.initVecs true) q' → q' = (Phase.random : Phase R) := by
    intro q q' h
    generalize hc : (Call.initVecs true : Call R) = c at h
    induction h with
    | initRandom => rfl
    | skipDos _ ih => exact ih hc
    | _ => cases hc
  induction h with
  | nil => simp at hr
  | @snoc tr q c q' hp hnx ih =>
    by_cases hc : c = Call.initVecs true
    · subst hc
      exact .inl (.inl (key2 hnx))
    · have hr' : Call.initVecs true ∈ tr := by
        rcases List.mem_append.mp hr with h | h
        · exact h
        · exact absurd (List.mem_singleton.mp h).symm hc
      rcases key hnx hc with h | ⟨m, rfl⟩ | h
      · exact .inl h
      · exact .inr ⟨m, by simp⟩
      · rcases ih hr' with ih | ⟨m, ih⟩
        · exact absurd ih h
        · exact .inr ⟨m, by simp [ih]⟩

/-! ### Accesses inside an array -/

theorem vec_fits {z : Sizes} {b : Buf} {off n : ℕ} (h : off + n ≤ b.size z) : (vec b off n).Fits z := by
  intro i hi j hj
  have hi' : i < n := hi
  obtain rfl : j = 0 := by have : j < 1 := hj; omega
  show off + i + 0 * n < b.size z
  omega

theorem one_fits {z : Sizes} {b : Buf} {off : ℕ} (h : off < b.size z) : (one b off).Fits z := by
  intro i hi j hj
  obtain rfl : i = 0 := by have : i < 1 := hi; omega
  obtain rfl : j = 0 := by have : j < 1 := hj; omega
  show off + 0 + 0 * 1 < b.size z
  omega

theorem mat_fits {z : Sizes} {b : Buf} {off rows cols ld K : ℕ} (o : ℕ) (p : ℕ) (hoff : off = p + o * ld)
    (hs : ld * K ≤ b.size z) (hr : p + rows ≤ ld) (hc : o + cols ≤ K) :
    Access.Fits z ⟨b, off, rows, cols, ld⟩ := by
  intro i hi j hj
  show off + i + j * ld < b.size z
  have hi' : i < rows := hi
  have hj' : j < cols := hj
  have h1 : ld * (o + j + 1) ≤ ld * K := Nat.mul_le_mul_left _ (by omega)
  have h2 : ld * (o + j + 1) = o * ld + j * ld + ld := by ring
  omega

theorem mat_fits' {z : Sizes} {b : Buf} {off rows cols ld K : ℕ} (o : ℕ) (p : ℕ) (hoff : off = p + o * ld)
    (hs : ld * K ≤ b.size z) (hr : ∀ t < rows, p + t < ld) (hc : o + cols ≤ K) :
    Access.Fits z ⟨b, off, rows, cols, ld⟩ := by
  intro i hi j hj
  rcases Nat.eq_zero_or_pos rows with rfl | h
  · exact absurd hi (Nat.not_lt_zero _)
  · have := hr (rows - 1) (by omega)
    exact mat_fits o p hoff hs (by omega) hc i hi j hj

theorem diag_fits {z : Sizes} {b : Buf} {n ld : ℕ} (hs : ld * n ≤ b.size z) (h : n ≤ ld) :
    (diag b n ld).Fits z := by
  intro i hi j hj
  obtain rfl : i = 0 := by have : i < 1 := hi; omega
  have hj' : j < n := hj
  show 0 + 0 + j * (ld + 1) < b.size z
  have h1 : ld * (j + 1) ≤ ld * n := Nat.mul_le_mul_left _ (by omega)
  have h2 : ld * (j + 1) = j * ld + ld := by ring
  have h3 : j * (ld + 1) = j * ld + j := by ring
  omega

theorem stemr_fits {z : Sizes} {M numvec : ℕ} (hM : 1 ≤ M) : ∀ a ∈ stemrTouch M numvec, a.Fits z := by
  intro a ha
  obtain ⟨i, hi, ha⟩ := List.mem_flatMap.mp ha
  have hi' : i < numvec := List.mem_range.mp hi
  have h1 : M * (i + 1) ≤ M * numvec := Nat.mul_le_mul_left _ hi'
  have h2 : M * (i + 1) = i * M + M := by ring
  have h3 : M * i = i * M := Nat.mul_comm _ _
  have h4 : numvec * M = M * numvec := Nat.mul_comm _ _
  have h5 : (i + 1) * M = i * M + M := by ring
  simp only [List.mem_cons, List.not_mem_nil, or_false] at ha
  rcases ha with rfl | rfl | rfl | rfl | rfl | rfl | rfl | rfl | rfl | rfl
  · exact vec_fits (by show _ ≤ M * numvec; omega)
  · exact vec_fits (by show _ ≤ M * numvec; omega)
  · exact vec_fits (by show _ ≤ numvec * M; omega)
  · exact mat_fits 0 0 (by omega) (le_refl _) (by omega) (by omega)
  · exact vec_fits (by show _ ≤ 2 * M; omega)
  · exact vec_fits (by show _ ≤ numvec * M; omega)
  · exact mat_fits 0 0 (by omega) (le_refl _) (by omega) (by omega)
  · exact one_fits (by show _ < numvec * M; omega)
  · exact one_fits (by show _ < numvec * M; omega)
  · exact one_fits (by show _ < numvec; omega)

theorem locals_fits {z : Sizes} {len M numvec : ℕ} : ∀ a ∈ mLanczosLocals len M numvec, a.Fits z := by
  intro a ha
  simp only [mLanczosLocals, List.mem_cons, List.not_mem_nil, or_false] at ha
  rcases ha with rfl | rfl | rfl | rfl | rfl
  · exact vec_fits (by show _ ≤ len * numvec; omega)
  · exact mat_fits 0 0 (by omega) (le_refl _) (by omega) (by omega)
  · exact vec_fits (by show _ ≤ numvec; omega)
  · exact mat_fits 0 0 (by omega) (le_refl _) (by omega) (by omega)
  · exact mat_fits 0 0 (by omega) (le_refl _) (by omega) (by omega)

theorem vecs_fits {z : Sizes} {V : Buf} {len M numvec K : ℕ} {keep : Bool} (hz : len * K ≤ V.size z)
    (hM : M ≤ K) (hk : numvec ≤ K) : ∀ a ∈ mLanczosVecs V len M numvec keep, a.Fits z := by
  have h0 : len * numvec ≤ len * K := Nat.mul_le_mul_left _ hk
  have h1 : (vec V 0 (len * numvec)).Fits z := vec_fits (by omega)
  intro a ha
  simp only [mLanczosVecs, List.mem_cons] at ha
  rcases ha with rfl | ha
  · exact h1
  · split_ifs at ha
    · rcases List.mem_append.mp ha with ha | ha
      · obtain ⟨k, hk, rfl⟩ := List.mem_map.mp ha
        have hk' : k < M := List.mem_range.mp hk
        have h2 : len * (k + 1) ≤ len * K := Nat.mul_le_mul_left _ (by omega)
        have h3 : len * (k + 1) = k * len + len := by ring
        exact vec_fits (by omega)
      · rw [List.mem_singleton.mp ha]; exact h1
    · cases ha

/-- `k` columns behind the first `o` of `K` columns. -/
theorem cols_le {N o k K : ℕ} (h : o + k ≤ K) : o * N + N * k ≤ N * K := by
  have : N * (o + k) ≤ N * K := Nat.mul_le_mul_left _ h
  have e : N * (o + k) = o * N + N * k := by ring
  omega

theorem cols_le' {N o k K : ℕ} (h : o + k ≤ K) : o * N + k * N ≤ N * K := by
  rw [Nat.mul_comm k N]; exact cols_le h

theorem cols_le'' {N o k K : ℕ} (h : o + k ≤ K) : N * o + N * k ≤ N * K := by
  rw [Nat.mul_comm N o]; exact cols_le h

end Bounds
end Verif
