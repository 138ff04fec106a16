/-
C94: the example programs stay inside their arrays and hand over a Hermitian matrix all of whose entries are assigned.
-/
import Verif.Examples.Model
import Mathlib.Data.Complex.Basic
import Mathlib.Analysis.Real.Sqrt
import Mathlib.Tactic.SplitIfs
import Mathlib.Tactic.NormNum

namespace Verif
namespace Examples

/-! ### Specification -/

section
variable {K : Type*}

/-- The local array (column by column, leading dimension `xlen`) holds the rows `xoff + x` and the columns `yoff + y` of
`A`. -/
def Holds (A : ℕ → ℕ → K) (xoff yoff xlen ylen : ℕ) (a : Arr K) : Prop :=
  a.size = xlen * ylen ∧ ∀ x y, x < xlen → y < ylen → a.get (x + xlen * y) = some (A (xoff + x) (yoff + y))

/-- `A` is Hermitian. -/
def Herm [Star K] (A : ℕ → ℕ → K) : Prop := ∀ r c, star (A r c) = A c r

/-- The symmetrised Clement matrix of the examples: zero but for the two neighbours of the diagonal. -/
def clementEntry [Zero K] (root : ℕ → K) (N r c : ℕ) : K :=
  if r = c + 1 then root (c * (N + 1 - c)) else if c = r + 1 then root (r * (N + 1 - r)) else 0

/-- The matrix of problem `t` in the sequence: random numbers above the diagonal, their conjugates below, none in the
first row and column. -/
def sequenceEntry [Zero K] [Add K] [Star K] (root : ℕ → K) (p : ℕ → ℕ → ℕ → K) (N : ℕ) : ℕ → ℕ → ℕ → K
  | 0, r, c => clementEntry root N r c
  | t + 1, r, c => sequenceEntry root p N t r c +
      (if 1 ≤ r ∧ r < c then p t c r else if 1 ≤ c ∧ c < r then star (p t r c) else 0)

end

/-! ### Proof -/

section
variable {K : Type*}

theorem pos_inj {N r c r' c' : ℕ} (hr : r < N) (hr' : r' < N) : r + N * c = r' + N * c' ↔ r = r' ∧ c = c' := by
  constructor
  · intro h
    have h1 : (r + N * c) % N = (r' + N * c') % N := by rw [h]
    rw [Nat.add_mul_mod_self_left, Nat.add_mul_mod_self_left, Nat.mod_eq_of_lt hr, Nat.mod_eq_of_lt hr'] at h1
    refine ⟨h1, ?_⟩
    have : N * c = N * c' := by omega
    exact Nat.eq_of_mul_eq_mul_left (by omega) this
  · rintro ⟨rfl, rfl⟩; rfl

theorem pos_lt {M N r c : ℕ} (hr : r < M) (hc : c < N) : r + M * c < M * N := by
  have : M * (c + 1) ≤ M * N := Nat.mul_le_mul_left M hc
  rw [Nat.mul_add] at this
  omega

theorem put_ok {a : Arr K} {i : ℕ} (h : i < a.size) (x : K) :
    a.put i x = .ok ⟨a.size, Function.update a.get i (some x)⟩ := if_pos h

theorem put_size {a b : Arr K} {i : ℕ} {x : K} (h : a.put i x = .ok b) : i < a.size ∧ b.size = a.size := by
  unfold Arr.put at h
  split_ifs at h with h1
  cases h
  exact ⟨h1, rfl⟩

theorem put_error {a : Arr K} {i : ℕ} {x : K} {e : Fault} (h : a.put i x = .error e) : e = .outside := by
  unfold Arr.put at h
  split_ifs at h
  cases h
  rfl

theorem putIf_error {a : Arr K} {p : Prop} [Decidable p] {i : ℕ} {x : K} {e : Fault} (h : a.putIf p i x = .error e) :
    e = .outside := by
  unfold Arr.putIf at h
  split_ifs at h
  · exact put_error h

theorem put2If_error {a : Arr K} {p : Prop} [Decidable p] {m n i j : ℕ} {x : K} {e : Fault}
    (h : a.put2If p m n i j x = .error e) : e = .outside := by
  unfold Arr.put2If Arr.put2 at h
  split_ifs at h
  · exact put_error h
  · cases h; rfl

theorem read_ok {a : Arr K} {i : ℕ} {x : K} (h : i < a.size) (hx : a.get i = some x) : a.read i = .ok x := by
  unfold Arr.read
  rw [if_pos h, hx]

/-- An array of `M` × `N` elements with the entries `B`. -/
def Full (M N : ℕ) (B : ℕ → ℕ → Option K) (a : Arr K) : Prop :=
  a.size = M * N ∧ ∀ r c, r < M → c < N → a.get (r + M * c) = B r c

theorem Full.put {M N : ℕ} {B : ℕ → ℕ → Option K} {a : Arr K} (h : Full M N B a) {r0 c0 : ℕ} (hr : r0 < M) (hc : c0 < N)
    (x : K) : ∃ b, a.put (r0 + M * c0) x = .ok b ∧
      Full M N (fun r c => if r = r0 ∧ c = c0 then some x else B r c) b := by
  refine ⟨_, put_ok (by rw [h.1]; exact pos_lt hr hc) x, h.1, fun r c h1 h2 => ?_⟩
  show Function.update a.get (r0 + M * c0) (some x) (r + M * c) = _
  rw [Function.update_apply]
  simp only [pos_inj h1 hr, h.2 r c h1 h2]

theorem Full.putIf {M N : ℕ} {B : ℕ → ℕ → Option K} {a : Arr K} (h : Full M N B a) {p : Prop} [Decidable p] {r0 c0 : ℕ}
    (hp : p → r0 < M ∧ c0 < N) (x : K) : ∃ b, a.putIf p (r0 + M * c0) x = .ok b ∧
      Full M N (fun r c => if p ∧ r = r0 ∧ c = c0 then some x else B r c) b := by
  unfold Arr.putIf
  by_cases hp' : p
  · rw [if_pos hp']
    obtain ⟨b, e, h'⟩ := h.put (hp hp').1 (hp hp').2 x
    exact ⟨b, e, h'.1, fun r c h1 h2 => by rw [h'.2 r c h1 h2]; simp [hp']⟩
  · rw [if_neg hp']
    exact ⟨a, rfl, h.1, fun r c h1 h2 => by rw [h.2 r c h1 h2]; simp [hp']⟩

theorem Full.congr {M N : ℕ} {B B' : ℕ → ℕ → Option K} {a : Arr K} (h : Full M N B a)
    (hB : ∀ r c, r < M → c < N → B r c = B' r c) : Full M N B' a :=
  ⟨h.1, fun r c h1 h2 => by rw [h.2 r c h1 h2, hB r c h1 h2]⟩

theorem bind_ok.{u} {A B : Type u} (x : A) (f : A → Except Fault B) : (Except.ok x >>= f) = f x := rfl

theorem Full.add [Add K] {M N : ℕ} {B : ℕ → ℕ → K} {a : Arr K} (h : Full M N (fun r c => some (B r c)) a) {r0 c0 : ℕ}
    (hr : r0 < M) (hc : c0 < N) (x : K) : ∃ b, a.add (r0 + M * c0) x = .ok b ∧
      Full M N (fun r c => some (if r = r0 ∧ c = c0 then B r c + x else B r c)) b := by
  obtain ⟨b, h1, h2⟩ := h.put hr hc (B r0 c0 + x)
  refine ⟨b, ?_, h2.congr fun r c _ _ => ?_⟩
  · unfold Arr.add
    rw [read_ok (by rw [h.1]; exact pos_lt hr hc) (h.2 r0 c0 hr hc)]
    exact h1
  · by_cases he : r = r0 ∧ c = c0
    · rw [if_pos he, if_pos he, he.1, he.2]
    · rw [if_neg he, if_neg he]

theorem full_zeros [Zero K] (M N : ℕ) : Full M N (fun _ _ => some (0 : K)) (Arr.zeros (M * N)) := ⟨rfl, fun _ _ _ _ => rfl⟩

theorem full_fresh (M N : ℕ) : Full M N (fun _ _ => none) (Arr.fresh K (M * N)) := ⟨rfl, fun _ _ _ _ => rfl⟩

/-- After the first `k` rows and columns. -/
def clementUpTo [Zero K] (root : ℕ → K) (N : ℕ) (init : Option K) (k r c : ℕ) : Option K :=
  if r = c ∧ r < k then some 0
  else if r = c + 1 ∧ c < k then some (root (c * (N + 1 - c)))
  else if c = r + 1 ∧ r < k then some (root (r * (N + 1 - r))) else init

theorem clement_full [Zero K] (root : ℕ → K) {N : ℕ} {init : Option K} {a : Arr K} (h : Full N N (fun _ _ => init) a) :
    ∃ b, clement root N a = .ok b ∧ Full N N (clementUpTo root N init N) b := by
  refine forRangeM_inv (Nat.zero_le N) _ (fun k => Full N N (clementUpTo root N init k))
    (h.congr fun r c _ _ => by simp [clementUpTo]) fun i s _ hi hs => ?_
  obtain ⟨s1, e1, h1⟩ := hs.put hi hi (0 : K)
  rw [e1, bind_ok]
  obtain ⟨s2, e2, h2⟩ := h1.putIf (p := i ≠ N - 1) (r0 := i + 1) (c0 := i) (fun h => ⟨by omega, hi⟩) (root (i * (N + 1 - i)))
  obtain ⟨s3, e3, h3⟩ := h2.putIf (p := i ≠ N - 1) (r0 := i) (c0 := i + 1) (fun h => ⟨hi, by omega⟩) (root (i * (N + 1 - i)))
  rw [e2, bind_ok, e3]
  refine ⟨s3, rfl, h3.congr fun r c hr hc => ?_⟩
  unfold clementUpTo
  by_cases c1 : i ≠ N - 1 ∧ r = i ∧ c = i + 1
  · obtain ⟨hN, rfl, rfl⟩ := c1
    rw [if_pos ⟨hN, rfl, rfl⟩, if_neg (by omega), if_neg (by omega), if_pos (by omega)]
  · rw [if_neg c1]
    by_cases c2 : i ≠ N - 1 ∧ r = i + 1 ∧ c = i
    · obtain ⟨hN, rfl, rfl⟩ := c2
      rw [if_pos ⟨hN, rfl, rfl⟩, if_neg (by omega), if_pos (by omega)]
    · rw [if_neg c2]
      by_cases c3 : r = i ∧ c = i
      · obtain ⟨rfl, rfl⟩ := c3
        rw [if_pos ⟨rfl, rfl⟩, if_pos (by omega)]
      · rw [if_neg c3]
        congr 1
        · exact propext ⟨fun _ => by omega, fun _ => by omega⟩
        · congr 1
          · exact propext ⟨fun _ => by omega, fun _ => by omega⟩
          · congr 1
            exact propext ⟨fun _ => by omega, fun _ => by omega⟩

theorem clementUpTo_zero [Zero K] (root : ℕ → K) {N r c : ℕ} (hr : r < N) (hc : c < N) :
    clementUpTo root N (some 0) N r c = some (clementEntry root N r c) := by
  unfold clementUpTo clementEntry
  split_ifs <;> first | rfl | omega

theorem clementEntry_symm [Zero K] (root : ℕ → K) (N r c : ℕ) : clementEntry root N r c = clementEntry root N c r := by
  unfold clementEntry
  split_ifs <;> first | rfl | omega

/-- Loading a part of a matrix. -/
theorem load_holds {at' : ℕ → ℕ → ℕ} {xoff yoff xlen ylen : ℕ} {C H : Arr K} {A : ℕ → ℕ → K}
    (hC : ∀ x y, x < xlen → y < ylen → C.read (at' (xoff + x) (yoff + y)) = .ok (A (xoff + x) (yoff + y)))
    (hH : H.size = xlen * ylen) : ∃ H', load at' xoff yoff xlen ylen C H = .ok H' ∧ Holds A xoff yoff xlen ylen H' := by
  obtain ⟨H', e, h1, h2⟩ := forRangeM_inv (Nat.zero_le xlen) (fun x H =>
    forRangeM 0 ylen (fun y H => do
      let v ← C.read (at' (xoff + x) (yoff + y))
      H.put (x + xlen * y) v) H)
    (fun k H => H.size = xlen * ylen ∧ ∀ x y, x < k → y < ylen → H.get (x + xlen * y) = some (A (xoff + x) (yoff + y)))
    (s := H) ⟨hH, fun x y hx => absurd hx (Nat.not_lt_zero x)⟩ fun i s _ hi hs => by
      obtain ⟨s', e', h1, h2, h3⟩ := forRangeM_inv (Nat.zero_le ylen) (fun y H => do
          let v ← C.read (at' (xoff + i) (yoff + y))
          H.put (i + xlen * y) v)
        (fun k H => H.size = xlen * ylen ∧
          (∀ x y, x < i → y < ylen → H.get (x + xlen * y) = some (A (xoff + x) (yoff + y))) ∧
          ∀ y, y < k → H.get (i + xlen * y) = some (A (xoff + i) (yoff + y)))
        (s := s) ⟨hs.1, hs.2, fun y hy => absurd hy (Nat.not_lt_zero y)⟩ fun j s _ hj hs => by
          rw [hC i j hi hj, bind_ok, put_ok (by rw [hs.1]; exact pos_lt hi hj)]
          refine ⟨_, rfl, hs.1, fun x y hx hy => ?_, fun y hy => ?_⟩
          · show Function.update s.get _ _ _ = _
            rw [Function.update_apply, if_neg (by rw [pos_inj (by omega) hi]; omega)]
            exact hs.2.1 x y hx hy
          · show Function.update s.get _ _ _ = _
            rw [Function.update_apply]
            simp only [pos_inj hi hi, true_and]
            split_ifs with h
            · rw [h]
            · exact hs.2.2 y (by omega)
      refine ⟨s', e', h1, fun x y hx hy => ?_⟩
      by_cases h : x < i
      · exact h2 x y h hy
      · obtain rfl : x = i := by omega
        exact h3 y hy
  exact ⟨H', e, h1, h2⟩

end

section
variable {K : Type*} [AddMonoid K] [Star K]

/-- The perturbation adds the random numbers and their conjugates. -/
theorem perturb_full (p : ℕ → ℕ → K) {N : ℕ} {A : ℕ → ℕ → K} {a : Arr K} (h : Full N N (fun r c => some (A r c)) a) :
    ∃ b, perturb p N a = .ok b ∧ Full N N (fun r c => some (A r c +
      (if 1 ≤ r ∧ r < c then p c r else if 1 ≤ c ∧ c < r then star (p r c) else 0))) b := by
  rcases Nat.eq_zero_or_pos N with rfl | hN
  · exact ⟨a, forRangeM_of_le (by omega) _ _, h.1, fun r c hr => absurd hr (Nat.not_lt_zero r)⟩
  obtain ⟨b, e, hb⟩ := forRangeM_inv (S := Arr K) (E := Fault) (lo := 1) (hi := N) hN (fun i a =>
    forRangeM 1 i (fun j a => do
      let a ← a.add (j + N * i) (p i j)
      a.add (i + N * j) (star (p i j))) a)
    (fun k => Full N N (fun r c => some (A r c +
      (if 1 ≤ r ∧ r < c ∧ c < k then p c r else if 1 ≤ c ∧ c < r ∧ r < k then star (p r c) else 0))))
    (s := a) (h.congr fun r c _ _ => by rw [if_neg (by omega), if_neg (by omega), add_zero]) fun i s h1 hi hs => by
      obtain ⟨s', e', h'⟩ := forRangeM_inv (S := Arr K) (E := Fault) (lo := 1) (hi := i) h1 (fun j a => do
          let a ← a.add (j + N * i) (p i j)
          a.add (i + N * j) (star (p i j)))
        (fun k => Full N N (fun r c => some (A r c +
          (if 1 ≤ r ∧ r < c ∧ (c < i ∨ (c = i ∧ r < k)) then p c r
            else if 1 ≤ c ∧ c < r ∧ (r < i ∨ (r = i ∧ c < k)) then star (p r c) else 0))))
        (s := s) (hs.congr fun r c _ _ => by
          congr 2
          congr 1
          · exact propext ⟨fun _ => by omega, fun _ => by omega⟩
          · congr 1
            exact propext ⟨fun _ => by omega, fun _ => by omega⟩) fun j s hj hji hs => by
          obtain ⟨s1, e1, g1⟩ := hs.add (r0 := j) (c0 := i) (by omega) hi (p i j)
          obtain ⟨s2, e2, g2⟩ := g1.add (r0 := i) (c0 := j) hi (by omega) (star (p i j))
          rw [e1, bind_ok, e2]
          refine ⟨s2, rfl, g2.congr fun r c _ _ => ?_⟩
          congr 1
          by_cases c1 : r = i ∧ c = j
          · obtain ⟨rfl, rfl⟩ := c1
            rw [if_pos ⟨rfl, rfl⟩, if_neg (by omega), if_neg (by omega), if_neg (by omega), if_neg (by omega),
              if_pos (by omega), add_zero]
          · rw [if_neg c1]
            by_cases c2 : r = j ∧ c = i
            · obtain ⟨rfl, rfl⟩ := c2
              rw [if_pos ⟨rfl, rfl⟩, if_neg (by omega), if_neg (by omega), if_pos (by omega), add_zero]
            · rw [if_neg c2]
              congr 1
              congr 1
              · exact propext ⟨fun _ => by omega, fun _ => by omega⟩
              · congr 1
                exact propext ⟨fun _ => by omega, fun _ => by omega⟩
      refine ⟨s', e', h'.congr fun r c _ _ => ?_⟩
      congr 2
      congr 1
      · exact propext ⟨fun _ => by omega, fun _ => by omega⟩
      · congr 1
        exact propext ⟨fun _ => by omega, fun _ => by omega⟩
  refine ⟨b, e, hb.congr fun r c _ _ => ?_⟩
  congr 2
  congr 1
  · exact propext ⟨fun _ => by omega, fun _ => by omega⟩
  · congr 1
    exact propext ⟨fun _ => by omega, fun _ => by omega⟩

theorem sequenceMatrix_full (root : ℕ → K) (p : ℕ → ℕ → ℕ → K) (N t : ℕ) :
    ∃ b, sequenceMatrix root p N t = .ok b ∧ Full N N (fun r c => some (sequenceEntry root p N t r c)) b := by
  induction t with
  | zero =>
    obtain ⟨b, e, h⟩ := clement_full root (full_zeros N N)
    exact ⟨b, e, h.congr fun r c hr hc => clementUpTo_zero root hr hc⟩
  | succ t ih =>
    obtain ⟨a, e, h⟩ := ih
    obtain ⟨b, e', h'⟩ := perturb_full (p t) h
    exact ⟨b, by unfold sequenceMatrix; rw [e, bind_ok, e'], h'⟩

end

/-! ### C94 -/

section
variable {K : Type*} [AddMonoid K] [StarAddMonoid K]

/-- **C94**, the example with a sequence of problems (block distribution): on every process, for every size, number of
the problem and random numbers, no access is outside an array, nothing is read before it is assigned, and the local
array holds the process's part of one Hermitian matrix. -/
theorem C94_sequence_partial (root : ℕ → K) (hroot : ∀ k, star (root k) = root k) (p : ℕ → ℕ → ℕ → K) (N t : ℕ) :
    Herm (sequenceEntry root p N t) ∧
    ∀ xoff yoff xlen ylen, xoff + xlen ≤ N → yoff + ylen ≤ N → ∀ H : Arr K, H.size = xlen * ylen →
      ∃ H', sequenceLocal root p N xoff yoff xlen ylen t H = .ok H' ∧
        Holds (sequenceEntry root p N t) xoff yoff xlen ylen H' := by
  constructor
  · induction t with
    | zero =>
      intro r c
      show star (clementEntry root N r c) = clementEntry root N c r
      unfold clementEntry
      split_ifs <;> first | exact hroot _ | exact star_zero K | omega
    | succ t ih =>
      intro r c
      show star (sequenceEntry root p N t r c + _) = sequenceEntry root p N t c r + _
      rw [star_add, ih r c]
      congr 1
      split_ifs <;> first | rfl | exact star_star _ | exact star_zero K | omega
  · intro xoff yoff xlen ylen hx hy H hH
    obtain ⟨C, e, h⟩ := sequenceMatrix_full root p N t
    obtain ⟨H', e', h'⟩ := load_holds (at' := fun r c => r + c * N) (C := C) (A := sequenceEntry root p N t)
      (xoff := xoff) (yoff := yoff) (fun x y h1 h2 => by
        rw [Nat.mul_comm (yoff + y) N]
        exact read_ok (by rw [h.1]; exact pos_lt (by omega) (by omega)) (h.2 _ _ (by omega) (by omega))) hH
    exact ⟨H', by unfold sequenceLocal; rw [e, bind_ok, e'], h'⟩

end

section
variable {K : Type*} [Zero K]

/-- With a local array as large as the matrix, the generation stays inside. -/
theorem helloClement_ok (root : ℕ → K) (N : ℕ) :
    ∃ HC : Arr K × Arr K, helloClement root N (Arr.zeros (N * N), Arr.zeros (N * N)) = .ok HC ∧
      HC.1.size = N * N ∧ Full N N (fun r c => some (clementEntry root N r c)) HC.2 := by
  obtain ⟨HC, e, h1, h2⟩ := forRangeM_inv (S := Arr K × Arr K) (E := Fault) (Nat.zero_le N) (fun i HC => do
      let H ← HC.1.put (i + N * i) 0
      let C ← HC.2.putIf (i ≠ N - 1) (i + 1 + N * i) (root (i * (N + 1 - i)))
      let C ← C.putIf (i ≠ N - 1) (i + N * (i + 1)) (root (i * (N + 1 - i)))
      pure (H, C))
    (fun k HC => HC.1.size = N * N ∧ Full N N (fun r c => clementUpTo root N (some 0) k r c) HC.2)
    (s := (Arr.zeros (N * N), Arr.zeros (N * N)))
    ⟨rfl, (full_zeros N N).congr fun r c _ _ => by simp [clementUpTo]⟩ fun i s _ hi hs => by
      rw [put_ok (by rw [hs.1]; exact pos_lt hi hi), bind_ok]
      obtain ⟨s2, e2, h2⟩ := hs.2.putIf (p := i ≠ N - 1) (r0 := i + 1) (c0 := i) (fun h => ⟨by omega, hi⟩)
        (root (i * (N + 1 - i)))
      obtain ⟨s3, e3, h3⟩ := h2.putIf (p := i ≠ N - 1) (r0 := i) (c0 := i + 1) (fun h => ⟨hi, by omega⟩)
        (root (i * (N + 1 - i)))
      rw [e2, bind_ok, e3, bind_ok]
      refine ⟨_, rfl, hs.1, h3.congr fun r c hr hc => ?_⟩
      unfold clementUpTo
      by_cases c1 : i ≠ N - 1 ∧ r = i ∧ c = i + 1
      · obtain ⟨hN, rfl, rfl⟩ := c1
        rw [if_pos ⟨hN, rfl, rfl⟩, if_neg (by omega), if_neg (by omega), if_pos (by omega)]
      · rw [if_neg c1]
        by_cases c2 : i ≠ N - 1 ∧ r = i + 1 ∧ c = i
        · obtain ⟨hN, rfl, rfl⟩ := c2
          rw [if_pos ⟨hN, rfl, rfl⟩, if_neg (by omega), if_pos (by omega)]
        · rw [if_neg c2]
          split_ifs <;> first | rfl | omega
  exact ⟨HC, e, h1, h2.congr fun r c hr hc => clementUpTo_zero root hr hc⟩

theorem hello_holds (root : ℕ → K) (N : ℕ) :
    ∃ H, hello root N 0 0 N N = .ok H ∧ Holds (clementEntry root N) 0 0 N N H := by
  obtain ⟨HC, e, h1, h2⟩ := helloClement_ok root N
  obtain ⟨H', e', h'⟩ := load_holds (at' := fun r c => r * N + c) (C := HC.2) (H := HC.1)
    (A := clementEntry root N) (xoff := 0) (yoff := 0) (xlen := N) (ylen := N) (fun x y hx hy => by
      rw [Nat.zero_add, Nat.zero_add, Nat.add_comm, Nat.mul_comm, clementEntry_symm]
      exact read_ok (by rw [h2.1]; exact pos_lt hy hx) (h2.2 _ _ hy hx)) h1
  exact ⟨H', by unfold hello; rw [e, bind_ok, e'], h'⟩

theorem loopM_error {S : Type*} {body : ℕ → S → Except Fault S}
    (h : ∀ i s e, body i s = .error e → e = .outside) (lo n : ℕ) (s : S) {e : Fault} (he : loopM body lo n s = .error e) :
    e = .outside := by
  induction n generalizing lo s with
  | zero => cases he
  | succ n ih =>
    unfold loopM at he
    cases hb : body lo s with
    | error e' =>
      rw [hb] at he
      cases he
      exact h lo s e hb
    | ok s' =>
      rw [hb] at he
      exact ih (lo + 1) s' he

/-- A loop that can only fail outside and does not succeed. -/
theorem loop_outside {S : Type*} {body : ℕ → S → Except Fault S} {lo hi : ℕ} {s : S}
    (h : ∀ i s e, body i s = .error e → e = .outside) (hn : ∀ s', forRangeM lo hi body s ≠ .ok s') :
    forRangeM lo hi body s = .error .outside := by
  cases he : forRangeM lo hi body s with
  | ok s' => exact absurd he (hn s')
  | error e => rw [loopM_error h lo (hi - lo) s he]

/-- With a smaller local array the generation writes outside. -/
theorem helloClement_outside (root : ℕ → K) (N M : ℕ) (h : M < N * N) :
    helloClement root N (Arr.zeros M, Arr.zeros (N * N)) = .error .outside := by
  refine loop_outside (fun i s e he => ?_) fun s' hs' => ?_
  · cases h1 : s.1.put (i + N * i) 0 with
    | error e1 => rw [h1] at he; cases he; exact put_error h1
    | ok H =>
      rw [h1, bind_ok] at he
      cases h2 : s.2.putIf (i ≠ N - 1) (i + 1 + N * i) (root (i * (N + 1 - i))) with
      | error e1 => rw [h2] at he; cases he; exact putIf_error h2
      | ok C =>
        rw [h2, bind_ok] at he
        cases h3 : C.putIf (i ≠ N - 1) (i + N * (i + 1)) (root (i * (N + 1 - i))) with
        | error e1 => rw [h3] at he; cases he; exact putIf_error h3
        | ok C' => rw [h3] at he; cases he
  · obtain ⟨hsz, hlast⟩ := forRangeM_inv_partial (Nat.zero_le N) _
      (fun k (s : Arr K × Arr K) => s.1.size = M ∧ (0 < k → (k - 1) + N * (k - 1) < M))
      ⟨rfl, fun h0 => absurd h0 (Nat.lt_irrefl 0)⟩ (fun i s s1 _ hi hs he => by
        cases h1 : s.1.put (i + N * i) 0 with
        | error e1 => rw [h1] at he; cases he
        | ok H =>
          rw [h1, bind_ok] at he
          obtain ⟨g1, g2⟩ := put_size h1
          have hH : s1.1 = H := by
            cases h2 : s.2.putIf (i ≠ N - 1) (i + 1 + N * i) (root (i * (N + 1 - i))) with
            | error e1 => rw [h2] at he; cases he
            | ok C =>
              rw [h2, bind_ok] at he
              cases h3 : C.putIf (i ≠ N - 1) (i + N * (i + 1)) (root (i * (N + 1 - i))) with
              | error e1 => rw [h3] at he; cases he
              | ok C' => rw [h3] at he; cases he; rfl
          rw [hH, g2, hs.1]
          rw [hs.1] at g1
          exact ⟨rfl, fun _ => g1⟩) hs'
    have hN : 0 < N := by
      rcases Nat.eq_zero_or_pos N with rfl | hp
      · simp at h
      · exact hp
    have := hlast hN
    obtain ⟨L, rfl⟩ : ∃ L, N = L + 1 := ⟨N - 1, by omega⟩
    rw [Nat.add_sub_cancel, Nat.add_mul] at this
    rw [Nat.mul_add, Nat.add_mul] at h
    omega

/-- **C94 is refuted** for the first example and the one for an installed library: on every process whose local array is
smaller than the whole matrix, that is with two or more processes, the loop that generates the matrix writes the
diagonal outside the local array. -/
theorem C94_hello_refuted (root : ℕ → K) (N xoff yoff xlen ylen : ℕ) (h : xlen * ylen < N * N) :
    hello root N xoff yoff xlen ylen = .error .outside := by
  unfold hello
  rw [helloClement_outside root N _ h]
  rfl

/-- **C94 is refuted** for the C example on one process: when the solver is called, exactly the entries next to the
diagonal and on it have been assigned; all others are whatever `malloc` left there. -/
theorem C94_c_serial_refuted (root : ℕ → K) (N : ℕ) :
    ∃ a, cSerial root N = .ok a ∧ ∀ r c, r < N → c < N → (a.get (r + N * c) = none ↔ r + 1 < c ∨ c + 1 < r) := by
  obtain ⟨a, e, h⟩ := clement_full root (full_fresh (K := K) N N)
  refine ⟨a, e, fun r c hr hc => ?_⟩
  rw [h.2 r c hr hc]
  unfold clementUpTo
  split_ifs <;> simp <;> omega

/-- **C94 is refuted** for the Fortran example on one process, for every size: it assigns `h(N+1, N)` of an array with `N`
rows. -/
theorem C94_f_serial_refuted (root : ℕ → K) (N : ℕ) (hN : 1 ≤ N) : fSerial root N = .error .outside := by
  refine loop_outside (fun i s e he => ?_) fun s' hs' => ?_
  · cases h1 : s.put2 N N i i 0 with
    | error e1 =>
      rw [h1] at he; cases he
      exact put2If_error (p := True) (by unfold Arr.put2If; rw [if_pos trivial]; exact h1)
    | ok b =>
      rw [h1, bind_ok] at he
      refine loopM_error (fun _ s e he => ?_) _ _ _ he
      cases h2 : s.put2If (i ≠ N - 1) N N (i + 1) i (root (i * (N + 1 - i))) with
      | error e1 => rw [h2] at he; cases he; exact put2If_error h2
      | ok b =>
        rw [h2, bind_ok] at he
        exact put2If_error he
  · rw [forRangeM_succ hN] at hs'
    generalize h0 : forRangeM 1 N _ (Arr.fresh K (N * N)) = q at hs'
    cases q with
    | error e1 => cases hs'
    | ok s0 =>
      change (s0.put2 N N N N 0 >>= _) = _ at hs'
      cases h1 : s0.put2 N N N N 0 with
      | error e1 => rw [h1] at hs'; cases hs'
      | ok b =>
        rw [h1, bind_ok] at hs'
        have hb : forRangeM 1 (N + 1) (fun _ (a : Arr K) => do
            let a ← a.put2If (N ≠ N - 1) N N (N + 1) N (root (N * (N + 1 - N)))
            a.put2If (N ≠ N - 1) N N N (N + 1) (root (N * (N + 1 - N)))) b = .error .outside := by
          unfold forRangeM
          rw [show N + 1 - 1 = (N - 1) + 1 by omega]
          unfold loopM
          have : b.put2If (N ≠ N - 1) N N (N + 1) N (root (N * (N + 1 - N))) = .error .outside := by
            unfold Arr.put2If Arr.put2
            rw [if_pos (by omega), if_neg (by omega)]
          rw [this]
          rfl
        rw [hb] at hs'
        cases hs'

omit [Zero K] in
/-- **C94 is refuted** for the distributed C example: on every process, exactly the entries next to the diagonal of the
matrix have been assigned when the solver is called; the diagonal and all others are whatever `malloc` left there. -/
theorem C94_c_dist_refuted (root : ℕ → K) (N xoff yoff m n : ℕ) :
    ∃ a, cDist root N xoff yoff m n = .ok a ∧ ∀ x y, x < m → y < n →
      (a.get (x + m * y) = none ↔ ¬ (xoff + x = yoff + y + 1 ∨ yoff + y = xoff + x + 1)) := by
  obtain ⟨a, e, h⟩ := forRangeM_inv (S := Arr K) (E := Fault) (Nat.zero_le m) (fun x a =>
    forRangeM 0 n (fun y a => do
      let a ← a.putIf (xoff + x = yoff + y + 1) (x + m * y) (root ((yoff + y) * (N + 1 - (yoff + y))))
      a.putIf (yoff + y = xoff + x + 1) (x + m * y) (root ((xoff + x) * (N + 1 - (xoff + x))))) a)
    (fun k a => ∃ B, Full m n B a ∧ ∀ x y, B x y = none ↔
      ¬ (x < k ∧ (xoff + x = yoff + y + 1 ∨ yoff + y = xoff + x + 1)) ∨ n ≤ y)
    (s := Arr.fresh K (m * n)) ⟨_, full_fresh m n, fun x y => by simp⟩ fun i s _ hi hs => by
      obtain ⟨B, hB, hs⟩ := hs
      obtain ⟨s', e', B', h', g'⟩ := forRangeM_inv (S := Arr K) (E := Fault) (Nat.zero_le n) (fun y a => do
          let a ← a.putIf (xoff + i = yoff + y + 1) (i + m * y) (root ((yoff + y) * (N + 1 - (yoff + y))))
          a.putIf (yoff + y = xoff + i + 1) (i + m * y) (root ((xoff + i) * (N + 1 - (xoff + i)))))
        (fun k a => ∃ B, Full m n B a ∧ ∀ x y, B x y = none ↔
          ¬ ((x < i ∨ x = i ∧ y < k) ∧ (xoff + x = yoff + y + 1 ∨ yoff + y = xoff + x + 1)) ∨ n ≤ y)
        (s := s) ⟨B, hB, fun x y => by rw [hs]; simp⟩ fun j s _ hj hs => by
          obtain ⟨B, hB, hs⟩ := hs
          obtain ⟨s1, e1, h1⟩ := hB.putIf (p := xoff + i = yoff + j + 1) (fun _ => ⟨hi, hj⟩)
            (root ((yoff + j) * (N + 1 - (yoff + j))))
          obtain ⟨s2, e2, h2⟩ := h1.putIf (p := yoff + j = xoff + i + 1) (fun _ => ⟨hi, hj⟩)
            (root ((xoff + i) * (N + 1 - (xoff + i))))
          refine ⟨s2, by rw [e1, bind_ok, e2], _, h2, fun x y => ?_⟩
          split_ifs with d1 d2
          · simp; omega
          · simp; omega
          · rw [hs]; omega
      exact ⟨s', e', B', h', fun x y => by rw [g']; omega⟩
  obtain ⟨B, hB, g⟩ := h
  refine ⟨a, e, fun x y hx hy => ?_⟩
  rw [hB.2 x y hx hy, g]
  omega

theorem Full.put2If {K : Type*} {M N : ℕ} {B : ℕ → ℕ → Option K} {a : Arr K} (h : Full M N B a) {p : Prop} [Decidable p]
    {i j : ℕ} (hi : 1 ≤ i ∧ i ≤ M) (hj : 1 ≤ j ∧ j ≤ N) (x : K) : ∃ b, a.put2If p M N i j x = .ok b ∧
      Full M N (fun r c => if p ∧ r + 1 = i ∧ c + 1 = j then some x else B r c) b := by
  obtain ⟨b, e, h'⟩ := h.putIf (p := p) (r0 := i - 1) (c0 := j - 1) (fun _ => ⟨by omega, by omega⟩) x
  refine ⟨b, ?_, h'.congr fun r c _ _ => ?_⟩
  · rw [← e]
    unfold Arr.put2If Arr.putIf Arr.put2
    rw [if_pos (show 1 ≤ i ∧ i ≤ M ∧ 1 ≤ j ∧ j ≤ N by omega)]
  · congr 1
    exact propext ⟨fun ⟨h1, h2, h3⟩ => ⟨h1, by omega, by omega⟩, fun ⟨h1, h2, h3⟩ => ⟨h1, by omega, by omega⟩⟩

omit [Zero K] in
/-- **C94 is refuted** for the distributed Fortran example in the same way (rows and columns from one). -/
theorem C94_f_dist_refuted (root : ℕ → K) (N xoff yoff m n : ℕ) :
    ∃ a, fDist root N xoff yoff m n = .ok a ∧ ∀ x y, 1 ≤ x ∧ x ≤ m → 1 ≤ y ∧ y ≤ n →
      (a.get ((x - 1) + m * (y - 1)) = none ↔ ¬ (xoff + x = yoff + y + 1 ∨ yoff + y = xoff + x + 1)) := by
  obtain ⟨a, e, h⟩ := forRangeM_inv (S := Arr K) (E := Fault) (lo := 1) (hi := m + 1) (by omega) (fun x a =>
    forRangeM 1 (n + 1) (fun y a => do
      let a ← a.put2If (xoff + x = yoff + y + 1) m n x y (root ((yoff + y) * (N + 1 - (yoff + y))))
      a.put2If (yoff + y = xoff + x + 1) m n x y (root ((xoff + x) * (N + 1 - (xoff + x))))) a)
    (fun k a => ∃ B, Full m n B a ∧ ∀ x y, B x y = none ↔
      ¬ (x + 1 < k ∧ (xoff + x = yoff + y + 1 ∨ yoff + y = xoff + x + 1)) ∨ n ≤ y)
    (s := Arr.fresh K (m * n)) ⟨_, full_fresh m n, fun x y => by simp⟩ fun i s hi1 hi hs => by
      obtain ⟨B, hB, hs⟩ := hs
      obtain ⟨s', e', B', h', g'⟩ := forRangeM_inv (S := Arr K) (E := Fault) (lo := 1) (hi := n + 1) (by omega) (fun y a => do
          let a ← a.put2If (xoff + i = yoff + y + 1) m n i y (root ((yoff + y) * (N + 1 - (yoff + y))))
          a.put2If (yoff + y = xoff + i + 1) m n i y (root ((xoff + i) * (N + 1 - (xoff + i)))))
        (fun k a => ∃ B, Full m n B a ∧ ∀ x y, B x y = none ↔
          ¬ ((x + 1 < i ∨ x + 1 = i ∧ y + 1 < k) ∧ (xoff + x = yoff + y + 1 ∨ yoff + y = xoff + x + 1)) ∨ n ≤ y)
        (s := s) ⟨B, hB, fun x y => by rw [hs]; omega⟩ fun j s hj1 hj hs => by
          obtain ⟨B, hB, hs⟩ := hs
          obtain ⟨s1, e1, h1⟩ := hB.put2If (p := xoff + i = yoff + j + 1) (i := i) (j := j) (by omega) (by omega)
            (root ((yoff + j) * (N + 1 - (yoff + j))))
          obtain ⟨s2, e2, h2⟩ := h1.put2If (p := yoff + j = xoff + i + 1) (i := i) (j := j) (by omega) (by omega)
            (root ((xoff + i) * (N + 1 - (xoff + i))))
          refine ⟨s2, by rw [e1, bind_ok, e2], _, h2, fun x y => ?_⟩
          split_ifs with d1 d2
          · simp; omega
          · simp; omega
          · rw [hs]; omega
      exact ⟨s', e', B', h', fun x y => by rw [g']; omega⟩
  obtain ⟨B, hB, g⟩ := h
  refine ⟨a, e, fun x y hx hy => ?_⟩
  rw [hB.2 (x - 1) (y - 1) (by omega) (by omega), g]
  omega

end

/-- **C94** (partial), the first example and the one for an installed library: on one process no access is outside an
array and the array holds the Clement matrix, which is Hermitian.  Missing: more processes, see `C94_hello_refuted`. -/
theorem C94_hello_partial {K : Type*} [AddMonoid K] [StarAddMonoid K] (root : ℕ → K) (hroot : ∀ k, star (root k) = root k)
    (N : ℕ) : Herm (clementEntry root N) ∧ ∃ H, hello root N 0 0 N N = .ok H ∧ Holds (clementEntry root N) 0 0 N N H :=
  ⟨fun r c => by unfold clementEntry; split_ifs <;> first | exact hroot _ | exact star_zero K | omega, hello_holds root N⟩

/-! ### Cases that meet the hypotheses -/

/-- Square roots of integers as complex numbers are real. -/
noncomputable def croot (k : ℕ) : ℂ := (Real.sqrt k : ℝ)

/-- `C94_sequence_partial`: the third problem of 7 rows on a grid of 2 × 2, the process with the last rows and the first
columns. -/
example : ∃ H', sequenceLocal croot (fun t i j => ⟨t + i, j⟩) 7 4 0 3 4 2 (Arr.zeros 12) = .ok H' ∧
    Holds (sequenceEntry croot (fun t i j => ⟨t + i, j⟩) 7 2) 4 0 3 4 H' :=
  (C94_sequence_partial croot (fun _ => Complex.conj_ofReal _) _ 7 2).2 4 0 3 4 (by decide) (by decide) _ rfl

/-- `C94_hello_partial`: the size of the example. -/
example : ∃ H, hello croot 1001 0 0 1001 1001 = .ok H ∧ Holds (clementEntry croot 1001) 0 0 1001 1001 H :=
  (C94_hello_partial croot (fun _ => Complex.conj_ofReal _) 1001).2

/-- `C94_hello_refuted`: two processes with the 1001 rows of the example. -/
example : hello croot 1001 0 0 501 1001 = .error .outside := C94_hello_refuted croot 1001 0 0 501 1001 (by norm_num)

/-- `C94_f_serial_refuted`: the size of the example. -/
example : fSerial croot 1001 = .error .outside := C94_f_serial_refuted croot 1001 (by norm_num)

/-- `C94_c_serial_refuted`, `C94_c_dist_refuted`: entries that were not assigned. -/
example : ∃ a : Arr ℂ, cSerial croot 1001 = .ok a ∧ a.get (2 + 1001 * 0) = none := by
  obtain ⟨a, e, h⟩ := C94_c_serial_refuted croot 1001
  exact ⟨a, e, (h 2 0 (by norm_num) (by norm_num)).mpr (Or.inr (by norm_num))⟩

example : ∃ a : Arr ℂ, cDist croot 1001 501 0 501 1001 = .ok a ∧ a.get (3 + 501 * 504) = none := by
  obtain ⟨a, e, h⟩ := C94_c_dist_refuted croot 1001 501 0 501 1001
  exact ⟨a, e, (h 3 504 (by norm_num) (by norm_num)).mpr (by norm_num)⟩

end Examples
end Verif
