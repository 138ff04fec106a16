/-
Proofs about the parallel file input and output.
-/
import Verif.Dist.FileModel
import Verif.Dist.Props
import Mathlib.Data.Set.Lattice

namespace Verif
namespace Dist

section
variable {T : Type*}

/-- Exactly the entries in `A` are overwritten, with the values of `W`. -/
def Writes (W : ℕ → T) (A : Set ℕ) (mem mem' : ℕ → T) : Prop :=
  ∀ x, (x ∈ A → mem' x = W x) ∧ (x ∉ A → mem' x = mem x)

theorem Writes.refl (W : ℕ → T) (mem : ℕ → T) : Writes W ∅ mem mem :=
  fun _ => ⟨fun h => h.elim, fun _ => rfl⟩

theorem Writes.trans {W : ℕ → T} {A B : Set ℕ} {a b c : ℕ → T} (h : Writes W A a b) (h' : Writes W B b c) :
    Writes W (A ∪ B) a c := by
  intro x
  by_cases hB : x ∈ B
  · exact ⟨fun _ => (h' x).1 hB, fun hx => absurd (Or.inr hB) hx⟩
  · rw [(h' x).2 hB]
    refine ⟨fun hx => (h x).1 (hx.resolve_right hB), fun hx => (h x).2 fun hA => hx (Or.inl hA)⟩

theorem writes_loop {W : ℕ → T} {n dst : ℕ} {v : ℕ → T} (mem : ℕ → T) (h : ∀ t < n, W (dst + t) = v t) :
    Writes W {x | dst ≤ x ∧ x < dst + n} mem
      (forRange 0 n (fun t mem => Function.update mem (dst + t) (v t)) mem) := by
  induction n with
  | zero =>
    rw [forRange_self]
    refine fun x => ⟨fun hx => ?_, fun _ => rfl⟩
    have := hx.1
    have := hx.2
    omega
  | succ n ih =>
    rw [forRange_succ (Nat.zero_le _)]
    have ih := ih fun t ht => h t (by omega)
    intro x
    by_cases hx : x = dst + n
    · subst hx
      rw [Function.update_self]
      refine ⟨fun _ => (h n (by omega)).symm, fun hx => ?_⟩
      exact absurd ⟨Nat.le_add_right _ _, by omega⟩ hx
    · rw [Function.update_of_ne hx]
      refine ⟨fun h1 => (ih x).1 ⟨h1.1, ?_⟩, fun h1 => (ih x).2 fun h2 => h1 ⟨h2.1, ?_⟩⟩
      · have := h1.2
        omega
      · have := h2.2
        omega

/-- A step of a reader of `F` that cannot fail and overwrites the entries in `A`. -/
def Step (F : File T) (W : ℕ → T) (A : Set ℕ) (f : Reader T → Reader T) : Prop :=
  ∀ st : Reader T, st.file = F → st.fail = false →
    (f st).file = F ∧ (f st).fail = false ∧ Writes W A st.mem (f st).mem

theorem step_loop {F : File T} {W : ℕ → T} {n : ℕ} {A : ℕ → Set ℕ} {f : ℕ → Reader T → Reader T}
    (h : ∀ i < n, Step F W (A i) (f i)) : Step F W {x | ∃ i < n, x ∈ A i} (forRange 0 n f) := by
  induction n with
  | zero =>
    intro st h1 h2
    rw [forRange_self]
    refine ⟨h1, h2, ?_⟩
    have : {x | ∃ i < 0, x ∈ A i} = (∅ : Set ℕ) := by
      ext x
      simp
    rw [this]
    exact Writes.refl _ _
  | succ n ih =>
    intro st h1 h2
    rw [forRange_succ (Nat.zero_le _)]
    obtain ⟨h3, h4, h5⟩ := ih (fun i hi => h i (by omega)) st h1 h2
    obtain ⟨h6, h7, h8⟩ := h n (by omega) _ h3 h4
    refine ⟨h6, h7, ?_⟩
    have : {x | ∃ i < n + 1, x ∈ A i} = {x | ∃ i < n, x ∈ A i} ∪ A n := by
      ext x
      constructor
      · rintro ⟨i, hi, hx⟩
        rcases Nat.lt_succ_iff_lt_or_eq.1 hi with h9 | rfl
        · exact Or.inl ⟨i, h9, hx⟩
        · exact Or.inr hx
      · rintro (⟨i, hi, hx⟩ | hx)
        · exact ⟨i, by omega, hx⟩
        · exact ⟨n, by omega, hx⟩
    rw [this]
    exact h5.trans h8

theorem step_read {F : File T} {W : ℕ → T} {p dst len : ℕ} (hs : ∀ t < len, p + t < F.size)
    (hW : ∀ t < len, W (dst + t) = F.data (p + t)) :
    Step F W {x | dst ≤ x ∧ x < dst + len} fun st => Reader.read dst len (Reader.seek p st) := by
  rintro ⟨G, pos, fail, mem⟩ rfl hf
  have hf : fail = false := hf
  subst hf
  have hgot : min len (G.size - p) = len := by
    rcases Nat.eq_zero_or_pos len with rfl | h0
    · exact Nat.zero_min _
    · have : p + (len - 1) < G.size := hs (len - 1) (by omega)
      omega
  have : Reader.read dst len (Reader.seek p ⟨G, pos, false, mem⟩) =
      ⟨G, p + len, false, forRange 0 len (fun t mem => Function.update mem (dst + t) (G.data (p + t))) mem⟩ := by
    simp [Reader.read, Reader.seek, hgot]
  simp only [this]
  exact ⟨trivial, trivial, writes_loop mem hW⟩

/-- Positions of a flat array: column and row. -/
theorem flat_div {m i j : ℕ} (hi : i < m) : (i + j * m) % m = i ∧ (i + j * m) / m = j := by
  rw [Nat.add_mul_mod_self_right, Nat.mod_eq_of_lt hi, Nat.add_mul_div_right _ _ (by omega : 0 < m),
    Nat.div_eq_of_lt hi, Nat.zero_add]
  exact ⟨rfl, rfl⟩

theorem flat_lt {m n i j : ℕ} (hi : i < m) (hj : j < n) : i + j * m < m * n := by
  have h1 : (j + 1) * m ≤ n * m := Nat.mul_le_mul_right m hj
  rw [Nat.add_mul, Nat.one_mul] at h1
  rw [Nat.mul_comm m n]
  omega

theorem flat_split {m n x : ℕ} (hx : x < m * n) :
    x % m < m ∧ x / m < n ∧ x % m + x / m * m = x := by
  have hm : 0 < m := Nat.pos_of_ne_zero (by rintro rfl; simp at hx)
  refine ⟨Nat.mod_lt _ hm, Nat.div_lt_of_lt_mul hx, ?_⟩
  rw [Nat.mul_comm]
  exact Nat.mod_add_div x m

theorem flat_inj {N a b a' b' : ℕ} (ha : a < N) (ha' : a' < N) (h : a + b * N = a' + b' * N) :
    a = a' ∧ b = b' := by
  have h1 := flat_div (j := b) ha
  have h2 := flat_div (j := b') ha'
  rw [h] at h1
  exact ⟨h1.1.symm.trans h2.1, h1.2.symm.trans h2.2⟩

/-- What a process should hold: the rows `row 0 .. row (m - 1)` and columns `col 0 .. col (n - 1)` of `A`. -/
def Holds (m n : ℕ) (row col : ℕ → ℕ) (A : ℕ → ℕ → T) (mem : ℕ → T) : Prop :=
  ∀ i < m, ∀ j < n, mem (i + j * m) = A (row i) (col j)

/-- A file that contains the matrix `A`. -/
def IsMatrix (N : ℕ) (A : ℕ → ℕ → T) (F : File T) : Prop :=
  N * N ≤ F.size ∧ ∀ g < N, ∀ g' < N, F.data (g + g' * N) = A g g'

theorem IsMatrix.lt {N : ℕ} {A : ℕ → ℕ → T} {F : File T} (h : IsMatrix N A F) {g g' : ℕ} (hg : g < N)
    (hg' : g' < N) : g + g' * N < F.size := lt_of_lt_of_le (flat_lt hg hg') h.1

theorem holds_of_writes {N m n : ℕ} {row col : ℕ → ℕ} {A : ℕ → ℕ → T} {F : File T} {mem mem' : ℕ → T}
    (hF : IsMatrix N A F) (hr : ∀ i < m, row i < N) (hc : ∀ j < n, col j < N)
    (h : Writes (fun x => F.data (row (x % m) + col (x / m) * N)) {x | x < m * n} mem mem') :
    Holds m n row col A mem' ∧ ∀ x, m * n ≤ x → mem' x = mem x := by
  refine ⟨fun i hi j hj => ?_, fun x hx => (h x).2 fun hlt => ?_⟩
  · rw [(h _).1 (flat_lt hi hj)]
    obtain ⟨h1, h2⟩ := flat_div (j := j) hi
    show F.data _ = _
    rw [h1, h2]
    exact hF.2 _ (hr i hi) _ (hc j hj)
  · have hlt : x < m * n := hlt
    omega

theorem readBlock_holds {N m n off0 off1 : ℕ} {A : ℕ → ℕ → T} {F : File T} (hF : IsMatrix N A F)
    (hr : off0 + m ≤ N) (hc : off1 + n ≤ N) (mem : ℕ → T) :
    Holds m n (off0 + ·) (off1 + ·) A (readBlock N off0 off1 m n F mem) ∧
      ∀ x, m * n ≤ x → readBlock N off0 off1 m n F mem x = mem x := by
  refine holds_of_writes hF (fun i hi => by omega) (fun j hj => by omega) ?_
  have h := step_loop (F := F) (W := fun x => F.data ((off0 + x % m) + (off1 + x / m) * N)) (n := n)
    (A := fun y => {x | m * y ≤ x ∧ x < m * y + m})
    (f := fun y st => Reader.read (m * y) m (Reader.seek (off0 + N * (off1 + y)) st)) (fun y hy => by
      refine step_read (fun t ht => ?_) fun t ht => ?_
      · have := hF.lt (g := off0 + t) (g' := off1 + y) (by omega) (by omega)
        rw [Nat.mul_comm N]
        omega
      · show F.data _ = _
        obtain ⟨h1, h2⟩ := flat_div (j := y) ht
        rw [show m * y + t = t + y * m by rw [Nat.mul_comm, Nat.add_comm], h1, h2]
        congr 1
        rw [Nat.mul_comm N]
        omega)
  obtain ⟨-, -, h⟩ := h (Reader.open F mem) rfl rfl
  have hA : {x | ∃ i < n, x ∈ {x | m * i ≤ x ∧ x < m * i + m}} = {x | x < m * n} := by
    ext x
    constructor
    · rintro ⟨y, hy, h1, h2⟩
      show x < m * n
      have : m * (y + 1) ≤ m * n := Nat.mul_le_mul_left m hy
      rw [Nat.mul_add, Nat.mul_one] at this
      omega
    · intro hx
      obtain ⟨h1, h2, h3⟩ := flat_split hx
      refine ⟨x / m, h2, ?_, ?_⟩
      · rw [Nat.mul_comm]; omega
      · rw [Nat.mul_comm]; omega
  rw [hA] at h
  exact h

/-- The tables describe the local index `l` as the global index `G l`. -/
structure TablesFor (N : ℕ) (G : ℕ → ℕ) (L : Local) : Prop where
  listed : ∀ k < L.blocks, ∀ t < L.lens k, L.offsL k + t < L.size ∧ G (L.offsL k + t) = L.offs k + t ∧
    L.offs k + t < N
  cover : ∀ l < L.size, ∃ k < L.blocks, ∃ t < L.lens k, L.offsL k + t = l

theorem TablesFor.lt {N : ℕ} {G : ℕ → ℕ} {L : Local} (h : TablesFor N G L) {l : ℕ} (hl : l < L.size) :
    G l < N := by
  obtain ⟨k, hk, t, ht, rfl⟩ := h.cover l hl
  obtain ⟨-, h2, h3⟩ := h.listed k hk t ht
  omega

theorem readCyclic_holds {N : ℕ} {row col : ℕ → ℕ} {r c : Local} {A : ℕ → ℕ → T} {F : File T}
    (hF : IsMatrix N A F) (hr : TablesFor N row r) (hc : TablesFor N col c) (mem : ℕ → T) :
    Holds r.size c.size row col A (readCyclic N r c F mem) ∧
      ∀ x, r.size * c.size ≤ x → readCyclic N r c F mem x = mem x := by
  refine holds_of_writes hF (fun i hi => hr.lt hi) (fun j hj => hc.lt hj) ?_
  have h := step_loop (F := F) (W := fun x => F.data (row (x % r.size) + col (x / r.size) * N)) (n := c.blocks)
    (f := fun j => forRange 0 r.blocks fun i => forRange 0 (c.lens j) fun q st =>
      Reader.read ((q + c.offsL j) * r.size + r.offsL i) (r.lens i)
        (Reader.seek ((q + c.offs j) * N + r.offs i) st)) (fun j hj => step_loop fun i hi => step_loop
      fun q hq => by
        obtain ⟨hj1, hj2, hj3⟩ := hc.listed j hj q hq
        refine step_read (fun t ht => ?_) fun t ht => ?_
        · obtain ⟨-, -, h3⟩ := hr.listed i hi t ht
          have := hF.lt h3 hj3
          rw [Nat.add_comm q]
          omega
        · obtain ⟨h1, h2, h3⟩ := hr.listed i hi t ht
          show F.data _ = _
          obtain ⟨h4, h5⟩ := flat_div (j := q + c.offsL j) h1
          rw [show (q + c.offsL j) * r.size + r.offsL i + t = r.offsL i + t + (q + c.offsL j) * r.size by omega,
            h4, h5, h2, Nat.add_comm q, hj2]
          congr 1
          rw [Nat.add_comm q]
          omega)
  obtain ⟨-, -, h⟩ := h (Reader.open F mem) rfl rfl
  refine fun x => ⟨fun hx => (h x).1 ?_, fun hx => (h x).2 fun hc' => hx ?_⟩
  · obtain ⟨h1, h2, h3⟩ := flat_split hx
    obtain ⟨i, hi, t, ht, h4⟩ := hr.cover _ h1
    obtain ⟨j, hj, q, hq, h5⟩ := hc.cover _ h2
    refine ⟨j, hj, i, hi, q, hq, ?_, ?_⟩
    · rw [Nat.add_comm q, h5]; omega
    · rw [Nat.add_comm q, h5]; omega
  · obtain ⟨j, hj, i, hi, q, hq, h1, h2⟩ := hc'
    obtain ⟨hj1, -, -⟩ := hc.listed j hj q hq
    obtain ⟨h4, -, -⟩ := hr.listed i hi (x - ((q + c.offsL j) * r.size + r.offsL i)) (by omega)
    have := flat_lt h4 (show q + c.offsL j < c.size by omega)
    show x < r.size * c.size
    omega

theorem readAll_holds {N m n : ℕ} {row col : ℕ → ℕ} {A : ℕ → ℕ → T} {F : File T} (hF : IsMatrix N A F)
    {view : ℕ → ℕ} (hv : ∀ k < m * n, view k = row (k % m) + col (k / m) * N) (hr : ∀ i < m, row i < N)
    (hc : ∀ j < n, col j < N) (mem : ℕ → T) :
    Holds m n row col A (readAll view (m * n) F mem) ∧
      ∀ x, m * n ≤ x → readAll view (m * n) F mem x = mem x := by
  refine holds_of_writes hF hr hc ?_
  have h := writes_loop (W := fun x => F.data (row (x % m) + col (x / m) * N)) (n := m * n) (dst := 0)
    (v := fun k => F.data (view k)) mem (fun k hk => by
      show F.data _ = F.data _
      rw [Nat.zero_add, hv k hk])
  have : readAll view (m * n) F mem =
      forRange 0 (m * n) (fun t mem => Function.update mem (0 + t) (F.data (view t))) mem := by
    unfold readAll
    refine forRange_congr _ _ _ fun k s _ hk => ?_
    obtain ⟨h1, h2, -⟩ := flat_split hk
    rw [if_pos, Nat.zero_add]
    rw [hv k hk]
    exact hF.lt (hr _ h1) (hc _ h2)
  rw [this]
  intro x
  refine ⟨fun hx => (h x).1 ⟨Nat.zero_le _, ?_⟩, fun hx => (h x).2 fun h' => hx ?_⟩
  · rw [Nat.zero_add]
    exact hx
  · have := h'.2
    rwa [Nat.zero_add] at this

/-! ### Writing -/

theorem write_append (F : File T) (a b : List (ℕ × T)) : F.write (a ++ b) = (F.write a).write b :=
  List.foldl_append

/-- An entry of the file after element writes that agree with each other. -/
theorem write_data {F : File T} {ws : List (ℕ × T)} {x : ℕ} {v : T} (h : ∀ w ∈ ws, w.1 = x → w.2 = v)
    (hx : ∃ w ∈ ws, w.1 = x) : (F.write ws).data x = v ∧ x < (F.write ws).size := by
  induction ws using List.reverseRecOn with
  | nil => simp at hx
  | append_singleton ws w ih =>
    rw [write_append]
    show Function.update (F.write ws).data w.1 w.2 x = v ∧ x < max (F.write ws).size (w.1 + 1)
    by_cases hw : w.1 = x
    · rw [← hw, Function.update_self]
      exact ⟨h w (by simp) hw, by omega⟩
    · rw [Function.update_of_ne (Ne.symm hw)]
      obtain ⟨w', hw', hx'⟩ := hx
      have hmem : w' ∈ ws := by
        rcases List.mem_append.1 hw' with h1 | h1
        · exact h1
        · rw [List.mem_singleton] at h1
          subst h1
          exact absurd hx' hw
      obtain ⟨h1, h2⟩ := ih (fun w hw => h w (List.mem_append_left _ hw)) ⟨w', hmem, hx'⟩
      exact ⟨h1, by omega⟩

theorem write_other {F : File T} {ws : List (ℕ × T)} {x : ℕ} (h : ∀ w ∈ ws, w.1 ≠ x) :
    (F.write ws).data x = F.data x := by
  induction ws using List.reverseRecOn with
  | nil => rfl
  | append_singleton ws w ih =>
    rw [write_append]
    show Function.update (F.write ws).data w.1 w.2 x = F.data x
    rw [Function.update_of_ne (Ne.symm (h w (by simp)))]
    exact ih fun w hw => h w (List.mem_append_left _ hw)

/-- Processes that hold their parts of `A`, and whose parts cover the matrix, write `A`, whatever the order of
the element writes. -/
theorem write_isMatrix {N procs : ℕ} {m n : ℕ → ℕ} {row col : ℕ → ℕ → ℕ} {A : ℕ → ℕ → T}
    {view : ℕ → ℕ → ℕ} {mem : ℕ → ℕ → T} (F : File T)
    (hv : ∀ p < procs, ∀ k < m p * n p, view p k = row p (k % m p) + col p (k / m p) * N)
    (hr : ∀ p < procs, ∀ i < m p, row p i < N) (hc : ∀ p < procs, ∀ j < n p, col p j < N)
    (hA : ∀ p < procs, Holds (m p) (n p) (row p) (col p) A (mem p))
    (hcov : ∀ g < N, ∀ g' < N, ∃ p < procs, (∃ i < m p, row p i = g) ∧ ∃ j < n p, col p j = g')
    (ws : List (ℕ × T))
    (hws : ws.Perm ((List.range procs).flatMap fun p => writeAll (view p) (m p * n p) (mem p))) :
    IsMatrix N A (F.write ws) ∧ ∀ x, N * N ≤ x → (F.write ws).data x = F.data x := by
  have hmem : ∀ w : ℕ × T, w ∈ ws ↔ ∃ p < procs, ∃ k < m p * n p, (view p k, mem p k) = w := by
    intro w
    rw [hws.mem_iff]
    simp [writeAll]
  have hkey : ∀ w ∈ ws, ∃ g < N, ∃ g' < N, w.1 = g + g' * N ∧ w.2 = A g g' := by
    intro w hw
    obtain ⟨p, hp, k, hk, rfl⟩ := (hmem w).1 hw
    obtain ⟨h1, h2, h3⟩ := flat_split hk
    refine ⟨_, hr p hp _ h1, _, hc p hp _ h2, hv p hp k hk, ?_⟩
    show mem p k = _
    rw [← hA p hp _ h1 _ h2, h3]
  have hone : ∀ g < N, ∀ g' < N,
      (F.write ws).data (g + g' * N) = A g g' ∧ g + g' * N < (F.write ws).size := by
    intro g hg g' hg'
    refine write_data ?_ ?_
    · intro w hw h1
      obtain ⟨a, ha, b, hb, h2, h3⟩ := hkey w hw
      obtain ⟨rfl, rfl⟩ := flat_inj ha hg (h2.symm.trans h1)
      exact h3
    · obtain ⟨p, hp, ⟨i, hi, rfl⟩, j, hj, rfl⟩ := hcov g hg g' hg'
      refine ⟨_, (hmem _).2 ⟨p, hp, i + j * m p, flat_lt hi hj, rfl⟩, ?_⟩
      obtain ⟨h1, h2⟩ := flat_div (j := j) hi
      show view p _ = _
      rw [hv p hp _ (flat_lt hi hj), h1, h2]
  refine ⟨⟨?_, fun g hg g' hg' => (hone g hg g' hg').1⟩, fun x hx => write_other ?_⟩
  · rcases Nat.eq_zero_or_pos N with rfl | hN
    · exact Nat.zero_le _
    · have := (hone (N - 1) (by omega) (N - 1) (by omega)).2
      obtain ⟨K, rfl⟩ : ∃ K, N = K + 1 := ⟨N - 1, by omega⟩
      have h2 : (K + 1) * (K + 1) = K * (K + 1) + K + 1 := by ring
      rw [Nat.add_sub_cancel] at this
      omega
  · intro w hw h1
    obtain ⟨a, ha, b, hb, h2, -⟩ := hkey w hw
    have := flat_lt ha hb
    omega

end
end Dist
end Verif
