/-
The accesses of each backend, for calls the protocol allows.
-/
import Verif.Bounds.Proof

namespace Verif
namespace Bounds

variable {R : Type*} {nl L : ℕ}

/-- Splits a statement about all members of an explicit list. -/
macro "each" : tactic => `(tactic|
  simp only [List.forall_mem_append, List.forall_mem_cons, List.not_mem_nil, IsEmpty.forall_iff, implies_true,
    and_true])

namespace Seq

theorem gather_fits {D : Dims} {k : ℕ} (hld : D.N ≤ D.ldh) (hx : D.nev + D.nex ≤ D.maxBlock) (h : L + k ≤ D.nev + D.nex) :
    ∀ a ∈ gather D L k, a.Fits D.sizes := by
  have h2 : L + k ≤ D.maxBlock := by omega
  unfold gather
  each
  refine ⟨?_, ?_, ?_, ?_, ?_⟩
  · exact mat_fits 0 0 (by omega) (le_refl _) (by show 0 + D.N ≤ D.ldh; omega) (by omega)
  · exact mat_fits L 0 (by omega) (le_refl _) (by omega) (by show L + k ≤ D.nev + D.nex; omega)
  · exact mat_fits L 0 (by omega) (le_refl _) (by omega) (by show L + k ≤ D.nev + D.nex; omega)
  · exact vec_fits (cols_le h2)
  · exact vec_fits (cols_le h2)

theorem touch_fits {D : Dims} {nev nex : ℕ} (hK : nev + nex = D.nev + D.nex) (hld : D.N ≤ D.ldh)
    (hx : D.nev + D.nex ≤ D.maxBlock) (hl : nl ≤ nev + nex)
    {c : Call R} (hc : Allowed nev nex nl L c) :
    ∀ a ∈ touch D (nev + nex) L c, a.Fits D.sizes := by
  have hH : Access.Fits D.sizes ⟨.H, 0, D.N, D.N, D.ldh⟩ :=
    mat_fits 0 0 (by omega) (le_refl _) (by omega) (by omega)
  have hmat : ∀ {b : Buf} {o k : ℕ}, b ∈ [Buf.C, .B, .C2, .B2] → o + k ≤ nev + nex →
      Access.Fits D.sizes ⟨b, o * D.N, D.N, k, D.N⟩ := by
    intro b o k hb h
    have h2 : D.N * (o + k) ≤ b.size D.sizes := by
      simp only [List.mem_cons, List.not_mem_nil, or_false] at hb
      rcases hb with rfl | rfl | rfl | rfl
      · exact Nat.mul_le_mul_left _ (by show _ ≤ D.nev + D.nex; omega)
      · exact Nat.mul_le_mul_left _ (by show _ ≤ D.nev + D.nex; omega)
      · exact Nat.mul_le_mul_left _ (by show _ ≤ D.maxBlock; omega)
      · exact Nat.mul_le_mul_left _ (by show _ ≤ D.maxBlock; omega)
    exact mat_fits o 0 (by omega) h2 (by omega) (le_refl _)
  have hvec : ∀ {b : Buf} {o k : ℕ}, b ∈ [Buf.C, .B, .C2, .B2] → o + k ≤ nev + nex →
      (vec b (o * D.N) (D.N * k)).Fits D.sizes := by
    intro b o k hb h
    refine vec_fits (le_trans (cols_le (le_refl (o + k))) ?_)
    simp only [List.mem_cons, List.not_mem_nil, or_false] at hb
    rcases hb with rfl | rfl | rfl | rfl
    · exact Nat.mul_le_mul_left _ (by show _ ≤ D.nev + D.nex; omega)
    · exact Nat.mul_le_mul_left _ (by show _ ≤ D.nev + D.nex; omega)
    · exact Nat.mul_le_mul_left _ (by show _ ≤ D.maxBlock; omega)
    · exact Nat.mul_le_mul_left _ (by show _ ≤ D.maxBlock; omega)
  have hvec1 : ∀ {b : Buf} {o k : ℕ}, b ∈ [Buf.C, .B, .C2, .B2] → o + k ≤ nev + nex →
      (vec b (D.N * o) (D.N * k)).Fits D.sizes := by
    intro b o k hb h
    rw [Nat.mul_comm D.N o]; exact hvec hb h
  have hmat0 : ∀ {b : Buf} {k : ℕ}, b ∈ [Buf.C, .B, .C2, .B2] → k ≤ nev + nex →
      Access.Fits D.sizes ⟨b, 0, D.N, k, D.N⟩ := by
    intro b k hb h
    have := hmat (o := 0) (k := k) hb (by omega)
    rwa [Nat.zero_mul] at this
  have hvec0 : ∀ {b : Buf} {k : ℕ}, b ∈ [Buf.C, .B, .C2, .B2] → k ≤ nev + nex →
      (vec b 0 (k * D.N)).Fits D.sizes := by
    intro b k hb h
    have := hvec (o := 0) (k := k) hb (by omega)
    rwa [Nat.zero_mul, Nat.mul_comm] at this
  have htmp : ∀ n : ℕ, (vec (.tmp n) 0 n).Fits D.sizes := fun n =>
    vec_fits (by show 0 + n ≤ n; omega)
  cases c with
  | checkSymmetryEasy => unfold touch; each; exact ⟨hH, htmp _⟩
  | start => intro a ha; cases ha
  | finish => intro a ha; cases ha
  | lock k => intro a ha; cases ha
  | initVecs b =>
    have h1 : Access.Fits D.sizes ⟨.C, 0, D.N, D.nev + D.nex, D.N⟩ :=
      hmat0 (by simp) (by omega)
    have h2 : Access.Fits D.sizes ⟨.C2, 0, D.N, D.nev + D.nex, D.N⟩ :=
      hmat0 (by simp) (by omega)
    unfold touch
    each
    refine ⟨?_, h1, h2⟩
    split_ifs
    · each; exact h1
    · intro a ha; cases ha
  | qr f cd =>
    have hL : L < nev + nex := hc
    unfold touch qr
    each
    refine ⟨hmat0 (by simp) (by show D.nev + D.nex ≤ _; omega), htmp _, ?_, ?_, ?_, htmp _, ?_, htmp _, ?_, ?_, ?_, ?_,
      ?_, ?_⟩
    · exact mat_fits 0 0 (by omega) (le_refl _) (by omega) (by omega)
    · exact diag_fits (le_refl _) (le_refl _)
    · exact vec_fits (by show 0 + D.N * (D.nev + D.nex) ≤ D.N * (D.nev + D.nex); omega)
    · exact mat_fits L 0 (by show D.N * L = _; rw [Nat.mul_comm]; omega) (le_refl _) (by omega)
        (by show L + (D.nev + D.nex - L) ≤ D.nev + D.nex; omega)
    · exact one_fits (by show D.nev + D.nex - L - 1 < D.nev + D.nex - L; omega)
    · exact one_fits (by show 0 < D.nev + D.nex - L; omega)
    · exact hvec0 (by simp) (by omega)
    · exact hvec0 (by simp) (by omega)
    · rw [Nat.mul_comm (_ - _)]; exact hvec (by simp) (by show L + (D.nev + D.nex - L) ≤ _; omega)
    · rw [Nat.mul_comm (_ - _)]; exact hvec (by simp) (by show L + (D.nev + D.nex - L) ≤ _; omega)
  | lanczos1 M =>
    obtain ⟨h1, h2⟩ := hc
    unfold touch
    each
    exact ⟨⟨⟨vecs_fits (K := D.nev + D.nex) (le_refl _) (by omega) (by omega), locals_fits⟩, hH⟩, stemr_fits h1⟩
  | lanczosN M k =>
    obtain ⟨h1, h2, rfl⟩ := hc
    unfold touch
    each
    exact ⟨⟨⟨vecs_fits (K := D.nev + D.nex) (le_refl _) (by omega) (by omega), locals_fits⟩, hH⟩, stemr_fits h1⟩
  | lanczosDos i m =>
    obtain ⟨h1, h2⟩ := hc
    unfold touch
    each
    exact ⟨hmat0 (by simp) h2, mat_fits 0 0 (by omega) (le_refl _) (by omega) (by omega),
      hmat0 (by simp) (by omega), hvec0 (by simp) h2, hvec0 (by simp) h2⟩
  | shift x b =>
    unfold touch
    each
    exact diag_fits (le_refl _) hld
  | hemm k al be o =>
    have h : L + o + k = nev + nex := hc
    unfold touch
    each
    refine ⟨hH, ?_, ?_⟩
    · rw [← Nat.add_mul]; exact hmat (by simp) (by omega)
    · rw [← Nat.add_mul]; exact hmat (by simp) (by omega)
  | rr k =>
    have h : L + k = nev + nex := hc.1
    unfold touch
    each
    refine ⟨gather_fits hld hx (by omega), hmat (by simp) (by omega), hmat (by simp) (by omega), ?_, ?_,
      hmat (by simp) (by omega), hmat (by simp) (by omega), hvec (by simp) (by omega), hvec (by simp) (by omega)⟩
    · exact mat_fits 0 0 (by omega) (le_refl _) (by omega) (by omega)
    · exact vec_fits (by show L + k ≤ D.nev + D.nex; omega)
  | resd f =>
    obtain ⟨rfl, h⟩ := hc
    unfold touch
    each
    refine ⟨gather_fits hld hx (by omega), ?_⟩
    intro a ha
    obtain ⟨i, hi, ha'⟩ := List.mem_flatMap.mp ha
    clear ha
    have hi' : i < nev + nex - f := List.mem_range.mp hi
    revert a
    have h1 : f * D.N + D.N * i = (f + i) * D.N := by ring
    each
    refine ⟨one_fits (by show f + i < D.nev + D.nex; omega), ?_, ?_, one_fits (by show f + i < D.nev + D.nex; omega)⟩
    · show (vec .B2 (f * D.N + D.N * i) D.N).Fits _
      have := hvec (b := .B2) (o := f + i) (k := 1) (by simp) (by omega)
      rw [Nat.mul_one] at this
      rw [h1]; exact this
    · show (vec .B (f * D.N + D.N * i) D.N).Fits _
      have := hvec (b := .B) (o := f + i) (k := 1) (by simp) (by omega)
      rw [Nat.mul_one] at this
      rw [h1]; exact this
  | swap i j =>
    obtain ⟨h1, h2⟩ := hc
    unfold touch
    each
    have key : ∀ {b : Buf} {t : ℕ}, b ∈ [Buf.C, .B, .C2, .B2] → t < nev + nex →
        (vec b (D.N * t) D.N).Fits D.sizes := by
      intro b t hb ht
      have := hvec1 (b := b) (o := t) (k := 1) hb (by omega)
      rwa [Nat.mul_one] at this
    exact ⟨htmp _, key (by simp) h1, key (by simp) h2, key (by simp) h1, key (by simp) h2⟩

end Seq

namespace InPlace

/-- `V1_` and `V2_` are the two blocks of vectors in some order. -/
def Pair (V1 V2 : Buf) : Prop := V1 = .C ∧ V2 = .B ∨ V1 = .B ∧ V2 = .C

theorem touch_fits {D : Dims} {V1 V2 : Buf} (hV : Pair V1 V2) (hld : D.N ≤ D.ldh) (hl : nl ≤ D.nev + D.nex)
    {c : Call R} (hc : Allowed D.nev D.nex nl L c) :
    ∀ a ∈ touch D V1 V2 (D.nev + D.nex) L c, a.Fits D.sizes := by
  have hs1 : V1.size D.sizes = D.N * (D.nev + D.nex) := by
    rcases hV with ⟨rfl, rfl⟩ | ⟨rfl, rfl⟩ <;> rfl
  have hs2 : V2.size D.sizes = D.N * (D.nev + D.nex) := by
    rcases hV with ⟨rfl, rfl⟩ | ⟨rfl, rfl⟩ <;> rfl
  have hH : Access.Fits D.sizes ⟨.H, 0, D.N, D.N, D.ldh⟩ :=
    mat_fits 0 0 (by omega) (le_refl _) (by omega) (by omega)
  have hb : ∀ b ∈ [V1, V2], b.size D.sizes = D.N * (D.nev + D.nex) := by
    intro b hb
    simp only [List.mem_cons, List.not_mem_nil, or_false] at hb
    rcases hb with rfl | rfl
    · exact hs1
    · exact hs2
  have hmat : ∀ {b : Buf} {o k : ℕ}, b ∈ [V1, V2] → o + k ≤ D.nev + D.nex →
      Access.Fits D.sizes ⟨b, o * D.N, D.N, k, D.N⟩ := by
    intro b o k h1 h
    exact mat_fits o 0 (by omega) (le_of_eq (hb b h1).symm) (by omega) h
  have hvec : ∀ {b : Buf} {o k : ℕ}, b ∈ [V1, V2] → o + k ≤ D.nev + D.nex →
      (vec b (o * D.N) (D.N * k)).Fits D.sizes := by
    intro b o k h1 h
    exact vec_fits (le_of_le_of_eq (cols_le h) (hb b h1).symm)
  have hvec1 : ∀ {b : Buf} {o k : ℕ}, b ∈ [V1, V2] → o + k ≤ D.nev + D.nex →
      (vec b (D.N * o) (D.N * k)).Fits D.sizes := by
    intro b o k hb h
    rw [Nat.mul_comm D.N o]; exact hvec hb h
  have hmat0 : ∀ {b : Buf} {k : ℕ}, b ∈ [V1, V2] → k ≤ D.nev + D.nex →
      Access.Fits D.sizes ⟨b, 0, D.N, k, D.N⟩ := by
    intro b k hb h
    have := hmat (o := 0) (k := k) hb (by omega)
    rwa [Nat.zero_mul] at this
  have hvec0 : ∀ {b : Buf} {k : ℕ}, b ∈ [V1, V2] → k ≤ D.nev + D.nex →
      (vec b 0 (k * D.N)).Fits D.sizes := by
    intro b k hb h
    have := hvec (o := 0) (k := k) hb (by omega)
    rwa [Nat.zero_mul, Nat.mul_comm] at this
  have htmp : ∀ n : ℕ, (vec (.tmp n) 0 n).Fits D.sizes := fun n =>
    vec_fits (by show 0 + n ≤ n; omega)
  cases c with
  | checkSymmetryEasy => unfold touch; each; exact ⟨hH, htmp _⟩
  | start => intro a ha; cases ha
  | finish => intro a ha; cases ha
  | lock k => intro a ha; cases ha
  | initVecs b =>
    have h1 : Access.Fits D.sizes ⟨V1, 0, D.N, D.nev + D.nex, D.N⟩ := hmat0 (by simp) (le_refl _)
    have h2 : Access.Fits D.sizes ⟨V2, 0, D.N, D.nev + D.nex, D.N⟩ := hmat0 (by simp) (le_refl _)
    unfold touch
    each
    refine ⟨?_, h1, h2⟩
    split_ifs
    · each; exact h1
    · intro a ha; cases ha
  | qr f cd =>
    have hL : L < D.nev + D.nex := hc
    unfold touch qr
    each
    refine ⟨hvec0 (by simp) (by omega), hvec0 (by simp) (by omega), hmat0 (by simp) (le_refl _), htmp _, ?_, ?_, ?_,
      htmp _, ?_, htmp _, ?_, ?_⟩
    · exact mat_fits 0 0 (by omega) (le_refl _) (by omega) (by omega)
    · exact diag_fits (le_refl _) (le_refl _)
    · exact vec_fits (by show 0 + D.N * (D.nev + D.nex) ≤ _; rw [hs1]; omega)
    · exact mat_fits L 0 (by show D.N * L = _; rw [Nat.mul_comm]; omega) (le_refl _) (by omega)
        (by show L + (D.nev + D.nex - L) ≤ D.nev + D.nex; omega)
    · exact one_fits (by show D.nev + D.nex - L - 1 < D.nev + D.nex - L; omega)
    · exact one_fits (by show 0 < D.nev + D.nex - L; omega)
  | lanczos1 M =>
    obtain ⟨h1, h2⟩ := hc
    unfold touch
    each
    exact ⟨⟨⟨vecs_fits (K := D.nev + D.nex) (le_of_eq hs1.symm) (by omega) (by omega), locals_fits⟩, hH⟩,
      stemr_fits h1⟩
  | lanczosN M k =>
    obtain ⟨h1, h2, rfl⟩ := hc
    unfold touch
    each
    exact ⟨⟨⟨vecs_fits (K := D.nev + D.nex) (le_of_eq hs1.symm) (by omega) (by omega), locals_fits⟩, hH⟩,
      stemr_fits h1⟩
  | lanczosDos i m =>
    obtain ⟨h1, h2⟩ := hc
    unfold touch
    each
    exact ⟨hmat0 (by simp) h2, mat_fits 0 0 (by omega) (le_refl _) (by omega) (by omega),
      hmat0 (by simp) (by omega), hvec0 (by simp) h2, hvec0 (by simp) h2⟩
  | shift x b =>
    unfold touch
    each
    exact diag_fits (le_refl _) hld
  | hemm k al be o =>
    have h : L + o + k = D.nev + D.nex := hc
    unfold touch
    each
    refine ⟨hH, ?_, ?_⟩
    · rw [← Nat.add_mul]; exact hmat (by simp) (by omega)
    · rw [← Nat.add_mul]; exact hmat (by simp) (by omega)
  | rr k =>
    have h : L + k = D.nev + D.nex := hc.1
    unfold touch
    each
    refine ⟨hH, hmat (by simp) (by omega), hmat (by simp) (by omega), ?_, ?_⟩
    · exact mat_fits (K := D.nev + D.nex) 0 0 (by omega) (le_refl _) (by show 0 + k ≤ D.nev + D.nex; omega) (by omega)
    · exact vec_fits (by show L + k ≤ D.nev + D.nex; omega)
  | resd f =>
    obtain ⟨rfl, h⟩ := hc
    unfold touch
    each
    refine ⟨⟨hH, hmat (by simp) (by omega), hmat (by simp) (by omega)⟩, ?_⟩
    intro a ha
    obtain ⟨i, hi, ha'⟩ := List.mem_flatMap.mp ha
    clear ha
    have hi' : i < D.nev + D.nex - f := List.mem_range.mp hi
    revert a
    have h1 : f * D.N + D.N * i = (f + i) * D.N := by ring
    each
    refine ⟨one_fits (by show f + i < D.nev + D.nex; omega), ?_, ?_, one_fits (by show f + i < D.nev + D.nex; omega)⟩
    · show (vec V1 (f * D.N + D.N * i) D.N).Fits _
      have := hvec (b := V1) (o := f + i) (k := 1) (by simp) (by omega)
      rw [Nat.mul_one] at this
      rw [h1]; exact this
    · show (vec V2 (f * D.N + D.N * i) D.N).Fits _
      have := hvec (b := V2) (o := f + i) (k := 1) (by simp) (by omega)
      rw [Nat.mul_one] at this
      rw [h1]; exact this
  | swap i j =>
    obtain ⟨h1, h2⟩ := hc
    unfold touch
    each
    have key : ∀ {t : ℕ}, t < D.nev + D.nex → (vec V1 (D.N * t) D.N).Fits D.sizes := by
      intro t ht
      have := hvec1 (b := V1) (o := t) (k := 1) (by simp) (by omega)
      rwa [Nat.mul_one] at this
    exact ⟨htmp _, key h1, key h2⟩

end InPlace

namespace Mpi

/-- The tables and sizes of a process fit: `m`, `n` are the sizes of the local vectors in the two layouts. -/
structure Fitting (D : Dims) : Prop where
  ldh : D.m ≤ D.ldh
  /-- when the layouts coincide a process on the diagonal holds the same rows and columns -/
  square : D.same = true → D.rowRank = D.colRank → D.m = D.n
  /-- runs lie inside the vector of the receiver, and inside the vector of the sender -/
  cDest : ∀ r ∈ D.cRuns, r.dest = D.rowRank → ∀ t < r.len, r.destDisp + t < D.n
  cSrc : ∀ r ∈ D.cRuns, r.src = D.colRank → ∀ t < r.len, r.srcDisp + t < D.m
  bDest : ∀ r ∈ D.bRuns, r.dest = D.colRank → ∀ t < r.len, r.destDisp + t < D.m
  bSrc : ∀ r ∈ D.bRuns, r.src = D.rowRank → ∀ t < r.len, r.srcDisp + t < D.n

/-- What packing needs beyond that: every process packs every run destined for its process column, as if it
were the source. -/
def PackFits (D : Dims) : Prop :=
  D.same = false → ∀ r ∈ D.cRuns, r.dest = D.rowRank → ∀ t < r.len, r.srcDisp + t < D.m

theorem len_le_maxLen {runs : List Dist.Run} {r : Dist.Run} (h : r ∈ runs) : r.len ≤ maxLen runs := by
  induction runs with
  | nil => cases h
  | cons a t ih =>
    rcases List.mem_cons.mp h with rfl | h
    · exact Nat.le_max_left _ _
    · exact le_trans (ih h) (Nat.le_max_right _ _)

variable {D : Dims}

theorem gatherC2_fits (hD : Fitting D) (hp : PackFits D) {k : ℕ} (h : L + k ≤ D.nevex) :
    ∀ a ∈ gatherC2 D L k, a.Fits D.sizes := by
  unfold gatherC2
  split_ifs with hs hr
  · have e := hD.square hs hr
    each
    refine ⟨vec_fits (cols_le' h), mat_fits L 0 (by omega) (le_refl _) (by omega) h,
      mat_fits L 0 (by omega) (le_refl _) (by omega) h⟩
  · each
    exact vec_fits (cols_le' h)
  · have hs' : D.same = false := by simpa using hs
    intro a ha
    obtain ⟨r, hr, ha'⟩ := List.mem_flatMap.mp ha
    clear ha
    obtain ⟨hr, hd⟩ := List.mem_filter.mp hr
    have hd' : r.dest = D.rowRank := by simpa using hd
    have hpk : Buf.pack.size D.sizes = maxLen D.cRuns * D.nevex := by
      show (if D.same then 0 else _) = _
      rw [hs']; rfl
    have hlen : r.len * D.nevex ≤ Buf.pack.size D.sizes := by
      rw [hpk]; exact Nat.mul_le_mul_right _ (len_le_maxLen hr)
    have h1 : r.len * k ≤ r.len * D.nevex := Nat.mul_le_mul_left _ (by omega)
    revert a
    each
    refine ⟨?_, ?_, ?_, ?_⟩
    · exact mat_fits' L r.srcDisp rfl (le_refl _) (hp hs' r hr hd') h
    · exact mat_fits (K := D.nevex) 0 0 (by omega) hlen (by omega) (by omega)
    · exact vec_fits (by omega)
    · exact mat_fits' L r.destDisp rfl (le_refl _) (hD.cDest r hr hd') h

theorem gather_fits (hD : Fitting D) (hp : PackFits D) {k : ℕ} (h : L + k ≤ D.nevex) :
    ∀ a ∈ gather D L k, a.Fits D.sizes := by
  unfold gather
  each
  refine ⟨gatherC2_fits hD hp h, ?_, ?_, ?_, ?_⟩
  · exact mat_fits 0 0 (by omega) (le_refl _) (by have := hD.ldh; omega) (by omega)
  · exact mat_fits L 0 (by omega) (le_refl _) (by omega) h
  · exact mat_fits L 0 (by omega) (le_refl _) (by omega) h
  · exact vec_fits (cols_le h)

theorem b2c_fits (hD : Fitting D) (k : ℕ) : ∀ a ∈ b2c D k, a.Fits D.sizes := by
  intro a ha
  obtain ⟨r, hr, ha'⟩ := List.mem_flatMap.mp ha
  clear ha
  obtain ⟨hr, hd⟩ := List.mem_filter.mp hr
  have hd' : r.dest = D.colRank := by simpa using hd
  have h1 : Access.Fits D.sizes ⟨.tmp (D.m * k), r.destDisp, r.len, k, D.m⟩ :=
    mat_fits' 0 r.destDisp (by omega) (le_refl _) (hD.bDest r hr hd') (by omega)
  split_ifs at ha' with hs
  · revert a
    each
    exact ⟨mat_fits' 0 r.srcDisp (by omega) (le_refl _) (hD.bSrc r hr hs.symm) (by omega), h1⟩
  · rw [List.mem_singleton.mp ha']; exact h1

theorem c2b_fits (hD : Fitting D) (k : ℕ) : ∀ a ∈ c2b D k, a.Fits D.sizes := by
  intro a ha
  obtain ⟨r, hr, ha'⟩ := List.mem_flatMap.mp ha
  clear ha
  obtain ⟨hr, hd⟩ := List.mem_filter.mp hr
  have hd' : r.dest = D.rowRank := by simpa using hd
  have h1 : Access.Fits D.sizes ⟨.tmp (D.n * k), r.destDisp, r.len, k, D.n⟩ :=
    mat_fits' 0 r.destDisp (by omega) (le_refl _) (hD.cDest r hr hd') (by omega)
  split_ifs at ha' with hs
  · revert a
    each
    exact ⟨mat_fits' 0 r.srcDisp (by omega) (le_refl _) (hD.cSrc r hr hs.symm) (by omega), h1⟩
  · rw [List.mem_singleton.mp ha']; exact h1

/-- All accesses of an allowed call, except the packing of `RR` and `Resd`, fit anyway. -/
theorem touch_fits (hD : Fitting D) (hl : nl ≤ D.nevex) {c : Call R} (hc : Allowed D.nev D.nex nl L c)
    (hp : PackFits D) : ∀ a ∈ touch D L c, a.Fits D.sizes := by
  have hH : Access.Fits D.sizes ⟨.H, 0, D.m, D.n, D.ldh⟩ :=
    mat_fits 0 0 (by omega) (le_refl _) (by have := hD.ldh; omega) (by omega)
  have htmp : ∀ n : ℕ, (vec (.tmp n) 0 n).Fits D.sizes := fun n => vec_fits (by show 0 + n ≤ n; omega)
  have hmC : ∀ {b : Buf} {o k : ℕ}, b ∈ [Buf.C, .C2] → o + k ≤ D.nevex →
      Access.Fits D.sizes ⟨b, o * D.m, D.m, k, D.m⟩ := by
    intro b o k hb h
    simp only [List.mem_cons, List.not_mem_nil, or_false] at hb
    rcases hb with rfl | rfl <;> exact mat_fits o 0 (by omega) (le_refl _) (by omega) h
  have hmC0 : ∀ {b : Buf} {k : ℕ}, b ∈ [Buf.C, .C2] → k ≤ D.nevex →
      Access.Fits D.sizes ⟨b, 0, D.m, k, D.m⟩ := by
    intro b k hb h
    have := hmC (o := 0) (k := k) hb (by omega)
    rwa [Nat.zero_mul] at this
  have hmB : ∀ {b : Buf} {o k : ℕ}, b ∈ [Buf.B, .B2] → o + k ≤ D.nevex →
      Access.Fits D.sizes ⟨b, o * D.n, D.n, k, D.n⟩ := by
    intro b o k hb h
    simp only [List.mem_cons, List.not_mem_nil, or_false] at hb
    rcases hb with rfl | rfl <;> exact mat_fits o 0 (by omega) (le_refl _) (by omega) h
  have hvC : ∀ {b : Buf} {o k : ℕ}, b ∈ [Buf.C, .C2] → o + k ≤ D.nevex →
      (vec b (o * D.m) (D.m * k)).Fits D.sizes := by
    intro b o k hb h
    simp only [List.mem_cons, List.not_mem_nil, or_false] at hb
    rcases hb with rfl | rfl <;> exact vec_fits (cols_le h)
  have hvC0 : ∀ {b : Buf} {k : ℕ}, b ∈ [Buf.C, .C2] → k ≤ D.nevex →
      (vec b 0 (k * D.m)).Fits D.sizes := by
    intro b k hb h
    have := hvC (o := 0) (k := k) hb (by omega)
    rwa [Nat.zero_mul, Nat.mul_comm] at this
  have hvB : ∀ {b : Buf} {o k : ℕ}, b ∈ [Buf.B, .B2] → o + k ≤ D.nevex →
      (vec b (o * D.n) (D.n * k)).Fits D.sizes := by
    intro b o k hb h
    simp only [List.mem_cons, List.not_mem_nil, or_false] at hb
    rcases hb with rfl | rfl <;> exact vec_fits (cols_le h)
  have en : D.nevex = D.nev + D.nex := rfl
  cases c with
  | checkSymmetryEasy =>
    unfold touch; each
    exact ⟨⟨⟨htmp _, htmp _, hH⟩, c2b_fits hD 1⟩, b2c_fits hD 1⟩
  | start => intro a ha; cases ha
  | finish => intro a ha; cases ha
  | lock k => intro a ha; cases ha
  | initVecs b =>
    unfold touch
    each
    refine ⟨?_, hmC0 (by simp) (le_refl _), hmC0 (by simp) (le_refl _)⟩
    split_ifs
    · each
      exact vec_fits (by show 0 + D.m * D.nevex ≤ D.m * D.nevex; omega)
    · intro a ha; cases ha
  | qr f cd =>
    have hL : L < D.nevex := hc
    unfold touch qr
    each
    refine ⟨hmC0 (by simp) (le_refl _), ?_, ?_, ?_, htmp _, ?_, ?_, ?_, htmp _, ?_, ?_, ?_, ?_, ?_, ?_⟩
    · exact mat_fits 0 0 (by omega) (le_refl _) (by omega) (by omega)
    · exact vec_fits (by show 0 + D.nevex * D.nevex ≤ D.nevex * D.nevex; omega)
    · exact diag_fits (le_refl _) (le_refl _)
    · exact vec_fits (by show 0 + D.m * D.nevex ≤ D.m * D.nevex; omega)
    · exact mat_fits 0 0 (by omega) (le_refl _) (by omega) (by omega)
    · exact mat_fits L 0 (by rw [Nat.mul_comm]; omega) (le_refl _) (by omega) (by omega)
    · exact one_fits (by show D.nevex - L - 1 < D.nevex - L; omega)
    · exact one_fits (by show 0 < D.nevex - L; omega)
    · exact hvC0 (by simp) (by omega)
    · exact hvC0 (by simp) (by omega)
    · rw [Nat.mul_comm (_ - _)]; exact hvC (by simp) (by omega)
    · rw [Nat.mul_comm (_ - _)]; exact hvC (by simp) (by omega)
  | lanczos1 M =>
    obtain ⟨h1, h2⟩ := hc
    unfold touch
    each
    exact ⟨⟨⟨⟨vecs_fits (K := D.nevex) (le_refl _) (by omega) (by omega), locals_fits⟩, hH, htmp _⟩,
      b2c_fits hD 1⟩, stemr_fits h1⟩
  | lanczosN M k =>
    obtain ⟨h1, h2, rfl⟩ := hc
    unfold touch
    each
    exact ⟨⟨⟨⟨vecs_fits (K := D.nevex) (le_refl _) (by omega) hl, locals_fits⟩, hH, htmp _⟩,
      b2c_fits hD k⟩, stemr_fits h1⟩
  | lanczosDos i m =>
    obtain ⟨h1, h2⟩ := hc
    unfold touch
    each
    exact ⟨hmC0 (by simp) h2, mat_fits 0 0 (by omega) (le_refl _) (by omega) (by omega),
      hmC0 (by simp) (by omega), hvC0 (by simp) h2, hvC0 (by simp) h2⟩
  | shift x b => unfold touch; each; exact hH
  | hemm k al be o =>
    have h : L + o + k = D.nevex := hc
    unfold touch
    each
    refine ⟨hH, ?_, ?_, ?_, ?_⟩
    · rw [← Nat.add_mul]; exact hmC (by simp) (by omega)
    · rw [← Nat.add_mul]; exact hmB (by simp) (by omega)
    · rw [← Nat.add_mul]; exact hvB (by simp) (by omega)
    · rw [← Nat.add_mul]; exact hvC (by simp) (by omega)
  | rr k =>
    have h : L + k = D.nevex := hc.1
    unfold touch
    each
    refine ⟨gather_fits hD hp (by omega), hmB (by simp) (by omega), hmB (by simp) (by omega), ?_, ?_, ?_,
      hmC (by simp) (by omega), hmC (by simp) (by omega), hvC (by simp) (by omega), hvC (by simp) (by omega)⟩
    · exact mat_fits (K := D.nevex) 0 0 (by omega) (le_refl _) (by omega) (by omega)
    · exact vec_fits (by
        show 0 + D.nevex * k ≤ D.nevex * D.nevex
        have : D.nevex * k ≤ D.nevex * D.nevex := Nat.mul_le_mul_left _ (by omega)
        omega)
    · exact vec_fits (by show L + k ≤ D.nevex; omega)
  | resd f =>
    obtain ⟨rfl, h⟩ := hc
    unfold touch
    each
    refine ⟨⟨gather_fits hD hp (by omega), vec_fits (by show f + (D.nevex - f) ≤ D.nevex; omega)⟩, ?_⟩
    intro a ha
    obtain ⟨i, hi, ha'⟩ := List.mem_flatMap.mp ha
    clear ha
    have hi' : i < D.nevex - f := List.mem_range.mp hi
    revert a
    each
    refine ⟨one_fits (by show f + i < D.nevex; omega), ?_, ?_, one_fits (by show f + i < D.nevex; omega)⟩
    · have := hvB (b := .B2) (o := f + i) (k := 1) (by simp) (by omega)
      rw [Nat.mul_one, Nat.add_mul] at this
      exact this
    · have := hvB (b := .B) (o := f + i) (k := 1) (by simp) (by omega)
      rw [Nat.mul_one, Nat.add_mul] at this
      exact this
  | swap i j =>
    obtain ⟨h1, h2⟩ := hc
    have key : ∀ {t : ℕ}, t < D.nev + D.nex → (vec .C (D.m * t) D.m).Fits D.sizes := by
      intro t ht
      have := hvC (b := .C) (o := t) (k := 1) (by simp) (by omega)
      rwa [Nat.mul_one, Nat.mul_comm] at this
    unfold touch
    each
    exact ⟨vec_fits (by show 0 + D.m ≤ D.m; omega), key h1, key h2⟩

end Mpi
end Bounds
end Verif
