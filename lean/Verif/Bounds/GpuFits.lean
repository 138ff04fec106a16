/-
The accesses of the GPU backends, for calls the protocol allows.
-/
import Verif.Bounds.Fits
import Verif.Bounds.GpuModel

namespace Verif
namespace Bounds

variable {R : Type*} {nl L : ℕ}

theorem scalars_fits {z : Sizes} {M k : ℕ} : ∀ a ∈ mLanczosScalars M k, a.Fits z := by
  unfold mLanczosScalars
  each
  exact ⟨vec_fits (by show 0 + k ≤ k; omega), mat_fits 0 0 (by omega) (le_refl _) (by omega) (by omega),
    mat_fits 0 0 (by omega) (le_refl _) (by omega) (by omega)⟩

theorem work_fits {z : Sizes} {len k : ℕ} : ∀ a ∈ mLanczosWork len k, a.Fits z := by
  unfold mLanczosWork
  each
  exact ⟨vec_fits (by show 0 + len * k ≤ len * k; omega), mat_fits 0 0 (by omega) (le_refl _) (by omega) (by omega)⟩

theorem cond_fits {z : Sizes} {N n : ℕ} (h : L < n) : ∀ a ∈ condTouch N n L, a.Fits z := by
  unfold condTouch
  each
  exact ⟨vec_fits (by show 0 + N * n ≤ N * n; omega),
    mat_fits L 0 (by show N * L = _; rw [Nat.mul_comm]; omega) (le_refl _) (by omega) (by omega),
    vec_fits (by show 0 + (n - L) ≤ n - L; omega), one_fits (by show n - L - 1 < n - L; omega),
    one_fits (by show 0 < n - L; omega)⟩

/-- Columns of a block of `K` columns of length `len`, with offsets written as the code does. -/
structure Block (z : Sizes) (b : Buf) (len K : ℕ) : Prop where
  size : len * K ≤ b.size z

namespace Block
variable {z : Sizes} {b : Buf} {len K o k : ℕ}

theorem mat (h : Block z b len K) (hk : o + k ≤ K) : Access.Fits z ⟨b, o * len, len, k, len⟩ :=
  mat_fits o 0 (by omega) h.size (by omega) hk

theorem mat0 (h : Block z b len K) (hk : k ≤ K) : Access.Fits z ⟨b, 0, len, k, len⟩ :=
  mat_fits 0 0 (by omega) h.size (by omega) (by omega)

theorem vec (h : Block z b len K) (hk : o + k ≤ K) : (Bounds.vec b (o * len) (len * k)).Fits z :=
  vec_fits (le_trans (cols_le hk) h.size)

theorem vec' (h : Block z b len K) (hk : o + k ≤ K) : (Bounds.vec b (o * len) (k * len)).Fits z :=
  vec_fits (le_trans (cols_le' hk) h.size)

theorem vec0 (h : Block z b len K) (hk : k ≤ K) : (Bounds.vec b 0 (len * k)).Fits z :=
  vec_fits (by rw [Nat.zero_add]; exact le_trans (Nat.mul_le_mul_left _ hk) h.size)

theorem vec0' (h : Block z b len K) (hk : k ≤ K) : (Bounds.vec b 0 (k * len)).Fits z := by
  rw [Nat.mul_comm]; exact h.vec0 hk

theorem col (h : Block z b len K) (hk : o < K) : (Bounds.vec b (o * len) len).Fits z := by
  have := h.vec (o := o) (k := 1) hk
  rwa [Nat.mul_one] at this

theorem col' (h : Block z b len K) (hk : o < K) : (Bounds.vec b (len * o) len).Fits z := by
  rw [Nat.mul_comm]; exact h.col hk

/-- A square corner of a matrix with leading dimension `K`. -/
theorem corner (h : Block z b K K) {r c : ℕ} (hr : r ≤ K) (hc : c ≤ K) : Access.Fits z ⟨b, 0, r, c, K⟩ :=
  mat_fits 0 0 (by omega) h.size (by omega) (by omega)

theorem lanczos (h : Block z b len K) {M nv : ℕ} {keep : Bool} (hM : M ≤ K) (hn : nv ≤ K) :
    ∀ a ∈ mLanczosVecs b len M nv keep, a.Fits z :=
  vecs_fits h.size hM hn

end Block

namespace Cuda
variable {D : Dims} {V1 V2 : Buf}

theorem touch_fits (hV : InPlace.Pair V1 V2) (hld : D.N ≤ D.ldh) (hl : nl ≤ D.nev + D.nex)
    {c : Call R} (hc : Allowed D.nev D.nex nl L c) :
    (touch D V1 V2 (D.nev + D.nex) L c).Fits D.host D.dev := by
  have b1 : Block D.dev V1 D.N (D.nev + D.nex) := by
    rcases hV with ⟨rfl, rfl⟩ | ⟨rfl, rfl⟩ <;> exact ⟨le_refl _⟩
  have b2 : Block D.dev V2 D.N (D.nev + D.nex) := by
    rcases hV with ⟨rfl, rfl⟩ | ⟨rfl, rfl⟩ <;> exact ⟨le_refl _⟩
  have bA : Block D.dev .A (D.nev + D.nex) (D.nev + D.nex) := ⟨le_refl _⟩
  have bC : Block D.host .C D.N (D.nev + D.nex) := ⟨le_refl _⟩
  have hH : Access.Fits D.host ⟨.H, 0, D.N, D.N, D.ldh⟩ :=
    mat_fits 0 0 (by omega) (le_refl _) (by omega) (by omega)
  have dH : Access.Fits D.dev ⟨.H, 0, D.N, D.N, D.N⟩ :=
    mat_fits 0 0 (by omega) (le_refl _) (by omega) (by omega)
  have htmp : ∀ (z : Sizes) (n : ℕ), (vec (.tmp n) 0 n).Fits z := fun z n =>
    vec_fits (by show 0 + n ≤ n; omega)
  have nil : ∀ z : Sizes, ∀ a ∈ ([] : List Access), a.Fits z := fun _ _ h => by cases h
  cases c with
  | checkSymmetryEasy => refine ⟨?_, nil _⟩; unfold touch; each; exact ⟨hH, htmp _ _⟩
  | start => exact ⟨nil _, nil _⟩
  | finish =>
    refine ⟨?_, ?_⟩ <;> unfold touch <;> each
    · exact bC.vec0' (le_refl _)
    · exact b1.vec0' (le_refl _)
  | lock k => exact ⟨nil _, nil _⟩
  | initVecs b =>
    refine ⟨?_, ?_⟩ <;> unfold touch <;> each
    · exact hH
    · refine ⟨?_, b1.vec0' (le_refl _), b2.vec0' (le_refl _), dH⟩
      split_ifs
      · each; exact b1.vec0 (le_refl _)
      · exact nil _
  | qr f cd =>
    have hL : L < D.nev + D.nex := hc
    refine ⟨cond_fits hL, ?_⟩
    unfold touch
    each
    exact ⟨b2.vec0' (by omega), b1.vec0' (by omega), b1.mat0 (le_refl _), htmp _ _, bA.corner (le_refl _) (le_refl _),
      diag_fits (le_refl _) (le_refl _), one_fits (by show 0 < 1; omega), b1.vec0 (le_refl _)⟩
  | lanczos1 M =>
    obtain ⟨h1, h2⟩ := hc
    refine ⟨?_, ?_⟩ <;> unfold touch <;> each
    · exact ⟨scalars_fits, stemr_fits h1⟩
    · exact ⟨⟨b1.lanczos (by omega) (by omega), work_fits⟩, dH⟩
  | lanczosN M k =>
    obtain ⟨h1, h2, rfl⟩ := hc
    refine ⟨?_, ?_⟩ <;> unfold touch <;> each
    · exact ⟨scalars_fits, stemr_fits h1⟩
    · exact ⟨⟨b1.lanczos (by omega) hl, work_fits⟩, dH⟩
  | lanczosDos i m =>
    obtain ⟨h1, h2⟩ := hc
    refine ⟨?_, ?_⟩ <;> unfold touch <;> each
    · exact mat_fits 0 0 (by omega) (le_refl _) (by omega) (by omega)
    · exact ⟨bA.corner h2 (by omega), b1.mat0 h2, b2.mat0 (by omega), b1.vec0' h2, b2.vec0' h2⟩
  | shift x b => refine ⟨nil _, ?_⟩; unfold touch; each; exact diag_fits (le_refl _) (le_refl _)
  | hemm k al be o =>
    have h : L + o + k = D.nev + D.nex := hc
    refine ⟨nil _, ?_⟩
    unfold touch
    each
    refine ⟨dH, ?_, ?_⟩
    · rw [← Nat.add_mul]; exact b1.mat (by omega)
    · rw [← Nat.add_mul]; exact b2.mat (by omega)
  | rr k =>
    have h : L + k = D.nev + D.nex := hc.1
    refine ⟨?_, ?_⟩ <;> unfold touch <;> each
    · exact vec_fits (by show L + k ≤ D.nev + D.nex; omega)
    · exact ⟨dH, b1.mat (by omega), b2.mat (by omega), bA.corner (by omega) (by omega),
        vec_fits (by show 0 + k ≤ D.nev + D.nex; omega)⟩
  | resd f =>
    obtain ⟨rfl, h⟩ := hc
    refine ⟨?_, ?_⟩ <;> unfold touch <;> each
    · exact vec_fits (by show f + (D.nev + D.nex - f) ≤ D.nev + D.nex; omega)
    · exact ⟨dH, b1.mat (by omega), b2.mat (by omega),
        vec_fits (by show 0 + (D.nev + D.nex - f) ≤ D.nev + D.nex; omega),
        vec_fits (by show 0 + (D.nev + D.nex - f) ≤ D.nev + D.nex; omega)⟩
  | swap i j =>
    obtain ⟨h1, h2⟩ := hc
    refine ⟨nil _, ?_⟩
    unfold touch
    each
    exact ⟨vec_fits (by show 0 + D.N ≤ D.N; omega), b1.col' h1, b1.col' h2⟩

end Cuda

namespace Mgpu
open Mpi (Dims Fitting PackFits)

variable {D : Dims} {aware : Bool}

/-- The arrays on the side the communication works on have the sizes of the CPU backend. -/
theorem host_staged (D : Dims) : host D false = D.sizes := rfl

/-- The same on the device, where the matrix is stored with leading dimension `m`. -/
theorem dev_aware (D : Dims) : dev D true = { D with ldh := D.m }.sizes := rfl

theorem fitting_dev (hD : Fitting D) : Fitting { D with ldh := D.m } :=
  { hD with ldh := le_refl _ }

theorem c2b_fits {z : Sizes} (hD : Fitting D) (k : ℕ) : ∀ a ∈ Mpi.c2b D k, a.Fits z := by
  intro a ha
  have h := Mpi.c2b_fits hD k a ha
  obtain ⟨r, _, ha'⟩ := List.mem_flatMap.mp ha
  have : ∃ n, a.buf = .tmp n := by
    split_ifs at ha' <;> simp only [List.mem_cons, List.not_mem_nil, or_false] at ha'
    · rcases ha' with rfl | rfl <;> exact ⟨_, rfl⟩
    · rcases ha' with rfl; exact ⟨_, rfl⟩
  obtain ⟨n, e⟩ := this
  intro i hi j hj
  have := h i hi j hj
  rw [e] at this ⊢
  exact this

theorem b2c_fits {z : Sizes} (hD : Fitting D) (k : ℕ) : ∀ a ∈ Mpi.b2c D k, a.Fits z := by
  intro a ha
  have h := Mpi.b2c_fits hD k a ha
  obtain ⟨r, _, ha'⟩ := List.mem_flatMap.mp ha
  have : ∃ n, a.buf = .tmp n := by
    split_ifs at ha' <;> simp only [List.mem_cons, List.not_mem_nil, or_false] at ha'
    · rcases ha' with rfl | rfl <;> exact ⟨_, rfl⟩
    · rcases ha' with rfl; exact ⟨_, rfl⟩
  obtain ⟨n, e⟩ := this
  intro i hi j hj
  have := h i hi j hj
  rw [e] at this ⊢
  exact this

theorem lockCopy_fits {z : Sizes} (b1 : Block z .C D.m D.nevex) (b2 : Block z .C2 D.m D.nevex) (h : L ≤ D.nevex) :
    ∀ a ∈ lockCopy D L, a.Fits z := by
  unfold lockCopy
  each
  exact ⟨b1.vec0' h, b2.vec0' h, b2.vec' (by omega), b1.vec' (by omega)⟩

theorem gatherHost_fits (hD : Fitting D) (hp : PackFits D) {k : ℕ} (h : L + k ≤ D.nevex) :
    ∀ a ∈ gatherHost D aware L k, a.Fits (host D aware) := by
  unfold gatherHost
  cases aware with
  | true => intro a ha; cases ha
  | false =>
    have bC : Block (host D false) .C D.m D.nevex := ⟨le_refl _⟩
    have bB : Block (host D false) .B D.n D.nevex := ⟨le_refl _⟩
    simp only [Bool.false_eq_true, if_false]
    each
    exact ⟨Mpi.gatherC2_fits hD hp h, bC.mat h, bB.mat h, bB.vec h⟩

theorem gatherDev_fits (hD : Fitting D) (hp : PackFits D) {k : ℕ} (h : L + k ≤ D.nevex) :
    ∀ a ∈ gatherDev D aware L k, a.Fits (dev D aware) := by
  unfold gatherDev
  have bC : Block (dev D aware) .C D.m D.nevex := ⟨le_refl _⟩
  have bB : Block (dev D aware) .B D.n D.nevex := ⟨le_refl _⟩
  have bH : Block (dev D aware) .H D.m D.n := ⟨le_refl _⟩
  each
  refine ⟨?_, bH.mat0 (le_refl _), bC.mat h, bB.mat h⟩
  cases aware with
  | false => intro a ha; cases ha
  | true =>
    simp only [if_true]
    each
    exact ⟨Mpi.gatherC2_fits (D := { D with ldh := D.m }) (fitting_dev hD) hp h, bB.vec h⟩

theorem touchHost_fits (hD : Fitting D) (hl : nl ≤ D.nevex) {c : Call R} (hc : Allowed D.nev D.nex nl L c)
    (hp : PackFits D) : ∀ a ∈ touchHost D aware L c, a.Fits (host D aware) := by
  have hH : Access.Fits (host D aware) ⟨.H, 0, D.m, D.n, D.ldh⟩ :=
    mat_fits 0 0 (by omega) (le_refl _) (by have := hD.ldh; omega) (by omega)
  have bC : Block (host D aware) .C D.m D.nevex := ⟨le_refl _⟩
  have bC2 : aware = false → Block (host D aware) .C2 D.m D.nevex := by rintro rfl; exact ⟨le_refl _⟩
  have bB : aware = false → Block (host D aware) .B D.n D.nevex := by rintro rfl; exact ⟨le_refl _⟩
  have bB2 : aware = false → Block (host D aware) .B2 D.n D.nevex := by rintro rfl; exact ⟨le_refl _⟩
  have bA : aware = false → Block (host D aware) .A D.nevex D.nevex := by rintro rfl; exact ⟨le_refl _⟩
  have htmp : ∀ n : ℕ, (vec (.tmp n) 0 n).Fits (host D aware) := fun n => vec_fits (by show 0 + n ≤ n; omega)
  have nil : ∀ z : Sizes, ∀ a ∈ ([] : List Access), a.Fits z := fun _ _ h => by cases h
  have en : D.nevex = D.nev + D.nex := rfl
  have hf : ∀ {l : List Access}, (aware = false → ∀ a ∈ l, a.Fits (host D aware)) →
      ∀ a ∈ (if aware then [] else l), a.Fits (host D aware) := by
    intro l h
    cases aware with
    | true => exact nil _
    | false => exact h rfl
  cases c with
  | checkSymmetryEasy =>
    unfold touchHost; each
    exact ⟨⟨⟨htmp _, htmp _, hH⟩, c2b_fits hD 1⟩, b2c_fits hD 1⟩
  | start => exact nil _
  | finish =>
    unfold touchHost
    split_ifs
    · each; exact bC.mat0 (by omega)
    · exact nil _
  | lock k => exact nil _
  | initVecs b =>
    unfold touchHost
    each
    refine ⟨hH, hf fun ha => ?_⟩
    each
    refine ⟨?_, bC.mat0 (le_refl _), (bC2 ha).mat0 (le_refl _)⟩
    split_ifs
    · each; exact bC.mat0 (le_refl _)
    · exact nil _
  | qr f cd =>
    have hL : L < D.nevex := hc
    unfold touchHost
    each
    refine ⟨⟨⟨bC.mat0 (le_refl _), bC.vec0 (le_refl _), htmp _, ?_⟩, cond_fits hL⟩, hf fun ha => ?_⟩
    · exact mat_fits 0 0 (by omega) (le_refl _) (by omega) (by omega)
    · each
      exact ⟨⟨(bA ha).corner (le_refl _) (le_refl _), (bA ha).vec0 (le_refl _),
        diag_fits (bA ha).size (le_refl _)⟩, lockCopy_fits bC (bC2 ha) (by omega)⟩
  | lanczos1 M =>
    obtain ⟨h1, h2⟩ := hc
    unfold touchHost
    each
    exact ⟨⟨⟨⟨⟨hf fun _ => bC.lanczos (by omega) (by omega), work_fits⟩, work_fits⟩, b2c_fits hD 1⟩, scalars_fits⟩,
      stemr_fits h1⟩
  | lanczosN M k =>
    obtain ⟨h1, h2, rfl⟩ := hc
    unfold touchHost
    each
    exact ⟨⟨⟨⟨⟨hf fun _ => bC.lanczos (by omega) hl, work_fits⟩, work_fits⟩, b2c_fits hD k⟩, scalars_fits⟩,
      stemr_fits h1⟩
  | lanczosDos i m =>
    obtain ⟨h1, h2⟩ := hc
    unfold touchHost
    split_ifs with ha
    · each
      refine vec_fits ?_
      rw [Nat.zero_add]; exact Nat.mul_le_mul_left _ h1
    · have ha : aware = false := by simpa using ha
      each
      exact ⟨bC.mat0 h2, mat_fits 0 0 (by omega) (le_refl _) (by omega) (by omega), (bC2 ha).mat0 (by omega),
        bC.vec0' h2, (bC2 ha).vec0' h2⟩
  | shift x b => exact nil _
  | hemm k al be o =>
    have h : L + o + k = D.nevex := hc
    unfold touchHost
    refine hf fun ha => ?_
    each
    refine ⟨bC.mat (by omega), (bB ha).mat (by omega), ?_, ?_⟩
    · rw [← Nat.add_mul]; exact (bB ha).vec (by omega)
    · rw [← Nat.add_mul]; exact bC.vec (by omega)
  | rr k =>
    have h : L + k = D.nevex := hc.1
    unfold touchHost
    each
    refine ⟨⟨gatherHost_fits hD hp (by omega), vec_fits (by show L + k ≤ D.nevex; omega)⟩, hf fun ha => ?_⟩
    each
    exact ⟨(bB ha).mat (by omega), (bB2 ha).mat (by omega), (bA ha).corner (by omega) (by omega),
      (bA ha).vec0 (by omega), (bC2 ha).mat (by omega), bC.mat (by omega), (bC2 ha).vec (by omega),
      bC.vec (by omega)⟩
  | resd f =>
    obtain ⟨rfl, h⟩ := hc
    unfold touchHost
    each
    refine ⟨⟨gatherHost_fits hD hp (by omega), vec_fits (by show f + (D.nevex - f) ≤ D.nevex; omega)⟩,
      hf fun ha => ?_⟩
    each
    refine ⟨vec_fits (by show f + (D.nevex - f) ≤ D.nevex; omega), ?_⟩
    intro a ha'
    obtain ⟨i, hi, ha''⟩ := List.mem_flatMap.mp ha'
    clear ha'
    have hi' : i < D.nevex - f := List.mem_range.mp hi
    revert a
    each
    refine ⟨?_, ?_⟩
    · rw [← Nat.add_mul]; exact (bB2 ha).col (by omega)
    · rw [← Nat.add_mul]; exact (bB ha).col (by omega)
  | swap i j =>
    obtain ⟨h1, h2⟩ := hc
    unfold touchHost
    refine hf fun ha => ?_
    each
    exact ⟨vec_fits (by show 0 + D.m ≤ D.m; omega), bC.col' h1, bC.col' h2⟩

/-- What `d_ritzVc_` must offer to a call, if it has been allocated before. -/
def RitzVcFits (rv : Option ℕ) : Call R → Prop
  | .lanczosDos i m => ∀ sz, rv = some sz → m * i ≤ sz
  | _ => True

theorem touchDev_fits {rv : Option ℕ} (hD : Fitting D) (hl : nl ≤ D.nevex) {c : Call R}
    (hc : Allowed D.nev D.nex nl L c) (hp : PackFits D) (hrv : aware = true → RitzVcFits rv c) :
    ∀ a ∈ touchDev D aware rv L c, a.Fits (dev D aware) := by
  have bH : Block (dev D aware) .H D.m D.n := ⟨le_refl _⟩
  have hH : Access.Fits (dev D aware) ⟨.H, 0, D.m, D.n, D.m⟩ := bH.mat0 (le_refl _)
  have bC : Block (dev D aware) .C D.m D.nevex := ⟨le_refl _⟩
  have bC2 : Block (dev D aware) .C2 D.m D.nevex := ⟨le_refl _⟩
  have bB : Block (dev D aware) .B D.n D.nevex := ⟨le_refl _⟩
  have bB2 : Block (dev D aware) .B2 D.n D.nevex := ⟨le_refl _⟩
  have bA : Block (dev D aware) .A D.nevex D.nevex := ⟨le_refl _⟩
  have nil : ∀ z : Sizes, ∀ a ∈ ([] : List Access), a.Fits z := fun _ _ h => by cases h
  have en : D.nevex = D.nev + D.nex := rfl
  have ht : ∀ {l : List Access}, (aware = true → ∀ a ∈ l, a.Fits (dev D aware)) →
      ∀ a ∈ (if aware then l else []), a.Fits (dev D aware) := by
    intro l h
    cases aware with
    | true => exact h rfl
    | false => exact nil _
  cases c with
  | checkSymmetryEasy => exact nil _
  | start => exact nil _
  | finish => unfold touchDev; refine ht fun _ => ?_; each; exact bC.mat0 (by omega)
  | lock k => exact nil _
  | initVecs b =>
    unfold touchDev
    each
    refine ⟨⟨hH, ?_⟩, ht fun _ => ?_⟩
    · split_ifs
      · each; exact ⟨bC.vec0 (le_refl _), bC.mat0 (le_refl _)⟩
      · exact nil _
    · each; exact ⟨bC.vec0 (le_refl _), bC2.vec0 (le_refl _)⟩
  | qr f cd =>
    have hL : L < D.nevex := hc
    unfold touchDev
    each
    refine ⟨⟨bC.mat0 (le_refl _), bA.corner (le_refl _) (le_refl _), one_fits (by show 0 < 1; omega)⟩, ht fun _ => ?_⟩
    each
    exact ⟨⟨bA.vec0 (le_refl _), diag_fits bA.size (le_refl _)⟩, lockCopy_fits bC bC2 (by omega)⟩
  | lanczos1 M =>
    obtain ⟨h1, h2⟩ := hc
    unfold touchDev
    each
    exact ⟨⟨⟨ht fun _ => bC.lanczos (by omega) (by omega), work_fits⟩, work_fits⟩, hH⟩
  | lanczosN M k =>
    obtain ⟨h1, h2, rfl⟩ := hc
    unfold touchDev
    each
    exact ⟨⟨⟨ht fun _ => bC.lanczos (by omega) hl, work_fits⟩, work_fits⟩, hH⟩
  | lanczosDos i m =>
    obtain ⟨h1, h2⟩ := hc
    unfold touchDev
    refine ht fun ha => ?_
    have hs : m * i ≤ rv.getD (m * i) := by
      cases rv with
      | none => exact le_refl _
      | some sz => exact hrv ha sz rfl
    each
    refine ⟨vec_fits (by rw [Nat.zero_add]; exact hs), ?_, bC.mat0 h2, bC2.mat0 (by omega), bC.vec0 h2, bC2.vec0 h2⟩
    exact mat_fits 0 0 (by omega) hs (by omega) (by omega)
  | shift x b => unfold touchDev; each; exact hH
  | hemm k al be o =>
    have h : L + o + k = D.nevex := hc
    unfold touchDev
    each
    refine ⟨⟨hH, ?_, ?_⟩, ht fun _ => ?_⟩
    · rw [← Nat.add_mul]; exact bC.mat (by omega)
    · rw [← Nat.add_mul]; exact bB.mat (by omega)
    · each
      refine ⟨?_, ?_⟩
      · rw [← Nat.add_mul]; exact bB.vec (by omega)
      · rw [← Nat.add_mul]; exact bC.vec (by omega)
  | rr k =>
    have h : L + k = D.nevex := hc.1
    unfold touchDev
    each
    refine ⟨⟨gatherDev_fits hD hp (by omega), bB2.mat (by omega), bB.mat (by omega), bA.corner (by omega) (by omega),
      vec_fits (by show 0 + k ≤ D.nevex; omega), bC2.mat (by omega), bC.mat (by omega)⟩, ht fun _ => ?_⟩
    each
    exact ⟨bA.vec0 (by omega), bC2.vec (by omega), bC.vec (by omega)⟩
  | resd f =>
    obtain ⟨rfl, h⟩ := hc
    unfold touchDev
    each
    refine ⟨gatherDev_fits hD hp (by omega), ht fun _ => ?_⟩
    each
    exact ⟨bB.mat (by omega), bB2.mat (by omega), vec_fits (by show 0 + (D.nevex - f) ≤ D.nevex; omega),
      vec_fits (by show f + (D.nevex - f) ≤ D.nevex; omega)⟩
  | swap i j =>
    obtain ⟨h1, h2⟩ := hc
    unfold touchDev
    refine ht fun _ => ?_
    each
    exact ⟨vec_fits (by show 0 + D.m ≤ D.m; omega), bC.col' h1, bC.col' h2⟩

theorem touch_fits {rv : Option ℕ} (hD : Fitting D) (hl : nl ≤ D.nevex) {c : Call R}
    (hc : Allowed D.nev D.nex nl L c) (hp : PackFits D) (hrv : aware = true → RitzVcFits rv c) :
    (touch D aware rv L c).Fits (host D aware) (dev D aware) :=
  ⟨touchHost_fits hD hl hc hp, touchDev_fits hD hl hc hp hrv⟩

end Mgpu
end Bounds
end Verif
