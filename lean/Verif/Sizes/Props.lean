/-
Properties C71 (messages and file transfers are complete whatever the sizes) and C72 (the eigensolver of Rayleigh-Ritz
gets a workspace of the documented size).
-/
import Verif.Sizes.Model
import Verif.Bounds.Props
import Mathlib.Tactic.Linarith
import Mathlib.Tactic.Ring
import Mathlib.Tactic.NormNum

namespace Verif
namespace Sizes

open Bounds

/-! ### The conversion to `int` -/

theorem toInt_of_lt {x : ℕ} (h : x < 2 ^ 31) : toInt x = x := by
  unfold toInt; omega

theorem toInt_lt (x : ℕ) : toInt x < 2 ^ 31 := by
  unfold toInt; omega

theorem toInt_nonneg_lt {x : ℕ} (h : 2 ^ 31 ≤ x) : (toInt x).toNat < x := by
  have := toInt_lt x; omega

/-! ### C71 -/

section Messages
variable {R S' : Type*} [Add R] [Sub R] [Mul R] [Div R] [Neg R] [Zero R] [One R] [NatCast R] [LT R] [DecidableLT R]
  {P : Plat R} {ops : Chase R S'} {cfg : Config R} {ritzv0 resid0 : ℕ → R} {s : S'}
  {out : Outcome R (S' × List (Call R))}

/-- A message of `len` elements is complete: a reduction replaces all `len` elements by their sums over the processes, a
broadcast all of them by those of the root, and nothing else changes. -/
structure Complete (len : ℕ) : Prop where
  reduce : ∀ (G S : Type) [Fintype G] [AddCommMonoid S] (buf : G → ℕ → S),
    allReduce (toInt len) buf = some fun g i => if i < len then ∑ g', buf g' i else buf g i
  cast : ∀ (G S : Type) (root : G) (buf : G → ℕ → S),
    bcast (toInt len) root buf = some fun g i => if i < len then buf root i else buf g i

/-- A message of `len` elements is cut short: it is an error, or the last element keeps its old value on every
process, in reductions and broadcasts. -/
structure Cut (len : ℕ) : Prop where
  reduce : ∀ (G S : Type) [Fintype G] [AddCommMonoid S] (buf : G → ℕ → S),
    ∀ r, allReduce (toInt len) buf = some r → ∀ g, r g (len - 1) = buf g (len - 1)
  cast : ∀ (G S : Type) (root : G) (buf : G → ℕ → S),
    ∀ r, bcast (toInt len) root buf = some r → ∀ g, r g (len - 1) = buf g (len - 1)

theorem complete_of_lt {len : ℕ} (h : len < 2 ^ 31) : Complete len := by
  constructor <;> intros <;> (first | unfold allReduce | unfold bcast) <;>
    rw [toInt_of_lt h, if_neg (by omega), Int.toNat_natCast]

theorem cut_of_le {len : ℕ} (h : 2 ^ 31 ≤ len) : Cut len := by
  have hl := toInt_nonneg_lt h
  constructor
  · intro G S _ _ buf r hr g
    unfold allReduce at hr
    split_ifs at hr
    rw [← Option.some.inj hr]
    exact if_neg (show ¬ _ by omega)
  · intro G S root buf r hr g
    unfold bcast at hr
    split_ifs at hr
    rw [← Option.some.inj hr]
    exact if_neg (show ¬ _ by omega)

/-- The two cases exclude each other: the last element of a complete reduction is the sum. -/
theorem not_complete_of_cut {len : ℕ} (h : Cut len) (h0 : 0 < len) : ¬ Complete len := by
  intro hc
  have h1 := h.reduce Bool ℕ (fun _ _ => 1) _ (hc.reduce Bool ℕ (fun _ _ => 1)) true
  simp [h0] at h1

/-- Complete exactly for fewer than `2^31` elements. -/
theorem complete_iff (len : ℕ) : Complete len ↔ len < 2 ^ 31 :=
  ⟨fun h => by
    by_contra hl
    exact not_complete_of_cut (cut_of_le (by omega)) (by omega) h, complete_of_lt⟩

/-- **C71, partial:** if the blocks of vectors and the projected matrix have fewer than `2^31` elements, all messages of
every solve on every process are complete. Missing: larger blocks, see `C71_refuted`. -/
theorem C71_messages_partial (hP : PermutesIndices P)
    (h : solve P (traced ops) cfg ritzv0 resid0 (s, []) = .ok out)
    (hsym : cfg.symCheck = true → (ops.checkSymmetryEasy s).1 = true)
    (hn : 0 < cfg.nev + cfg.nex) (D : Mpi.Dims) (hD : D.nev = cfg.nev ∧ D.nex = cfg.nex)
    (hruns : ∀ r ∈ D.cRuns, r.dest = D.rowRank → r.len ≤ D.n)
    (h1 : D.m * (cfg.nev + cfg.nex) < 2 ^ 31) (h2 : D.n * (cfg.nev + cfg.nex) < 2 ^ 31)
    (h3 : (cfg.nev + cfg.nex) * (cfg.nev + cfg.nex) < 2 ^ 31) (h4 : (D.n + 1) * cfg.numLanczos < 2 ^ 31)
    (k : ℕ) (call : Call R) (hk : out.be.2[k]? = some call) :
    ∀ len ∈ messages D call, Complete len := by
  have hal := (path_allowed hn 0 (C57_call_protocol hP ritzv0 resid0 s out h hsym)).2 k call hk
  have hx : D.nevex = cfg.nev + cfg.nex := by unfold Mpi.Dims.nevex; rw [hD.1, hD.2]
  generalize lockedAfter (out.be.2.take k) 0 = L at hal
  have hm : ∀ b, b ≤ cfg.nev + cfg.nex → D.m * b < 2 ^ 31 := fun b hb =>
    lt_of_le_of_lt (Nat.mul_le_mul_left _ hb) h1
  have hnn : ∀ b, b ≤ cfg.nev + cfg.nex → D.n * b < 2 ^ 31 := fun b hb =>
    lt_of_le_of_lt (Nat.mul_le_mul_left _ hb) h2
  have hv : ∀ b, b ≤ cfg.nev + cfg.nex → b < 2 ^ 31 := fun b hb =>
    lt_of_le_of_lt (le_trans hb (Nat.le_mul_of_pos_left _ hn)) h3
  have hg : ∀ b, b ≤ cfg.nev + cfg.nex → ∀ len ∈ gatherMessages D b, len < 2 ^ 31 := by
    intro b hb len hl
    unfold gatherMessages at hl
    rcases List.mem_append.mp hl with hl | hl
    · split_ifs at hl
      · rcases List.mem_cons.mp hl with rfl | hl
        · rw [Nat.mul_comm]; exact hm b hb
        · rw [List.mem_singleton.mp hl, Nat.mul_comm]; exact hnn b hb
      · obtain ⟨r, hr, rfl⟩ := List.mem_map.mp hl
        obtain ⟨hr, hd⟩ := List.mem_filter.mp hr
        exact lt_of_le_of_lt (Nat.mul_le_mul_right _ (hruns r hr (by simpa using hd))) (hnn b hb)
    · rw [List.mem_singleton.mp hl]; exact hnn b hb
  intro len hl
  refine complete_of_lt ?_
  cases call with
  | checkSymmetryEasy =>
    simp only [messages, List.mem_cons, List.not_mem_nil, or_false] at hl
    rcases hl with rfl | rfl | rfl
    · simpa using hnn 1 hn
    · simpa using hm 1 hn
    · norm_num
  | qr _ _ =>
    simp only [messages, List.mem_cons, List.not_mem_nil, or_false, hx] at hl
    rcases hl with rfl | rfl | rfl
    · exact h3
    · exact h1
    · exact hv _ (le_refl _)
  | lanczos1 _ =>
    simp only [messages, List.mem_cons, List.not_mem_nil, or_false] at hl
    rcases hl with rfl | rfl
    · norm_num
    · exact hnn 1 hn
  | lanczosN m nv =>
    obtain ⟨-, -, rfl⟩ := hal
    simp only [messages, List.mem_cons, List.not_mem_nil, or_false] at hl
    rcases hl with rfl | rfl
    · exact lt_of_le_of_lt (Nat.le_mul_of_pos_left _ (Nat.succ_pos _)) h4
    · exact lt_of_le_of_lt (Nat.mul_le_mul_right _ (Nat.le_succ _)) h4
  | hemm b _ _ o =>
    have hb : L + o + b = cfg.nev + cfg.nex := hal
    simp only [messages, List.mem_cons, List.not_mem_nil, or_false] at hl
    rcases hl with rfl | rfl
    · exact hnn b (by omega)
    · exact hm b (by omega)
  | rr b =>
    obtain ⟨hb, -⟩ : L + b = cfg.nev + cfg.nex ∧ L < cfg.nev := hal
    rcases List.mem_append.mp hl with hl | hl
    · exact hg b (by omega) len hl
    · rw [List.mem_singleton.mp hl, hx]
      exact lt_of_le_of_lt (Nat.mul_le_mul_left _ (by omega)) h3
  | resd f =>
    rw [messages, hx] at hl
    rcases List.mem_append.mp hl with hl | hl
    · exact hg _ (Nat.sub_le _ _) len hl
    · rw [List.mem_singleton.mp hl]; exact hv _ (Nat.sub_le _ _)
  | _ => exact absurd hl List.not_mem_nil

/-- The first round is not past its projection; nothing is locked. -/
def First : Phase R → Prop
  | .ready n L | .shifted n L _ | .mult n L _ | .filtered n L | .orthed n L => n = 0 ∧ L = 0
  | .sorted n _ | .done n _ => n = 0
  | .projected _ _ | .measured _ _ => False
  | _ => True

omit [Add R] [Sub R] [Mul R] [Div R] [NatCast R] [LT R] [DecidableLT R] in
/-- A solve of at least one round calls `RR` for all columns. -/
theorem path_rr_all {N nev nex nl : ℕ} {tr : List (Call R)} {q : Phase R} (h : Path N nev nex nl .fresh tr q) :
    Call.rr (nev + nex) ∈ tr ∨ First q := by
  have key : ∀ {q c q'}, Next N nev nex nl q c q' → First q → c = (Call.rr (nev + nex) : Call R) ∨ First q' := by
    intro q c q' h
    induction h with
    | skipDos _ ih => exact fun _ => ih ⟨rfl, rfl⟩
    | rr hk =>
      rintro ⟨-, rfl⟩
      rw [Nat.zero_add] at hk
      exact .inl (by rw [hk])
    | _ => simp_all [First]
  induction h with
  | nil => exact .inr trivial
  | snoc hp hnx ih =>
    rcases ih with ih | ih
    · exact .inl (by simp [ih])
    · rcases key hnx ih with rfl | h
      · exact .inl (by simp)
      · exact .inr h

/-- **C71 is refuted:** on a process whose part of a block of vectors has `2^31` elements or more, every solve of at
least one round has a reduction that is cut short. -/
theorem C71_refuted (hP : PermutesIndices P)
    (h : solve P (traced ops) cfg ritzv0 resid0 (s, []) = .ok out)
    (hsym : cfg.symCheck = true → (ops.checkSymmetryEasy s).1 = true)
    (hit : out.iterations ≠ 0) (D : Mpi.Dims) (hbig : 2 ^ 31 ≤ D.n * (cfg.nev + cfg.nex)) :
    ∃ (k : ℕ) (call : Call R), out.be.2[k]? = some call ∧ ∃ len ∈ messages D call, Cut len ∧ ¬ Complete len := by
  rcases path_rr_all (C57_call_protocol hP ritzv0 resid0 s out h hsym) with hb | h1
  · obtain ⟨k, hk⟩ := List.mem_iff_getElem?.mp hb
    exact ⟨k, _, hk, _, by simp [messages, gatherMessages], cut_of_le hbig,
      not_complete_of_cut (cut_of_le hbig) (by omega)⟩
  · exact absurd h1 hit

/-- Non-vacuity of the two theorems: the run of the examples of C42 makes two rounds, and a process with 800 million
columns of the matrix is beyond the limit, one with 700 thousand is not. -/
example : Toy.okAnd (fun out => out.iterations == 2)
      (solve Toy.plat (traced (Toy.ops Toy.vals1 Toy.res1 true)) Toy.cfg1 (fun _ => 0) (fun _ => 0)
        (Toy.start, [])) = true ∧ PermutesIndices Toy.plat ∧
    2 ^ 31 ≤ 800000000 * (Toy.cfg1.nev + Toy.cfg1.nex) ∧ 700000 * (Toy.cfg1.nev + Toy.cfg1.nex) < 2 ^ 31 :=
  ⟨by rw [Toy.solve_eq_solveE]; decide +kernel, Toy.plat_sorts.permutes, by decide, by decide⟩

/-- A realistic case: a million rows per process and 2200 columns; the reduction gets the count `-2094967296`. -/
example : toInt (1000000 * 2200) = -2094967296 := by decide

/-- And one that fails silently: of `4400000000` elements only the first `105032704` are reduced. -/
example : toInt (2000000 * 2200) = 105032704 := by decide

/-- **C71, files:** reading or writing the local matrix transfers all its `m * n` elements if and only if there are
fewer than `2^31`; otherwise the call fails or the last element is not transferred. -/
theorem C71_files {S : Type*} (m n : ℕ) (view H : ℕ → S) :
    (m * n < 2 ^ 31 → fileTransfer (toInt (m * n)) view H = some fun i => if i < m * n then view i else H i) ∧
    (2 ^ 31 ≤ m * n → ∀ r, fileTransfer (toInt (m * n)) view H = some r → r (m * n - 1) = H (m * n - 1)) := by
  generalize m * n = len at *
  refine ⟨fun h => ?_, fun h r hr => ?_⟩
  · unfold fileTransfer
    rw [toInt_of_lt h, if_neg (by omega), Int.toNat_natCast]
  · have hl := toInt_nonneg_lt h
    unfold fileTransfer at hr
    split_ifs at hr
    rw [← Option.some.inj hr]
    exact if_neg (show ¬ _ by omega)

/-- A local matrix of order 46341 is beyond the limit, one of order 46340 is not. -/
example : 46340 * 46340 < 2 ^ 31 ∧ 2 ^ 31 ≤ 46341 * 46341 := by decide

/-- With NCCL the count is defined and right if and only if the number of *real* numbers is below `2^31`. -/
theorem C71_nccl (w len : ℕ) (hw : w = 1 ∨ w = 2) (hl : len < 2 ^ 31) :
    ncclCount w len = some ((w * len : ℕ) : ℤ) ↔ w * len < 2 ^ 31 := by
  unfold ncclCount
  rw [toInt_of_lt hl]
  dsimp only
  push_cast
  constructor
  · intro h
    split_ifs at h with h1
    rcases hw with rfl | rfl <;> push_cast at * <;> omega
  · intro h
    rw [if_neg]
    rcases hw with rfl | rfl <;> push_cast at * <;> omega

end Messages

/-! ### C72 -/

section Workspace

theorem roundTo_of_lt {p x : ℕ} (h : x < 2 ^ p) : roundTo p x = x := by
  unfold roundTo; rw [if_pos h]

/-- The natural numbers that have a binary floating-point representation with `p` bits. -/
def Representable (p y : ℕ) : Prop := ∃ a e, a < 2 ^ p ∧ y = a * 2 ^ e

/-- `roundTo` rounds to a number of `p` bits, and no such number is nearer. -/
theorem roundTo_nearest {p : ℕ} (hp : 0 < p) (x : ℕ) : Representable p (roundTo p x) ∧
    ∀ y, Representable p y → |(roundTo p x : ℤ) - x| ≤ |(y : ℤ) - x| := by
  by_cases hx : x < 2 ^ p
  · rw [roundTo_of_lt hx]
    exact ⟨⟨x, 0, hx, by simp⟩, fun y _ => by simp⟩
  have hx0 : x ≠ 0 := by rintro rfl; exact hx (Nat.pos_of_ne_zero (by simp))
  have hlo : 2 ^ Nat.log2 x ≤ x := Nat.log2_self_le hx0
  have hhi : x < 2 ^ (Nat.log2 x + 1) := Nat.lt_log2_self
  have hpl : p < Nat.log2 x + 1 := (Nat.pow_lt_pow_iff_right (by norm_num)).1 (lt_of_le_of_lt (not_lt.1 hx) hhi)
  unfold roundTo
  rw [if_neg hx]
  obtain ⟨s, hs⟩ : ∃ s, Nat.log2 x + 1 = p + s := ⟨Nat.log2 x + 1 - p, by omega⟩
  have hss : Nat.log2 x + 1 - p = s := by omega
  simp only [hss]
  have hP : 0 < 2 ^ s := by positivity
  have hdm : 2 ^ s * (x / 2 ^ s) + x % 2 ^ s = x := Nat.div_add_mod x _
  have hr : x % 2 ^ s < 2 ^ s := Nat.mod_lt _ hP
  have hq1 : x / 2 ^ s < 2 ^ p := by
    rw [Nat.div_lt_iff_lt_mul hP, ← pow_add, ← hs]; exact hhi
  have hq0 : 2 ^ (p - 1) ≤ x / 2 ^ s := by
    rw [Nat.le_div_iff_mul_le hP, ← pow_add, show p - 1 + s = Nat.log2 x by omega]; exact hlo
  have hpp : 2 ^ p = 2 * 2 ^ (p - 1) := by rw [← pow_succ']; congr 1; omega
  generalize hq : x / 2 ^ s = q at *
  generalize hrr : x % 2 ^ s = r at *
  -- every number of `p` bits is below the number before `x` or a multiple of the spacing
  have hy : ∀ y, Representable p y → y ≤ 2 ^ s * q ∨ 2 ^ s * (q + 1) ≤ y := by
    rintro y ⟨a, e, ha, rfl⟩
    by_cases he : s ≤ e
    · obtain ⟨d, rfl⟩ := Nat.exists_eq_add_of_le he
      rw [show a * 2 ^ (s + d) = 2 ^ s * (a * 2 ^ d) by ring]
      rcases Nat.lt_or_ge q (a * 2 ^ d) with h | h
      · exact Or.inr (Nat.mul_le_mul_left _ h)
      · exact Or.inl (Nat.mul_le_mul_left _ h)
    · left
      have h1 : a * 2 ^ e ≤ 2 ^ p * 2 ^ e := Nat.mul_le_mul_right _ ha.le
      have h2 : 2 ^ p * 2 ^ e ≤ 2 ^ s * 2 ^ (p - 1) := by
        rw [← pow_add, ← pow_add]; exact Nat.pow_le_pow_right (by norm_num) (by omega)
      exact h1.trans (h2.trans (Nat.mul_le_mul_left _ hq0))
  have hm : 2 ^ s * (q + 1) = 2 ^ s * q + 2 ^ s := by ring
  constructor
  · split_ifs
    · exact ⟨q, s, hq1, rfl⟩
    · rcases Nat.lt_or_ge (q + 1) (2 ^ p) with h | h
      · exact ⟨q + 1, s, h, rfl⟩
      · refine ⟨2 ^ (p - 1), s + 1, by omega, ?_⟩
        rw [show q + 1 = 2 ^ p by omega, hpp]; ring
  · intro y hR
    have hy' := hy y hR
    rw [hm] at hy'
    split_ifs with hc
    · rw [Nat.mul_comm q]
      generalize 2 ^ s * q = u at *
      generalize 2 ^ s = w at *
      have : 2 * r ≤ w := by omega
      rcases hy' with h | h <;> rw [abs_le] <;> constructor <;> cases abs_cases ((y : ℤ) - x) <;> omega
    · rw [Nat.mul_comm (q + 1), hm]
      generalize 2 ^ s * q = u at *
      generalize 2 ^ s = w at *
      have : w ≤ 2 * r := by by_contra h; exact hc (Or.inl (by omega))
      rcases hy' with h | h <;> rw [abs_le] <;> constructor <;> cases abs_cases ((y : ℤ) - x) <;> omega

/-- Halfway between two numbers of 24 bits the even one is taken. -/
example : roundTo 24 (2 ^ 24 + 1) = 2 ^ 24 ∧ roundTo 24 (2 ^ 24 + 3) = 2 ^ 24 + 4 := by decide

/-- The documented minimal sizes for a matrix of order 3. -/
example : syevdMin 3 = 37 ∧ heevdMin 3 = 15 ∧ heevdRealMin 3 = 34 := by decide

/-- **C72, partial:** when LAPACK determines a size `opt` not below the documented minimum that is exact in the
floating-point format (`p` bits) and below `2^31`, the wrapper passes it on, and the eigensolver does its work. -/
theorem C72_workspace_partial {σ : Type*} (p min opt : ℕ) (hmin : min ≤ opt) (hp : opt < 2 ^ p) (h31 : opt < 2 ^ 31)
    (position : ℕ) (solve : σ → σ) (s : σ) :
    heevdCall position min (lwork p opt) solve s = some (0, solve s) := by
  unfold heevdCall lwork
  rw [roundTo_of_lt hp, toInt_of_lt h31, if_neg (by omega), if_neg (by omega)]

/-- The same for a LAPACK that rounds up, or asks for more: the wrapper passes on every size below `2^31` that the
floating-point number can hold. -/
theorem C72_reported_partial {σ : Type*} (min reported : ℕ) (hmin : min ≤ reported) (h31 : reported < 2 ^ 31)
    (position : ℕ) (solve : σ → σ) (s : σ) :
    heevdCall position min (toInt reported) solve s = some (0, solve s) := by
  unfold heevdCall
  rw [toInt_of_lt h31, if_neg (by omega), if_neg (by omega)]

/-- In double precision: for all orders up to 32766, if LAPACK asks for the minimum; real and complex. -/
theorem C72_double_partial (n : ℕ) (hn : n ≤ 32766) :
    lwork 53 (syevdMin n) = syevdMin n ∧ lwork 53 (heevdMin n) = heevdMin n ∧
      lwork 53 (heevdRealMin n) = heevdRealMin n := by
  have h2 : n ^ 2 ≤ 32766 ^ 2 := Nat.pow_le_pow_left hn 2
  have key : ∀ x, x < 2 ^ 31 → lwork 53 x = x := fun x hx => by
    unfold lwork; rw [roundTo_of_lt (lt_trans hx (by norm_num)), toInt_of_lt hx]
  refine ⟨key _ ?_, key _ ?_, key _ ?_⟩ <;> simp only [syevdMin, heevdMin, heevdRealMin] <;> norm_num at * <;> omega

/-- In single precision: for all orders up to 2894. -/
theorem C72_single_partial (n : ℕ) (hn : n ≤ 2894) :
    lwork 24 (syevdMin n) = syevdMin n ∧ lwork 24 (heevdMin n) = heevdMin n ∧
      lwork 24 (heevdRealMin n) = heevdRealMin n := by
  have h2 : n ^ 2 ≤ 2894 ^ 2 := Nat.pow_le_pow_left hn 2
  have key : ∀ x, x < 2 ^ 24 → lwork 24 x = x := fun x hx => by
    unfold lwork; rw [roundTo_of_lt hx, toInt_of_lt (lt_trans hx (by norm_num))]
  refine ⟨key _ ?_, key _ ?_, key _ ?_⟩ <;> simp only [syevdMin, heevdMin, heevdRealMin] <;> norm_num at * <;> omega

theorem log2_eq {x k : ℕ} (h1 : 2 ^ k ≤ x) (h2 : x < 2 ^ (k + 1)) : Nat.log2 x = k := by
  have hx : x ≠ 0 := by have := Nat.pos_of_ne_zero (pow_ne_zero k (two_ne_zero : (2 : ℕ) ≠ 0)); omega
  exact (Nat.log2_eq_iff hx).mpr ⟨h1, h2⟩

/-- A number that is one more than a multiple of four is rounded down to it if it has 25 or 26 bits. -/
theorem roundTo_24 {k : ℕ} (h1 : 2 ^ 24 ≤ 4 * k + 1) (h2 : 4 * k + 1 < 2 ^ 26) : roundTo 24 (4 * k + 1) = 4 * k := by
  unfold roundTo
  rw [if_neg (by omega)]
  by_cases h3 : 4 * k + 1 < 2 ^ 25
  · rw [log2_eq h1 h3]
    norm_num
    rw [if_pos] <;> omega
  · rw [log2_eq (by omega) h2]
    norm_num
    omega

/-- **C72 is refuted** in single precision, real: when LAPACK asks for the documented minimum, then for *every* order
from 2895 to 5790 the wrapper passes one element less, and the eigensolver does nothing. -/
theorem C72_single_refuted {σ : Type*} (n : ℕ) (h1 : 2895 ≤ n) (h2 : n ≤ 5790) (solve : σ → σ) (s : σ) :
    lwork 24 (syevdMin n) = syevdMin n - 1 ∧
      heevdCall 8 (syevdMin n) (lwork 24 (syevdMin n)) solve s = some (-8, s) := by
  obtain ⟨k, hk⟩ : ∃ k, syevdMin n = 4 * k + 1 := by
    obtain ⟨j, hj⟩ : 2 ∣ n * (n + 3) := by
      rcases Nat.even_or_odd' n with ⟨i, rfl | rfl⟩
      · exact ⟨i * (2 * i + 3), by ring⟩
      · exact ⟨(2 * i + 1) * (i + 2), by ring⟩
    refine ⟨j, ?_⟩
    unfold syevdMin
    have : 1 + 6 * n + 2 * n ^ 2 = 2 * (n * (n + 3)) + 1 := by ring
    rw [this, hj]; ring
  have hlo : 2895 ^ 2 ≤ n ^ 2 := Nat.pow_le_pow_left h1 2
  have hhi : n ^ 2 ≤ 5790 ^ 2 := Nat.pow_le_pow_left h2 2
  have hb : 2 ^ 24 ≤ 4 * k + 1 ∧ 4 * k + 1 < 2 ^ 26 := by
    rw [← hk]; unfold syevdMin; norm_num at *; omega
  have hl : lwork 24 (syevdMin n) = syevdMin n - 1 := by
    unfold lwork
    rw [hk, roundTo_24 hb.1 hb.2, toInt_of_lt (by omega)]
    push_cast; ring
  refine ⟨hl, ?_⟩
  unfold heevdCall
  rw [hl, if_neg (by omega), if_pos (by omega)]
  rfl

/-- **C72 is refuted** in single precision, complex: likewise for every multiple of four from 2896 to 5788, where the
real workspace is one element too short. -/
theorem C72_single_complex_refuted {σ : Type*} (n : ℕ) (h4 : 4 ∣ n) (h1 : 2896 ≤ n) (h2 : n ≤ 5788) (solve : σ → σ)
    (s : σ) : lwork 24 (heevdRealMin n) = heevdRealMin n - 1 ∧
      heevdCall 10 (heevdRealMin n) (lwork 24 (heevdRealMin n)) solve s = some (-10, s) := by
  obtain ⟨i, rfl⟩ := h4
  have hk : heevdRealMin (4 * i) = 4 * (8 * i ^ 2 + 5 * i) + 1 := by unfold heevdRealMin; ring
  have hlo : 2896 ^ 2 ≤ (4 * i) ^ 2 := Nat.pow_le_pow_left h1 2
  have hhi : (4 * i) ^ 2 ≤ 5788 ^ 2 := Nat.pow_le_pow_left h2 2
  have hb : 2 ^ 24 ≤ 4 * (8 * i ^ 2 + 5 * i) + 1 ∧ 4 * (8 * i ^ 2 + 5 * i) + 1 < 2 ^ 26 := by
    rw [mul_pow] at hlo hhi; norm_num at *; omega
  have hl : lwork 24 (heevdRealMin (4 * i)) = heevdRealMin (4 * i) - 1 := by
    unfold lwork
    rw [hk, roundTo_24 hb.1 hb.2, toInt_of_lt (by omega)]
    push_cast; ring
  refine ⟨hl, ?_⟩
  unfold heevdCall
  rw [hl, if_neg (by omega), if_pos (by omega)]
  rfl

/-- **C72 is refuted** in every precision from order 32767 on, whatever size LAPACK asks for: no `int` is as large as
the documented minimum of the real workspace; the allocation fails or the eigensolver does nothing. -/
theorem C72_large_refuted {σ : Type*} (n p opt : ℕ) (hn : 32767 ≤ n) (min position : ℕ)
    (hmin : min = syevdMin n ∨ min = heevdRealMin n) (solve : σ → σ) (s : σ) :
    lwork p opt < min ∧ (heevdCall position min (lwork p opt) solve s = none ∨
      heevdCall position min (lwork p opt) solve s = some (-(position : ℤ), s)) := by
  have h2 : 32767 ^ 2 ≤ n ^ 2 := Nat.pow_le_pow_left hn 2
  have h3 : lwork p opt < 2 ^ 31 := toInt_lt _
  have h4 : 2 ^ 31 ≤ min := by
    rcases hmin with rfl | rfl <;> simp only [syevdMin, heevdRealMin] <;> norm_num at * <;> omega
  have h5 : lwork p opt < min := lt_of_lt_of_le h3 (by exact_mod_cast h4)
  refine ⟨h5, ?_⟩
  unfold heevdCall
  by_cases h : lwork p opt < 0
  · exact .inl (if_pos h)
  · exact .inr (by rw [if_neg h, if_pos h5])

/-- The numbers of order 3000 in single precision: 18018001 are needed, 18018000 are passed. -/
example : syevdMin 3000 = 18018001 ∧ lwork 24 (syevdMin 3000) = 18018000 := by decide +kernel

end Workspace
end Sizes
end Verif
