/-
The filter call as a plain sequence of multiplications.
-/
import Verif.Solver.Spec
import Mathlib.Data.Nat.Count
import Mathlib.Algebra.BigOperators.Group.Finset.Sigma
import Mathlib.Algebra.BigOperators.Intervals
import Mathlib.Algebra.Order.BigOperators.Group.Finset
import Mathlib.Tactic.Ring
import Mathlib.Tactic.Linarith

set_option linter.unusedSectionVars false

namespace Verif

variable {R S : Type*}

/-- Number of columns among the first `u` whose degree (at least one multiplication is always made)
is below `i`: these no longer take part in multiplication number `i`. -/
def cut (d : ℕ → ℕ) (u i : ℕ) : ℕ := Nat.count (fun j => max 1 (d j) < i) u

theorem count_of_initial {p : ℕ → Prop} [DecidablePred p] {u : ℕ}
    (h : ∀ a b, a ≤ b → b < u → p b → p a) : ∀ j, j < u → (j < Nat.count p u ↔ p j) := by
  induction u with
  | zero => intro j hj; omega
  | succ u ih =>
    intro j hj
    rw [Nat.count_succ]
    by_cases hp : p u
    · have : Nat.count p u = u := by
        rw [Nat.count_iff_forall]
        exact fun m hm => h m u hm.le (by omega) hp
      rw [if_pos hp, this]
      exact ⟨fun _ => h j u (by omega) (by omega) hp, fun _ => by omega⟩
    · rw [if_neg hp, Nat.add_zero]
      rcases Nat.lt_succ_iff_lt_or_eq.mp hj with hj | rfl
      · exact ih (fun a b h1 h2 h3 => h a b h1 (by omega) h3) j hj
      · have := Nat.count_le (p := p) (n := j)
        exact ⟨fun _ => by omega, fun h => absurd h hp⟩

theorem cut_le (d : ℕ → ℕ) (u i : ℕ) : cut d u i ≤ u := Nat.count_le _

theorem cut_mono (d : ℕ → ℕ) (u : ℕ) {i j : ℕ} (h : i ≤ j) : cut d u i ≤ cut d u j :=
  Nat.count_mono_left (fun _ _ h' => lt_of_lt_of_le h' h)

theorem cut_one (d : ℕ → ℕ) (u : ℕ) : cut d u 1 = 0 := by
  unfold cut
  rw [Nat.count_eq_card_filter_range, Finset.card_eq_zero, Finset.filter_eq_empty_iff]
  intro j _; omega

theorem lt_cut_iff {d : ℕ → ℕ} {u i j : ℕ} (hs : SortedOn 0 u d) (hj : j < u) :
    j < cut d u i ↔ max 1 (d j) < i := by
  refine count_of_initial ?_ j hj
  intro a b hab hb h
  have := hs a b (Nat.zero_le _) hab hb
  omega

/-- The numbers `sigma` of the filter: algorithm.inc 128, 161, 170. -/
def sigmaSeq [Add R] [Sub R] [Mul R] [Div R] [Neg R] [Zero R] [One R] [NatCast R] (sigma1 : R) : ℕ → R
  | 0 => sigma1
  | 1 => sigma1
  | i + 2 => 1 / (2 / sigma1 - sigmaSeq sigma1 (i + 1))

/-- The factor `alpha` of multiplication number `i`. -/
def alphaSeq [Add R] [Sub R] [Mul R] [Div R] [Neg R] [Zero R] [One R] [NatCast R] (sigma1 e : R) (i : ℕ) : R :=
  if i ≤ 1 then sigma1 / e else 2 * sigmaSeq sigma1 i / e

/-- The factor `beta` of multiplication number `i`. -/
def betaSeq [Add R] [Sub R] [Mul R] [Div R] [Neg R] [Zero R] [One R] [NatCast R] (sigma1 : R) (i : ℕ) : R :=
  if i ≤ 1 then 0 else -sigmaSeq sigma1 (i - 1) * sigmaSeq sigma1 i

/-- The multiplications `1 .. deg` of a filter call, multiplication `i` on the columns with degree at
least `i`. -/
def mults [Add R] [Sub R] [Mul R] [Div R] [Neg R] [Zero R] [One R] [NatCast R] (ops : Chase R S) (d : ℕ → ℕ) (u : ℕ) (sigma1 e : R) (upto : ℕ) (s : S) : S :=
  forRange 1 upto (fun i s => ops.hemm (u - cut d u i) (alphaSeq sigma1 e i) (betaSeq sigma1 i)
    (cut d u i) s) s

theorem walk_spec (degrees : ℕ → ℕ) {dsize n m p0 u k' : ℕ} (hsz : p0 + u ≤ dsize) (hk' : k' ≤ u)
    (hstop : k' < u → m < degrees (p0 + k')) :
    ∀ r k, k + r = k' → (∀ j, k ≤ j → j < k' → degrees (p0 + j) ≤ m) →
      walk degrees dsize n m (p0 + k) (u - k) (k * n) = .ok (p0 + k', u - k', k' * n) := by
  intro r
  induction r with
  | zero =>
    intro k hk _
    obtain rfl : k = k' := by omega
    rcases Nat.eq_or_lt_of_le hk' with rfl | hlt
    · rw [Nat.sub_self]; rfl
    · obtain ⟨v, hv⟩ : ∃ v, u - k = v + 1 := ⟨u - k - 1, by omega⟩
      rw [hv, walk, if_pos (by omega), if_neg (by have := hstop hlt; omega)]
  | succ r ih =>
    intro k hk h
    obtain ⟨v, hv⟩ : ∃ v, u - k = v + 1 := ⟨u - k - 1, by omega⟩
    rw [hv, walk, if_pos (by omega), if_pos (h k le_rfl (by omega))]
    have := ih (k + 1) (by omega) (fun j h1 h2 => h j (by omega) h2)
    rw [← this, show u - (k + 1) = v by omega, Nat.add_assoc, Nat.succ_mul]

theorem walkFirst_spec (degrees : ℕ → ℕ) {dsize n m p0 u k' : ℕ} (hsz : p0 + u ≤ dsize)
    (hk' : k' < u) (hstop : m < degrees (p0 + k')) :
    ∀ r k, k + r = k' → (∀ j, k ≤ j → j < k' → degrees (p0 + j) ≤ m) →
      walkFirst degrees dsize n m (p0 + k) (u - k) (k * n) = .ok (p0 + k', u - k', k' * n) := by
  intro r
  induction r with
  | zero =>
    intro k hk _
    obtain rfl : k = k' := by omega
    obtain ⟨v, hv⟩ : ∃ v, u - k = v + 1 := ⟨u - k - 1, by omega⟩
    rw [hv, walkFirst, if_pos (by omega), if_neg (by omega)]
  | succ r ih =>
    intro k hk h
    obtain ⟨v, hv⟩ : ∃ v, u - k = v + 1 := ⟨u - k - 1, by omega⟩
    rw [hv, walkFirst, if_pos (by omega), if_pos (h k le_rfl (by omega))]
    have := ih (k + 1) (by omega) (fun j h1 h2 => h j (by omega) h2)
    rw [← this, show u - (k + 1) = v by omega, Nat.add_assoc, Nat.succ_mul]

/-- If no column of the block has degree above `m` the first walk leaves the block. -/
theorem walkFirst_runs_out (degrees : ℕ → ℕ) {dsize n m : ℕ} :
    ∀ u p off, (∀ j, p ≤ j → j < dsize → degrees j ≤ m) →
      walkFirst degrees dsize n m p u off = .error .oob ∨
      walkFirst degrees dsize n m p u off = .error .wrap := by
  intro u
  induction u with
  | zero =>
    intro p off h
    unfold walkFirst
    by_cases hp : p < dsize
    · rw [if_pos hp, if_pos (h p le_rfl hp)]; exact Or.inr rfl
    · rw [if_neg hp]; exact Or.inl rfl
  | succ u ih =>
    intro p off h
    unfold walkFirst
    by_cases hp : p < dsize
    · rw [if_pos hp, if_pos (h p le_rfl hp)]
      exact ih (p + 1) _ (fun j h1 h2 => h j (by omega) h2)
    · rw [if_neg hp]; exact Or.inl rfl

theorem sum_cut (d : ℕ → ℕ) (u deg : ℕ) (hd : ∀ j, j < u → d j ≤ deg) (h1 : 1 ≤ deg) :
    ∑ i ∈ Finset.Ico 1 (deg + 1), (u - cut d u i) = ∑ j ∈ Finset.range u, max 1 (d j) := by
  have e : ∀ i, u - cut d u i = ∑ j ∈ Finset.range u, if i ≤ max 1 (d j) then 1 else 0 := by
    intro i
    unfold cut
    rw [Nat.count_eq_card_filter_range, ← Finset.card_filter]
    have := Finset.card_filter_add_card_filter_not (s := Finset.range u)
      (fun j => max 1 (d j) < i)
    rw [Finset.card_range] at this
    have e2 : (Finset.range u).filter (fun j => ¬ max 1 (d j) < i) =
        (Finset.range u).filter (fun j => i ≤ max 1 (d j)) :=
      Finset.filter_congr (fun j _ => by omega)
    rw [e2] at this
    omega
  rw [Finset.sum_congr rfl (fun i _ => e i), Finset.sum_comm]
  refine Finset.sum_congr rfl (fun j hj => ?_)
  rw [← Finset.card_filter]
  have : (Finset.Ico 1 (deg + 1)).filter (fun i => i ≤ max 1 (d j)) = Finset.Ico 1 (max 1 (d j) + 1) := by
    ext i
    have := hd j (Finset.mem_range.mp hj)
    simp only [Finset.mem_filter, Finset.mem_Ico]
    omega
  rw [this, Nat.card_Ico]
  omega

/-- **A filter call is the sequence of multiplications `mults`**, for ascending degrees of which the
last is at least 2 and none exceeds `deg`. -/
theorem filter_eq [Add R] [Sub R] [Mul R] [Div R] [Neg R] [Zero R] [One R] [NatCast R] (ops : Chase R S) {n u deg : ℕ} {degrees : ℕ → ℕ} {dsize p0 : ℕ}
    (lambda1 lower upper : R) (s : S) (hn : n ≠ 0) (hu : 0 < u) (hsz : p0 + u ≤ dsize)
    (hs : SortedOn p0 (p0 + u) degrees) (hd : ∀ j, j < u → degrees (p0 + j) ≤ deg)
    (hlast : 2 ≤ degrees (p0 + (u - 1))) :
    filter ops n u deg degrees dsize p0 lambda1 lower upper s =
      .ok (∑ j ∈ Finset.range u, max 1 (degrees (p0 + j)),
        ops.shift ((upper + lower) / 2) true
          (mults ops (fun j => degrees (p0 + j)) u
            ((upper - lower) / 2 / (lambda1 - (upper + lower) / 2)) ((upper - lower) / 2) (deg + 1)
            (ops.shift (-((upper + lower) / 2)) false s))) := by
  set c := (upper + lower) / 2 with hc
  set e := (upper - lower) / 2 with he
  set sigma1 := e / (lambda1 - c) with hsigma
  set d : ℕ → ℕ := fun j => degrees (p0 + j) with hdd
  have hs' : SortedOn 0 u d := fun a b _ hab hb => hs (p0 + a) (p0 + b) (by omega) (by omega) (by omega)
  have hdeg : 2 ≤ deg := by have := hd (u - 1) (by omega); omega
  unfold filter
  rw [if_neg hn]
  dsimp only
  rw [← hc, ← he, ← hsigma]
  have hstop : ∀ i, cut d u (i + 1) < u → i < max 1 (d (cut d u (i + 1))) := by
    intro i hi
    have := (lt_cut_iff (i := i + 1) hs' hi).not.mp (lt_irrefl _)
    omega
  have hbelow : ∀ i j, 1 ≤ i → j < cut d u (i + 1) → d j ≤ i := by
    intro i j hi hj
    have := (lt_cut_iff hs' (lt_of_lt_of_le hj (cut_le _ _ _))).mp hj
    omega
  have hc2 : cut d u 2 < u := by
    by_contra hcon
    have := (lt_cut_iff (i := 2) hs' (show u - 1 < u by omega)).mp (by omega)
    simp only [hdd] at this
    omega
  have hw := walkFirst_spec degrees (n := n) (m := 1) hsz hc2
    (by have : 1 < max 1 (d (cut d u 2)) := hstop 1 hc2; show 1 < d (cut d u 2); omega) (cut d u 2) 0 (by omega)
    (fun j _ h2 => hbelow 1 j le_rfl h2)
  rw [Nat.add_zero, Nat.sub_zero, Nat.zero_mul] at hw
  rw [hw]
  dsimp only
  have key := forRangeM_inv (show 2 ≤ deg + 1 by omega)
    (fun _ st => filterStep ops degrees dsize n e sigma1 st)
    (fun i (st : FilterSt R S) =>
      st = { p := p0 + cut d u i, unprocessed := u - cut d u i, offset := cut d u i * n,
             numMult := i - 1, av := ∑ t ∈ Finset.Ico 1 i, (u - cut d u t),
             sigma := sigmaSeq sigma1 (i - 1),
             be := mults ops d u sigma1 e i (ops.shift (-c) false s) })
    (s := { p := p0 + cut d u 2, unprocessed := u - cut d u 2, offset := cut d u 2 * n,
            numMult := 1, av := u, sigma := sigma1,
            be := ops.hemm u (sigma1 / e) 0 (0 / n) (ops.shift (-c) false s) }) ?_ ?_
  · obtain ⟨st, hst, rfl⟩ := key
    rw [hst]
    dsimp only
    rw [sum_cut d u deg (fun j hj => hd j hj) (by omega)]
  · have : mults ops d u sigma1 e 2 (ops.shift (-c) false s) =
        ops.hemm u (sigma1 / e) 0 (0 / n) (ops.shift (-c) false s) := by
      unfold mults
      rw [forRange_succ le_rfl, forRange_self, cut_one, Nat.zero_div]
      simp [alphaSeq, betaSeq]
    rw [this]
    have e2 : ∑ t ∈ Finset.Ico 1 2, (u - cut d u t) = u := by
      rw [show Finset.Ico 1 2 = {1} from rfl, Finset.sum_singleton, cut_one, Nat.sub_zero]
    rw [e2]
    rfl
  · rintro i st hi1 hi2 rfl
    have hw := walk_spec degrees (n := n) (m := i) (k' := cut d u (i + 1)) hsz (cut_le _ _ _)
      (fun h => by have := hstop i h; show i < d _; omega) (cut d u (i + 1) - cut d u i)
      (cut d u i) (by have := cut_mono d u (show i ≤ i + 1 by omega); omega)
      (fun j _ h2 => hbelow i j (by omega) h2)
    refine ⟨_, ?_, rfl⟩
    unfold filterStep
    rw [if_neg hn]
    dsimp only
    rw [show i - 1 + 1 = i by omega, hw]
    dsimp only
    have e1 : sigmaSeq sigma1 i = 1 / (2 / sigma1 - sigmaSeq sigma1 (i - 1)) := by
      obtain ⟨k, rfl⟩ : ∃ k, i = k + 2 := ⟨i - 2, by omega⟩
      rfl
    rw [Finset.sum_Ico_succ_top (by omega), Nat.mul_div_cancel _ (Nat.pos_of_ne_zero hn)]
    have e3 : mults ops d u sigma1 e (i + 1) (ops.shift (-c) false s) =
        ops.hemm (u - cut d u i) (2 * (1 / (2 / sigma1 - sigmaSeq sigma1 (i - 1))) / e)
          (-sigmaSeq sigma1 (i - 1) * (1 / (2 / sigma1 - sigmaSeq sigma1 (i - 1)))) (cut d u i)
          (mults ops d u sigma1 e i (ops.shift (-c) false s)) := by
      conv_lhs => unfold mults
      rw [forRange_succ (by omega)]
      rw [alphaSeq, betaSeq, if_neg (by omega), if_neg (by omega), e1]
      rfl
    rw [e3, Nat.add_sub_cancel, e1]

end Verif
