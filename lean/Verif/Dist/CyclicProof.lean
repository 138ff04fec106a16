/-
Proofs about the block-cyclic index arithmetic.
-/
import Verif.Dist.Model
import Verif.Dist.Spec
import Mathlib.Algebra.BigOperators.Group.Finset.Basic
import Mathlib.Algebra.BigOperators.Group.Finset.Sigma
import Mathlib.Algebra.Order.BigOperators.Group.Finset
import Mathlib.Data.Nat.Count

namespace Verif
namespace Dist

/-- Distance of process `p` from the source process. -/
def dist (p src dims : ℕ) : ℕ := (dims + p - src) % dims

/-- Global index of local index `l` of the process at distance `d`. -/
def toGlobal (mb dims d l : ℕ) : ℕ := (l / mb * dims + d) * mb + l % mb

/-- Local index of a global index. -/
def toLocal (mb dims g : ℕ) : ℕ := g / mb / dims * mb + g % mb

theorem owner_iff {mb src dims p : ℕ} (hs : src < dims) (hp : p < dims) (g : ℕ) :
    owner mb src dims g = p ↔ g / mb % dims = dist p src dims := by
  unfold owner dist
  generalize g / mb = b
  have hd : 0 < dims := by omega
  obtain ⟨q, r, hr, rfl⟩ : ∃ q r, r < dims ∧ b = dims * q + r :=
    ⟨b / dims, b % dims, Nat.mod_lt _ hd, (Nat.div_add_mod b dims).symm⟩
  rw [show src + (dims * q + r) = src + r + dims * q by ring, Nat.add_mul_mod_self_left,
    Nat.mul_add_mod, Nat.mod_eq_of_lt hr]
  rcases Nat.lt_or_ge (src + r) dims with h1 | h1
  · rw [Nat.mod_eq_of_lt h1]
    rcases Nat.lt_or_ge p src with h2 | h2
    · rw [Nat.mod_eq_of_lt (by omega)]; omega
    · rw [show dims + p - src = dims + (p - src) by omega, Nat.add_mod_left,
        Nat.mod_eq_of_lt (by omega)]; omega
  · rw [Nat.mod_eq_sub_mod h1, Nat.mod_eq_of_lt (by omega)]
    rcases Nat.lt_or_ge p src with h2 | h2
    · rw [Nat.mod_eq_of_lt (by omega)]; omega
    · rw [show dims + p - src = dims + (p - src) by omega, Nat.add_mod_left,
        Nat.mod_eq_of_lt (by omega)]; omega

theorem dist_lt {p src dims : ℕ} (hd : 0 < dims) : dist p src dims < dims := Nat.mod_lt _ hd

section
variable {mb dims d : ℕ}

theorem toGlobal_div (hmb : 0 < mb) (l : ℕ) : toGlobal mb dims d l / mb = l / mb * dims + d := by
  unfold toGlobal
  rw [mul_comm, Nat.mul_add_div hmb, Nat.div_eq_of_lt (Nat.mod_lt _ hmb), Nat.add_zero]

theorem toGlobal_mod (l : ℕ) : toGlobal mb dims d l % mb = l % mb := by
  unfold toGlobal
  rw [mul_comm, Nat.mul_add_mod, Nat.mod_mod]

theorem toLocal_toGlobal (hmb : 0 < mb) (hd : d < dims) (l : ℕ) :
    toLocal mb dims (toGlobal mb dims d l) = l := by
  unfold toLocal
  rw [toGlobal_div hmb, toGlobal_mod, mul_comm (l / mb) dims,
    Nat.mul_add_div (by omega), Nat.div_eq_of_lt hd, Nat.add_zero, mul_comm, Nat.div_add_mod]

theorem toGlobal_toLocal (hmb : 0 < mb) {g : ℕ} (hg : g / mb % dims = d) :
    toGlobal mb dims d (toLocal mb dims g) = g := by
  have h1 : toLocal mb dims g / mb = g / mb / dims := by
    unfold toLocal
    rw [mul_comm, Nat.mul_add_div hmb, Nat.div_eq_of_lt (Nat.mod_lt _ hmb), Nat.add_zero]
  have h2 : toLocal mb dims g % mb = g % mb := by
    unfold toLocal
    rw [mul_comm, Nat.mul_add_mod, Nat.mod_mod]
  unfold toGlobal
  rw [h1, h2, ← hg, mul_comm (g / mb / dims), Nat.div_add_mod, mul_comm, Nat.div_add_mod]

theorem toGlobal_owner (hmb : 0 < mb) (hd : d < dims) (l : ℕ) :
    toGlobal mb dims d l / mb % dims = d := by
  rw [toGlobal_div hmb, Nat.add_comm, Nat.add_mul_mod_self_right, Nat.mod_eq_of_lt hd]

/-- Lexicographic comparison of `q * k + s` with remainders below `k`. -/
theorem lex_lt {k q s q' s' : ℕ} (hs : s < k) (hs' : s' < k) :
    q * k + s < q' * k + s' ↔ q < q' ∨ (q = q' ∧ s < s') := by
  constructor
  · intro h
    rcases Nat.lt_trichotomy q q' with h1 | h1 | h1
    · exact .inl h1
    · subst h1; exact .inr ⟨rfl, by omega⟩
    · exfalso
      have := Nat.mul_le_mul_right k (Nat.succ_le_of_lt h1)
      rw [Nat.succ_mul] at this; omega
  · rintro (h | ⟨rfl, h⟩)
    · have := Nat.mul_le_mul_right k (Nat.succ_le_of_lt h)
      rw [Nat.succ_mul] at this; omega
    · omega

theorem toGlobal_strictMono (hmb : 0 < mb) (hd : d < dims) : StrictMono (toGlobal mb dims d) := by
  intro a b hab
  have ha := Nat.div_add_mod a mb
  have hb := Nat.div_add_mod b mb
  have h1 : a / mb * mb + a % mb < b / mb * mb + b % mb := by
    rw [mul_comm (a / mb), mul_comm (b / mb)]; omega
  rw [lex_lt (Nat.mod_lt _ hmb) (Nat.mod_lt _ hmb)] at h1
  unfold toGlobal
  rw [lex_lt (Nat.mod_lt _ hmb) (Nat.mod_lt _ hmb), lex_lt hd hd]
  rcases h1 with h | ⟨h, h'⟩
  · exact .inl (.inl h)
  · exact .inr ⟨by rw [h], h'⟩

end

/-- The number of rows computed by `numroc`. -/
def rows (n nb d np : ℕ) : ℕ :=
  n / nb / np * nb + (if d < n / nb % np then nb else if d = n / nb % np then n % nb else 0)

theorem numroc_eq {n nb p src np : ℕ} (hnb : 0 < nb) (hs : src < np) :
    numroc n nb p src np = .ok (rows n nb (dist p src np) np,
      if rows n nb (dist p src np) np % nb ≠ 0 then rows n nb (dist p src np) np / nb + 1
      else rows n nb (dist p src np) np / nb) := by
  have hr : (if dist p src np < n / nb % np then n / nb / np * nb + nb
      else if dist p src np = n / nb % np then n / nb / np * nb + n % nb
      else n / nb / np * nb) = rows n nb (dist p src np) np := by
    unfold rows; split_ifs <;> rfl
  unfold numroc
  rw [if_neg (by omega), if_neg (by omega)]
  show Except.ok (_, _) = _
  simp only [show (np + p - src) % np = dist p src np from rfl, hr]

/-- A local index lies below the number of rows iff its global index exists. -/
theorem toGlobal_lt_iff {n nb d np : ℕ} (hnb : 0 < nb) (hd : d < np) (l : ℕ) :
    toGlobal nb np d l < n ↔ l < rows n nb d np := by
  have hn : n = (n / nb / np * np + n / nb % np) * nb + n % nb := by
    rw [mul_comm (n / nb / np), Nat.div_add_mod, mul_comm, Nat.div_add_mod]
  have hl : l = l / nb * nb + l % nb := by rw [mul_comm, Nat.div_add_mod]
  have hnp : 0 < np := by omega
  have he := Nat.mod_lt (n / nb) hnp
  have hr := Nat.mod_lt n hnb
  have hs := Nat.mod_lt l hnb
  unfold toGlobal rows
  generalize n / nb / np = Q at *
  generalize n / nb % np = e at *
  generalize n % nb = r at *
  generalize l / nb = q at *
  generalize l % nb = s at *
  subst hn hl
  rw [lex_lt hs hr, lex_lt hd he]
  have key : ∀ x, x ≤ nb → (q * nb + s < Q * nb + x ↔ q < Q ∨ (q = Q ∧ s < x)) := by
    intro x hx
    rcases Nat.lt_or_ge x nb with h | h
    · exact lex_lt hs h
    · obtain rfl : x = nb := by omega
      rw [show Q * x + x = (Q + 1) * x + 0 by ring, lex_lt hs hnb]
      omega
  rw [key _ (by split_ifs <;> omega)]
  have hq : q * np + d = Q * np + e ↔ q = Q ∧ d = e := by
    have a := lex_lt (q := q) (q' := Q) hd he
    have b := lex_lt (q := Q) (q' := q) he hd
    constructor
    · intro h; omega
    · rintro ⟨rfl, rfl⟩; rfl
  rw [hq]
  split_ifs <;> omega

theorem mem_owned {N mb src dims p g : ℕ} :
    g ∈ owned N mb src dims p ↔ g < N ∧ owner mb src dims g = p := by
  simp [owned]

/-- The owned indices are the images of the local indices. -/
theorem owned_eq_image {N mb src dims p : ℕ} (hmb : 0 < mb) (hs : src < dims) (hp : p < dims) :
    owned N mb src dims p =
      (Finset.range (rows N mb (dist p src dims) dims)).image (toGlobal mb dims (dist p src dims)) := by
  have hd : dist p src dims < dims := dist_lt (by omega)
  ext g
  rw [mem_owned, Finset.mem_image, owner_iff hs hp]
  constructor
  · rintro ⟨hg, ho⟩
    refine ⟨toLocal mb dims g, ?_, toGlobal_toLocal hmb ho⟩
    rw [Finset.mem_range, ← toGlobal_lt_iff hmb hd, toGlobal_toLocal hmb ho]
    exact hg
  · rintro ⟨l, hl, rfl⟩
    rw [Finset.mem_range, ← toGlobal_lt_iff hmb hd] at hl
    exact ⟨hl, toGlobal_owner hmb hd l⟩

theorem card_owned {N mb src dims p : ℕ} (hmb : 0 < mb) (hs : src < dims) (hp : p < dims) :
    (owned N mb src dims p).card = rows N mb (dist p src dims) dims := by
  have hd : dist p src dims < dims := dist_lt (by omega)
  rw [owned_eq_image hmb hs hp,
    Finset.card_image_of_injective _ (toGlobal_strictMono hmb hd).injective, Finset.card_range]

/-- The position of a global index is its local index. -/
theorem position_eq {mb src dims g : ℕ} (hmb : 0 < mb) (hs : src < dims) :
    position mb src dims g = toLocal mb dims g := by
  have hp : owner mb src dims g < dims := Nat.mod_lt _ (by omega)
  have hd : dist (owner mb src dims g) src dims < dims := dist_lt (by omega)
  have ho := (owner_iff (mb := mb) hs hp g).1 rfl
  unfold position
  rw [card_owned hmb hs hp]
  have h1 := toGlobal_lt_iff (n := g) hmb hd (toLocal mb dims g)
  rw [toGlobal_toLocal hmb ho] at h1
  have h3 : ∀ l, l < toLocal mb dims g → l < rows g mb (dist (owner mb src dims g) src dims) dims := by
    intro l hl
    rw [← toGlobal_lt_iff hmb hd]
    have := toGlobal_strictMono hmb hd hl
    rwa [toGlobal_toLocal hmb ho] at this
  rcases Nat.lt_trichotomy (rows g mb (dist (owner mb src dims g) src dims) dims)
    (toLocal mb dims g) with h | h | h
  · exact absurd (h3 _ h) (lt_irrefl _)
  · exact h
  · exact absurd (h1.2 h) (lt_irrefl _)

/-- Number of blocks. -/
def nblk (n nb d np : ℕ) : ℕ :=
  if rows n nb d np % nb ≠ 0 then rows n nb d np / nb + 1 else rows n nb d np / nb

theorem numroc_nblk {n nb p src np : ℕ} (hnb : 0 < nb) (hs : src < np) :
    numroc n nb p src np =
      .ok (rows n nb (dist p src np) np, nblk n nb (dist p src np) np) := numroc_eq hnb hs

theorem lt_nblk_iff {n nb d np k : ℕ} (hnb : 0 < nb) (hd : d < np) :
    k < nblk n nb d np ↔ (k * np + d) * nb < n := by
  have h := toGlobal_lt_iff (n := n) hnb hd (k * nb)
  unfold toGlobal at h
  rw [Nat.mul_div_cancel _ hnb, Nat.mul_mod_left, Nat.add_zero] at h
  rw [h]
  unfold nblk
  generalize rows n nb d np = R
  have h1 := Nat.div_add_mod R nb
  have h2 := Nat.mod_lt R hnb
  generalize R / nb = q at *
  generalize R % nb = r at *
  subst h1
  have : k * nb + 0 < q * nb + r ↔ k < q ∨ (k = q ∧ 0 < r) := lex_lt hnb h2
  rw [mul_comm nb q]
  split_ifs <;> omega

/-- Invariant of the filling loop before block `b`. -/
structure FillInv (N mb dims d : ℕ) (b : ℕ) (t : Tables) : Prop where
  lo : ∀ k, k < t.cnt → k * dims + d < b
  hi : b ≤ t.cnt * dims + d
  below : ∀ k, k < t.cnt → (k * dims + d) * mb < N
  offs : ∀ k, k < t.cnt → t.offs k = (k * dims + d) * mb
  lens : ∀ k, k < t.cnt → t.lens k = min mb (N - (k * dims + d) * mb)

theorem FillInv.cnt_eq {N mb dims d b : ℕ} {t : Tables} (hmb : 0 < mb) (hd : d < dims)
    (hi : FillInv N mb dims d b t) (hb : N ≤ b * mb) : t.cnt = nblk N mb d dims := by
  have h1 : ¬ t.cnt < nblk N mb d dims := by
    rw [lt_nblk_iff hmb hd]
    have := Nat.mul_le_mul_right mb hi.hi
    omega
  have h2 : ∀ k, k < t.cnt → k < nblk N mb d dims :=
    fun k hk => (lt_nblk_iff hmb hd).2 (hi.below k hk)
  by_contra hne
  have : nblk N mb d dims < t.cnt := by omega
  exact absurd (h2 _ this) (lt_irrefl _)

theorem fillTables_spec {N mb dims p src : ℕ} (hmb : 0 < mb) (hs : src < dims) (hp : p < dims) :
    ∀ fuel b (t : Tables), N ≤ b * mb + fuel * mb → FillInv N mb dims (dist p src dims) b t →
    ∃ t' : Tables, ∃ b', fillTables N mb dims p (nblk N mb (dist p src dims) dims) fuel (b * mb)
      ((src + b) % dims) t = .ok t' ∧ N ≤ b' * mb ∧
      FillInv N mb dims (dist p src dims) b' t' ∧ t'.offsL = t.offsL := by
  have hd : dist p src dims < dims := dist_lt (by omega)
  have hdims : 0 < dims := by omega
  intro fuel
  induction fuel with
  | zero =>
    intro b t hN hi
    exact ⟨t, b, rfl, by omega, hi, rfl⟩
  | succ fuel ih =>
    intro b t hN hi
    unfold fillTables
    have hnext : N ≤ (b + 1) * mb + fuel * mb := by
      rw [Nat.succ_mul] at hN ⊢; omega
    have hsend : ((src + b) % dims + 1) % dims = (src + (b + 1)) % dims := by
      rw [Nat.mod_add_mod, Nat.add_assoc]
    have hr : b * mb + mb = (b + 1) * mb := by rw [Nat.succ_mul]
    rw [hsend, hr]
    by_cases hlt : b * mb < N
    swap
    · rw [if_neg hlt]
      exact ⟨t, b, rfl, by omega, hi, rfl⟩
    rw [if_pos hlt]
    have hown : p = (src + b) % dims ↔ b % dims = dist p src dims := by
      have := owner_iff (mb := 1) hs hp b
      rw [owner, Nat.div_one] at this
      rw [← this]; exact eq_comm
    have hcase : b % dims = dist p src dims ↔ b = t.cnt * dims + dist p src dims := by
      constructor
      · intro h
        have h1 := Nat.div_add_mod b dims
        rw [h, mul_comm] at h1
        have h2 := hi.hi
        rw [← h1] at h2
        have h3 : b / dims ≤ t.cnt := by
          by_contra hc
          have := Nat.mul_le_mul_right dims (Nat.succ_le_of_lt (Nat.lt_of_not_ge hc))
          rw [Nat.succ_mul] at this
          omega
        rcases Nat.lt_or_ge (b / dims) t.cnt with h4 | h4
        · have := hi.lo _ h4
          omega
        · rw [show t.cnt = b / dims by omega]; exact h1.symm
      · intro h
        rw [h, Nat.add_comm, Nat.add_mul_mod_self_right, Nat.mod_eq_of_lt hd]
    by_cases hc : p = (src + b) % dims
    · have hb := hcase.1 (hown.1 hc)
      rw [if_pos hc]
      have hcap : t.cnt < nblk N mb (dist p src dims) dims := by
        rw [lt_nblk_iff hmb hd, ← hb]; exact hlt
      rw [if_pos hcap]
      refine ih (b + 1) _ hnext ⟨?_, ?_, ?_, ?_, ?_⟩
      · intro k hk
        have hk : k < t.cnt + 1 := hk
        rcases Nat.lt_or_ge k t.cnt with h | h
        · have := hi.lo k h; omega
        · rw [show k = t.cnt by omega]; omega
      · show b + 1 ≤ (t.cnt + 1) * dims + _
        rw [Nat.succ_mul]; omega
      · intro k hk
        have hk : k < t.cnt + 1 := hk
        rcases Nat.lt_or_ge k t.cnt with h | h
        · exact hi.below k h
        · rw [show k = t.cnt by omega, ← hb]; exact hlt
      · intro k hk
        have hk : k < t.cnt + 1 := hk
        show Function.update t.offs t.cnt (b * mb) k = _
        rcases Nat.lt_or_ge k t.cnt with h | h
        · rw [Function.update_of_ne (by omega)]; exact hi.offs k h
        · rw [show k = t.cnt by omega, Function.update_self, ← hb]
      · intro k hk
        have hk : k < t.cnt + 1 := hk
        show Function.update t.lens t.cnt _ k = _
        rcases Nat.lt_or_ge k t.cnt with h | h
        · rw [Function.update_of_ne (by omega)]; exact hi.lens k h
        · rw [show k = t.cnt by omega, Function.update_self, ← hb]
          split_ifs <;> omega
    · rw [if_neg hc]
      refine ih (b + 1) t hnext ⟨?_, ?_, hi.below, hi.offs, hi.lens⟩
      · intro k hk; have := hi.lo k hk; omega
      · have h1 := hi.hi
        have h2 : b ≠ t.cnt * dims + dist p src dims := fun h => hc (hown.2 (hcase.2 h))
        omega

/-- The running sums. -/
theorem localOffsets_spec {N mb dims d cap : ℕ} (t : Tables) (hd : d < dims)
    (hcap : 0 < cap) (hlens : ∀ k, k < cap → t.lens k = min mb (N - (k * dims + d) * mb))
    (hbelow : ∀ k, k < cap → (k * dims + d) * mb < N) :
    ∃ t', localOffsets cap t = .ok t' ∧ t'.offs = t.offs ∧ t'.lens = t.lens ∧
      ∀ k, k < cap → t'.offsL k = k * mb := by
  unfold localOffsets
  rw [if_neg (by omega)]
  refine ⟨_, rfl, rfl, rfl, ?_⟩
  have := forRange_inv (show 1 ≤ cap from hcap)
    (fun i (f : ℕ → ℕ) => Function.update f i (f (i - 1) + t.lens (i - 1)))
    (fun i f => ∀ k, k < i → f k = k * mb) (s := Function.update t.offsL 0 0)
    (by intro k hk; rw [show k = 0 by omega, Function.update_self]; omega)
    (by
      intro i f h1 h2 hf k hk
      show Function.update f i _ k = _
      rcases Nat.lt_or_ge k i with h | h
      · rw [Function.update_of_ne (by omega)]; exact hf k h
      · obtain rfl : k = i := by omega
        rw [Function.update_self, hf _ (by omega), hlens _ (by omega)]
        have hb := hbelow k h2
        have h4 : ((k - 1) * dims + d) * mb + mb ≤ N := by
          have h5 : ((k - 1) * dims + d) + 1 ≤ k * dims + d := by
            have h6 : k * dims = (k - 1) * dims + dims := by
              rw [← Nat.succ_mul]; congr 1; omega
            omega
          have := Nat.mul_le_mul_right mb h5
          rw [Nat.succ_mul] at this
          omega
        rw [min_eq_left (by omega), ← Nat.succ_mul]
        congr 1; omega)
  exact this

theorem cyclicLocal_spec {N mb dims p src : ℕ} (hmb : 0 < mb) (hs : src < dims) (hp : p < dims)
    (hne : 0 < nblk N mb (dist p src dims) dims) :
    ∃ L, cyclicLocal N mb p src dims = .ok L ∧ L.size = rows N mb (dist p src dims) dims ∧
      L.blocks = nblk N mb (dist p src dims) dims ∧
      ∀ k, k < L.blocks → L.offs k = (k * dims + dist p src dims) * mb ∧
        L.lens k = min mb (N - (k * dims + dist p src dims) * mb) ∧ L.offsL k = k * mb ∧
        (k * dims + dist p src dims) * mb < N := by
  have hd : dist p src dims < dims := dist_lt (by omega)
  obtain ⟨t, b', ht, hb', hi, hL⟩ := fillTables_spec (N := N) hmb hs hp N 0
    ⟨fun _ => 0, fun _ => 0, fun _ => 0, 0⟩
    (by rw [Nat.zero_mul, Nat.zero_add]; exact Nat.le_mul_of_pos_right N hmb)
    ⟨fun k hk => absurd hk (Nat.not_lt_zero _), Nat.zero_le _,
      fun k hk => absurd hk (Nat.not_lt_zero _), fun k hk => absurd hk (Nat.not_lt_zero _),
      fun k hk => absurd hk (Nat.not_lt_zero _)⟩
  rw [Nat.zero_mul, Nat.add_zero, Nat.mod_eq_of_lt hs] at ht
  have hc := hi.cnt_eq hmb hd hb'
  obtain ⟨t', ht', ho, hl, hoL⟩ := localOffsets_spec t hd hne
    (fun k hk => hi.lens k (by omega)) (fun k hk => hi.below k (by omega))
  refine ⟨⟨rows N mb (dist p src dims) dims, nblk N mb (dist p src dims) dims, t'.offs, t'.lens, t'.offsL⟩, ?_, rfl, rfl, ?_⟩
  · unfold cyclicLocal
    rw [numroc_nblk hmb hs]
    simp only [ht, ht']
  · intro k hk
    have hk : k < nblk N mb (dist p src dims) dims := hk
    exact ⟨by rw [show (Local.mk _ _ _ _ _).offs = t'.offs from rfl, ho]; exact hi.offs k (by omega),
      by rw [show (Local.mk _ _ _ _ _).lens = t'.lens from rfl, hl]; exact hi.lens k (by omega),
      hoL k hk, hi.below k (by omega)⟩

end Dist
end Verif
