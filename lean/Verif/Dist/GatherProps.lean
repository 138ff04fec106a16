/-
C35: scattering and collecting vectors are inverse to each other.
-/
import Verif.Dist.Gather
import Verif.Dist.Props

namespace Verif
namespace Dist
open Finset

section aux
variable {K : Type*}

theorem writeAt_of_mem {f : ℕ → K} {off len : ℕ} {g : ℕ → K} {x : ℕ} (h : x < len) :
    writeAt f off len g (off + x) = g x := by
  unfold writeAt
  rw [if_pos ⟨by omega, by omega⟩, Nat.add_sub_cancel_left]

theorem writeAt_of_not {f : ℕ → K} {off len : ℕ} {g : ℕ → K} {i : ℕ} (h : i < off ∨ off + len ≤ i) :
    writeAt f off len g i = f i := by
  unfold writeAt
  rw [if_neg (by omega)]

/-- A sequence of writes that all write parts of `v`: every covered position holds `v`, every other
position is unchanged. -/
theorem writes_agree (v : ℕ → K) (n : ℕ) (off len : ℕ → ℕ) (g : ℕ → ℕ → K)
    (hg : ∀ i < n, ∀ x < len i, g i x = v (off i + x)) (f : ℕ → K) :
    let r := forRange 0 n (fun i f => writeAt f (off i) (len i) (g i)) f
    (∀ i < n, ∀ x < len i, r (off i + x) = v (off i + x)) ∧
    ∀ y, (∀ i < n, y < off i ∨ off i + len i ≤ y) → r y = f y := by
  induction n with
  | zero => exact ⟨fun i hi => absurd hi (Nat.not_lt_zero _), fun y _ => rfl⟩
  | succ n ih =>
    obtain ⟨h1, h2⟩ := ih fun i hi => hg i (by omega)
    intro r
    have hr : r = writeAt (forRange 0 n (fun i f => writeAt f (off i) (len i) (g i)) f)
        (off n) (len n) (g n) := forRange_succ (Nat.zero_le _) _ _
    constructor
    · intro i hi x hx
      by_cases hin : off n ≤ off i + x ∧ off i + x < off n + len n
      · obtain ⟨y, hy⟩ : ∃ y, off i + x = off n + y := ⟨off i + x - off n, by omega⟩
        rw [hr, hy, writeAt_of_mem (by omega), hg n (by omega) y (by omega)]
      · rw [hr, writeAt_of_not (by omega)]
        rcases Nat.lt_or_ge i n with h | h
        · exact h1 i h x hx
        · obtain rfl : i = n := by omega
          omega
    · intro y hy
      rw [hr, writeAt_of_not (hy n (by omega))]
      exact h2 y fun i hi => hy i (by omega)

end aux

/-! ### Tables -/

/-- Start of the piece of process `p` in the concatenation of all pieces. -/
def pre (T : AllTables) (p : ℕ) : ℕ := ∑ q ∈ range p, ∑ k ∈ range (T.counts q), T.lens q k

theorem cyclicDispls_spec (T : AllTables) (dims : ℕ) :
    (cyclicDispls dims T).1 = pre T dims ∧ ∀ p < dims, ∀ i < T.counts p,
      (cyclicDispls dims T).2 p i = pre T p + ∑ k ∈ range i, T.lens p k := by
  unfold cyclicDispls
  induction dims with
  | zero => exact ⟨by simp [forRange, loop, pre], fun p hp => absurd hp (Nat.not_lt_zero _)⟩
  | succ d ih =>
    rw [forRange_succ (Nat.zero_le _)]
    obtain ⟨h1, h2⟩ := ih
    generalize forRange (S := ℕ × (ℕ → ℕ → ℕ)) 0 d _ ((0, fun _ _ => 0) : ℕ × (ℕ → ℕ → ℕ)) = s at h1 h2 ⊢
    -- inner loop
    have inner : ∀ n, let r := forRange 0 n (fun i (s : ℕ × (ℕ → ℕ → ℕ)) =>
        (s.1 + T.lens d i, Function.update s.2 d (Function.update (s.2 d) i s.1))) s
        r.1 = pre T d + ∑ k ∈ range n, T.lens d k ∧
        (∀ i < n, r.2 d i = pre T d + ∑ k ∈ range i, T.lens d k) ∧
        ∀ p, p ≠ d → r.2 p = s.2 p := by
      intro n
      induction n with
      | zero => exact ⟨by simpa [forRange, loop] using h1, fun i hi => absurd hi (Nat.not_lt_zero _),
          fun p _ => rfl⟩
      | succ n ihn =>
        intro r
        have hr := forRange_succ (Nat.zero_le n) (fun i (s : ℕ × (ℕ → ℕ → ℕ)) =>
          (s.1 + T.lens d i, Function.update s.2 d (Function.update (s.2 d) i s.1))) s
        obtain ⟨a1, a2, a3⟩ := ihn
        generalize forRange 0 n (fun i (s : ℕ × (ℕ → ℕ → ℕ)) =>
          (s.1 + T.lens d i, Function.update s.2 d (Function.update (s.2 d) i s.1))) s = u
          at hr a1 a2 a3
        have hr : r = (u.1 + T.lens d n, Function.update u.2 d (Function.update (u.2 d) n u.1)) := hr
        refine ⟨?_, ?_, ?_⟩
        · rw [hr, sum_range_succ, ← Nat.add_assoc, ← a1]
        · intro i hi
          rw [hr]
          show Function.update u.2 d (Function.update (u.2 d) n u.1) d i = _
          rw [Function.update_self]
          rcases Nat.lt_or_ge i n with h | h
          · rw [Function.update_of_ne (by omega)]; exact a2 i h
          · obtain rfl : i = n := by omega
            rw [Function.update_self]; exact a1
        · intro p hp
          rw [hr]
          show Function.update u.2 d _ p = _
          rw [Function.update_of_ne hp]; exact a3 p hp
    obtain ⟨b1, b2, b3⟩ := inner (T.counts d)
    refine ⟨?_, ?_⟩
    · refine b1.trans ?_
      unfold pre; rw [sum_range_succ]
    · intro p hp i hi
      rcases Nat.lt_or_ge p d with h | h
      · exact (congrFun (b3 p (by omega)) i).trans (h2 p h i hi)
      · obtain rfl : p = d := by omega
        exact b2 i hi

/-- What the tables about all processes contain. -/
structure AllOk (N mb src dims : ℕ) (T : AllTables) : Prop where
  sendLens : ∀ p < dims, T.sendLens p = rows N mb (dist p src dims) dims
  counts : ∀ p < dims, T.counts p = nblk N mb (dist p src dims) dims
  displs : ∀ p < dims, ∀ k < T.counts p, T.displs p k = (k * dims + dist p src dims) * mb
  lens : ∀ p < dims, ∀ k < T.counts p,
    T.lens p k = min mb (N - (k * dims + dist p src dims) * mb)

theorem cyclicAll_spec {N mb src dims : ℕ} (hmb : 0 < mb) (hs : src < dims) :
    ∃ T, cyclicAll N mb src dims = .ok T ∧ AllOk N mb src dims T := by
  unfold cyclicAll
  have key : ∀ n ≤ dims, ∃ T, forRangeM 0 n (fun p (T : AllTables) =>
      match numroc N mb p src dims with
      | .error e => .error e
      | .ok (size, blocks) =>
        match fillTables N mb dims p blocks N 0 src ⟨fun _ => 0, fun _ => 0, fun _ => 0, 0⟩ with
        | .error e => .error e
        | .ok t => .ok
          { sendLens := Function.update T.sendLens p size
            counts := Function.update T.counts p blocks
            lens := Function.update T.lens p t.lens
            displs := Function.update T.displs p t.offs : AllTables })
      ⟨fun _ => 0, fun _ => 0, fun _ _ => 0, fun _ _ => 0⟩ = (.ok T : Except Err AllTables) ∧
      (∀ p < n, T.sendLens p = rows N mb (dist p src dims) dims) ∧
      (∀ p < n, T.counts p = nblk N mb (dist p src dims) dims) ∧
      (∀ p < n, ∀ k < T.counts p, T.displs p k = (k * dims + dist p src dims) * mb) ∧
      (∀ p < n, ∀ k < T.counts p,
        T.lens p k = min mb (N - (k * dims + dist p src dims) * mb)) := by
    intro n hn
    induction n with
    | zero => exact ⟨_, rfl, fun p hp => absurd hp (Nat.not_lt_zero _),
        fun p hp => absurd hp (Nat.not_lt_zero _), fun p hp => absurd hp (Nat.not_lt_zero _),
        fun p hp => absurd hp (Nat.not_lt_zero _)⟩
    | succ n ih =>
      obtain ⟨T, hT, h1, h2, h3, h4⟩ := ih (by omega)
      have hp : n < dims := hn
      have hd : dist n src dims < dims := dist_lt (by omega)
      obtain ⟨t, b', ht, hb', hi, -⟩ := fillTables_spec (N := N) hmb hs hp N 0
        ⟨fun _ => 0, fun _ => 0, fun _ => 0, 0⟩
        (by rw [Nat.zero_mul, Nat.zero_add]; exact Nat.le_mul_of_pos_right N hmb)
        ⟨fun k hk => absurd hk (Nat.not_lt_zero _), Nat.zero_le _,
          fun k hk => absurd hk (Nat.not_lt_zero _), fun k hk => absurd hk (Nat.not_lt_zero _),
          fun k hk => absurd hk (Nat.not_lt_zero _)⟩
      rw [Nat.zero_mul, Nat.add_zero, Nat.mod_eq_of_lt hs] at ht
      have hc := hi.cnt_eq hmb hd hb'
      refine ⟨⟨Function.update T.sendLens n (rows N mb (dist n src dims) dims),
        Function.update T.counts n (nblk N mb (dist n src dims) dims),
        Function.update T.lens n t.lens, Function.update T.displs n t.offs⟩, ?_, ?_, ?_, ?_, ?_⟩
      · rw [forRangeM_succ (Nat.zero_le _), hT]
        simp only [Except.bind, numroc_nblk hmb hs, ht]
      · intro p hp
        show Function.update T.sendLens n _ p = _
        rcases Nat.lt_or_ge p n with h | h
        · rw [Function.update_of_ne (by omega)]; exact h1 p h
        · obtain rfl : p = n := by omega
          rw [Function.update_self]
      · intro p hp
        show Function.update T.counts n _ p = _
        rcases Nat.lt_or_ge p n with h | h
        · rw [Function.update_of_ne (by omega)]; exact h2 p h
        · obtain rfl : p = n := by omega
          rw [Function.update_self]
      · intro p hp k hk
        have hk : k < Function.update T.counts n (nblk N mb (dist n src dims) dims) p := hk
        show Function.update T.displs n _ p k = _
        rcases Nat.lt_or_ge p n with h | h
        · rw [Function.update_of_ne (by omega)] at hk ⊢; exact h3 p h k hk
        · obtain rfl : p = n := by omega
          rw [Function.update_self] at hk ⊢
          exact hi.offs k (by omega)
      · intro p hp k hk
        have hk : k < Function.update T.counts n (nblk N mb (dist n src dims) dims) p := hk
        show Function.update T.lens n _ p k = _
        rcases Nat.lt_or_ge p n with h | h
        · rw [Function.update_of_ne (by omega)] at hk ⊢; exact h4 p h k hk
        · obtain rfl : p = n := by omega
          rw [Function.update_self] at hk ⊢
          exact hi.lens k (by omega)
  obtain ⟨T, hT, h1, h2, h3, h4⟩ := key dims le_rfl
  exact ⟨T, hT, h1, h2, h3, h4⟩

section
variable {N mb src dims : ℕ} {T : AllTables}

theorem AllOk.partial_sum (h : AllOk N mb src dims T) (hmb : 0 < mb) (hs : src < dims) {p : ℕ}
    (hp : p < dims) : ∀ i, i < T.counts p → ∑ k ∈ range i, T.lens p k = i * mb := by
  have hd : dist p src dims < dims := dist_lt (by omega)
  intro i
  induction i with
  | zero => intro _; simp
  | succ i ih =>
    intro hi
    rw [sum_range_succ, ih (by omega), h.lens p hp i (by omega)]
    rw [h.counts p hp, lt_nblk_iff hmb hd] at hi
    rw [show (i + 1) * dims = i * dims + dims from Nat.succ_mul _ _] at hi
    have h5 : (i * dims + dist p src dims) * mb + mb ≤ N := by
      rw [← Nat.succ_mul]
      have := Nat.mul_le_mul_right mb
        (show (i * dims + dist p src dims).succ ≤ i * dims + dims + dist p src dims by omega)
      omega
    rw [min_eq_left (by omega), ← Nat.succ_mul]

theorem AllOk.total (h : AllOk N mb src dims T) (hmb : 0 < mb) (hs : src < dims) {p : ℕ}
    (hp : p < dims) (hc : 0 < T.counts p) :
    ∑ k ∈ range (T.counts p), T.lens p k = T.sendLens p := by
  have hd : dist p src dims < dims := dist_lt (by omega)
  obtain ⟨c, hcc⟩ : ∃ c, T.counts p = c + 1 := ⟨T.counts p - 1, by omega⟩
  rw [h.sendLens p hp, hcc, sum_range_succ, h.partial_sum hmb hs hp c (by omega),
    h.lens p hp c (by omega)]
  have hlt : (c * dims + dist p src dims) * mb < N := by
    rw [← lt_nblk_iff hmb hd, ← h.counts p hp]; omega
  have hnlt : ¬ ((c + 1) * dims + dist p src dims) * mb < N := by
    rw [← lt_nblk_iff hmb hd, ← h.counts p hp]; omega
  have hmem : ∀ t, t < mb → (c * mb + t < rows N mb (dist p src dims) dims ↔
      (c * dims + dist p src dims) * mb + t < N) := by
    intro t ht
    rw [← toGlobal_lt_iff hmb hd, toGlobal, mul_comm c mb, Nat.mul_add_div hmb, Nat.mul_add_mod,
      Nat.div_eq_of_lt ht, Nat.mod_eq_of_lt ht, Nat.add_zero]
  have hend : ¬ (c + 1) * mb < rows N mb (dist p src dims) dims := by
    rw [← toGlobal_lt_iff hmb hd, toGlobal, Nat.mul_div_cancel _ hmb, Nat.mul_mod_left,
      Nat.add_zero]
    exact hnlt
  rw [Nat.succ_mul] at hend
  generalize rows N mb (dist p src dims) dims = R at *
  generalize (c * dims + dist p src dims) * mb = o at *
  rcases Nat.le_total mb (N - o) with hle | hle
  · rw [min_eq_left hle]
    have := (hmem (mb - 1) (by omega)).2 (by omega)
    omega
  · rw [min_eq_right hle]
    have h1 := (hmem (N - o - 1) (by omega)).2 (by omega)
    rcases Nat.lt_or_ge (N - o) mb with h2 | h2
    · have := (hmem (N - o) h2).not.2 (by omega)
      omega
    · omega

end

/-! ### C35 -/

section
variable {K : Type*}

/-- Collecting in the block-cyclic layout. -/
theorem collectCyclic_spec {N mb src dims : ℕ} {T : AllTables} (hmb : 0 < mb) (hs : src < dims)
    (hT : AllOk N mb src dims T) (hne : ∀ p < dims, 0 < T.counts p)
    (v : ℕ → K) (pieces : ℕ → ℕ → K)
    (hp : ∀ p < dims, ∀ l < T.sendLens p, pieces p l = v (toGlobal mb dims (dist p src dims) l))
    (buff target : ℕ → K) :
    ∃ r, collectCyclic dims T pieces buff target = .ok r ∧ (∀ g < N, r g = v g) ∧
      ∀ g, N ≤ g → r g = target g := by
  obtain ⟨-, hcyc⟩ := cyclicDispls_spec T dims
  -- the concatenated buffer
  have hbuf : ∀ n ≤ dims, ∃ b, forRangeM 0 n (fun p (b : ℕ → K) =>
      if T.counts p = 0 then .error .oob
      else .ok (writeAt b ((cyclicDispls dims T).2 p 0) (T.sendLens p) (pieces p))) buff =
        (.ok b : Except Err (ℕ → K)) ∧ ∀ p < n, ∀ l < T.sendLens p, b (pre T p + l) = pieces p l := by
    intro n hn
    induction n with
    | zero => exact ⟨_, rfl, fun p hp => absurd hp (Nat.not_lt_zero _)⟩
    | succ n ih =>
      obtain ⟨b, hb, hbv⟩ := ih (by omega)
      have h0 := hcyc n hn 0 (hne n hn)
      rw [range_zero, sum_empty, Nat.add_zero] at h0
      refine ⟨writeAt b ((cyclicDispls dims T).2 n 0) (T.sendLens n) (pieces n),
        by rw [forRangeM_succ (Nat.zero_le _), hb]; simp only [Except.bind, if_neg (hne n hn).ne'], ?_⟩
      intro p hpn l hl
      rw [h0]
      rcases Nat.lt_or_ge p n with h | h
      · rw [writeAt_of_not, hbv p h l hl]
        left
        have h1 : pre T (p + 1) ≤ pre T n := by
          unfold pre
          exact sum_le_sum_of_subset (range_mono h)
        have h2 : pre T (p + 1) = pre T p + T.sendLens p := by
          unfold pre
          rw [sum_range_succ, hT.total hmb hs (by omega) (hne p (by omega))]
        omega
      · obtain rfl : p = n := by omega
        exact writeAt_of_mem hl
  obtain ⟨b, hb, hbv⟩ := hbuf dims le_rfl
  refine ⟨forRange 0 dims (fun p (t : ℕ → K) =>
      forRange 0 (T.counts p) (fun i t =>
        writeAt t (T.displs p i) (T.lens p i) fun x => b ((cyclicDispls dims T).2 p i + x)) t)
      target, by unfold collectCyclic; simp only [hb], ?_⟩
  -- every block writes its part of `v`
  have hblk : ∀ p < dims, ∀ i < T.counts p, ∀ x < T.lens p i,
      b ((cyclicDispls dims T).2 p i + x) = v (T.displs p i + x) ∧ T.displs p i + x < N ∧
      T.displs p i + x = toGlobal mb dims (dist p src dims) (i * mb + x) ∧ x < mb := by
    intro p hpd i hi x hx
    have hd : dist p src dims < dims := dist_lt (by omega)
    have hx' := hx
    rw [hT.lens p hpd i hi, lt_min_iff] at hx'
    have hg : T.displs p i + x = toGlobal mb dims (dist p src dims) (i * mb + x) := by
      rw [hT.displs p hpd i hi, toGlobal, mul_comm i mb, Nat.mul_add_div hmb, Nat.mul_add_mod,
        Nat.div_eq_of_lt hx'.1, Nat.mod_eq_of_lt hx'.1, Nat.add_zero]
    have hN : T.displs p i + x < N := by rw [hT.displs p hpd i hi]; omega
    have hl : i * mb + x < T.sendLens p := by
      rw [hT.sendLens p hpd, ← toGlobal_lt_iff hmb hd, ← hg]; exact hN
    refine ⟨?_, hN, hg, hx'.1⟩
    rw [hcyc p hpd i hi, hT.partial_sum hmb hs hpd i hi, Nat.add_assoc, hbv p hpd _ hl,
      hp p hpd _ hl, hg]
  -- outer loop
  have hout : ∀ n ≤ dims, ∀ r, r = forRange 0 n (fun p (t : ℕ → K) =>
      forRange 0 (T.counts p) (fun i t =>
        writeAt t (T.displs p i) (T.lens p i) fun x => b ((cyclicDispls dims T).2 p i + x)) t)
      target →
      (∀ p < n, ∀ i < T.counts p, ∀ x < T.lens p i, r (T.displs p i + x) = v (T.displs p i + x)) ∧
      ∀ g, N ≤ g → r g = target g := by
    intro n
    induction n with
    | zero => intro _ r hr; subst hr; exact ⟨fun p hp => absurd hp (Nat.not_lt_zero _), fun _ _ => rfl⟩
    | succ n ih =>
      intro hn r hr
      rw [forRange_succ (Nat.zero_le _)] at hr
      obtain ⟨h1, h2⟩ := ih (by omega) _ rfl
      generalize forRange 0 n _ target = t0 at hr h1 h2
      have hw := writes_agree v (T.counts n) (T.displs n) (T.lens n)
        (fun i x => b ((cyclicDispls dims T).2 n i + x))
        (fun i hi x hx => (hblk n hn i hi x hx).1) t0
      rw [show forRange 0 (T.counts n) (fun i f => writeAt f (T.displs n i) (T.lens n i)
        ((fun i x => b ((cyclicDispls dims T).2 n i + x)) i)) t0 = r from hr.symm] at hw
      obtain ⟨w1, w2⟩ := hw
      constructor
      · intro p hpn i hi x hx
        rcases Nat.lt_or_ge p n with h | h
        · by_cases hin : ∃ i' < T.counts n, T.displs n i' ≤ T.displs p i + x ∧
              T.displs p i + x < T.displs n i' + T.lens n i'
          · obtain ⟨i', hi', ha, hb'⟩ := hin
            obtain ⟨y, hy⟩ : ∃ y, T.displs p i + x = T.displs n i' + y :=
              ⟨T.displs p i + x - T.displs n i', by omega⟩
            rw [hy]; exact w1 i' hi' y (by omega)
          · rw [w2 _ (fun i' hi' => ?_)]
            · exact h1 p h i hi x hx
            · by_contra hc
              exact hin ⟨i', hi', by omega, by omega⟩
        · obtain rfl : p = n := by omega
          exact w1 i hi x hx
      · intro g hg
        rw [w2 g (fun i hi => ?_)]
        · exact h2 g hg
        · right
          by_contra hc
          have hpos : 0 < T.lens n i ∨ T.lens n i = 0 := by omega
          rcases hpos with hpos | h0
          · have := (hblk n hn i hi (T.lens n i - 1) (by omega)).2.1
            omega
          · have hd : dist n src dims < dims := dist_lt (by omega)
            have := (lt_nblk_iff (n := N) hmb hd).1 (by rw [← hT.counts n hn]; exact hi)
            rw [hT.displs n hn i hi] at hc
            omega
  obtain ⟨h1, h2⟩ := hout dims le_rfl _ rfl
  refine ⟨?_, h2⟩
  intro g hg
  have hdims : 0 < dims := by omega
  have hpd : owner mb src dims g < dims := Nat.mod_lt _ hdims
  have hd : dist (owner mb src dims g) src dims < dims := dist_lt hdims
  have ho := (owner_iff (mb := mb) hs hpd g).1 rfl
  have hgl : toGlobal mb dims (dist (owner mb src dims g) src dims) (toLocal mb dims g) = g :=
    toGlobal_toLocal hmb ho
  have hi : toLocal mb dims g / mb < T.counts (owner mb src dims g) := by
    rw [hT.counts _ hpd, lt_nblk_iff hmb hd]
    unfold toGlobal at hgl
    omega
  have hg2 : T.displs (owner mb src dims g) (toLocal mb dims g / mb) + toLocal mb dims g % mb = g := by
    rw [hT.displs _ hpd _ hi]; exact hgl
  have hx : toLocal mb dims g % mb <
      T.lens (owner mb src dims g) (toLocal mb dims g / mb) := by
    have hm := Nat.mod_lt (toLocal mb dims g) hmb
    rw [hT.displs _ hpd _ hi] at hg2
    rw [hT.lens _ hpd _ hi, lt_min_iff]
    omega
  have := h1 _ hpd _ hi _ hx
  rwa [hg2] at this

/-- Scattering in the block-cyclic layout. -/
theorem scatter_spec {N mb src dims p : ℕ} {L : Local} (hmb : 0 < mb) (hs : src < dims)
    (hp : p < dims) (hL : cyclicLocal N mb p src dims = .ok L) (v piece : ℕ → K) :
    (∀ l < L.size, scatter L v piece l = v (toGlobal mb dims (dist p src dims) l)) ∧
    ∀ l, L.size ≤ l → scatter L v piece l = piece l := by
  have hd : dist p src dims < dims := dist_lt (by omega)
  have hne : (owned N mb src dims p).Nonempty := by
    by_contra hc
    rw [not_nonempty_iff_eq_empty] at hc
    rw [C30_empty_process_refuted hmb hs hp hc] at hL
    cases hL
  obtain ⟨L', hL', hC⟩ := C30_tables_partial hmb hs hp hne
  rw [hL] at hL'
  obtain rfl : L = L' := Except.ok.inj hL'
  have hval : ∀ k < L.blocks, ∀ t < L.lens k,
      L.offs k + t = toGlobal mb dims (dist p src dims) (L.offsL k + t) := by
    intro k hk t ht
    obtain ⟨h1, h2⟩ := hC.listed k hk t ht
    rw [position_eq hmb hs] at h2
    rw [← h2, toGlobal_toLocal hmb ((owner_iff hs hp _).1 (mem_owned.1 h1).2)]
  have hw := writes_agree (fun l => v (toGlobal mb dims (dist p src dims) l)) L.blocks L.offsL L.lens
    (fun i t => v (L.offs i + t)) (fun i hi x hx => congrArg v (hval i hi x hx)) piece
  constructor
  · intro l hl
    obtain ⟨⟨k, t⟩, ⟨hk, ht, h⟩, -⟩ := hC.local l hl
    have := hw.1 k hk t ht
    have h : L.offsL k + t = l := h
    rw [h] at this
    exact this
  · intro l hl
    refine hw.2 l fun i hi => ?_
    right
    by_contra hc
    have hpos : 0 < L.lens i ∨ L.lens i = 0 := by omega
    have hin : ∀ t < L.lens i, L.offsL i + t < L.size := by
      intro t ht
      obtain ⟨h1, h2⟩ := hC.listed i hi t ht
      rw [position_eq hmb hs] at h2
      have h3 := (mem_owned.1 h1).1
      rw [hC.size, card_owned hmb hs hp, ← toGlobal_lt_iff hmb hd, ← hval i hi t ht]
      exact h3
    rcases hpos with h | h
    · have := hin (L.lens i - 1) (by omega)
      omega
    · obtain ⟨L2, hL2, -, hb2, htab⟩ := cyclicLocal_spec (N := N) hmb hs hp (by
        obtain ⟨g, hg⟩ := hne
        rw [mem_owned, owner_iff hs hp] at hg
        rw [lt_nblk_iff hmb hd, Nat.zero_mul, Nat.zero_add, ← hg.2]
        have h1 := Nat.mod_le (g / mb) dims
        have h2 := Nat.mul_le_mul_right mb h1
        have h3 := Nat.div_mul_le_self g mb
        omega)
      rw [hL] at hL2
      obtain rfl : L = L2 := Except.ok.inj hL2
      obtain ⟨-, h2, -, h4⟩ := htab i hi
      omega

theorem counts_pos {N mb src dims : ℕ} (hmb : 0 < mb) (hs : src < dims)
    (L : ℕ → Local) (hL : ∀ p < dims, cyclicLocal N mb p src dims = .ok (L p))
    {T : AllTables} (hok : AllOk N mb src dims T) : ∀ p < dims, 0 < T.counts p := by
  intro p hp
  by_contra hc
  have h0 : T.counts p = 0 := by omega
  rw [hok.counts p hp] at h0
  have he : owned N mb src dims p = ∅ := by
    rw [← card_eq_zero, card_owned hmb hs hp]
    unfold nblk at h0
    have hdm := Nat.div_add_mod (rows N mb (dist p src dims) dims) mb
    split_ifs at h0 with h
    · have h1 : rows N mb (dist p src dims) dims / mb = 0 := h0
      have h2 : rows N mb (dist p src dims) dims % mb = 0 := by
        by_contra hh; exact h hh
      rw [h1, h2] at hdm
      omega
  have := C30_empty_process_refuted hmb hs hp he
  rw [hL p hp] at this
  cases this

/-- C35, block-cyclic layout: if every process owns something, scattering a vector over the
processes and collecting the pieces gives the vector back, on every process, for every matrix size,
block size, number of processes and source process, whatever the buffers contained before; nothing
beyond the vector is written. -/
theorem C35_collect_scatter {N mb src dims : ℕ} (hmb : 0 < mb) (hs : src < dims)
    (L : ℕ → Local) (hL : ∀ p < dims, cyclicLocal N mb p src dims = .ok (L p))
    (T : AllTables) (hT : cyclicAll N mb src dims = .ok T)
    (v : ℕ → K) (old : ℕ → ℕ → K) (buff target : ℕ → K) :
    ∃ r, collectCyclic dims T (fun p => scatter (L p) v (old p)) buff target = .ok r ∧
      (∀ g < N, r g = v g) ∧ ∀ g, N ≤ g → r g = target g := by
  obtain ⟨T', hT', hok⟩ := cyclicAll_spec (N := N) hmb hs
  rw [hT] at hT'
  obtain rfl : T = T' := Except.ok.inj hT'
  have hsz : ∀ p < dims, (L p).size = T.sendLens p := by
    intro p hp
    have h := hL p hp
    unfold cyclicLocal at h
    rw [numroc_nblk hmb hs] at h
    rw [hok.sendLens p hp]
    revert h
    simp only
    split
    · intro h; cases h
    · split
      · intro h; cases h
      · intro h
        exact (congrArg Local.size (Except.ok.inj h)).symm
  have hne := counts_pos hmb hs L hL hok
  refine collectCyclic_spec hmb hs hok hne v _ ?_ buff target
  intro p hp l hl
  exact (scatter_spec hmb hs hp (hL p hp) v (old p)).1 l (by rw [hsz p hp]; exact hl)

/-- C35, block-cyclic layout, other direction: collecting the pieces of all processes and scattering
the result gives every process its piece back. -/
theorem C35_scatter_collect {N mb src dims : ℕ} (hmb : 0 < mb) (hs : src < dims)
    (L : ℕ → Local) (hL : ∀ p < dims, cyclicLocal N mb p src dims = .ok (L p))
    (T : AllTables) (hT : cyclicAll N mb src dims = .ok T)
    (pieces old : ℕ → ℕ → K) (buff target : ℕ → K) :
    ∃ r, collectCyclic dims T pieces buff target = .ok r ∧
      ∀ p < dims, ∀ l < (L p).size, scatter (L p) r (old p) l = pieces p l := by
  obtain ⟨T', hT', hok⟩ := cyclicAll_spec (N := N) hmb hs
  have hdims : 0 < dims := by omega
  -- the vector whose pieces these are
  let v : ℕ → K := fun g => pieces (owner mb src dims g) (toLocal mb dims g)
  have hv : ∀ p < dims, ∀ l, v (toGlobal mb dims (dist p src dims) l) = pieces p l := by
    intro p hp l
    have hd : dist p src dims < dims := dist_lt hdims
    show pieces _ _ = _
    rw [toLocal_toGlobal hmb hd, (owner_iff hs hp _).2 (toGlobal_owner hmb hd l)]
  rw [hT] at hT'
  obtain rfl : T = T' := Except.ok.inj hT'
  have hne := counts_pos hmb hs L hL hok
  obtain ⟨r, hr, hrv, -⟩ := collectCyclic_spec hmb hs hok hne v pieces
    (fun p hp l _ => (hv p hp l).symm) buff target
  refine ⟨r, hr, ?_⟩
  intro p hp l hl
  obtain ⟨h1, -⟩ := scatter_spec hmb hs hp (hL p hp) r (old p)
  have hd : dist p src dims < dims := dist_lt hdims
  obtain ⟨L', hL', hsz, -⟩ := cyclicLocal_spec (N := N) hmb hs hp (by
    rw [← hok.counts p hp]; exact hne p hp)
  rw [hL p hp] at hL'
  obtain rfl : L p = L' := Except.ok.inj hL'
  rw [h1 l hl, hrv _ ?_, hv p hp]
  rw [hsz] at hl
  exact (toGlobal_lt_iff hmb hd l).2 hl

theorem collectBlock_spec {N len dims : ℕ} (hd : 0 < dims) (hfit : (dims - 1) * len ≤ N)
    (L : ℕ → BlockLocal) (hL : ∀ p < dims, blockLocal N len p dims = .ok (L p))
    (t : ℕ → ℕ × ℕ) (ht : blockTable N len dims = .ok t)
    (v : ℕ → K) (pieces : ℕ → ℕ → K)
    (hp : ∀ p < dims, ∀ l < (L p).size, pieces p l = v ((L p).off + l)) (target : ℕ → K) :
    (∀ g < N, collectBlock dims t pieces target g = v g) ∧
    ∀ g, N ≤ g → collectBlock dims t pieces target g = target g := by
  obtain ⟨L', hL', hcov, hle, -, -⟩ := C31_blocks_partial hd hfit
  have hLL : ∀ p < dims, L p = L' p := by
    intro p hp
    have := hL p hp
    rw [hL' p hp] at this
    exact (Except.ok.inj this).symm
  have hval : ∀ p < dims, (L p).off = p * len ∧
      (L p).size = if p < dims - 1 then len else N - (dims - 1) * len := by
    intro p hp
    have := hL p hp
    rw [blockLocal_eq hp hfit] at this
    rw [← Except.ok.inj this]
    exact ⟨rfl, rfl⟩
  obtain ⟨t', ht', htab⟩ := C31_tables_agree hd hfit
  rw [ht] at ht'
  obtain rfl : t = t' := Except.ok.inj ht'
  have htp : ∀ p < dims, t p = ((L p).size, (L p).off) := by
    intro p hp
    obtain ⟨L2, hL2, h⟩ := htab p hp
    rw [hL p hp] at hL2
    rw [h, ← Except.ok.inj hL2]
  obtain ⟨-, hcyc⟩ := cyclicDispls_spec ⟨fun p => (t p).1, fun _ => 1, fun p _ => (t p).1,
    fun p _ => (t p).2⟩ dims
  have hoff : ∀ p < dims, (cyclicDispls dims ⟨fun p => (t p).1, fun _ => 1, fun p _ => (t p).1,
      fun p _ => (t p).2⟩).2 p 0 = (L p).off := by
    intro p hp
    rw [hcyc p hp 0 Nat.one_pos, range_zero, sum_empty, Nat.add_zero]
    unfold pre
    show ∑ q ∈ range p, ∑ k ∈ range 1, (t q).1 = _
    rw [sum_congr rfl (g := fun _ => len) (fun q hq => ?_), sum_const, card_range, (hval p hp).1]
    · rw [nsmul_eq_mul, Nat.cast_id]
    · have hq := mem_range.1 hq
      rw [sum_range_one, htp q (by omega)]
      show (L q).size = len
      rw [(hval q (by omega)).2, if_pos (by omega)]
  have hcongr : collectBlock dims t pieces target =
      forRange 0 dims (fun p f => writeAt f (L p).off (L p).size (pieces p)) target := by
    unfold collectBlock
    refine forRange_congr _ _ _ ?_
    intro p f _ hp
    show writeAt f _ _ _ = writeAt f _ _ _
    rw [hoff p hp, htp p hp]
  obtain ⟨w1, w2⟩ := writes_agree v dims (fun p => (L p).off) (fun p => (L p).size) pieces hp target
  rw [hcongr]
  constructor
  · intro g hg
    obtain ⟨p, ⟨hpd, h1, h2⟩, -⟩ := hcov g hg
    rw [← hLL p hpd] at h1 h2
    have := w1 p hpd (g - (L p).off) (by omega)
    rwa [Nat.add_sub_cancel' h1] at this
  · intro g hg
    refine w2 g fun p hp => ?_
    have := hle p hp
    rw [← hLL p hp] at this
    omega

/-- C35, block layout, both directions: for block sizes that fit the number of processes, collecting
what was scattered gives the vector back, and scattering what was collected gives every process its
piece back. -/
theorem C35_block_round_trip {N len dims : ℕ} (hd : 0 < dims) (hfit : (dims - 1) * len ≤ N)
    (L : ℕ → BlockLocal) (hL : ∀ p < dims, blockLocal N len p dims = .ok (L p))
    (t : ℕ → ℕ × ℕ) (ht : blockTable N len dims = .ok t) (target : ℕ → K) (old : ℕ → ℕ → K) :
    (∀ v : ℕ → K,
      (∀ g < N, collectBlock dims t (fun p => scatter (L p).tables v (old p)) target g = v g) ∧
      ∀ g, N ≤ g → collectBlock dims t (fun p => scatter (L p).tables v (old p)) target g = target g) ∧
    ∀ pieces : ℕ → ℕ → K, ∀ p < dims, ∀ l < (L p).size,
      scatter (L p).tables (collectBlock dims t pieces target) (old p) l = pieces p l := by
  have hsc : ∀ p (v piece : ℕ → K), ∀ l < (L p).size,
      scatter (L p).tables v piece l = v ((L p).off + l) := by
    intro p v piece l hl
    have := (writes_agree (fun l => v ((L p).off + l)) 1 (L p).tables.offsL (L p).tables.lens
      (fun i t => v ((L p).tables.offs i + t)) (fun i _ x _ => by
        show v ((L p).off + x) = v ((L p).off + (0 + x))
        rw [Nat.zero_add]) piece).1 0 Nat.one_pos l hl
    have h2 : (L p).tables.offsL 0 + l = l := Nat.zero_add l
    rw [h2] at this
    exact this
  refine ⟨fun v => collectBlock_spec hd hfit L hL t ht v _ (fun p _ l hl => hsc p v (old p) l hl) target,
    ?_⟩
  intro pieces p hp l hl
  obtain ⟨L', hL', hcov, hle, -, -⟩ := C31_blocks_partial hd hfit
  have hLL : ∀ p < dims, L p = L' p := by
    intro p hp
    have := hL p hp
    rw [hL' p hp] at this
    exact (Except.ok.inj this).symm
  have hval : ∀ p < dims, (L p).off = p * len ∧
      (L p).size = if p < dims - 1 then len else N - (dims - 1) * len := by
    intro p hp
    have := hL p hp
    rw [blockLocal_eq hp hfit] at this
    rw [← Except.ok.inj this]
    exact ⟨rfl, rfl⟩
  -- the vector whose pieces these are
  classical
  let v : ℕ → K := fun g => if h : ∃ p < dims, (L p).off ≤ g ∧ g < (L p).off + (L p).size
    then pieces h.choose (g - (L h.choose).off) else target g
  have hv : ∀ p < dims, ∀ l < (L p).size, pieces p l = v ((L p).off + l) := by
    intro p hp l hl
    have hex : ∃ q < dims, (L q).off ≤ (L p).off + l ∧ (L p).off + l < (L q).off + (L q).size :=
      ⟨p, hp, by omega, by omega⟩
    have hlt : (L p).off + l < N := by
      have := hle p hp
      rw [← hLL p hp] at this
      omega
    have huniq : hex.choose = p := by
      obtain ⟨q, -, hq⟩ := hcov _ hlt
      have h1 := hex.choose_spec
      rw [hq hex.choose ⟨h1.1, by rw [← hLL _ h1.1]; exact h1.2⟩,
        hq p ⟨hp, by rw [← hLL p hp]; omega⟩]
    show pieces p l = dite _ _ _
    rw [dif_pos hex]
    have : ∀ q, q = p → pieces p l = pieces q ((L p).off + l - (L q).off) := by
      intro q hq; subst hq; rw [Nat.add_sub_cancel_left]
    exact this _ huniq
  rw [hsc p _ _ l hl, (collectBlock_spec hd hfit L hL t ht v pieces hv target).1, hv p hp l hl]
  have := hle p hp
  rw [← hLL p hp] at this
  omega

end

/-- The hypotheses are met: 10 rows in blocks of 3 over 2 processes, starting on process 1. -/
example : ∃ (L : ℕ → Local) (T : AllTables), (∀ p < 2, cyclicLocal 10 3 p 1 2 = .ok (L p)) ∧
    cyclicAll 10 3 1 2 = .ok T := by
  obtain ⟨T, hT, -⟩ := cyclicAll_spec (N := 10) (mb := 3) (src := 1) (dims := 2) (by decide) (by decide)
  have h : ∀ p < 2, ∃ L, cyclicLocal 10 3 p 1 2 = .ok L := by
    intro p hp
    obtain ⟨L, hL, -⟩ := C30_tables_partial (N := 10) (mb := 3) (src := 1) (dims := 2) (p := p)
      (by decide) (by decide) hp (by
        rcases (show p = 0 ∨ p = 1 by omega) with h | h <;> subst h
        · exact ⟨3, by decide⟩
        · exact ⟨0, by decide⟩)
    exact ⟨L, hL⟩
  choose L hL using h
  exact ⟨fun p => if hp : p < 2 then L p hp else ⟨0, 0, fun _ => 0, fun _ => 0, fun _ => 0⟩, T,
    fun p hp => by simp only [dif_pos hp]; exact hL p hp, hT⟩

end Dist
end Verif
