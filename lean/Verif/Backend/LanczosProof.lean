/-
One Lanczos run described on its own (specification), and the proof that `mLanczos` computes it for
every run of a batch.
-/
import Verif.Backend.Common
import Verif.Backend.Spectral

namespace Verif

open Matrix

variable {K : Type*} [RCLike K] {N : ℕ}

/-- The unscaled next Lanczos vector: `H^* v - <v, H^* v> v`, and from the second step on minus
`β` times the vector before. -/
noncomputable def lzW (H : Matrix (Fin N) (Fin N) K) (k : ℕ) (β : ℝ) (u v : Fin N → K) :
    Fin N → K :=
  let w := (-dotc v (Hᴴ.mulVec v)) • v + Hᴴ.mulVec v
  if k > 0 then (-(β : K)) • u + w else w

/-- Specification of one Lanczos run from `x`: previous vector, current vector, last off-diagonal,
before step `k`. -/
noncomputable def lz (H : Matrix (Fin N) (Fin N) K) (x : Fin N → K) :
    ℕ → (Fin N → K) × (Fin N → K) × ℝ
  | 0 => (0, ((1 / nrm2 x : ℝ) : K) • x, 0)
  | k + 1 =>
    let w := lzW H k (lz H x k).2.2 (lz H x k).1 (lz H x k).2.1
    ((lz H x k).2.1, ((1 / nrm2 w : ℝ) : K) • w, nrm2 w)

/-- Lanczos vector `k`. -/
noncomputable def lzV (H : Matrix (Fin N) (Fin N) K) (x : Fin N → K) (k : ℕ) : Fin N → K :=
  (lz H x k).2.1
/-- Diagonal entry `k`. -/
noncomputable def lzA (H : Matrix (Fin N) (Fin N) K) (x : Fin N → K) (k : ℕ) : K :=
  dotc (lzV H x k) (Hᴴ.mulVec (lzV H x k))
/-- Off-diagonal entry `k`, between vectors `k` and `k+1`. -/
noncomputable def lzB (H : Matrix (Fin N) (Fin N) K) (x : Fin N → K) (k : ℕ) : ℝ :=
  (lz H x (k + 1)).2.2
/-- Remainder of step `k`. -/
noncomputable def lzR (H : Matrix (Fin N) (Fin N) K) (x : Fin N → K) (k : ℕ) : Fin N → K :=
  lzW H k (lz H x k).2.2 (lz H x k).1 (lz H x k).2.1

section
variable (H : Matrix (Fin N) (Fin N) K) (x : Fin N → K)

theorem lzB_eq (k : ℕ) : lzB H x k = nrm2 (lzR H x k) := rfl
theorem lzV_zero : lzV H x 0 = ((1 / nrm2 x : ℝ) : K) • x := rfl
theorem lzV_succ (k : ℕ) : lzV H x (k + 1) = ((1 / lzB H x k : ℝ) : K) • lzR H x k := rfl
theorem lz_prev (k : ℕ) : (lz H x (k + 1)).1 = lzV H x k := rfl

theorem lzR_zero : lzR H x 0 = Hᴴ.mulVec (lzV H x 0) - lzA H x 0 • lzV H x 0 := by
  unfold lzR lzW
  rw [if_neg (by omega)]
  show (-lzA H x 0) • lzV H x 0 + Hᴴ.mulVec (lzV H x 0) = _
  rw [neg_smul]; abel

theorem lzR_succ (k : ℕ) : lzR H x (k + 1) = Hᴴ.mulVec (lzV H x (k + 1))
    - lzA H x (k + 1) • lzV H x (k + 1) - (lzB H x k : K) • lzV H x k := by
  unfold lzR lzW
  rw [if_pos (by omega)]
  show (-(lzB H x k : K)) • lzV H x k +
    ((-lzA H x (k + 1)) • lzV H x (k + 1) + Hᴴ.mulVec (lzV H x (k + 1))) = _
  rw [neg_smul, neg_smul]; abel

theorem scale_back (r : Fin N → K) (b : ℝ) (hb : b ≠ 0) :
    (b : K) • (((1 / b : ℝ) : K) • r) = r := by
  rw [smul_smul, ← RCLike.ofReal_mul, mul_one_div_cancel hb, RCLike.ofReal_one, one_smul]

theorem lzR_eq_smul {k : ℕ} (hb : lzB H x k ≠ 0) : lzR H x k = (lzB H x k : K) • lzV H x (k + 1) := by
  rw [lzV_succ, scale_back _ _ hb]

end

/-- What is known about run `i` of the batch before step `k`. -/
structure LzInv (H : Matrix (Fin N) (Fin N) K) (M numvec : ℕ) (store : Bool) (C0 : ℕ → Fin N → K)
    (k : ℕ) (l : LSt K N) : Prop where
  v0 : ∀ i, i < numvec → l.v0 i = (lz H (C0 i) k).1
  v1 : ∀ i, i < numvec → l.v1 i = lzV H (C0 i) k
  rb : ∀ i, i < numvec → l.rbeta i = (lz H (C0 i) k).2.2
  d : ∀ i j, i < numvec → j < k → l.d (j + M * i) = RCLike.re (lzA H (C0 i) j)
  e : ∀ i j, i < numvec → j < k → l.e (j + M * i) = lzB H (C0 i) j
  ez : ∀ i j, i < numvec → k ≤ j → j < M → l.e (j + M * i) = 0
  cs : ∀ j, store = true → 0 < numvec → j < k → l.C j = lzV H (C0 (numvec - 1)) j
  cu : ∀ j, store = true → k ≤ j → l.C j = C0 j
  cn : store = false → l.C = C0

theorem diag_index {M i i' j j' : ℕ} (hj : j < M) (hj' : j' < M) :
    j + M * i = j' + M * i' ↔ j = j' ∧ i = i' := by
  constructor
  · intro h
    have h1 : (j + M * i) % M = (j' + M * i') % M := by rw [h]
    rw [Nat.add_mul_mod_self_left, Nat.add_mul_mod_self_left, Nat.mod_eq_of_lt hj,
      Nat.mod_eq_of_lt hj'] at h1
    subst h1
    exact ⟨rfl, Nat.eq_of_mul_eq_mul_left (by omega) (by omega : M * i = M * i')⟩
  · rintro ⟨rfl, rfl⟩; rfl

/-- Filling one entry per run. -/
theorem fill_diag {α : Type*} (M numvec k : ℕ) (hk : k < M) (g : ℕ → α) (d : ℕ → α) (i j : ℕ)
    (hj : j < M) :
    forRange 0 numvec (fun i d => Function.update d (k + M * i) (g i)) d (j + M * i) =
      if j = k ∧ i < numvec then g i else d (j + M * i) := by
  have h := forRange_inv (Nat.zero_le numvec)
    (fun i d => Function.update d (k + M * i) (g i))
    (fun n (d' : ℕ → α) => d' (j + M * i) = if j = k ∧ i < n then g i else d (j + M * i))
    (s := d) (by simp) (by
      intro n s _ hn ih
      by_cases h : j + M * i = k + M * n
      · rw [(diag_index hj hk).mp h |>.1, (diag_index hj hk).mp h |>.2, Function.update_self,
          if_pos ⟨rfl, by omega⟩]
      · rw [Function.update_of_ne h, ih]
        by_cases h2 : j = k ∧ i < n
        · rw [if_pos h2, if_pos ⟨h2.1, by omega⟩]
        · rw [if_neg h2, if_neg]
          rintro ⟨rfl, h3⟩
          have : i = n := by omega
          exact h (by rw [this]))
  exact h

theorem store_cols (numvec k : ℕ) (v : ℕ → Fin N → K) (C : ℕ → Fin N → K) :
    forRange 0 numvec (fun i C => Function.update C k (v i)) C =
      if numvec = 0 then C else Function.update C k (v (numvec - 1)) := by
  induction numvec with
  | zero => simp [forRange_self]
  | succ n ih =>
    rw [forRange_succ (Nat.zero_le _), ih, if_neg (Nat.succ_ne_zero n), Nat.add_sub_cancel]
    by_cases h : n = 0
    · rw [if_pos h]
    · rw [if_neg h, Function.update_idem]

theorem writeAt_in {α : Type*} (f : ℕ → α) (n : ℕ) (g : ℕ → α) {i : ℕ} (h : i < n) :
    writeAt f 0 n g i = g i := by
  rw [writeAt, if_pos ⟨Nat.zero_le _, by omega⟩, Nat.sub_zero]

section step
variable (p : ℕ → ℕ) (H : Matrix (Fin N) (Fin N) K) (M numvec : ℕ) (store : Bool) (k : ℕ) (l : LSt K N)

theorem step_w {i : ℕ} (hi : i < numvec) (hp : p i = i) :
    (if k > 0 then
      writeAt (writeAt (writeAt l.v2 0 numvec (fun i => Hᴴ.mulVec (l.v1 i))) 0 numvec
        (fun i => (-dotc (l.v1 (p i)) (writeAt l.v2 0 numvec (fun i => Hᴴ.mulVec (l.v1 i)) (p i))) • l.v1 i
          + writeAt l.v2 0 numvec (fun i => Hᴴ.mulVec (l.v1 i)) i)) 0 numvec
        (fun i => (-(l.rbeta (p i) : K)) • l.v0 i +
          writeAt (writeAt l.v2 0 numvec (fun i => Hᴴ.mulVec (l.v1 i))) 0 numvec
        (fun i => (-dotc (l.v1 (p i)) (writeAt l.v2 0 numvec (fun i => Hᴴ.mulVec (l.v1 i)) (p i))) • l.v1 i
          + writeAt l.v2 0 numvec (fun i => Hᴴ.mulVec (l.v1 i)) i) i)
      else writeAt (writeAt l.v2 0 numvec (fun i => Hᴴ.mulVec (l.v1 i))) 0 numvec
        (fun i => (-dotc (l.v1 (p i)) (writeAt l.v2 0 numvec (fun i => Hᴴ.mulVec (l.v1 i)) (p i))) • l.v1 i
          + writeAt l.v2 0 numvec (fun i => Hᴴ.mulVec (l.v1 i)) i)) i
      = lzW H k (l.rbeta i) (l.v0 i) (l.v1 i) := by
  unfold lzW
  split_ifs <;> simp only [writeAt_in _ _ _ hi, hp]

theorem step_last (hk : k = M - 1) :
    (lanczosStep p H M numvec store k l).v0 = l.v0 ∧ (lanczosStep p H M numvec store k l).v1 = l.v1 ∧
    (lanczosStep p H M numvec store k l).e = l.e := by
  unfold lanczosStep
  rw [if_pos hk]
  exact ⟨rfl, rfl, rfl⟩

theorem step_rbeta {i : ℕ} (hi : i < numvec) (hp : p i = i) :
    (lanczosStep p H M numvec store k l).rbeta i = nrm2 (lzW H k (l.rbeta i) (l.v0 i) (l.v1 i)) := by
  rw [← step_w p H numvec k l hi hp]
  unfold lanczosStep
  by_cases hk : k = M - 1
  · rw [if_pos hk]
    dsimp only
    rw [writeAt_in _ _ _ hi]
  · rw [if_neg hk]
    dsimp only
    rw [writeAt_in _ _ _ hi]

theorem step_v0 (hk : k ≠ M - 1) : (lanczosStep p H M numvec store k l).v0 = l.v1 := by
  unfold lanczosStep
  rw [if_neg hk]

theorem step_v1 (hk : k ≠ M - 1) {i : ℕ} (hi : i < numvec) (hp : p i = i) :
    (lanczosStep p H M numvec store k l).v1 i =
      ((1 / nrm2 (lzW H k (l.rbeta i) (l.v0 i) (l.v1 i)) : ℝ) : K) •
        lzW H k (l.rbeta i) (l.v0 i) (l.v1 i) := by
  rw [← step_w p H numvec k l hi hp]
  unfold lanczosStep
  rw [if_neg hk]
  dsimp only
  rw [writeAt_in _ _ _ hi, writeAt_in _ _ _ hi]

theorem step_d (hk : k < M) {i j : ℕ} (hi : i < numvec) (hj : j < M) :
    (lanczosStep p H M numvec store k l).d (j + M * i) =
      if j = k then RCLike.re (dotc (l.v1 i) (Hᴴ.mulVec (l.v1 i))) else l.d (j + M * i) := by
  have h : (lanczosStep p H M numvec store k l).d = forRange 0 numvec (fun i d => Function.update d
      (k + M * i) (RCLike.re (dotc (l.v1 i)
        (writeAt l.v2 0 numvec (fun i => Hᴴ.mulVec (l.v1 i)) i)))) l.d := by
    unfold lanczosStep
    split_ifs <;> rfl
  rw [h, fill_diag M numvec k hk _ _ i j hj]
  by_cases hjk : j = k
  · rw [if_pos ⟨hjk, hi⟩, if_pos hjk, writeAt_in _ _ _ hi]
  · rw [if_neg (fun h => hjk h.1), if_neg hjk]

theorem step_e (hk : k < M) (hk' : k ≠ M - 1) {i j : ℕ} (hi : i < numvec) (hj : j < M)
    (hp : p i = i) :
    (lanczosStep p H M numvec store k l).e (j + M * i) =
      if j = k then nrm2 (lzW H k (l.rbeta i) (l.v0 i) (l.v1 i)) else l.e (j + M * i) := by
  have hr := step_rbeta p H M numvec store k l hi hp
  have h : (lanczosStep p H M numvec store k l).e = forRange 0 numvec (fun i e => Function.update e
      (k + M * i) ((lanczosStep p H M numvec store k l).rbeta i)) l.e := by
    unfold lanczosStep
    rw [if_neg hk']
  rw [h, fill_diag M numvec k hk _ _ i j hj]
  by_cases hjk : j = k
  · rw [if_pos ⟨hjk, hi⟩, if_pos hjk, hr]
  · rw [if_neg (fun h => hjk h.1), if_neg hjk]

theorem step_C : (lanczosStep p H M numvec store k l).C =
    if store = true ∧ 0 < numvec then Function.update l.C k (l.v1 (numvec - 1)) else l.C := by
  have h : (lanczosStep p H M numvec store k l).C = if store then
      forRange 0 numvec (fun i C => Function.update C k (l.v1 i)) l.C else l.C := by
    unfold lanczosStep
    split_ifs <;> rfl
  rw [h, store_cols]
  rcases Nat.eq_zero_or_pos numvec with h0 | h0
  · subst h0; simp
  · rw [if_neg (show ¬ numvec = 0 by omega)]
    cases store
    · rw [if_neg (by simp), if_neg (by simp)]
    · rw [if_pos rfl, if_pos ⟨rfl, h0⟩]

end step

/-- The steps before the last one. -/
theorem lzInv_step {p : ℕ → ℕ} {H : Matrix (Fin N) (Fin N) K} {M numvec : ℕ} {store : Bool}
    {C0 : ℕ → Fin N → K} {k : ℕ} {l : LSt K N} (h : LzInv H M numvec store C0 k l)
    (hp : ∀ i, i < numvec → p i = i) (hk : k + 1 < M) : LzInv H M numvec store C0 (k + 1) (lanczosStep p H M numvec store k l) := by
  have hk' : k ≠ M - 1 := by omega
  have hw : ∀ i, i < numvec → lzW H k (l.rbeta i) (l.v0 i) (l.v1 i) = lzR H (C0 i) k := by
    intro i hi
    rw [h.rb i hi, h.v0 i hi, h.v1 i hi]; rfl
  refine ⟨?_, ?_, ?_, ?_, ?_, ?_, ?_, ?_, ?_⟩
  · intro i hi
    rw [step_v0 p H M numvec store k l hk', h.v1 i hi, lz_prev]
  · intro i hi
    rw [step_v1 p H M numvec store k l hk' hi (hp i hi), hw i hi]; rfl
  · intro i hi
    rw [step_rbeta p H M numvec store k l hi (hp i hi), hw i hi]; rfl
  · intro i j hi hj
    rw [step_d p H M numvec store k l (by omega) hi (by omega)]
    split_ifs with hjk
    · subst hjk; rw [h.v1 i hi]; rfl
    · exact h.d i j hi (by omega)
  · intro i j hi hj
    rw [step_e p H M numvec store k l (by omega) hk' hi (by omega) (hp i hi)]
    split_ifs with hjk
    · subst hjk; rw [hw i hi]; rfl
    · exact h.e i j hi (by omega)
  · intro i j hi hj hjM
    rw [step_e p H M numvec store k l (by omega) hk' hi (by omega) (hp i hi), if_neg (by omega)]
    exact h.ez i j hi (by omega) hjM
  · intro j hs hn hj
    rw [step_C, if_pos ⟨hs, hn⟩]
    by_cases hjk : j = k
    · subst hjk; rw [Function.update_self, h.v1 _ (by omega)]
    · rw [Function.update_of_ne hjk, h.cs j hs hn (by omega)]
  · intro j hs hj
    rw [step_C]
    split_ifs
    · rw [Function.update_of_ne (by omega), h.cu j hs (by omega)]
    · exact h.cu j hs (by omega)
  · intro hs
    rw [step_C, if_neg (by rw [hs]; simp), h.cn hs]

/-- Everything `mLanczos` returns, run by run. -/
theorem mLanczos_spec (p : ℕ → ℕ) (H : Matrix (Fin N) (Fin N) K) (M numvec : ℕ)
    (hp : ∀ i, i < numvec → p i = i) (hM : 0 < M) (store : Bool) (C : ℕ → Fin N → K) :
    (∀ i j, i < numvec → j < M → (mLanczos p H M numvec store C).d (j + M * i)
      = RCLike.re (lzA H (C i) j)) ∧
    (∀ i j, i < numvec → j + 1 < M → (mLanczos p H M numvec store C).e (j + M * i) = lzB H (C i) j) ∧
    (∀ i, i < numvec → (mLanczos p H M numvec store C).e (M - 1 + M * i) = 0) ∧
    (∀ i, i < numvec → (mLanczos p H M numvec store C).rbeta i = lzB H (C i) (M - 1)) ∧
    (∀ j, store = true → 0 < numvec → (mLanczos p H M numvec store C).C j =
      if j < numvec then lzV H (C j) (M - 1)
      else if j < M then lzV H (C (numvec - 1)) j else C j) ∧
    (store = false → (mLanczos p H M numvec store C).C = C) := by
  obtain ⟨m, rfl⟩ : ∃ m, M = m + 1 := ⟨M - 1, by omega⟩
  set l0 : LSt K N := ⟨fun _ _ => 0, fun i => ((1 / nrm2 (C i) : ℝ) : K) • C i,
    fun _ _ => 0, fun _ => 0, fun _ => 0, fun _ => 0, C⟩ with hl0
  have hinit : LzInv H (m + 1) numvec store C 0 l0 :=
    ⟨fun _ _ => rfl, fun _ _ => rfl, fun _ _ => rfl, fun _ _ _ h => absurd h (by omega),
      fun _ _ _ h => absurd h (by omega), fun _ _ _ _ _ => rfl, fun _ _ _ h => absurd h (by omega),
      fun _ _ _ => rfl, fun _ => rfl⟩
  have hinv := forRange_inv (Nat.zero_le m) (lanczosStep p H (m + 1) numvec store)
    (LzInv H (m + 1) numvec store C) hinit
    (fun i s _ hi hs => lzInv_step hs hp (by omega))
  set l1 := forRange 0 m (lanczosStep p H (m + 1) numvec store) l0 with hl1
  set l2 := lanczosStep p H (m + 1) numvec store m l1 with hl2
  have hml : mLanczos p H (m + 1) numvec store C =
      if store then { l2 with C := copyCols 0 numvec l2.v1 l2.C } else l2 := by
    rw [mLanczos, forRange_succ (Nat.zero_le m)]
  have hlast := step_last p H (m + 1) numvec store m l1 rfl
  have hw : ∀ i, i < numvec → lzW H m (l1.rbeta i) (l1.v0 i) (l1.v1 i) = lzR H (C i) m := by
    intro i hi
    rw [hinv.rb i hi, hinv.v0 i hi, hinv.v1 i hi]; rfl
  have hd : (mLanczos p H (m + 1) numvec store C).d = l2.d := by rw [hml]; split_ifs <;> rfl
  have he : (mLanczos p H (m + 1) numvec store C).e = l1.e := by
    rw [hml, ← hlast.2.2]; split_ifs <;> rfl
  have hr : (mLanczos p H (m + 1) numvec store C).rbeta = l2.rbeta := by rw [hml]; split_ifs <;> rfl
  refine ⟨?_, ?_, ?_, ?_, ?_, ?_⟩
  · intro i j hi hj
    rw [hd, hl2, step_d p H (m + 1) numvec store m l1 (by omega) hi hj]
    split_ifs with hjm
    · subst hjm; rw [hinv.v1 i hi]; rfl
    · exact hinv.d i j hi (by omega)
  · intro i j hi hj
    rw [he]; exact hinv.e i j hi (by omega)
  · intro i hi
    rw [he]; exact hinv.ez i m hi le_rfl (by omega)
  · intro i hi
    rw [hr, hl2, step_rbeta p H (m + 1) numvec store m l1 hi (hp i hi), hw i hi]; rfl
  · intro j hs hn
    rw [hml, if_pos hs]
    show copyCols 0 numvec l2.v1 l2.C j = _
    rw [copyCols]
    by_cases hj : j < numvec
    · rw [writeAt_in _ _ _ hj, if_pos hj, hl2, hlast.2.1, Nat.zero_add, hinv.v1 j hj]; rfl
    · rw [writeAt, if_neg (by omega), if_neg hj, hl2, step_C, if_pos ⟨hs, hn⟩]
      by_cases hjm : j = m
      · subst hjm; rw [Function.update_self, if_pos (by omega), hinv.v1 _ (by omega)]
      · rw [Function.update_of_ne hjm]
        split_ifs with h2
        · exact hinv.cs j hs hn (by omega)
        · exact hinv.cu j hs (by omega)
  · intro hs
    rw [hml, if_neg (by rw [hs]; simp), hl2, step_C, if_neg (by rw [hs]; simp)]
    exact hinv.cn hs

/-! ### Orthonormality -/

section ortho
variable {H : Matrix (Fin N) (Fin N) K} {x : Fin N → K}

theorem nrm2_eq_zero {v : Fin N → K} : nrm2 v = 0 ↔ v = 0 := by
  constructor
  · intro h
    have h2 := nrm2_sq v
    rw [h, zero_pow two_ne_zero] at h2
    have h3 := (Finset.sum_eq_zero_iff_of_nonneg (fun i _ => sq_nonneg ‖v i‖)).mp h2.symm
    funext i
    have := h3 i (Finset.mem_univ _)
    simpa using this
  · rintro rfl
    simp [nrm2]

theorem dotc_self_nrm2 (v : Fin N → K) : dotc v v = ((nrm2 v : ℝ) : K) ^ 2 := by
  rw [dotc_self, ← nrm2_sq, RCLike.ofReal_pow]

theorem dotc_normalised {v : Fin N → K} (hv : nrm2 v ≠ 0) :
    dotc (((1 / nrm2 v : ℝ) : K) • v) (((1 / nrm2 v : ℝ) : K) • v) = 1 := by
  rw [dotc_smul_left, dotc_smul_right, dotc_self_nrm2, RCLike.star_def, RCLike.conj_ofReal,
    ← RCLike.ofReal_pow, ← RCLike.ofReal_mul, ← RCLike.ofReal_mul]
  rw [show 1 / nrm2 v * (1 / nrm2 v * nrm2 v ^ 2) = 1 by field_simp, RCLike.ofReal_one]

theorem lzA_real (hH : H.IsHermitian) (k : ℕ) : star (lzA H x k) = lzA H x k := by
  unfold lzA
  rw [dotc_star, dotc_mulVec, Matrix.conjTranspose_conjTranspose, hH.eq]

theorem dotc_sub_right (a b c : Fin N → K) : dotc a (b - c) = dotc a b - dotc a c := by
  rw [sub_eq_add_neg, dotc_add_right, dotc_neg_right, sub_eq_add_neg]

/-- `⟨a, H b⟩ = conj ⟨b, H a⟩`. -/
theorem dotc_herm (hH : H.IsHermitian) (a b : Fin N → K) :
    dotc a (Hᴴ.mulVec b) = star (dotc b (Hᴴ.mulVec a)) := by
  rw [dotc_star, dotc_mulVec, Matrix.conjTranspose_conjTranspose, hH.eq]

/-- Lanczos vectors and the remainder, as long as no off-diagonal vanishes. -/
theorem lz_ortho (hH : H.IsHermitian) (hx : x ≠ 0) :
    ∀ n, (∀ k, k < n → lzB H x k ≠ 0) →
      (∀ i j, i ≤ n → j ≤ n → dotc (lzV H x i) (lzV H x j) = if i = j then 1 else 0) ∧
      (∀ j, j ≤ n → dotc (lzV H x j) (lzR H x n) = 0) := by
  intro n
  induction n with
  | zero =>
    intro _
    have h1 : dotc (lzV H x 0) (lzV H x 0) = 1 :=
      dotc_normalised (fun h => hx (nrm2_eq_zero.mp h))
    refine ⟨fun i j hi hj => ?_, fun j hj => ?_⟩
    · obtain rfl : i = 0 := by omega
      obtain rfl : j = 0 := by omega
      rw [if_pos rfl, h1]
    · obtain rfl : j = 0 := by omega
      rw [lzR_zero, dotc_sub_right, dotc_smul_right, h1, mul_one]
      exact sub_self _
  | succ n ih =>
    intro hb
    obtain ⟨ho, hr⟩ := ih fun k hk => hb k (by omega)
    have hbn := hb n (by omega)
    have hself : dotc (lzV H x (n + 1)) (lzV H x (n + 1)) = 1 := by
      rw [lzV_succ, lzB_eq]; exact dotc_normalised (by rw [← lzB_eq]; exact hbn)
    have hcross : ∀ j, j ≤ n → dotc (lzV H x j) (lzV H x (n + 1)) = 0 := by
      intro j hj
      rw [lzV_succ, dotc_smul_right, hr j hj, mul_zero]
    have hcross' : ∀ j, j ≤ n → dotc (lzV H x (n + 1)) (lzV H x j) = 0 := by
      intro j hj
      rw [← dotc_star, hcross j hj, star_zero]
    have ho' : ∀ i j, i ≤ n + 1 → j ≤ n + 1 →
        dotc (lzV H x i) (lzV H x j) = if i = j then 1 else 0 := by
      intro i j hi hj
      by_cases h1 : i = n + 1 <;> by_cases h2 : j = n + 1
      · subst h1; subst h2; rw [if_pos rfl, hself]
      · subst h1; rw [if_neg (by omega), hcross' j (by omega)]
      · subst h2; rw [if_neg (by omega), hcross i (by omega)]
      · exact ho i j (by omega) (by omega)
    refine ⟨ho', fun j hj => ?_⟩
    rw [lzR_succ, dotc_sub_right, dotc_sub_right, dotc_smul_right, dotc_smul_right,
      ho' j (n + 1) hj le_rfl, ho' j n hj (by omega)]
    by_cases h1 : j = n + 1
    · subst h1
      rw [if_pos rfl, if_neg (by omega), mul_one, mul_zero, sub_zero]
      exact sub_self _
    · rw [if_neg h1, mul_zero, sub_zero, dotc_herm hH]
      -- expand `H v_j` by the recurrence
      have hexp : dotc (lzV H x (n + 1)) (Hᴴ.mulVec (lzV H x j)) =
          (lzB H x j : K) * dotc (lzV H x (n + 1)) (lzV H x (j + 1)) := by
        have hbj := hb j (by omega)
        have hR := lzR_eq_smul H x hbj
        rcases Nat.eq_zero_or_pos j with h0 | h0
        · subst h0
          have e : Hᴴ.mulVec (lzV H x 0) = lzA H x 0 • lzV H x 0 + (lzB H x 0 : K) • lzV H x 1 := by
            rw [← hR, lzR_zero]; abel
          rw [e, dotc_add_right, dotc_smul_right, dotc_smul_right, hcross' 0 (by omega)]
          ring
        · obtain ⟨i, rfl⟩ : ∃ i, j = i + 1 := ⟨j - 1, by omega⟩
          have e : Hᴴ.mulVec (lzV H x (i + 1)) = lzA H x (i + 1) • lzV H x (i + 1)
              + (lzB H x i : K) • lzV H x i + (lzB H x (i + 1) : K) • lzV H x (i + 1 + 1) := by
            rw [← hR, lzR_succ]; abel
          rw [e, dotc_add_right, dotc_add_right, dotc_smul_right, dotc_smul_right, dotc_smul_right,
            hcross' _ (by omega), hcross' _ (by omega)]
          ring
      rw [hexp]
      by_cases h2 : j = n
      · subst h2
        rw [hself, if_pos rfl, mul_one, RCLike.star_def, RCLike.conj_ofReal, sub_self]
      · rw [hcross' _ (by omega), if_neg h2]
        simp

end ortho

end Verif
