/-
The sequential CPU backend meets the contracts used in the theorems about the solver.
-/
import Verif.Backend.Seq
import Verif.Backend.CholProof
import Verif.Backend.RRProof
import Verif.Filter.Proof
import Verif.Solver.Spec

namespace Verif

open Matrix

variable {K : Type*} [RCLike K] {N : ℕ}

theorem shiftH_eq (c : K) (H : Matrix (Fin N) (Fin N) K) : shiftH c H = H + c • 1 := by
  have h := forRange_inv (Nat.zero_le N)
    (fun k (H : Matrix (Fin N) (Fin N) K) =>
      (fun i j => if i.val = k ∧ j.val = k then H i j + c else H i j : Matrix (Fin N) (Fin N) K))
    (fun m H' => ∀ i j : Fin N, H' i j = if i = j ∧ i.val < m then H i j + c else H i j)
    (s := H) (by intro i j; simp) ?_
  · ext i j
    have := h i j
    unfold shiftH
    rw [this]
    by_cases hij : i = j
    · subst hij; simp
    · simp [hij]
  · intro m H' _ hm ih i j
    show (if i.val = m ∧ j.val = m then H' i j + c else H' i j) = _
    rw [ih i j]
    by_cases hij : i = j
    · subst hij
      rcases lt_trichotomy i.val m with h | h | h
      · rw [if_neg (by omega), if_pos ⟨rfl, h⟩, if_pos ⟨rfl, by omega⟩]
      · rw [if_pos ⟨h, h⟩, if_neg (by omega), if_pos ⟨rfl, by omega⟩]
      · rw [if_neg (by omega), if_neg (by omega), if_neg (by omega)]
    · have : ¬ (i.val = m ∧ j.val = m) := fun h => hij (Fin.ext (by omega))
      rw [if_neg this, if_neg (fun h => hij h.1), if_neg (fun h => hij h.1)]

theorem shiftH_isHermitian {H : Matrix (Fin N) (Fin N) K} (h : H.IsHermitian) (c : ℝ) :
    (shiftH (c : K) H).IsHermitian := by
  rw [shiftH_eq]
  refine h.add ?_
  unfold Matrix.IsHermitian
  rw [Matrix.conjTranspose_smul, Matrix.conjTranspose_one]
  simp

theorem mul_getBlk_col {n off : ℕ} (A : Matrix (Fin N) (Fin N) K) (X : ℕ → Fin N → K) (j : Fin n) :
    (fun i => (A * getBlk off n X) i j) = A.mulVec (X (off + j)) := by
  funext i
  simp [Matrix.mul_apply, getBlk, Matrix.mulVec, dotProduct]

/-- Column of the block written by a product. -/
theorem setBlk_axpby {n off : ℕ} (A : Matrix (Fin N) (Fin N) K) (α β : K) (X Y : ℕ → Fin N → K)
    (j : ℕ) : setBlk off (α • (A * getBlk off n X) + β • getBlk off n Y) Y j =
      if off ≤ j ∧ j < off + n then α • A.mulVec (X j) + β • Y j else Y j := by
  by_cases h : off ≤ j ∧ j < off + n
  · rw [setBlk_mem h.1 h.2, if_pos h]
    have := mul_getBlk_col A X (off := off) (⟨j - off, by omega⟩ : Fin n)
    rw [show off + (j - off) = j by omega] at this
    rw [← this]
    funext i
    simp [getBlk, show off + (j - off) = j by omega]
  · rw [setBlk_not_mem (by omega), if_neg h]

namespace Seq

variable {E : Env K}

/-- The buffer the next product reads. -/
def src (s : St K N) : ℕ → Fin N → K := match s.next with | .bAc => s.C | .cAb => s.B
/-- The buffer the next product writes. -/
def tgt (s : St K N) : ℕ → Fin N → K := match s.next with | .bAc => s.B | .cAb => s.C

theorem twoBuffer : TwoBuffer (ops (N := N) E) St.H src tgt St.locked (fun s => s.H.IsHermitian) where
  shift := by
    intro c b s hs
    refine ⟨shiftH_isHermitian hs c, ?_, rfl, rfl, rfl⟩
    show shiftH (c : K) s.H = _
    rw [shiftH_eq]
    congr 1
    ext i j; simp [RCLike.real_smul_eq_coe_mul]
  hemm := by
    intro n α β off s hs
    obtain ⟨H, C, B, C2, B2, next, locked, isSym⟩ := s
    have hα : ∀ v : Fin N → K, α • v = (α : K) • v := fun v => by
      ext i; simp [RCLike.real_smul_eq_coe_mul]
    have hβ : ∀ v : Fin N → K, β • v = (β : K) • v := fun v => by
      ext i; simp [RCLike.real_smul_eq_coe_mul]
    have hH : Hᴴ = H := hs
    cases next
    · refine ⟨hs, rfl, rfl, rfl, fun j => ?_⟩
      show setBlk (locked + off) _ C j = _
      rw [setBlk_axpby, hα, hβ]
      rfl
    · refine ⟨hs, rfl, rfl, rfl, fun j => ?_⟩
      show setBlk (locked + off) ((α : K) • (Hᴴ * _) + _) B j = _
      rw [hH, setBlk_axpby, hα, hβ]
      rfl

/-- A filter call of the sequential backend between two rest positions. -/
theorem filter_spec {lambda1 lower upper : ℝ} {n nevex deg : ℕ} {degrees : ℕ → ℕ} {s s' : St K N}
    {av : ℕ} (hH : s.H.IsHermitian) (hnext : s.next = .bAc) (hs : SortedOn s.locked nevex degrees)
    (hd : ∀ j, s.locked ≤ j → j < nevex → Even (degrees j) ∧ degrees j ≤ deg) (hdeg : Even deg)
    (h : filter (ops (N := N) E) n (nevex - s.locked) deg degrees nevex s.locked lambda1 lower upper s
      = .ok (av, s')) :
    s'.H = s.H ∧ s'.locked = s.locked ∧ s'.next = .bAc ∧
    ((∀ i, i ≤ deg → tau lambda1 lower upper i ≠ 0) → ∀ j, s.locked ≤ j → j < nevex → s'.C j =
      (Polynomial.aeval s.H (filterPoly lambda1 lower upper (degrees j))).mulVec (s.C j)) ∧
    (∀ j, j < s.locked ∨ nevex ≤ j → s'.C j = s.C j) := by
  obtain ⟨-, a2, a3, a4, a5⟩ := filter_two_buffer_all twoBuffer hH hs hd hdeg h
  have hp := filter_toggle (p := fun s : St K N => decide (s.next = .bAc)) (fun _ _ _ => rfl)
    (by
      intro n α β off s
      obtain ⟨H, C, B, C2, B2, next, locked, isSym⟩ := s
      cases next <;> rfl) hs (fun j h1 h2 => (hd j h1 h2).2) hdeg h
  have hn' : s'.next = .bAc := by
    simp only [hnext, decide_true, decide_eq_true_eq] at hp
    exact hp
  have e1 : src s' = s'.C := by unfold src; rw [hn']
  have e2 : src s = s.C := by unfold src; rw [hnext]
  rw [e1, e2] at a4 a5
  exact ⟨a2, a3, hn', a4, fun j hj => (a5 j hj).1⟩

/-- One QR step: the columns are replaced by the outcome of an orthogonalisation, then the locked ones
are put back. -/
theorem qr_form (hL : E.lapack.Ok) (hn : E.nevex ≤ N) (k : ℕ) (c : ℝ) (s : St K N) :
    ∃ Y, QrPost E.nevex s.C 0 Y ∧
      (ops E).qr k c s = lockVectorCopy E s.locked { s with C := Y } := by
  show ∃ Y, _ ∧ qrSelect _ _ _ _ _ s = _
  unfold qrSelect
  have hh : ∀ X Y : ℕ → Fin N → K, ∀ i : ℤ, QrPost E.nevex X i Y →
      QrPost E.nevex X 0 (hhQRc E.lapack E.nevex Y) := fun X Y i h => h.trans (hhQRc_post hL hn Y)
  by_cases hd : cholDisable E.doCholQR E.envDisable = 1
  · rw [if_pos hd]
    exact ⟨_, hhQRc_post hL hn s.C, rfl⟩
  · rw [if_neg hd]
    have main : ∀ (p : ℤ × (ℕ → Fin N → K)), QrPost E.nevex s.C p.1 p.2 →
        ∃ Y, QrPost E.nevex s.C 0 Y ∧
          (if p.1 ≠ 0 then (qrRoutines E s.locked).lockCopy true
              ((qrRoutines E s.locked).hhQR { s with C := p.2 })
            else (qrRoutines E s.locked).lockCopy false { s with C := p.2 }) =
            lockVectorCopy E s.locked { s with C := Y } := by
      intro p hp
      by_cases h0 : p.1 ≠ 0
      · rw [if_pos h0]; exact ⟨_, hh _ _ _ hp, rfl⟩
      · rw [if_neg h0]
        push Not at h0
        exact ⟨p.2, h0 ▸ hp, rfl⟩
    split_ifs
    · exact main _ (shiftedcholQR2c_post hL .seq (Or.inl rfl) s.C)
    · exact main _ (cholQR1c_post hL s.C)
    · exact main _ (cholQR2c_post hL .seq s.C)

/-- Putting the locked columns back after an orthogonalisation. -/
theorem lockCopy_spec (s : St K N) {Y : ℕ → Fin N → K} (hY : QrPost E.nevex s.C 0 Y)
    (hl : s.locked ≤ E.nevex) (ho : OrthoOn s.locked s.C) (hc : ∀ j, j < s.locked → s.C2 j = s.C j)
    (s' : St K N) (e' : s' = lockVectorCopy E s.locked { s with C := Y }) :
    s'.H = s.H ∧ s'.next = s.next ∧ s'.locked = s.locked ∧
    (∀ j, j < s.locked → s'.C j = s.C j) ∧ (∀ j, j < E.nevex → s'.C2 j = s'.C j) ∧
    OrthoOn E.nevex s'.C ∧ (∀ j, E.nevex ≤ j → s'.C j = s.C j ∧ s'.C2 j = s.C2 j) ∧
    (LinearIndependent K (fun j : Fin E.nevex => s.C j) →
      prefixSpan E.nevex s'.C = prefixSpan E.nevex s.C) := by
  have hC : ∀ j, s'.C j = if j < s.locked then s.C j else Y j := by
    intro j
    rw [e']
    show copyCols 0 s.locked s.C2 Y j = _
    rw [copyCols_apply]
    by_cases h : j < s.locked
    · rw [if_pos ⟨by omega, by omega⟩, if_pos h, hc j h]
    · rw [if_neg (by omega), if_neg h]
  have hC2 : ∀ j, s'.C2 j = if s.locked ≤ j ∧ j < E.nevex then s'.C j else s.C2 j := by
    intro j
    rw [e']
    show copyCols s.locked (E.nevex - s.locked) _ s.C2 j = _
    rw [copyCols_apply]
    by_cases h : s.locked ≤ j ∧ j < E.nevex
    · rw [if_pos ⟨by omega, by omega⟩, if_pos h]; rfl
    · rw [if_neg (by omega), if_neg h]
  have hspan := hY.span s.locked hl ho.linearIndependent
  have hortho : OrthoOn E.nevex s'.C := by
    refine ortho_replace (hY.ortho rfl) ho hl hspan.ge ?_ ?_
    · intro j hj; rw [hC, if_pos hj]
    · intro j hj _; rw [hC, if_neg (by omega)]
  refine ⟨by rw [e']; rfl, by rw [e']; rfl, by rw [e']; rfl, ?_, ?_, hortho, ?_, ?_⟩
  · intro j hj; rw [hC, if_pos hj]
  · intro j hj
    rw [hC2]
    by_cases h : s.locked ≤ j
    · rw [if_pos ⟨h, hj⟩]
    · rw [if_neg (by omega), hC, if_pos (by omega), hc j (by omega)]
  · intro j hj
    rw [hC, hC2, if_neg (by omega), if_neg (by omega)]
    exact ⟨hY.tail j hj, rfl⟩
  · intro hX
    have h1 := hY.span E.nevex le_rfl hX
    apply prefixSpan_eq_of_le hX
    -- as many independent vectors inside the same space span it
    have hle : prefixSpan E.nevex s'.C ≤ prefixSpan E.nevex s.C := by
      refine prefixSpan_le fun j hj => ?_
      rw [hC]
      split_ifs with h
      · exact mem_prefixSpan hj
      · rw [← h1]; exact mem_prefixSpan hj
    exact (prefixSpan_eq_of_le hortho.linearIndependent hle).le

/-- **QR**: for a search space whose locked columns are orthonormal and saved in the second copy. -/
theorem qr_spec (hL : E.lapack.Ok) (hn : E.nevex ≤ N) (k : ℕ) (c : ℝ) (s : St K N)
    (hl : s.locked ≤ E.nevex) (ho : OrthoOn s.locked s.C) (hc : ∀ j, j < s.locked → s.C2 j = s.C j) :
    let s' := (ops E).qr k c s
    s'.H = s.H ∧ s'.next = s.next ∧ s'.locked = s.locked ∧
    (∀ j, j < s.locked → s'.C j = s.C j) ∧ (∀ j, j < E.nevex → s'.C2 j = s'.C j) ∧
    OrthoOn E.nevex s'.C ∧ (∀ j, E.nevex ≤ j → s'.C j = s.C j ∧ s'.C2 j = s.C2 j) ∧
    (LinearIndependent K (fun j : Fin E.nevex => s.C j) →
      prefixSpan E.nevex s'.C = prefixSpan E.nevex s.C) := by
  obtain ⟨Y, hY, e⟩ := qr_form hL hn k c s
  exact lockCopy_spec s hY hl ho hc _ e

/-- `Asyn` part: `B` holds `H C` on the block, `B2` the saved columns. -/
theorem gather_B (l block : ℕ) (s : St K N) (j : ℕ) (h1 : l ≤ j) (h2 : j < l + block) :
    (asynCxHGatherC l block s).B j = s.Hᴴ.mulVec (s.C j) ∧
    (asynCxHGatherC l block s).B2 j = s.C2 j := by
  constructor
  · show setBlk l (s.Hᴴ * getBlk l block s.C) s.B j = _
    rw [setBlk_mem h1 h2]
    have := mul_getBlk_col s.Hᴴ s.C (off := l) (⟨j - l, by omega⟩ : Fin block)
    rw [this]
    congr 2
    show l + (j - l) = j
    omega
  · show copyCols l block s.C2 s.B2 j = _
    rw [copyCols_apply, if_pos ⟨h1, h2⟩]

/-- **Rayleigh-Ritz** on a search space that is orthonormal and saved in the second copy. -/
theorem rr_spec (hL : E.lapack.Ok) (s : St K N) (hH : s.H.IsHermitian) {l b : ℕ}
    (ho : OrthoOn (l + b) s.C) (hc : ∀ j, l ≤ j → j < l + b → s.C2 j = s.C j) :
    let r := rr E b l s
    r.2.H = s.H ∧ r.2.next = s.next ∧ r.2.locked = s.locked ∧
    (∀ j, j < l ∨ l + b ≤ j → r.2.C j = s.C j ∧ r.2.C2 j = s.C2 j) ∧
    (∀ j, l ≤ j → j < l + b → r.2.C2 j = r.2.C j) ∧
    OrthoOn (l + b) r.2.C ∧ prefixSpan (l + b) r.2.C = prefixSpan (l + b) s.C ∧
    (∀ i j, i < b → j < b → dotc (r.2.C (l + i)) (s.H.mulVec (r.2.C (l + j))) =
      if i = j then (r.1 i : K) else 0) ∧
    (∀ i j, i ≤ j → j < b → r.1 i ≤ r.1 j) := by
  set V := getBlk l b s.C with hV
  have hV2 : getBlk l b s.C2 = V := by
    ext i j
    show s.C2 (l + j) i = s.C (l + j) i
    rw [hc _ (by omega) (by omega)]
  have hB2 : getBlk l b (asynCxHGatherC l b s).B2 = V := by
    ext i j
    show (asynCxHGatherC l b s).B2 (l + j) i = s.C (l + j) i
    rw [(gather_B l b s (l + j) (by omega) (by omega)).2, hc _ (by omega) (by omega)]
  have hB : getBlk l b (asynCxHGatherC l b s).B = s.H * V := by
    show getBlk l b (setBlk l (s.Hᴴ * V) s.B) = _
    rw [getBlk_setBlk, hH.eq]
  set A := (getBlk l b (asynCxHGatherC l b s).B2)ᴴ * getBlk l b (asynCxHGatherC l b s).B with hA
  have hA' : A = Vᴴ * (s.H * V) := by rw [hA, hB2, hB]
  obtain ⟨z1, z2, z3⟩ := hL.heevd A (by rw [hA']; exact projection_isHermitian hH V)
  have eC : (rr E b l s).2.C = setBlk l (V * (E.lapack.heevd A).2) s.C := by
    show setBlk l (getBlk l b s.C2 * (E.lapack.heevd A).2) s.C = _
    rw [hV2]
  have eC2 : (rr E b l s).2.C2 = copyCols l b (rr E b l s).2.C s.C2 := rfl
  have e1 : ∀ i, (h : i < b) → (rr E b l s).1 i = (E.lapack.heevd A).1 ⟨i, h⟩ := by
    intro i h
    show (if h : i < b then (E.lapack.heevd A).1 ⟨i, h⟩ else 0) = _
    rw [dif_pos h]
  refine ⟨rfl, rfl, rfl, ?_, ?_, ?_, ?_, ?_, ?_⟩
  · intro j hj
    rw [eC2, copyCols_apply, if_neg (by omega), eC, setBlk_not_mem (by omega)]
    exact ⟨rfl, rfl⟩
  · intro j h1 h2
    rw [eC2, copyCols_apply, if_pos ⟨h1, h2⟩]
  · rw [eC]; exact rotate_ortho ho z1
  · rw [eC]; exact rotate_span ho z1
  · intro i j hi hj
    rw [hA'] at z2
    have := rotate_galerkin (H := s.H) (l := l) (X := s.C) (w := (E.lapack.heevd A).1) z1
      (by rw [hA']; exact z2) ⟨i, hi⟩ ⟨j, hj⟩
    rw [eC, e1 i hi]
    simpa [Fin.ext_iff] using this
  · intro i j hij hj
    rw [e1 i (by omega), e1 j hj]
    exact z3 hij

/-- What `Resd` leaves alone. -/
theorem resd_frame (ritzv : ℕ → ℝ) (l u : ℕ) (s : St K N) :
    let r := resd ritzv l u s
    r.2.H = s.H ∧ r.2.C = s.C ∧ r.2.C2 = s.C2 ∧ r.2.next = s.next ∧ r.2.locked = s.locked := by
  exact forRange_pres _ (fun p : (ℕ → ℝ) × St K N => p.2.H = s.H ∧ p.2.C = s.C ∧ p.2.C2 = s.C2 ∧
    p.2.next = s.next ∧ p.2.locked = s.locked) ⟨rfl, rfl, rfl, rfl, rfl⟩ (fun _ _ _ _ h => h)

/-- **Residuals**: `Resd` returns the norms of `H x - v x` and leaves the search space alone. -/
theorem resd_spec (ritzv : ℕ → ℝ) (l u : ℕ) (s : St K N) (hH : s.H.IsHermitian)
    (hc : ∀ j, l ≤ j → j < l + u → s.C2 j = s.C j) :
    let r := resd ritzv l u s
    r.2.H = s.H ∧ r.2.C = s.C ∧ r.2.C2 = s.C2 ∧ r.2.next = s.next ∧ r.2.locked = s.locked ∧
    ∀ i, i < u → r.1 i = nrm2 (s.H.mulVec (s.C (l + i)) - (ritzv i : K) • s.C (l + i)) := by
  set s1 := asynCxHGatherC l u s with hs1
  have h := forRange_inv (Nat.zero_le u)
    (fun i (p : (ℕ → ℝ) × St K N) =>
      (Function.update p.1 i (nrm2 ((Function.update p.2.B (l + i)
        ((-(ritzv i : K)) • p.2.B2 (l + i) + p.2.B (l + i))) (l + i))),
        { p.2 with
          B := Function.update p.2.B (l + i) ((-(ritzv i : K)) • p.2.B2 (l + i) + p.2.B (l + i)) }))
    (fun m p => p.2.H = s.H ∧ p.2.C = s.C ∧ p.2.C2 = s.C2 ∧ p.2.next = s.next ∧
      p.2.locked = s.locked ∧ p.2.B2 = s1.B2 ∧ (∀ j, l + m ≤ j → p.2.B j = s1.B j) ∧
      ∀ i, i < m → p.1 i = nrm2 (s.H.mulVec (s.C (l + i)) - (ritzv i : K) • s.C (l + i)))
    (s := (fun _ => 0, s1)) ⟨rfl, rfl, rfl, rfl, rfl, rfl, fun _ _ => rfl, by omega⟩ ?_
  · obtain ⟨a1, a2, a3, a4, a5, -, -, a8⟩ := h
    exact ⟨a1, a2, a3, a4, a5, a8⟩
  · rintro m p - hm ⟨a1, a2, a3, a4, a5, a6, a7, a8⟩
    refine ⟨a1, a2, a3, a4, a5, a6, ?_, ?_⟩
    · intro j hj
      show Function.update p.2.B (l + m) _ j = _
      rw [Function.update_of_ne (by omega)]
      exact a7 j (by omega)
    · intro i hi
      show Function.update p.1 m _ i = _
      by_cases h : i = m
      · subst h
        rw [Function.update_self, Function.update_self, a6, a7 _ le_rfl]
        obtain ⟨g1, g2⟩ := gather_B l u s (l + i) (by omega) (by omega)
        rw [← hs1] at g1 g2
        rw [g1, g2, hc _ (by omega) (by omega), hH.eq, neg_smul]
        congr 1
        abel
      · rw [Function.update_of_ne h]
        exact a8 i (by omega)

/-- The phases of the sequential backend: `H` is the user's matrix at every rest position; the locked
columns are orthonormal and saved in the second copy; after QR and Rayleigh-Ritz this holds for all
columns. -/
def phases (E : Env K) (H0 : Matrix (Fin N) (Fin N) K) : Phases (St K N) where
  pre := fun s => s.H = H0
  inv := fun s => s.H = H0 ∧ s.next = .bAc ∧ s.locked ≤ E.nevex ∧
    (∀ j, j < s.locked → s.C2 j = s.C j) ∧ OrthoOn s.locked s.C
  ready := fun s => s.H = H0 ∧ s.next = .bAc ∧ s.locked ≤ E.nevex ∧
    (∀ j, j < E.nevex → s.C2 j = s.C j) ∧ OrthoOn E.nevex s.C
  synced := fun s => s.H = H0 ∧ s.next = .bAc ∧ s.locked ≤ E.nevex ∧
    (∀ j, j < E.nevex → s.C2 j = s.C j) ∧ OrthoOn E.nevex s.C

theorem swap_agree {n : ℕ} {X Y : ℕ → Fin N → K} {i j : ℕ} (hi : i < n) (hj : j < n)
    (h : ∀ k, k < n → X k = Y k) : ∀ k, k < n → swapAt X i j k = swapAt Y i j k := by
  intro k hk
  rw [swapAt_apply, swapAt_apply]
  split_ifs
  · exact h _ (by assumption)
  · exact h _ (by assumption)
  · exact h _ hk

theorem OrthoOn.swap {n : ℕ} {X : ℕ → Fin N → K} {i j : ℕ} (hi : i < n) (hj : j < n)
    (h : OrthoOn n X) : OrthoOn n (swapAt X i j) := by
  rw [swapAt_eq_comp]
  intro a b ha hb
  have hm : ∀ a, a < n → Equiv.swap i j a < n := by
    intro a ha
    rw [Equiv.swap_apply_def]
    split_ifs <;> assumption
  rw [Function.comp, Function.comp, h _ _ (hm a ha) (hm b hb)]
  simp

/-- **The sequential backend keeps the bookkeeping contract of the solver.** -/
theorem bookkeeping (hL : E.lapack.Ok) (hn : E.nevex ≤ N) {H0 : Matrix (Fin N) (Fin N) K}
    (hH : H0.IsHermitian) :
    Bookkeeping (ops E) St.C St.locked (phases E H0) N E.nevex where
  swap := fun i j s _ _ => rfl
  swap_nl := fun i j s => rfl
  swap_inv := by
    rintro i j s hi hj - - ⟨h1, h2, h3, h4, h5⟩
    have hn : ∀ (X : ℕ → Fin N → K) k, k < s.locked → swapAt X i j k = X k := by
      intro X k hk
      rw [swapAt_apply, if_neg (by omega), if_neg (by omega)]
    refine ⟨h1, h2, h3, ?_, ?_⟩
    · intro k hk
      show swapAt s.C2 i j k = swapAt s.C i j k
      rw [hn _ _ hk, hn _ _ hk]
      exact h4 k hk
    · exact h5.congr fun k hk => hn _ _ hk
  swap_synced := by
    rintro i j s - - hi hj ⟨h1, h2, h3, h4, h5⟩
    exact ⟨h1, h2, h3, swap_agree hi hj h4, OrthoOn.swap hi hj h5⟩
  filter := by
    rintro deg av degrees lambda lower upper s s' ⟨h1, h2, h3, h4, h5⟩ hdeg hs hd h
    obtain ⟨a1, a2, a3, -, a5⟩ := filter_spec (by rw [h1]; exact hH) h2 hs hd hdeg h
    have hC2 : s'.C2 = s.C2 := filter_frame (P := fun s' : St K N => s'.C2 = s.C2)
      (fun _ _ _ h => h)
      (by
        intro n α β off t h
        obtain ⟨H, C, B, C2, B2, next, locked, isSym⟩ := t
        cases next <;> exact h) hs (fun j g1 g2 => (hd j g1 g2).2) h rfl
    refine ⟨a2, ⟨a1.trans h1, a3, by rw [a2]; exact h3, ?_, ?_⟩, fun i hi => a5 i (Or.inl hi)⟩
    · intro j hj
      rw [a2] at hj
      rw [hC2, a5 j (Or.inl hj)]
      exact h4 j hj
    · rw [a2]
      exact h5.congr fun j hj => a5 j (Or.inl hj)
  qr := by
    rintro k c s ⟨h1, h2, h3, h4, h5⟩
    obtain ⟨a1, a2, a3, a4, a5, a6, -, -⟩ := qr_spec hL hn k c s h3 h5 h4
    refine ⟨a3, ⟨a1.trans h1, a2.trans h2, by rw [a3]; exact h3, ?_, ?_⟩,
      ⟨a1.trans h1, a2.trans h2, by rw [a3]; exact h3, a5, a6⟩, a4⟩
    · intro j hj
      rw [a3] at hj
      exact a5 j (by omega)
    · rw [a3]; exact a6.mono h3
  rr := by
    rintro s ⟨h1, h2, h3, h4, h5⟩ _
    have e : s.locked + (E.nevex - s.locked) = E.nevex := by omega
    obtain ⟨a1, a2, a3, a4, a5, a6, -, -, -⟩ := rr_spec hL s (by rw [h1]; exact hH)
      (l := s.locked) (b := E.nevex - s.locked) (by rw [e]; exact h5)
      (fun j _ hj => h4 j (by omega))
    rw [e] at a5 a6
    refine ⟨a3, ⟨a1.trans h1, a2.trans h2, by show (rr E _ _ s).2.locked ≤ _; rw [a3]; exact h3,
      ?_, a6⟩, fun i hi => (a4 i (Or.inl hi)).1⟩
    intro j hj
    rcases Nat.lt_or_ge j s.locked with h | h
    · obtain ⟨b1, b2⟩ := a4 j (Or.inl h)
      show (rr E _ _ s).2.C2 j = (rr E _ _ s).2.C j
      rw [b1, b2]; exact h4 j hj
    · exact a5 j h hj
  resd := by
    rintro f k s ⟨h1, h2, h3, h4, h5⟩
    obtain ⟨a1, a2, a3, a4, a5⟩ := resd_frame f s.locked (E.nevex - k) s
    exact ⟨a5, ⟨a1.trans h1, a4.trans h2, a5.le.trans h3,
      fun j hj => (congrFun a3 j).trans ((h4 j hj).trans (congrFun a2 j).symm),
      h5.congr fun j _ => congrFun a2 j⟩, a2⟩
  lock := by
    rintro k s ⟨h1, h2, h3, h4, h5⟩ hk
    exact ⟨rfl, ⟨h1, h2, hk, fun j hj => h4 j (lt_of_lt_of_le hj hk), h5.mono hk⟩, rfl⟩
  start := fun s h => ⟨rfl, h⟩
  check := fun s h => h
  initVecs := by
    intro b s h hl
    have hl' : (initVecs E (if b = true then initRndVecs E s else s)).locked = 0 := by
      cases b <;> exact hl
    refine ⟨hl', ?_, rfl, ?_, ?_, ?_⟩
    · cases b <;> exact h
    · show (initVecs E (if b = true then initRndVecs E s else s)).locked ≤ _
      omega
    · intro j hj
      have hj' : j < (initVecs E (if b = true then initRndVecs E s else s)).locked := hj
      omega
    · show OrthoOn (initVecs E (if b = true then initRndVecs E s else s)).locked _
      rw [hl']
      intro i j hi; omega
  lanczos1 := fun m s h hl => ⟨hl, h⟩
  lanczosN := by
    rintro m k s ⟨h1, h2, h3, h4, h5⟩ hl
    refine ⟨hl, h1, h2, h3, fun j hj => ?_, fun i j hi => ?_⟩
    · have : j < s.locked := hj
      omega
    · have : i < s.locked := hi
      omega
  lanczosDos := by
    rintro i m z s ⟨h1, h2, h3, h4, h5⟩ hl
    refine ⟨hl, h1, h2, h3, fun j hj => ?_, fun i j hi => ?_⟩
    · have : j < s.locked := hj
      omega
    · have : i < s.locked := hi
      omega
  finish := fun s => rfl

end Seq
end Verif
