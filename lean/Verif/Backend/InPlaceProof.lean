/-
The pointer-swapping backends and the contracts of the solver.
-/
import Verif.Backend.InPlace
import Verif.Backend.SeqProof
import Verif.Solver.Watch

namespace Verif
namespace InPlace

open Matrix

variable {K : Type*} [RCLike K] {N : ℕ} {E : Env K} {k : Kind}

theorem twoBuffer : TwoBuffer (ops (N := N) E k) St.H St.V1 St.V2 St.locked (fun _ => True) where
  shift := by
    intro c b s _
    refine ⟨trivial, ?_, rfl, rfl, rfl⟩
    show shiftH (c : K) s.H = _
    rw [shiftH_eq]
    congr 1
    ext i j; simp [RCLike.real_smul_eq_coe_mul]
  hemm := by
    intro n α β off s _
    refine ⟨trivial, rfl, rfl, rfl, fun j => ?_⟩
    have hα : ∀ v : Fin N → K, α • v = (α : K) • v := fun v => by
      ext i; simp [RCLike.real_smul_eq_coe_mul]
    have hβ : ∀ v : Fin N → K, β • v = (β : K) • v := fun v => by
      ext i; simp [RCLike.real_smul_eq_coe_mul]
    show setBlk (s.locked + off) _ s.V2 j = _
    rw [setBlk_axpby, hα, hβ]

/-- A filter call: polynomials in `H`, `H` restored, the buffers back in their old roles. -/
theorem filter_spec {lambda1 lower upper : ℝ} {n nevex deg : ℕ} {degrees : ℕ → ℕ} {s s' : St K N}
    {av : ℕ} (hs : SortedOn s.locked nevex degrees)
    (hd : ∀ j, s.locked ≤ j → j < nevex → Even (degrees j) ∧ degrees j ≤ deg) (hdeg : Even deg)
    (h : filter (ops (N := N) E k) n (nevex - s.locked) deg degrees nevex s.locked lambda1 lower upper
      s = .ok (av, s')) :
    s'.H = s.H ∧ s'.hostH = s.hostH ∧ s'.locked = s.locked ∧ s'.flipped = s.flipped ∧
    ((∀ i, i ≤ deg → tau lambda1 lower upper i ≠ 0) → ∀ j, s.locked ≤ j → j < nevex → s'.V1 j =
      (Polynomial.aeval s.H (filterPoly lambda1 lower upper (degrees j))).mulVec (s.V1 j)) ∧
    (∀ j, j < s.locked ∨ nevex ≤ j → s'.V1 j = s.V1 j ∧ s'.V2 j = s.V2 j) := by
  obtain ⟨-, a2, a3, a4, a5⟩ := filter_two_buffer_all twoBuffer trivial hs hd hdeg h
  have hp := filter_toggle (p := fun s : St K N => s.flipped) (fun _ _ _ => rfl)
    (fun _ _ _ _ _ => rfl) hs (fun j h1 h2 => (hd j h1 h2).2) hdeg h
  have hh := filter_frame (P := fun s' : St K N => s'.hostH = s.hostH) (fun _ _ _ h => h)
    (fun _ _ _ _ _ h => h) hs (fun j h1 h2 => (hd j h1 h2).2) h rfl
  exact ⟨a2, hh, a3, hp, a4, a5⟩

theorem saveLocked_twice (l : ℕ) (s : St K N) : saveLocked l (saveLocked l s) = saveLocked l s := by
  unfold saveLocked
  congr 1
  funext j
  simp only [copyCols_apply]
  split_ifs <;> rfl

/-- One QR step, unless the shifted variant may fail halfway. -/
theorem qr_form (hL : E.lapack.Ok) (hε : 0 ≤ E.lapack.eps) (hn : E.nevex ≤ N) (m : ℕ) (c : ℝ)
    (s : St K N)
    (hq : cholDisable E.doCholQR E.envDisable = 1 ∨ ¬ (c > E.condUpper) ∨
      LinearIndependent K (fun j : Fin E.nevex => s.V1 j)) :
    ∃ Y, QrPost E.nevex s.V1 0 Y ∧
      (ops E k).qr m c s = { s with V1 := copyCols 0 s.locked s.V1 Y
                                    V2 := copyCols 0 s.locked s.V1 s.V2 } := by
  show ∃ Y, _ ∧ qrSelect _ _ _ _ _ s = _
  have hcopy : ∀ (Y : ℕ → Fin N → K), lockVectorCopy s.locked { saveLocked s.locked s with V1 := Y } =
      { s with V1 := copyCols 0 s.locked s.V1 Y, V2 := copyCols 0 s.locked s.V1 s.V2 } := by
    intro Y
    unfold lockVectorCopy saveLocked
    congr 1
    funext j
    simp only [copyCols_apply]
    split_ifs <;> rfl
  have hhc : ∃ Y, QrPost E.nevex s.V1 0 Y ∧
      (qrRoutines E k s.locked).lockCopy true ((qrRoutines E k s.locked).hhQR s) =
      { s with V1 := copyCols 0 s.locked s.V1 Y, V2 := copyCols 0 s.locked s.V1 s.V2 } :=
    ⟨_, hhQRc_post hL hn s.V1, hcopy _⟩
  unfold qrSelect
  by_cases hd : cholDisable E.doCholQR E.envDisable = 1
  · rw [if_pos hd]; exact hhc
  · rw [if_neg hd]
    have main : ∀ (p : ℤ × (ℕ → Fin N → K)), QrPost E.nevex s.V1 p.1 p.2 →
        (p.1 ≠ 0 → p.2 = s.V1) →
        ∃ Y, QrPost E.nevex s.V1 0 Y ∧
          (if p.1 ≠ 0 then (qrRoutines E k s.locked).lockCopy true
              ((qrRoutines E k s.locked).hhQR { saveLocked s.locked s with V1 := p.2 })
            else (qrRoutines E k s.locked).lockCopy false { saveLocked s.locked s with V1 := p.2 }) =
          { s with V1 := copyCols 0 s.locked s.V1 Y, V2 := copyCols 0 s.locked s.V1 s.V2 } := by
      intro p hp hf
      by_cases h0 : p.1 ≠ 0
      · rw [if_pos h0, hf h0]
        obtain ⟨Y, h1, h2⟩ := hhc
        refine ⟨Y, h1, ?_⟩
        rw [← h2]
        show lockVectorCopy s.locked { saveLocked s.locked (saveLocked s.locked s) with V1 := _ } = _
        rw [saveLocked_twice]
        rfl
      · rw [if_neg h0]
        push Not at h0
        exact ⟨p.2, h0 ▸ hp, hcopy _⟩
    have hv : k.chol.lastInfo = true ∨ k.chol.early = true := by
      cases k
      · exact Or.inl rfl
      · exact Or.inr rfl
    split_ifs with h1 h2
    · refine main _ (shiftedcholQR2c_post hL k.chol hv s.V1) fun hf => ?_
      rcases hq with hq | hq | hq
      · exact absurd hq hd
      · exact absurd (of_decide_eq_true h1) hq
      · exact absurd (shiftedcholQR2c_info hL hε k.chol hq) hf
    · exact main _ (cholQR1c_post hL s.V1) cholQR1c_fail
    · exact main _ (cholQR2c_post hL k.chol s.V1) (cholQR2c_fail hL k.chol)

/-- **QR**, unless the shifted variant may fail halfway. -/
theorem qr_spec (hL : E.lapack.Ok) (hε : 0 ≤ E.lapack.eps) (hn : E.nevex ≤ N) (m : ℕ) (c : ℝ)
    (s : St K N)
    (hq : cholDisable E.doCholQR E.envDisable = 1 ∨ ¬ (c > E.condUpper) ∨
      LinearIndependent K (fun j : Fin E.nevex => s.V1 j))
    (hl : s.locked ≤ E.nevex) (ho : OrthoOn s.locked s.V1) :
    let s' := (ops E k).qr m c s
    s'.H = s.H ∧ s'.hostH = s.hostH ∧ s'.locked = s.locked ∧ s'.flipped = s.flipped ∧
    (∀ j, j < s.locked → s'.V1 j = s.V1 j) ∧ (∀ j, j < s.locked → s'.V2 j = s'.V1 j) ∧
    OrthoOn E.nevex s'.V1 ∧ (∀ j, E.nevex ≤ j → s'.V1 j = s.V1 j ∧ s'.V2 j = s.V2 j) ∧
    (LinearIndependent K (fun j : Fin E.nevex => s.V1 j) →
      prefixSpan E.nevex s'.V1 = prefixSpan E.nevex s.V1) := by
  obtain ⟨Y, hY, e⟩ := qr_form (k := k) hL hε hn m c s hq
  intro s'
  have e' : s' = { s with V1 := copyCols 0 s.locked s.V1 Y
                          V2 := copyCols 0 s.locked s.V1 s.V2 } := e
  have hC : ∀ j, s'.V1 j = if j < s.locked then s.V1 j else Y j := by
    intro j
    rw [e']
    show copyCols 0 s.locked s.V1 Y j = _
    rw [copyCols_apply]
    by_cases h : j < s.locked
    · rw [if_pos ⟨by omega, by omega⟩, if_pos h]
    · rw [if_neg (by omega), if_neg h]
  have hC2 : ∀ j, s'.V2 j = if j < s.locked then s.V1 j else s.V2 j := by
    intro j
    rw [e']
    show copyCols 0 s.locked s.V1 s.V2 j = _
    rw [copyCols_apply]
    by_cases h : j < s.locked
    · rw [if_pos ⟨by omega, by omega⟩, if_pos h]
    · rw [if_neg (by omega), if_neg h]
  have hspan := hY.span s.locked hl ho.linearIndependent
  have hortho : OrthoOn E.nevex s'.V1 := by
    refine ortho_replace (hY.ortho rfl) ho hl hspan.ge ?_ ?_
    · intro j hj; rw [hC, if_pos hj]
    · intro j hj _; rw [hC, if_neg (by omega)]
  refine ⟨by rw [e'], by rw [e'], by rw [e'], by rw [e'], ?_, ?_, hortho, ?_, ?_⟩
  · intro j hj; rw [hC, if_pos hj]
  · intro j hj; rw [hC, hC2, if_pos hj, if_pos hj]
  · intro j hj
    rw [hC, hC2, if_neg (by omega), if_neg (by omega)]
    exact ⟨hY.tail j hj, rfl⟩
  · intro hX
    have h1 := hY.span E.nevex le_rfl hX
    apply prefixSpan_eq_of_le hX
    have hle : prefixSpan E.nevex s'.V1 ≤ prefixSpan E.nevex s.V1 := by
      refine prefixSpan_le fun j hj => ?_
      rw [hC]
      split_ifs with h
      · exact mem_prefixSpan hj
      · rw [← h1]; exact mem_prefixSpan hj
    exact (prefixSpan_eq_of_le hortho.linearIndependent hle).le

/-- **Rayleigh-Ritz** on an orthonormal search space whose locked columns are saved. -/
theorem rr_spec (hL : E.lapack.Ok) (s : St K N) (hH : s.H.IsHermitian) {l b : ℕ}
    (ho : OrthoOn (l + b) s.V1) (hc : ∀ j, j < l → s.V2 j = s.V1 j) :
    let r := rr E b l s
    r.2.H = s.H ∧ r.2.hostH = s.hostH ∧ r.2.locked = s.locked ∧ r.2.flipped = !s.flipped ∧
    (∀ j, j < l → r.2.V1 j = s.V1 j) ∧
    OrthoOn (l + b) r.2.V1 ∧ prefixSpan (l + b) r.2.V1 = prefixSpan (l + b) s.V1 ∧
    (∀ i j, i < b → j < b → dotc (r.2.V1 (l + i)) (s.H.mulVec (r.2.V1 (l + j))) =
      if i = j then (r.1 i : K) else 0) ∧
    (∀ i j, i ≤ j → j < b → r.1 i ≤ r.1 j) ∧ (∀ i, i < b → r.2.dRitz i = r.1 i) := by
  set V := getBlk l b s.V1 with hV
  set V2a := setBlk l (s.Hᴴ * V) s.V2 with hV2a
  set A := (getBlk l b V2a)ᴴ * V with hA
  have hA' : A = Vᴴ * (s.H * V) := by
    rw [hA, hV2a, getBlk_setBlk, hH.eq, Matrix.conjTranspose_mul, hH.eq, Matrix.mul_assoc]
  obtain ⟨z1, z2, z3⟩ := hL.heevd A (by rw [hA']; exact projection_isHermitian hH V)
  have eC : ∀ j, j < l + b → (rr E b l s).2.V1 j = setBlk l (V * (E.lapack.heevd A).2) s.V1 j := by
    intro j hj
    show setBlk l (V * (E.lapack.heevd A).2) V2a j = _
    rcases Nat.lt_or_ge j l with h | h
    · rw [setBlk_not_mem (by omega), setBlk_not_mem (by omega), hV2a, setBlk_not_mem (by omega), hc j h]
    · rw [setBlk_mem h hj, setBlk_mem h hj]
  have e1 : ∀ i, (h : i < b) → (rr E b l s).1 i = (E.lapack.heevd A).1 ⟨i, h⟩ := by
    intro i h
    show (if h : i < b then (E.lapack.heevd A).1 ⟨i, h⟩ else 0) = _
    rw [dif_pos h]
  refine ⟨rfl, rfl, rfl, rfl, ?_, ?_, ?_, ?_, ?_, ?_⟩
  · intro j hj
    rw [eC j (by omega), setBlk_not_mem (by omega)]
  · exact (rotate_ortho ho z1).congr eC
  · rw [prefixSpan_congr eC]; exact rotate_span ho z1
  · intro i j hi hj
    have := rotate_galerkin (H := s.H) (l := l) (X := s.V1) (w := (E.lapack.heevd A).1) z1
      (by rw [← hV, ← hA']; exact z2) ⟨i, hi⟩ ⟨j, hj⟩
    rw [eC _ (by omega), eC _ (by omega), e1 i hi]
    simpa [Fin.ext_iff] using this
  · intro i j hij hj
    rw [e1 i (by omega), e1 j hj]
    exact z3 hij
  · intro i hi
    show writeAt s.dRitz 0 b (rr E b l s).1 i = (rr E b l s).1 i
    rw [writeAt, if_pos ⟨by omega, by omega⟩, Nat.sub_zero]

/-- **Residuals**: `Resd` returns the norms of `H x - v x` and leaves the vectors alone; the CUDA
backend takes the values from its last Rayleigh-Ritz step. -/
theorem resd_spec (ritzv : ℕ → ℝ) (l u : ℕ) (s : St K N) (hH : s.H.IsHermitian) :
    let r := resd k ritzv l u s
    let vals := match k with
      | .cpu => ritzv
      | .cuda => s.dRitz
    r.2.H = s.H ∧ r.2.hostH = s.hostH ∧ r.2.V1 = s.V1 ∧ r.2.locked = s.locked ∧
    r.2.flipped = s.flipped ∧ r.2.dRitz = s.dRitz ∧
    ∀ i, i < u → r.1 i = nrm2 (s.H.mulVec (s.V1 (l + i)) - (vals i : K) • s.V1 (l + i)) := by
  intro r vals
  set s1 : St K N := { s with V2 := setBlk l (s.Hᴴ * getBlk l u s.V1) s.V2 } with hs1
  have h := forRange_inv (Nat.zero_le u)
    (fun i (p : (ℕ → ℝ) × St K N) =>
      (Function.update p.1 i (nrm2 ((Function.update p.2.V2 (l + i)
        ((-(vals i : K)) • p.2.V1 (l + i) + p.2.V2 (l + i))) (l + i))),
        { p.2 with
          V2 := Function.update p.2.V2 (l + i) ((-(vals i : K)) • p.2.V1 (l + i) + p.2.V2 (l + i)) }))
    (fun m p => p.2.H = s.H ∧ p.2.hostH = s.hostH ∧ p.2.V1 = s.V1 ∧ p.2.locked = s.locked ∧
      p.2.flipped = s.flipped ∧ p.2.dRitz = s.dRitz ∧ (∀ j, l + m ≤ j → p.2.V2 j = s1.V2 j) ∧
      ∀ i, i < m → p.1 i = nrm2 (s.H.mulVec (s.V1 (l + i)) - (vals i : K) • s.V1 (l + i)))
    (s := (fun _ => 0, s1)) ⟨rfl, rfl, rfl, rfl, rfl, rfl, fun _ _ => rfl, by omega⟩ ?_
  · obtain ⟨a1, a2, a3, a4, a5, a6, -, a8⟩ := h
    exact ⟨a1, a2, a3, a4, a5, a6, a8⟩
  · rintro m p - hm ⟨a1, a2, a3, a4, a5, a6, a7, a8⟩
    refine ⟨a1, a2, a3, a4, a5, a6, ?_, ?_⟩
    · intro j hj
      show Function.update p.2.V2 (l + m) _ j = _
      rw [Function.update_of_ne (by omega)]
      exact a7 j (by omega)
    · intro i hi
      show Function.update p.1 m _ i = _
      by_cases h : i = m
      · subst h
        rw [Function.update_self, Function.update_self, a3, a7 _ le_rfl]
        have g1 : s1.V2 (l + i) = s.Hᴴ.mulVec (s.V1 (l + i)) := by
          show setBlk l (s.Hᴴ * getBlk l u s.V1) s.V2 (l + i) = _
          rw [setBlk_mem (by omega) (by omega)]
          have := mul_getBlk_col s.Hᴴ s.V1 (off := l) (⟨l + i - l, by omega⟩ : Fin u)
          rw [this]
          congr 2
          show l + (l + i - l) = l + i
          omega
        rw [g1, hH.eq, neg_smul]
        congr 1
        abel
      · rw [Function.update_of_ne h]
        exact a8 i (by omega)

/-- The phases of the pointer-swapping backends. -/
def phases (E : Env K) (k : Kind) (H0 : Matrix (Fin N) (Fin N) K) : Phases (St K N) where
  pre := fun s => s.userH k = H0
  inv := fun s => s.H = H0 ∧ s.userH k = H0 ∧ s.locked ≤ E.nevex ∧ OrthoOn s.locked s.V1
  ready := fun s => s.H = H0 ∧ s.userH k = H0 ∧ s.locked ≤ E.nevex ∧
    (∀ j, j < s.locked → s.V2 j = s.V1 j) ∧ OrthoOn E.nevex s.V1
  synced := fun s => s.H = H0 ∧ s.userH k = H0 ∧ s.locked ≤ E.nevex ∧ OrthoOn E.nevex s.V1

omit [RCLike K] in
theorem userH_eq {s s' : St K N} (h1 : s'.H = s.H) (h2 : s'.hostH = s.hostH) :
    s'.userH k = s.userH k := by
  cases k
  · exact h1
  · exact h2

/-- A QR call that may destroy the locked columns: Cholesky QR is not disabled, the condition estimate
selects the shifted variant, and the columns are linearly dependent (so that the shifted variant may give
up after its first round, when it has already rescaled all columns). -/
def badQr (E : Env K) (_ : ℕ) (c : ℝ) (s : St K N) : Prop :=
  cholDisable E.doCholQR E.envDisable ≠ 1 ∧ c > E.condUpper ∧
    ¬ LinearIndependent K (fun j : Fin E.nevex => s.V1 j)

open Classical in
/-- The QR of the backend, with Householder QR in the situations `badQr`.  Not in the code: an auxiliary
backend for the proofs. -/
noncomputable def safeQr (E : Env K) (k : Kind) (m : ℕ) (c : ℝ) (s : St K N) : St K N :=
  if badQr E m c s then (ops { E with envDisable := some 1 } k).qr m c s else (ops E k).qr m c s

/-- The auxiliary backend for the proofs. -/
noncomputable def safeOps (E : Env K) (k : Kind) : Chase ℝ (St K N) := (ops E k).withQr (safeQr E k)

theorem safeQr_agree (m : ℕ) (c : ℝ) (s : St K N) (h : ¬ badQr E m c s) :
    safeQr E k m c s = (ops E k).qr m c s := if_neg h

theorem safeQr_spec (hL : E.lapack.Ok) (hε : 0 ≤ E.lapack.eps) (hn : E.nevex ≤ N) (m : ℕ) (c : ℝ)
    (s : St K N) (hl : s.locked ≤ E.nevex) (ho : OrthoOn s.locked s.V1) :
    let s' := (safeOps E k).qr m c s
    s'.H = s.H ∧ s'.hostH = s.hostH ∧ s'.locked = s.locked ∧ s'.flipped = s.flipped ∧
    (∀ j, j < s.locked → s'.V1 j = s.V1 j) ∧ (∀ j, j < s.locked → s'.V2 j = s'.V1 j) ∧
    OrthoOn E.nevex s'.V1 := by
  intro s'
  by_cases hb : badQr E m c s
  · have e : s' = (ops { E with envDisable := some 1 } k).qr m c s := if_pos hb
    rw [e]
    obtain ⟨a1, a2, a3, a4, a5, a6, a7, -⟩ := qr_spec (E := { E with envDisable := some 1 }) (k := k)
      hL hε hn m c s (Or.inl rfl) hl ho
    exact ⟨a1, a2, a3, a4, a5, a6, a7⟩
  · have e : s' = (ops E k).qr m c s := if_neg hb
    rw [e]
    have hq : cholDisable E.doCholQR E.envDisable = 1 ∨ ¬ (c > E.condUpper) ∨
        LinearIndependent K (fun j : Fin E.nevex => s.V1 j) := by
      unfold badQr at hb
      tauto
    obtain ⟨a1, a2, a3, a4, a5, a6, a7, -⟩ := qr_spec (k := k) hL hε hn m c s hq hl ho
    exact ⟨a1, a2, a3, a4, a5, a6, a7⟩

/-- **The pointer-swapping backends keep the bookkeeping contract of the solver** as long as no QR call
happens in a situation `badQr`.  There the contract can fail: a shifted Cholesky QR that gives up after
its first round has already rescaled the locked columns. -/
theorem bookkeeping (hL : E.lapack.Ok) (hε : 0 ≤ E.lapack.eps) (hn : E.nevex ≤ N)
    {H0 : Matrix (Fin N) (Fin N) K} (hH : H0.IsHermitian) :
    Bookkeeping (safeOps E k) St.V1 St.locked (phases E k H0) N E.nevex where
  swap := fun i j s _ _ => rfl
  swap_nl := fun i j s => rfl
  swap_inv := by
    rintro i j s hi hj - - ⟨h1, h2, h3, h5⟩
    have hn : ∀ (X : ℕ → Fin N → K) k, k < s.locked → swapAt X i j k = X k := by
      intro X k hk
      rw [swapAt_apply, if_neg (by omega), if_neg (by omega)]
    exact ⟨h1, h2, h3, h5.congr fun k hk => hn _ _ hk⟩
  swap_synced := by
    rintro i j s - - hi hj ⟨h1, h2, h3, h5⟩
    exact ⟨h1, h2, h3, Seq.OrthoOn.swap hi hj h5⟩
  filter := by
    rintro deg av degrees lambda lower upper s s' ⟨h1, h2, h3, h5⟩ hdeg hs hd h
    obtain ⟨a1, a2, a3, -, -, a5⟩ := filter_spec (E := E) (k := k) hs hd hdeg h
    refine ⟨a3, ⟨a1.trans h1, (userH_eq a1 a2).trans h2, by rw [a3]; exact h3, ?_⟩,
      fun i hi => (a5 i (Or.inl hi)).1⟩
    rw [a3]
    exact h5.congr fun j hj => (a5 j (Or.inl hj)).1
  qr := by
    rintro m c s ⟨h1, h2, h3, h5⟩
    obtain ⟨a1, a2, a3, -, a4, a5, a6⟩ := safeQr_spec (k := k) hL hε hn m c s h3 h5
    refine ⟨a3, ⟨a1.trans h1, (userH_eq a1 a2).trans h2, by rw [a3]; exact h3, ?_⟩,
      ⟨a1.trans h1, (userH_eq a1 a2).trans h2, by rw [a3]; exact h3, ?_, a6⟩, a4⟩
    · rw [a3]; exact a6.mono h3
    · rw [a3]; exact a5
  rr := by
    rintro s ⟨h1, h2, h3, h4, h5⟩ _
    have e : s.locked + (E.nevex - s.locked) = E.nevex := by omega
    obtain ⟨a1, a2, a3, -, a4, a6, -, -, -, -⟩ := rr_spec hL s (by rw [h1]; exact hH)
      (l := s.locked) (b := E.nevex - s.locked) (by rw [e]; exact h5) h4
    rw [e] at a6
    exact ⟨a3, ⟨a1.trans h1, (userH_eq a1 a2).trans h2, a3.le.trans h3, a6⟩, a4⟩
  resd := by
    rintro f m s ⟨h1, h2, h3, h5⟩
    obtain ⟨a1, a2, a3, a4, -⟩ := resd_spec (k := k) f s.locked (E.nevex - m) s (by rw [h1]; exact hH)
    exact ⟨a4, ⟨a1.trans h1, (userH_eq a1 a2).trans h2, a4.le.trans h3,
      h5.congr fun j _ => congrFun a3 j⟩, a3⟩
  lock := by
    rintro m s ⟨h1, h2, h3, h5⟩ hk
    exact ⟨rfl, ⟨h1, h2, hk, h5.mono hk⟩, rfl⟩
  start := fun s h => ⟨rfl, by cases k <;> exact h⟩
  check := fun s h => by cases k <;> exact h
  initVecs := by
    intro b s h hl
    have hl' : (initVecs E k (if b = true then initRndVecs E s else s)).locked = 0 := by
      cases k <;> cases b <;> exact hl
    refine ⟨hl', ?_, ?_, ?_, ?_⟩
    · cases k <;> cases b <;> exact h
    · cases k <;> cases b <;> exact h
    · show (initVecs E k (if b = true then initRndVecs E s else s)).locked ≤ _
      omega
    · show OrthoOn (initVecs E k (if b = true then initRndVecs E s else s)).locked _
      rw [hl']
      intro i j hi; omega
  lanczos1 := fun m s h hl => ⟨hl, h⟩
  lanczosN := by
    rintro m j s ⟨h1, h2, h3, h5⟩ hl
    refine ⟨hl, h1, by cases k <;> exact h2, h3, fun i j hi => ?_⟩
    have : i < s.locked := hi
    omega
  lanczosDos := by
    rintro i m z s ⟨h1, h2, h3, h5⟩ hl
    refine ⟨hl, h1, by cases k <;> exact h2, h3, fun i j hi => ?_⟩
    have : i < s.locked := hi
    omega
  finish := fun s => by cases k <;> rfl

end InPlace
end Verif
