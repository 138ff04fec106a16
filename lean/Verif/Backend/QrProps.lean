/-
C24 - C27: orthogonalisation and Rayleigh-Ritz.
-/
import Verif.Backend.InPlaceProof
import Verif.Backend.LapackExists
import Mathlib.Algebra.Order.Star.Real

namespace Verif

open Matrix

/-! ### C24 -/

/-- Calls of orthogonalisation routines, as a recorder sees them. -/
inductive QrCall where
  | hhQR | cholQR1 | cholQR2 | shiftedcholQR2
  | lockCopy (isHH : Bool)
  deriving DecidableEq

/-- A recorder around the routines of a backend. -/
def tracedQr {S : Type*} (r : QrRoutines S) : QrRoutines (S × List QrCall) where
  hhQR := fun s => (r.hhQR s.1, s.2 ++ [.hhQR])
  cholQR1 := fun s => ((r.cholQR1 s.1).1, (r.cholQR1 s.1).2, s.2 ++ [.cholQR1])
  cholQR2 := fun s => ((r.cholQR2 s.1).1, (r.cholQR2 s.1).2, s.2 ++ [.cholQR2])
  shiftedcholQR2 := fun s =>
    ((r.shiftedcholQR2 s.1).1, (r.shiftedcholQR2 s.1).2, s.2 ++ [.shiftedcholQR2])
  lockCopy := fun b s => (r.lockCopy b s.1, s.2 ++ [.lockCopy b])

/-- The Cholesky variant that the condition estimate selects: the shifted one above the upper
threshold, one round below the lower one, two rounds in between (and for NaN). -/
def selectedVariant (above below : Bool) : QrCall :=
  if above then .shiftedcholQR2 else if below then .cholQR1 else .cholQR2

/-- Outcome (`info`) of a Cholesky variant. -/
def infoOf {S : Type*} (r : QrRoutines S) (s : S) : QrCall → ℤ
  | .cholQR1 => (r.cholQR1 s).1
  | .cholQR2 => (r.cholQR2 s).1
  | .shiftedcholQR2 => (r.shiftedcholQR2 s).1
  | _ => 0

/-- **C24** Cholesky QR counts as disabled iff the environment variable says 1, or it is not set and the
configuration disables it. -/
theorem C24_disabled_iff (doCholQR : Bool) (env : Option ℤ) :
    cholDisable doCholQR env = 1 ↔ env = some 1 ∨ (env = none ∧ doCholQR = false) := by
  cases env <;> cases doCholQR <;> simp [cholDisable]

/-- **C24** When Cholesky QR is disabled the only routine that runs is Householder QR; otherwise exactly
one Cholesky variant runs, the one selected by the condition estimate, and Householder QR runs iff that
variant reports failure.  `above`, `below` are the outcomes of the two comparisons, so every estimate
including NaN is covered; `r` is any set of routines, `s` any state. -/
theorem C24_selection {S : Type*} (r : QrRoutines S) (doCholQR : Bool) (env : Option ℤ)
    (above below : Bool) (s : S) :
    (qrSelect (tracedQr r) doCholQR env above below (s, [])).2 =
      if env = some 1 ∨ (env = none ∧ doCholQR = false) then [.hhQR, .lockCopy true]
      else if infoOf r s (selectedVariant above below) = 0 then
        [selectedVariant above below, .lockCopy false]
      else [selectedVariant above below, .hhQR, .lockCopy true] := by
  unfold qrSelect
  by_cases hd : cholDisable doCholQR env = 1
  · rw [if_pos hd, if_pos ((C24_disabled_iff _ _).mp hd)]; rfl
  · rw [if_neg hd, if_neg fun h => hd ((C24_disabled_iff _ _).mpr h)]
    cases above
    · cases below
      · by_cases h : (r.cholQR2 s).1 = 0 <;> simp [tracedQr, selectedVariant, infoOf, h]
      · by_cases h : (r.cholQR1 s).1 = 0 <;> simp [tracedQr, selectedVariant, infoOf, h]
    · by_cases h : (r.shiftedcholQR2 s).1 = 0 <;> simp [tracedQr, selectedVariant, infoOf, h]

/-- The recorder does not change what is computed. -/
theorem C24_recorder_faithful {S : Type*} (r : QrRoutines S) (doCholQR : Bool) (env : Option ℤ)
    (above below : Bool) (s : S) (l : List QrCall) :
    (qrSelect (tracedQr r) doCholQR env above below (s, l)).1 =
      qrSelect r doCholQR env above below s := by
  unfold qrSelect
  split_ifs <;> first | rfl | (dsimp only [tracedQr]; split_ifs <;> rfl)

/-- The environment variable wins over the configuration: with `CHASE_DISABLE_CHOLQR=0` a solver that
was told not to use Cholesky QR uses it, and so it does with any value but 1; with the value 1 only
Householder QR runs, whatever the configuration says. -/
theorem C24_environment_overrides {S : Type*} (r : QrRoutines S) (s : S) (above below : Bool) (v : ℤ)
    (hv : v ≠ 1) (doCholQR : Bool) :
    selectedVariant above below ∈ (qrSelect (tracedQr r) doCholQR (some v) above below (s, [])).2 ∧
    (qrSelect (tracedQr r) doCholQR (some 1) above below (s, [])).2 = [.hhQR, .lockCopy true] := by
  refine ⟨?_, by rw [C24_selection, if_pos (by simp)]⟩
  rw [C24_selection, if_neg (by simp [hv])]
  split_ifs <;> simp

/-- Non-vacuity: all four outcomes occur. -/
example :
    let r : QrRoutines ℕ := ⟨id, fun s => (0, s), fun s => (3, s), fun s => (0, s), fun _ => id⟩
    (qrSelect (tracedQr r) false none true false (0, [])).2 = [.hhQR, .lockCopy true] ∧
    (qrSelect (tracedQr r) true none true false (0, [])).2 = [.shiftedcholQR2, .lockCopy false] ∧
    (qrSelect (tracedQr r) true none false true (0, [])).2 = [.cholQR1, .lockCopy false] ∧
    (qrSelect (tracedQr r) true none false false (0, [])).2 = [.cholQR2, .hhQR, .lockCopy true] := by
  decide

variable {K : Type*} [RCLike K] {N : ℕ}

/-! ### C25 -/

/-- The outcome promised by C25: success, orthonormal columns, same span, other columns untouched. -/
def OrthonormalisedTo (n : ℕ) (X : ℕ → Fin N → K) (r : ℤ × (ℕ → Fin N → K)) : Prop :=
  r.1 = 0 ∧
  (∀ i j, i < n → j < n → ∑ k, star (r.2 i k) * r.2 j k = if i = j then 1 else 0) ∧
  Submodule.span K (r.2 '' {j | j < n}) = Submodule.span K (X '' {j | j < n}) ∧
  ∀ j, n ≤ j → r.2 j = X j

theorem QrPost.orthonormalised {n : ℕ} {X : ℕ → Fin N → K} {r : ℤ × (ℕ → Fin N → K)}
    (h : QrPost n X r.1 r.2) (h0 : r.1 = 0) (hX : LinearIndependent K (fun j : Fin n => X j)) :
    OrthonormalisedTo n X r :=
  ⟨h0, h.ortho h0, h.span n le_rfl hX, h.tail⟩

/-- **C25** For linearly independent columns (and a machine precision that is not negative) all three
Cholesky variants of the sequential, in-place and single-GPU backends succeed and replace the first `n`
columns by orthonormal columns with the same span. -/
theorem C25_cholesky_qr (L : Lapack K) (hL : L.Ok) (hε : 0 ≤ L.eps) (n : ℕ) (v : CholVariant)
    (hv : v = .seq ∨ v = .inplace ∨ v = .cuda) (X : ℕ → Fin N → K)
    (hX : LinearIndependent K (fun j : Fin n => X j)) :
    OrthonormalisedTo n X (cholQR1c L n X) ∧ OrthonormalisedTo n X (cholQR2c L n v X) ∧
    OrthonormalisedTo n X (shiftedcholQR2c L n v X) := by
  have hv' : v.lastInfo = true ∨ v.early = true := by
    rcases hv with rfl | rfl | rfl
    · exact Or.inl rfl
    · exact Or.inl rfl
    · exact Or.inr rfl
  exact ⟨(cholQR1c_post hL X).orthonormalised (cholQR1c_info hL hX) hX,
    (cholQR2c_post hL v X).orthonormalised (cholQR2c_info hL v hX) hX,
    (shiftedcholQR2c_post hL v hv' X).orthonormalised (shiftedcholQR2c_info hL hε v hX) hX⟩

/-- **C25**, any columns: a variant that reports success has produced orthonormal columns (so dependent
columns are always reported). -/
theorem C25_success_means_orthonormal (L : Lapack K) (hL : L.Ok) (n : ℕ) (v : CholVariant)
    (hv : v = .seq ∨ v = .inplace ∨ v = .cuda) (X : ℕ → Fin N → K)
    (r : ℤ × (ℕ → Fin N → K))
    (hr : r = cholQR1c L n X ∨ r = cholQR2c L n v X ∨ r = shiftedcholQR2c L n v X) (h0 : r.1 = 0) :
    ∀ i j, i < n → j < n → ∑ k, star (r.2 i k) * r.2 j k = if i = j then 1 else 0 := by
  have hv' : v.lastInfo = true ∨ v.early = true := by
    rcases hv with rfl | rfl | rfl
    · exact Or.inl rfl
    · exact Or.inl rfl
    · exact Or.inr rfl
  rcases hr with rfl | rfl | rfl
  · exact (cholQR1c_post hL X).ortho h0
  · exact (cholQR2c_post hL v X).ortho h0
  · exact (shiftedcholQR2c_post hL v hv' X).ortho h0

/-- **C25** Householder QR, the fallback: any columns, as long as there are no more than rows. -/
theorem C25_householder (L : Lapack K) (hL : L.Ok) (n : ℕ) (hn : n ≤ N) (X : ℕ → Fin N → K) :
    (∀ i j, i < n → j < n →
      ∑ k, star (hhQRc L n X i k) * hhQRc L n X j k = if i = j then 1 else 0) ∧
    (LinearIndependent K (fun j : Fin n => X j) → Submodule.span K (hhQRc L n X '' {j | j < n}) =
      Submodule.span K (X '' {j | j < n})) ∧
    ∀ j, n ≤ j → hhQRc L n X j = X j :=
  ⟨(hhQRc_post hL hn X).ortho rfl, (hhQRc_post hL hn X).span n le_rfl, (hhQRc_post hL hn X).tail⟩

/-- Non-vacuity: a LAPACK that meets the specification exists (`Lapack.ideal_ok`), and two independent
columns that are not orthogonal. -/
example : (∃ L : Lapack ℂ, L.Ok ∧ 0 ≤ L.eps) ∧
    LinearIndependent ℝ (fun j : Fin 2 => (fun (j : ℕ) => if j = 0 then ![1, 0] else ![(1 : ℝ), 1]) j) := by
  refine ⟨⟨Lapack.ideal ℂ 0 0 1, Lapack.ideal_ok .., zero_le_one⟩, ?_⟩
  rw [Fintype.linearIndependent_iff]
  intro g hg
  have h0 := congrFun hg 0
  have h1 := congrFun hg 1
  simp [Fin.sum_univ_two] at h0 h1
  intro i
  fin_cases i
  · simp; linarith
  · simpa using h1

/-! ### C26 -/

/-- **C26** (sequential backend) After QR the locked columns hold what they held before, both copies of
the search space agree on every column, and all columns are orthonormal; whatever variant runs and
whether or not it fails. -/
theorem C26_qr_keeps_locked_seq (E : Env K) (hL : E.lapack.Ok) (hn : E.nevex ≤ N) (fixednev : ℕ)
    (cond : ℝ) (s : Seq.St K N) (hl : s.locked ≤ E.nevex) (ho : OrthoOn s.locked s.C)
    (hc : ∀ j, j < s.locked → s.C2 j = s.C j) :
    let s' := (Seq.ops E).qr fixednev cond s
    (∀ j, j < s.locked → s'.C j = s.C j) ∧ (∀ j, j < E.nevex → s'.C2 j = s'.C j) ∧
    OrthoOn E.nevex s'.C ∧ s'.locked = s.locked ∧ s'.H = s.H := by
  obtain ⟨a1, -, a3, a4, a5, a6, -⟩ := Seq.qr_spec hL hn fixednev cond s hl ho hc
  exact ⟨a4, a5, a6, a3, a1⟩

/-- **C26** (partial: in-place CPU and single-GPU backend; unless the shifted Cholesky variant is
selected for linearly dependent columns).  After QR the locked columns hold what they held before, also
in the second buffer, and all columns are orthonormal.  In the excluded case the claim is false, see
`C26_locked_rescaled_refuted`. -/
theorem C26_qr_keeps_locked_inplace_partial (E : Env K) (k : InPlace.Kind) (hL : E.lapack.Ok)
    (hε : 0 ≤ E.lapack.eps) (hn : E.nevex ≤ N) (fixednev : ℕ) (cond : ℝ) (s : InPlace.St K N)
    (hq : cholDisable E.doCholQR E.envDisable = 1 ∨ cond ≤ E.condUpper ∨
      LinearIndependent K (fun j : Fin E.nevex => s.V1 j))
    (hl : s.locked ≤ E.nevex) (ho : OrthoOn s.locked s.V1) :
    let s' := (InPlace.ops E k).qr fixednev cond s
    (∀ j, j < s.locked → s'.V1 j = s.V1 j) ∧ (∀ j, j < s.locked → s'.V2 j = s'.V1 j) ∧
    OrthoOn E.nevex s'.V1 ∧ s'.locked = s.locked ∧ s'.H = s.H := by
  obtain ⟨a1, -, a3, -, a4, a5, a6, -⟩ := InPlace.qr_spec (k := k) hL hε hn fixednev cond s
    (by
      rcases hq with h | h | h
      · exact Or.inl h
      · exact Or.inr (Or.inl (not_lt.mpr h))
      · exact Or.inr (Or.inr h)) hl ho
  exact ⟨a4, a5, a6, a3, a1⟩

/-- Non-vacuity: one locked unit vector, a second column that is not orthogonal to it. -/
example : ∃ (E : Env ℝ) (s : Seq.St ℝ 2) (t : InPlace.St ℝ 2), E.lapack.Ok ∧ 0 ≤ E.lapack.eps ∧
    E.nevex = 2 ∧ s.locked = 1 ∧ OrthoOn 1 s.C ∧ (∀ j, j < s.locked → s.C2 j = s.C j) ∧
    dotc (s.C 0) (s.C 1) ≠ 0 ∧ t.V1 = s.C ∧ t.locked = 1 := by
  have h1 : dotc (![1, 0] : Fin 2 → ℝ) ![1, 0] = 1 := by simp [dotc, Fin.sum_univ_two]
  have h2 : dotc (![1, 0] : Fin 2 → ℝ) ![1, 1] ≠ 0 := by simp [dotc, Fin.sum_univ_two]
  let C : ℕ → Fin 2 → ℝ := fun j => if j = 0 then ![1, 0] else ![1, 1]
  refine ⟨⟨Lapack.ideal ℝ 0 0 1, 1, 1, true, none, 10, 2⟩, ⟨1, C, C, C, C, .bAc, 1, true⟩,
    ⟨1, 1, C, C, C, false, 0, 1, true⟩, Lapack.ideal_ok .., zero_le_one, rfl, rfl, ?_,
    fun _ _ => rfl, h2, rfl, rfl⟩
  intro i j hi hj
  obtain rfl : i = 0 := by omega
  obtain rfl : j = 0 := by omega
  exact h1

/-- A factorisation reported as successful shows that the matrix is positive definite. -/
theorem potrf_ok_posDef {L : Lapack K} (hL : L.Ok) {n : ℕ} {A : Matrix (Fin n) (Fin n) K}
    (hA : A.IsHermitian) (h : (L.potrf A).1 = 0) : A.det ≠ 0 := by
  rcases hL.potrf A hA with ⟨-, h2, h3⟩ | ⟨k, -, h1, -, -⟩
  · rw [← h2, Matrix.det_mul, Matrix.det_conjTranspose]
    have : (triu (L.potrf A).2).det ≠ 0 := by
      rw [Matrix.det_of_isUpperTriangular]
      · rw [Finset.prod_ne_zero_iff]
        intro i _
        unfold triu
        rw [if_pos le_rfl]
        exact h3 i
      · intro a b hab
        unfold triu
        exact if_neg (not_le.mpr hab)
    exact mul_ne_zero (star_ne_zero.mpr this) this
  · omega

/-- **C26 is false for the in-place CPU backend and the single-GPU backend**, for every LAPACK that meets
its specification and every positive machine precision: with two equal columns, the first one locked, and
a condition estimate above the upper threshold, QR changes the locked column (the shifted Cholesky
variant fails in its second round, after the first has rescaled all columns, and the fallback then saves
the rescaled locked column as the one to keep). -/
theorem C26_locked_rescaled_refuted (L : Lapack ℝ) (hL : L.Ok) (hε : 0 < L.eps) (k : InPlace.Kind) :
    ∃ (E : Env ℝ) (s : InPlace.St ℝ 2) (cond : ℝ), E.lapack = L ∧ E.nevex = 2 ∧ s.locked = 1 ∧
      OrthoOn 1 s.V1 ∧ cond > E.condUpper ∧ cholDisable E.doCholQR E.envDisable ≠ 1 ∧
      ((InPlace.ops E k).qr 1 cond s).V1 0 ≠ s.V1 0 := by
  let x : Fin 2 → ℝ := ![1, 0]
  let X : ℕ → Fin 2 → ℝ := fun _ => x
  have hx : dotc x x = 1 := by simp [dotc, Fin.sum_univ_two, x]
  refine ⟨⟨L, 1, 1, true, none, 10, 2⟩, ⟨1, 1, X, X, X, false, 0, 1, true⟩, 11, rfl, rfl, rfl, ?_,
    by show (10 : ℝ) < 11; norm_num, by simp [cholDisable], ?_⟩
  · intro i j hi hj
    obtain rfl : i = 0 := by omega
    obtain rfl : j = 0 := by omega
    exact hx
  · set σ : ℝ := cholShift (N := 2) L (gram 2 X) with hσ
    have hg : ∀ i j : Fin 2, gram 2 X i j = 1 := by
      intro i j
      have := gram_apply 0 X X i j
      exact this.trans hx
    have hσ0 : 0 < σ := by
      rw [hσ]
      unfold cholShift
      simp only [hg, norm_one, Finset.sum_const, Finset.card_univ, Fintype.card_fin]
      have : 0 < Real.sqrt ((2 : ℕ) : ℝ) := Real.sqrt_pos.mpr (by norm_num)
      have h2 : (0 : ℝ) < 2 • 1 := by norm_num
      positivity
    have hA : shifted L 2 X = gram 2 X + σ • 1 := shiftDiag_eq _
    have hpos : (shifted L 2 X).PosDef := by
      rw [hA]
      refine Matrix.PosDef.posSemidef_add ?_ ?_
      · exact Matrix.posSemidef_conjTranspose_mul_self _
      · exact Matrix.PosDef.one.smul hσ0
    obtain ⟨i1, i2, i3⟩ : (L.potrf (shifted L 2 X)).1 = 0 ∧
        (triu (L.potrf (shifted L 2 X)).2)ᴴ * triu (L.potrf (shifted L 2 X)).2 = shifted L 2 X ∧
        ∀ i, (L.potrf (shifted L 2 X)).2 i i ≠ 0 := by
      rcases hL.potrf (shifted L 2 X) (shifted_isHermitian X) with h | ⟨k, hk, -, -, h3⟩
      · exact h
      · exact absurd (hpos.submatrix (Fin.castLE_injective hk)) h3
    set U := (L.potrf (shifted L 2 X)).2 with hU
    have hU0 : U 0 0 * U 0 0 = 1 + σ := by
      have := congrFun (congrFun i2 0) 0
      rw [hA, Matrix.mul_apply, Fin.sum_univ_two] at this
      simpa [triu, hg] using this
    have r0 : round0 L 2 X 0 = (U 0 0)⁻¹ • x := by
      have := (trsm_spec U X).2 0 (by omega)
      rw [Finset.range_zero, Finset.sum_empty, sub_zero] at this
      exact this
    have r1 : ∃ c : ℝ, round0 L 2 X 1 = c • x := by
      have := (trsm_spec U X).2 1 (by omega)
      rw [Finset.sum_range_one] at this
      have e : trsm U X 0 = (U 0 0)⁻¹ • x := r0
      rw [e] at this
      refine ⟨(ent U 1 1)⁻¹ * (1 - ent U 0 1 * (U 0 0)⁻¹), this.trans ?_⟩
      show (ent U 1 1)⁻¹ • (x - ent U 0 1 • (U 0 0)⁻¹ • x) = _
      rw [mul_smul, sub_smul, one_smul, mul_smul]
    obtain ⟨c, r1⟩ := r1
    have i4 : (L.potrf (gram 2 (round0 L 2 X))).1 ≠ 0 := by
      intro h0
      refine potrf_ok_posDef hL (gram_isHermitian _) h0 ?_
      have hgr : ∀ i j : Fin 2, gram 2 (round0 L 2 X) i j =
          dotc (round0 L 2 X i) (round0 L 2 X j) := fun i j => by
        have := gram_apply 0 (round0 L 2 X) (round0 L 2 X) i j
        rw [Nat.zero_add, Nat.zero_add] at this
        exact this
      refine (Matrix.det_fin_two (gram 2 (round0 L 2 X))).trans ?_
      rw [hgr, hgr, hgr, hgr]
      simp only [Fin.val_zero, Fin.val_one, r0, r1, dotc_smul_left, dotc_smul_right, hx, star_trivial]
      ring
    have hq : shiftedcholQR2c L 2 k.chol X =
        ((L.potrf (gram 2 (round0 L 2 X))).1, round0 L 2 X) := by
      rw [shiftedcholQR2c_eq, if_neg (not_not.mpr i1), if_pos ⟨by cases k <;> rfl, i4⟩]
    intro hcon
    have key : ((InPlace.ops ⟨L, 1, 1, true, none, 10, 2⟩ k).qr 1 11
        ⟨1, 1, X, X, X, false, 0, 1, true⟩).V1 0 = round0 L 2 X 0 := by
      show InPlace.St.V1 (qrSelect _ _ _ _ _ _) 0 = _
      unfold qrSelect
      rw [if_neg (by simp [cholDisable]), if_pos (decide_eq_true (by norm_num))]
      have hi : ((InPlace.qrRoutines ⟨L, 1, 1, true, none, 10, 2⟩ k 1).shiftedcholQR2
          ⟨1, 1, X, X, X, false, 0, 1, true⟩).1 ≠ 0 := by
        show (shiftedcholQR2c L 2 k.chol X).1 ≠ 0
        rw [hq]; exact i4
      dsimp only
      rw [if_pos hi]
      show copyCols 0 1 (copyCols 0 1 (shiftedcholQR2c L 2 k.chol X).2 (copyCols 0 1 X X))
        (hhQRc L 2 (shiftedcholQR2c L 2 k.chol X).2) 0 = _
      rw [copyCols_apply, if_pos (by omega), copyCols_apply, if_pos (by omega), hq]
    rw [key, r0] at hcon
    have h1 := congrFun hcon 0
    have h2 : (U 0 0)⁻¹ * 1 = 1 := h1
    have h3 : U 0 0 = 1 := by
      rw [mul_one] at h2
      exact inv_eq_one.mp h2
    rw [h3] at hU0
    linarith

/-! ### C27 -/

/-- The outcome promised by C27 for columns `X` before and `Y` after the step, positions
`[l, l+b)` being the ones rotated: orthonormal columns with the same span, and the projection of `H` on
the rotated ones is diagonal with the returned values `w` (ascending). -/
def RitzPairs (H : Matrix (Fin N) (Fin N) K) (l b : ℕ) (X Y : ℕ → Fin N → K) (w : ℕ → ℝ) : Prop :=
  (∀ j, j < l → Y j = X j) ∧
  (∀ i j, i < l + b → j < l + b → ∑ k, star (Y i k) * Y j k = if i = j then 1 else 0) ∧
  Submodule.span K (Y '' {j | j < l + b}) = Submodule.span K (X '' {j | j < l + b}) ∧
  (∀ i j, i < b → j < b → ∑ k, star (Y (l + i) k) * H.mulVec (Y (l + j)) k =
    if i = j then (w i : K) else 0) ∧
  ∀ i j, i ≤ j → j < b → w i ≤ w j

/-- **C27** (sequential backend) From orthonormal columns, held in both copies, Rayleigh-Ritz on the
unlocked part returns Ritz pairs. -/
theorem C27_rayleigh_ritz_seq (E : Env K) (hL : E.lapack.Ok) (s : Seq.St K N) (hH : s.H.IsHermitian)
    (b : ℕ) (ho : OrthoOn (s.locked + b) s.C)
    (hc : ∀ j, s.locked ≤ j → j < s.locked + b → s.C2 j = s.C j) :
    let r := (Seq.ops E).rr b s
    RitzPairs s.H s.locked b s.C r.2.C r.1 ∧ r.2.H = s.H ∧
    ∀ j, s.locked ≤ j → j < s.locked + b → r.2.C2 j = r.2.C j := by
  obtain ⟨a1, -, -, a4, a5, a6, a7, a8, a9⟩ := Seq.rr_spec hL s hH ho hc
  exact ⟨⟨fun j hj => (a4 j (Or.inl hj)).1, a6, a7, a8, a9⟩, a1, a5⟩

/-- **C27** (in-place CPU and single-GPU backend) The same, with the result in the buffer the next step
reads. -/
theorem C27_rayleigh_ritz_inplace (E : Env K) (k : InPlace.Kind) (hL : E.lapack.Ok)
    (s : InPlace.St K N) (hH : s.H.IsHermitian) (b : ℕ) (ho : OrthoOn (s.locked + b) s.V1)
    (hc : ∀ j, j < s.locked → s.V2 j = s.V1 j) :
    let r := (InPlace.ops E k).rr b s
    RitzPairs s.H s.locked b s.V1 r.2.V1 r.1 ∧ r.2.H = s.H := by
  obtain ⟨a1, -, -, -, a4, a6, a7, a8, a9, -⟩ := InPlace.rr_spec hL s hH ho hc
  exact ⟨⟨a4, a6, a7, a8, a9⟩, a1⟩

/-- Non-vacuity: the unit vectors are orthonormal columns, in a state with one locked column. -/
example : ∃ (s : Seq.St ℂ 2) (t : InPlace.St ℂ 2), s.H.IsHermitian ∧ OrthoOn (s.locked + 1) s.C ∧
    s.C2 = s.C ∧ s.locked = 1 ∧ t.V1 = s.C ∧ t.V2 = s.C ∧ t.H = s.H := by
  let C : ℕ → Fin 2 → ℂ := fun j => if j = 0 then ![1, 0] else ![0, 1]
  refine ⟨⟨1, C, C, C, C, .bAc, 1, true⟩, ⟨1, 1, C, C, C, false, 0, 1, true⟩,
    Matrix.isHermitian_one, ?_, rfl, rfl, rfl, rfl, rfl⟩
  intro i j hi hj
  dsimp only at hi hj ⊢
  have : (i = 0 ∨ i = 1) ∧ (j = 0 ∨ j = 1) := by omega
  rcases this with ⟨rfl | rfl, rfl | rfl⟩ <;> simp [dotc, Fin.sum_univ_two, C]

end Verif
