/-
C89: what a filter call computes in floating-point arithmetic.
-/
import Verif.Rounded.FilterError
import Verif.Rounded.ParRun
import Verif.Rounded.ParResidualProps
import Verif.Rounded.Props

set_option linter.unusedSectionVars false

namespace Verif
namespace Rounded

open Matrix Polynomial

/-! ### Specification -/

/-- The interval and the scaling point that a filter call works with are rounded ones: `c` and `e` are the centre and
the half width that are computed from the interval handed in, `t` is the scaling point in units of the interval, the
reciprocal of the first coefficient `sigma` computed. -/
structure NearInterval (u lambda1 lower upper c e t : ℝ) : Prop where
  centre : |c - centre lower upper| ≤ ((1 + u) ^ 2 - 1) * |centre lower upper|
  width : |e - halfWidth lower upper| ≤ ((1 + u) ^ 2 - 1) * halfWidth lower upper
  point : |t - (lambda1 - c) / e| ≤ 2 * u / (1 - u) * |(lambda1 - c) / e|

/-- The relative error of a filter call of degree `d`: `η` is that of one step of the recurrence (`filterEta`). -/
noncomputable def filterSlack (u η : ℝ) (d : ℕ) : ℝ := 2 * (d * (d + 1)) * η + 8 * (d * (d - 1)) * u

/-- What remains of the exact filter.  `V` are the columns before, `V'` after the call.  Column `j` has been multiplied
by the filter polynomial of its degree, up to an error relative to the norm of the column; `θ` is the distance of the
centre to the farthest eigenvalue in units of the interval, and `T_d(θ) / T_d(|t|)` the largest value of the polynomial
on the spectrum.  `D` bounds the difference between the diagonal entries of the matrix used and those of `H`. -/
def Filtered {𝕜 : Type*} [RCLike 𝕜] {N : ℕ} (u g D : ℝ) (H : Matrix (Fin N) (Fin N) 𝕜) (c e t : ℝ) (l n : ℕ)
    (degrees : ℕ → ℕ) (V V' : ℕ → Fin N → 𝕜) : Prop :=
  ∀ θ, 1 ≤ θ → (∀ μ, IsEigenvalue H μ → |μ - c| ≤ θ * e) → ∀ j, l ≤ j → j < n →
    let d := degrees j
    let η := filterEta u g (frob (H - (c : 𝕜) • 1)) D e θ
    d * (d + 1) * η ≤ 1 → 64 * (d * (d + 1)) * u ≤ 1 →
    nrm2 (V' j - (aeval H (filterPoly (c + t * e) (c - e) (c + e) d)).mulVec (V j)) ≤
      filterSlack u η d * ((Chebyshev.T ℝ d).eval θ / (Chebyshev.T ℝ d).eval |t|) * nrm2 (V j)

section
variable {K 𝕜 R S : Type*} [RCLike 𝕜] {N : ℕ} {F : Fl K 𝕜} {valR : R → ℝ} {A : Arith K R N} {g : ℝ}
variable [Add R] [Sub R] [Mul R] [Div R] [Neg R] [Zero R] [One R] [NatCast R]
variable {ops : Chase R S} {st : S → Seq.St K N} {good : S → Prop}

/-! ### The interval -/

theorem half_error {u : ℝ} (hR : RealAccurate valR u) (hu : 0 ≤ u) {x : R} {y : ℝ} (h : |valR x - y| ≤ u * |y|) :
    |valR (x / 2) - y / 2| ≤ ((1 + u) ^ 2 - 1) * |y / 2| := by
  have h1 := hR.div x 2 (by rw [hR.two]; norm_num)
  rw [hR.two] at h1
  have h2 : |valR x| ≤ (1 + u) * |y| := by
    calc |valR x| = |y + (valR x - y)| := by congr 1; ring
      _ ≤ _ := (abs_add_le _ _).trans (by linarith)
  rw [abs_div, Nat.abs_ofNat] at h1
  rw [abs_div, Nat.abs_ofNat]
  calc |valR (x / 2) - y / 2| = |(valR (x / 2) - valR x / 2) + (valR x - y) / 2| := by congr 1; ring
    _ ≤ u * (|valR x| / 2) + |valR x - y| / 2 := (abs_add_le _ _).trans (by rw [abs_div (valR x - y), Nat.abs_ofNat]; linarith)
    _ ≤ u * ((1 + u) * |y| / 2) + u * |y| / 2 := by gcongr
    _ = _ := by ring

theorem near_interval {u : ℝ} (hR : RealAccurate valR u) (hu : 0 ≤ u) (hu1 : u ≤ 1 / 8) (lambda1 lower upper : R)
    (hlt : valR lower < valR upper) (hne : valR lambda1 ≠ valR ((upper + lower) / 2)) :
    0 < valR ((upper - lower) / 2) ∧ valR ((upper - lower) / 2 / (lambda1 - (upper + lower) / 2)) ≠ 0 ∧
    NearInterval u (valR lambda1) (valR lower) (valR upper) (valR ((upper + lower) / 2)) (valR ((upper - lower) / 2))
      (1 / valR ((upper - lower) / 2 / (lambda1 - (upper + lower) / 2))) := by
  have hw : 0 < halfWidth (valR lower) (valR upper) := by unfold halfWidth; linarith
  have he := half_error hR hu (hR.sub upper lower)
  have he2 : |valR ((upper - lower) / 2) - halfWidth (valR lower) (valR upper)| ≤
      ((1 + u) ^ 2 - 1) * halfWidth (valR lower) (valR upper) := by
    have : |(valR upper - valR lower) / 2| = halfWidth (valR lower) (valR upper) := abs_of_pos hw
    rw [this] at he
    exact he
  have hpos : 0 < valR ((upper - lower) / 2) := by
    have h1 := (abs_le.mp he2).1
    have h2 : (1 + u) ^ 2 - 1 ≤ 1 / 2 := by nlinarith
    nlinarith
  have hr := hR.sub lambda1 ((upper + lower) / 2)
  set c := valR ((upper + lower) / 2) with hc
  set e := valR ((upper - lower) / 2) with he'
  set r := valR (lambda1 - (upper + lower) / 2) with hr'
  set z := valR lambda1 - c with hz
  have hz0 : z ≠ 0 := sub_ne_zero.mpr hne
  have hr0 : r ≠ 0 := by
    intro h0
    rw [h0, zero_sub, abs_neg] at hr
    have := abs_pos.mpr hz0
    nlinarith
  have hs := hR.div ((upper - lower) / 2) (lambda1 - (upper + lower) / 2) hr0
  rw [← he', ← hr'] at hs
  set s := valR ((upper - lower) / 2 / (lambda1 - (upper + lower) / 2)) with hs'
  have hq0 : e / r ≠ 0 := div_ne_zero hpos.ne' hr0
  have hs0 : s ≠ 0 := by
    intro h0
    rw [h0, zero_sub, abs_neg] at hs
    have := abs_pos.mpr hq0
    nlinarith
  refine ⟨hpos, hs0, ?_, he2, ?_⟩
  · have := half_error hR hu (hR.add upper lower)
    rw [add_comm (valR upper)] at this
    have e1 : (valR lower + valR upper) / 2 = centre (valR lower) (valR upper) := by unfold centre; ring
    rw [e1] at this
    exact this
  · -- `t = t0 (1 + δ) / (1 + δ')`
    set δ := (r - z) / z with hδ
    set δ' := (s - e / r) / (e / r) with hδ'
    have b1 : |δ| ≤ u := by
      rw [hδ, abs_div, div_le_iff₀ (abs_pos.mpr hz0)]; exact hr
    have b2 : |δ'| ≤ u := by
      rw [hδ', abs_div, div_le_iff₀ (abs_pos.mpr hq0)]; exact hs
    have b3 : 1 - u ≤ 1 + δ' := by have := (abs_le.mp b2).1; linarith
    have b4 : (0 : ℝ) < 1 - u := by linarith
    have e1 : r = z * (1 + δ) := by rw [hδ]; field_simp; ring
    have e2 : s = e / r * (1 + δ') := by rw [hδ']; field_simp; ring
    have e3 : 1 / s - z / e = z / e * ((δ - δ') / (1 + δ')) := by
      have h1 : 1 + δ' ≠ 0 := by linarith
      have h2 : (1 : ℝ) / s = z / e * ((1 + δ) / (1 + δ')) := by
        have h3 : r ≠ 0 := hr0
        rw [e2, one_div, mul_inv, inv_div]
        conv_lhs => rw [e1]
        field_simp
      rw [h2]
      field_simp
      ring
    rw [e3, abs_mul, mul_comm]
    refine mul_le_mul_of_nonneg_right ?_ (abs_nonneg _)
    rw [abs_div, abs_of_pos (by linarith : 0 < 1 + δ')]
    have h5 : |δ - δ'| ≤ 2 * u := (abs_sub _ _).trans (by linarith)
    exact div_le_div₀ (by linarith) h5 b4 b3

/-! ### C89 -/

theorem filterPoly_at {c e t : ℝ} (he : e ≠ 0) (d : ℕ) :
    filterPoly (c + t * e) (c - e) (c + e) d = C (1 / (Chebyshev.T ℝ d).eval t) * chebAt c e d := by
  have h1 : centre (c - e) (c + e) = c := by unfold centre; ring
  have h2 : halfWidth (c - e) (c + e) = e := by unfold halfWidth; ring
  unfold filterPoly chebAt
  rw [h1, h2]
  congr 4
  field_simp
  ring

/-- One filter call. -/
theorem filter_call (hU : UsesKernels A ops st good) (hA : FilterKernels F valR A g) (hu1 : F.u ≤ 1 / 8)
    {H0 : Matrix (Fin N) (Fin N) K} {D : ℝ} (hD : 0 ≤ D) (hH0 : (valM F H0).IsHermitian) {s : S} (hg : good s)
    (hn : (st s).next = .bAc) (hoff : ∀ i j, i ≠ j → F.val ((st s).H i j) = F.val (H0 i j))
    (hdiag : ∀ i, ‖F.val ((st s).H i i) - F.val (H0 i i)‖ ≤ D) {n nevex deg : ℕ} {degrees : ℕ → ℕ}
    (lambda1 lower upper : R) (hn0 : n ≠ 0) (hd : GoodDegrees (st s).locked nevex deg degrees)
    (hlt : valR lower < valR upper) (hne : valR lambda1 ≠ valR ((upper + lower) / 2)) :
    ∃ c e t, NearInterval F.u (valR lambda1) (valR lower) (valR upper) c e t ∧
    ∃ av s', filter ops n (nevex - (st s).locked) deg degrees nevex (st s).locked lambda1 lower upper s = .ok (av, s') ∧
      (1 ≤ |t| → Filtered F.u g D (valM F H0) c e t (st s).locked nevex degrees (fun j => valV F ((st s).C j))
        (fun j => valV F ((st s').C j))) := by
  obtain ⟨he0, hs0, hnear⟩ := near_interval hA.real F.u_nonneg hu1 lambda1 lower upper hlt hne
  have hok := hd.some
  have hsum : (st s).locked + (nevex - (st s).locked) = nevex := by omega
  have hf := filter_eq ops (deg := deg) (degrees := degrees) (dsize := nevex) (p0 := (st s).locked) lambda1 lower upper s hn0
    (by omega : 0 < nevex - (st s).locked) (by omega)
    (by rw [hsum]; exact hd.sorted) (fun j hj => (hd.each _ (by omega) (by omega)).2.2)
    (hd.each _ (by omega) (by omega)).2.1
  refine ⟨_, _, _, hnear, _, _, hf, fun ht θ hθ hspec j hj1 hj2 => ?_⟩
  intro d η hsmall hsmall2
  obtain ⟨av, s', h1, h2⟩ := filter_error hU hA hD hH0 hg hn hoff hdiag lambda1 lower upper hn0 hd rfl rfl he0 hθ hspec
  rw [hf] at h1
  cases h1
  have key := h2 j hj1 hj2 hsmall
  set c := valR ((upper + lower) / 2) with hc
  set e := valR ((upper - lower) / 2) with he
  set sigma1 := (upper - lower) / 2 / (lambda1 - (upper + lower) / 2) with hsig
  set t := 1 / valR sigma1 with htd
  have hs1 : valR sigma1 = 1 / t := by rw [htd, one_div_one_div]
  have hsc := scale_error hA.real F.u_nonneg sigma1 ht hs1 (d := d) hsmall2
  dsimp only at key ⊢
  set ρ := scale (fun k => valR (sigmaSeq sigma1 k)) 0 d with hρ
  rw [show degrees j = d from rfl] at key
  rw [filterPoly_at he0.ne']
  set V := valV F ((st s).C j) with hV
  set W := (aeval (valM F H0) (chebAt c e d)).mulVec V with hW
  set τ := (Chebyshev.T ℝ d).eval t with hτ
  have hτabs : |τ| = (Chebyshev.T ℝ d).eval |t| := abs_T_eq t d ht
  have hτ1 : 1 ≤ |τ| := by rw [hτabs]; exact one_le_chebT ht d
  have hτ0 : τ ≠ 0 := by intro h; rw [h, abs_zero] at hτ1; linarith
  have hθ1 : 1 ≤ chebT d θ := one_le_chebT hθ d
  have hu := F.u_nonneg
  have hd2 : 2 ≤ d := (hd.each j hj1 hj2).2.1
  have hd2' : (2 : ℝ) ≤ d := by exact_mod_cast hd2
  have hsm : 8 * ((d : ℝ) * (d - 1)) * F.u ≤ 1 := by
    refine le_trans ?_ hsmall2
    have : 8 * ((d : ℝ) * (d - 1)) ≤ 64 * (d * (d + 1)) := by nlinarith
    exact mul_le_mul_of_nonneg_right this hu
  have hρ2 : |ρ| ≤ 2 / |τ| := by
    rw [le_div_iff₀ (by linarith), ← abs_mul]
    calc |ρ * τ| = |(ρ * τ - 1) + 1| := by congr 1; ring
      _ ≤ _ := (abs_add_le _ _).trans (by rw [abs_one]; linarith)
  have hWn : nrm2 W ≤ chebT d θ * nrm2 V := by
    refine nrm2_aeval_le hH0 (by linarith) (fun μ hμ => ?_) V
    unfold chebAt
    rw [eval_comp]
    simp only [eval_mul, eval_C, eval_sub, eval_X]
    refine abs_chebT_le hθ ?_ d
    rw [abs_mul, abs_of_pos (one_div_pos.mpr he0), one_div, inv_mul_le_iff₀ he0, mul_comm]
    exact hspec μ hμ
  have eW : (aeval (valM F H0) (C (1 / τ) * chebAt c e d)).mulVec V = (1 / τ) • W := by
    rw [map_mul, aeval_C, ← Algebra.smul_def, Matrix.smul_mulVec]
  have hη0 : 0 ≤ η := by
    have := filterEps_nonneg hu hA.g_nonneg
    have hfr := frob_nonneg (valM F H0 - (c : 𝕜) • 1)
    have : 0 ≤ (filterEps F.u g * frob (valM F H0 - (c : 𝕜) • 1) + (1 + filterEps F.u g) * D) / e := by positivity
    have h3 : 0 ≤ 2 * ((filterEps F.u g * frob (valM F H0 - (c : 𝕜) • 1) + (1 + filterEps F.u g) * D) / e) / θ := by
      positivity
    show 0 ≤ filterEta _ _ _ _ _ _
    unfold filterEta
    linarith
  have hnV : 0 ≤ nrm2 V := nrm2_nonneg V
  rw [eW]
  have split : ∀ Z : Fin N → 𝕜, Z - (1 / τ) • W = (Z - ρ • W) + (ρ - 1 / τ) • W := by
    intro Z
    rw [sub_smul]; abel
  rw [split]
  refine (nrm2_add_le _ _).trans ?_
  have p1 : d * (d + 1) * η * (|ρ| * chebT d θ * nrm2 V) ≤
      2 * (d * (d + 1)) * η * (chebT d θ / |τ|) * nrm2 V := by
    have h3 : |ρ| * chebT d θ * nrm2 V ≤ 2 / |τ| * chebT d θ * nrm2 V := by gcongr
    calc d * (d + 1) * η * (|ρ| * chebT d θ * nrm2 V) ≤ d * (d + 1) * η * (2 / |τ| * chebT d θ * nrm2 V) :=
          mul_le_mul_of_nonneg_left h3 (by positivity)
      _ = _ := by ring
  have p2 : nrm2 ((ρ - 1 / τ) • W) ≤ 8 * (d * (d - 1)) * F.u * (chebT d θ / |τ|) * nrm2 V := by
    rw [nrm2_smul_real]
    have h4 : |ρ - 1 / τ| ≤ 8 * (d * (d - 1)) * F.u / |τ| := by
      rw [le_div_iff₀ (by linarith), ← abs_mul]
      have : (ρ - 1 / τ) * τ = ρ * τ - 1 := by field_simp
      rw [this]
      exact hsc
    calc |ρ - 1 / τ| * nrm2 W ≤ 8 * (d * (d - 1)) * F.u / |τ| * (chebT d θ * nrm2 V) :=
          mul_le_mul h4 hWn (nrm2_nonneg W) ((abs_nonneg _).trans h4)
      _ = _ := by ring
  rw [← hτabs]
  show _ ≤ filterSlack F.u η d * (chebT d θ / |τ|) * nrm2 V
  unfold filterSlack
  calc _ ≤ 2 * (d * (d + 1)) * η * (chebT d θ / |τ|) * nrm2 V + 8 * (d * (d - 1)) * F.u * (chebT d θ / |τ|) * nrm2 V :=
        add_le_add (key.trans p1) p2
    _ = _ := by ring

/-- **C89** (partial).  A filter call in floating-point arithmetic with unit roundoff `u` multiplies every active column
by the filter polynomial of its degree, for an interval and a scaling point next to the ones handed in, up to a relative
error of at most `filterSlack`, provided the degree is not too large for the precision.  The matrix `H0` need not be
exactly the one the backend holds. -/
theorem C89_filter_partial (hU : UsesKernels A ops st good) (hA : FilterAccurate F valR A g) (hu1 : F.u ≤ 1 / 8)
    {H0 : Matrix (Fin N) (Fin N) K} {D : ℝ} (hD : 0 ≤ D) (hH0 : (valM F H0).IsHermitian) {s : S} (hg : good s)
    (hn : (st s).next = .bAc) (hoff : ∀ i j, i ≠ j → F.val ((st s).H i j) = F.val (H0 i j))
    (hdiag : ∀ i, ‖F.val ((st s).H i i) - F.val (H0 i i)‖ ≤ D) {n nevex deg : ℕ} {degrees : ℕ → ℕ}
    (lambda1 lower upper : R) (hn0 : n ≠ 0) (hd : GoodDegrees (st s).locked nevex deg degrees)
    (hlt : valR lower < valR upper) (hne : valR lambda1 ≠ valR ((upper + lower) / 2)) :
    ∃ c e t, NearInterval F.u (valR lambda1) (valR lower) (valR upper) c e t ∧
    ∃ av s', filter ops n (nevex - (st s).locked) deg degrees nevex (st s).locked lambda1 lower upper s = .ok (av, s') ∧
      (1 ≤ |t| → Filtered F.u g D (valM F H0) c e t (st s).locked nevex degrees (fun j => valV F ((st s).C j))
        (fun j => valV F ((st s').C j))) :=
  filter_call hU hA.kernels hu1 hD hH0 hg hn hoff hdiag lambda1 lower upper hn0 hd hlt hne

/-! ### In every round of a solve -/

/-- The columns are not part of the contract. -/
theorem _root_.Verif.Frame.forget {V : Type*} {cols : S → ℕ → V} {nl : S → ℕ} {ph : Phases S} {M n : ℕ}
    (h : Frame ops cols nl ph M n) : Bookkeeping ops (fun _ _ => ()) nl ph M n where
  swap := fun _ _ _ _ _ => rfl
  swap_nl := h.swap_nl
  swap_inv := h.swap_inv
  swap_synced := h.swap_synced
  filter := fun deg av degrees lambda lower upper s s' h1 h2 h3 h4 h5 =>
    ⟨(h.filter deg av degrees lambda lower upper s s' h1 h2 h3 h4 h5).1,
      (h.filter deg av degrees lambda lower upper s s' h1 h2 h3 h4 h5).2.1, fun _ _ => rfl⟩
  qr := fun k c s h1 => ⟨(h.qr k c s h1).1, (h.qr k c s h1).2.1, (h.qr k c s h1).2.2.1, fun _ _ => rfl⟩
  rr := fun s h1 h2 => ⟨(h.rr s h1 h2).1, (h.rr s h1 h2).2.1, fun _ _ => rfl⟩
  resd := fun f k s h1 => ⟨(h.resd f k s h1).1, (h.resd f k s h1).2.1, rfl⟩
  lock := fun k s h1 h2 => ⟨(h.lock k s h1 h2).1, (h.lock k s h1 h2).2.1, rfl⟩
  start := h.start
  check := h.check
  initVecs := h.initVecs
  lanczos1 := h.lanczos1
  lanczosN := h.lanczosN
  lanczosDos := h.lanczosDos
  finish := fun _ => rfl

variable [LT R] [DecidableLT R]

/-- `x1` are the variables of the solver at the call of the filter in the round that starts in `x`. -/
def FilterStarts (P : Plat R) (ops : Chase R S) (cfg : Config R) (x x1 : St R S) : Prop :=
  running cfg x ∧ optimise P ops cfg (updateBounds (cfg.nev + cfg.nex) x) = .ok x1

/-- The shifts made before a round are complete pairs, one for every round before. -/
theorem reach_shifts {P : Plat R} {cfg : Config R} (hP : PermutesIndices P) {ritzv0 resid0 : ℕ → R} {s : S}
    {x : St R (S × List (Call R))} (h : Reach P (traced ops) cfg ritzv0 resid0 (s, []) x) :
    ∃ xs : List R, xs.length = x.iteration ∧ shiftsOf x.be.2 = pairsOf xs := by
  have hat : AtReady cfg.N cfg.nev cfg.nex cfg.numLanczos x.iteration x.locked x.be := by
    refine reach_inv (fun x => AtReady cfg.N cfg.nev cfg.nex cfg.numLanczos x.iteration x.locked x.be) ?_ ?_ h
    · intro x0 h0
      have h1 := initState_path (s := (s, [])) (.inl (show At cfg.N cfg.nev cfg.nex cfg.numLanczos .fresh (s, []) from
        Path.nil)) h0
      obtain ⟨_, _, -, -, -, rfl⟩ := initState_ok h0
      exact h1
    · intro x1 x2 hr1 hi hs
      exact .inl (iter_path hP (reach_acc hr1).1 hs.1 hs.2 hi)
  rcases hat with hat | ⟨h0, -, m, hat⟩
  · exact shiftsAt_path hat
  · have : shiftsOf x.be.2 = [] := shiftsAt_path hat
    exact ⟨[], by simp [h0], by rw [this]; rfl⟩

/-- What a filter call of a round starts from, for every backend whose matrix is changed by shifts with the kernels `A`
only.  The data are seen through one of several views. -/
theorem round_data {ι : Type*} {st : ι → S → Seq.St K N} (hA : FilterKernels F valR A g)
    {nl : S → ℕ} {ph : Phases S} {cfg : Config R} (hb : Bookkeeping ops (fun _ _ => ()) nl ph cfg.N (cfg.nev + cfg.nex))
    (hnl : ∀ v s, nl s = (st v s).locked) (hinv : ∀ s, ph.inv s → good s ∧ ∃ v, (st v s).next = .bAc)
    {mat : S → Matrix (Fin N) (Fin N) K} (hmt : ∀ v s, (st v s).H = mat s) {H0 : Matrix (Fin N) (Fin N) K}
    {s : S} {J0 : S × List (Call R) → Prop}
    (hk : KeepsAfter (traced ops) J0 (fun p => mat p.1 = afterShifts A H0 (shiftsOf p.2))) (hJ : J0 (s, []))
    (hpre : ph.pre s) (hmax : Even cfg.maxDeg) {P : Plat R} (hP : PermutesIndices P)
    {ritzv0 resid0 : ℕ → R} {x x1 x' : St R (S × List (Call R))}
    (h : Reach P (traced ops) cfg ritzv0 resid0 (s, []) x) (hs : Step P (traced ops) cfg x x')
    (h1 : FilterStarts P (traced ops) cfg x x1)
    (hdeg : ∀ j, x1.locked ≤ j → j < cfg.nev + cfg.nex → 2 ≤ x1.degrees j)
    {C : ℝ} (hC : ∀ c ∈ shiftsOf x1.be.2, |valR c| ≤ C) :
    GoodDegrees x1.locked (cfg.nev + cfg.nex) x1.deg x1.degrees ∧
    cfg.nev + cfg.nex - x1.locked = x1.unconverged ∧ good x1.be.1 ∧ ∃ v, (st v x1.be.1).next = .bAc ∧
    (st v x1.be.1).locked = x1.locked ∧
    (∀ i j, i ≠ j → F.val ((st v x1.be.1).H i j) = F.val (H0 i j)) ∧
    ∀ i, ‖F.val ((st v x1.be.1).H i i) - F.val (H0 i i)‖ ≤
      ((1 + F.u) ^ (2 * x.iteration) - 1) * (frob (valM F H0) + C) := by
  have hu := F.u_nonneg
  have hb2 := hb.traced.keepAfter hk
  have hloop := reach_inv (fun x => LoopInv cfg _ _ x) (fun _ h0 => loopInv_init hb2.frame hmax ⟨hpre, hJ⟩ h0)
    (fun _ _ _ hi hs => (loopInv_step hP hb2 hmax hi hs).1) h
  obtain ⟨y1, be2, q, x3, hf, -, -⟩ := round_exists_filter hb2.frame hmax hloop hs
  have hy : y1 = x1 := by
    have := hf.opt.symm.trans h1.2
    cases this; rfl
  subst hy
  have hacc := hloop.acc
  have hlk := hloop.lk
  have hl : y1.locked = x.locked := hf.locked
  obtain ⟨hg, v, hnext⟩ := hinv _ hf.inv1.1
  have hlocked : (st v y1.be.1).locked = y1.locked := by
    rw [← hnl, hl]; exact hf.nl1
  have hunc : y1.unconverged = x.unconverged := by
    obtain ⟨-, o2, -⟩ := optimise_frame (cols := fun _ _ => ()) (nl := fun _ : S × List (Call R) => ())
      (fun _ _ _ _ _ => rfl) (fun _ _ _ => rfl) (by exact hacc) hf.opt
    exact o2
  obtain ⟨xs, hlen, hsh⟩ := reach_shifts hP h
  have hsh1 : shiftsOf y1.be.2 = pairsOf xs := by
    rw [← hsh]
    refine optimise_pres (P := P) (fun p : S × List (Call R) => shiftsOf p.2 = shiftsOf x.be.2)
      (st := updateBounds _ x) (fun i j p _ _ _ _ hp => ?_) hf.opt rfl
    show shiftsOf (p.2 ++ [_]) = _
    rw [shiftsOf_append, hp]
    exact List.append_nil _
  have hmat : (st v y1.be.1).H = afterShifts A H0 (shiftsOf y1.be.2) := (hmt v _).trans hf.inv1.2
  rw [hsh1] at hmat hC
  obtain ⟨hoff, hdiag⟩ := drift_of hA.ofBase hA.real.neg hA.add H0 xs hC
  rw [← hmat] at hoff hdiag
  have hD : ∀ i, ‖F.val ((st v y1.be.1).H i i) - F.val (H0 i i)‖ ≤
      ((1 + F.u) ^ (2 * x.iteration) - 1) * (frob (valM F H0) + C) := by
    intro i
    rw [← hlen]
    refine (hdiag i).trans (mul_le_mul_of_nonneg_left ?_ (gam_nonneg hu _))
    have : ‖F.val (H0 i i)‖ ≤ frob (valM F H0) := norm_le_frob (valM F H0) i i
    linarith
  have hrun : x.unconverged ≠ 0 ∧ cfg.nev + cfg.nex - y1.locked = y1.unconverged ∧ y1.locked < cfg.nev + cfg.nex := by
    have hr := h1.1.1
    omega
  have hgd : GoodDegrees (st v y1.be.1).locked (cfg.nev + cfg.nex) y1.deg y1.degrees := by
    rw [hlocked]
    exact ⟨hrun.2.2, hf.deg.sorted, fun j a b => ⟨(hf.deg.degs j a b).1, hdeg j a b, (hf.deg.degs j a b).2⟩, hf.deg.even⟩
  rw [hlocked] at hgd
  exact ⟨hgd, hrun.2.1, hg, v, hnext, hlocked, fun i j hij => by rw [hoff i j hij], hD⟩

/-- The filter call of a round, for every backend that does its shifts and products with the kernels `A`.  The data are
seen through one of several views. -/
theorem round_filter {ι : Type*} {st : ι → S → Seq.St K N} (hU : ∀ v, UsesKernels A ops (st v) good)
    (hA : FilterKernels F valR A g) (hu1 : F.u ≤ 1 / 8)
    {nl : S → ℕ} {ph : Phases S} {cfg : Config R} (hb : Bookkeeping ops (fun _ _ => ()) nl ph cfg.N (cfg.nev + cfg.nex))
    (hnl : ∀ v s, nl s = (st v s).locked) (hinv : ∀ s, ph.inv s → good s ∧ ∃ v, (st v s).next = .bAc)
    {mat : S → Matrix (Fin N) (Fin N) K} (hmt : ∀ v s, (st v s).H = mat s) {H0 : Matrix (Fin N) (Fin N) K}
    {s : S} {J0 : S × List (Call R) → Prop}
    (hk : KeepsAfter (traced ops) J0 (fun p => mat p.1 = afterShifts A H0 (shiftsOf p.2))) (hJ : J0 (s, []))
    (hpre : ph.pre s) (hN : cfg.N ≠ 0) (hmax : Even cfg.maxDeg) {P : Plat R} (hP : PermutesIndices P)
    {ritzv0 resid0 : ℕ → R} (hH : (valM F H0).IsHermitian) {x x1 x' : St R (S × List (Call R))}
    (h : Reach P (traced ops) cfg ritzv0 resid0 (s, []) x) (hs : Step P (traced ops) cfg x x')
    (h1 : FilterStarts P (traced ops) cfg x x1)
    (hdeg : ∀ j, x1.locked ≤ j → j < cfg.nev + cfg.nex → 2 ≤ x1.degrees j)
    {C : ℝ} (hC0 : 0 ≤ C) (hC : ∀ c ∈ shiftsOf x1.be.2, |valR c| ≤ C)
    (hlt : valR x1.lowerb < valR x1.upperb) (hne : valR x1.lambda ≠ valR ((x1.upperb + x1.lowerb) / 2)) :
    GoodDegrees x1.locked (cfg.nev + cfg.nex) x1.deg x1.degrees ∧
    cfg.nev + cfg.nex - x1.locked = x1.unconverged ∧ ∃ v, (st v x1.be.1).next = .bAc ∧
    ∃ c e t, NearInterval F.u (valR x1.lambda) (valR x1.lowerb) (valR x1.upperb) c e t ∧
    ∃ av be2, filter (traced ops) cfg.N x1.unconverged x1.deg x1.degrees (cfg.nev + cfg.nex) x1.locked x1.lambda
        x1.lowerb x1.upperb x1.be = .ok (av, be2) ∧
      (1 ≤ |t| → Filtered F.u g (((1 + F.u) ^ (2 * x.iteration) - 1) * (frob (valM F H0) + C)) (valM F H0)
        c e t x1.locked (cfg.nev + cfg.nex) x1.degrees (fun j => valV F ((st v x1.be.1).C j))
        (fun j => valV F ((st v be2.1).C j))) := by
  have hu := F.u_nonneg
  obtain ⟨hgd, hrun, hg, v, hnext, hlocked, hoff, hD⟩ := round_data hA hb hnl hinv hmt hk hJ hpre hmax hP h hs h1 hdeg hC
  have hU' : UsesKernels A (traced ops) (fun p : S × List (Call R) => st v p.1) (fun p => good p.1) :=
    ⟨fun c b p hp => (hU v).shift c b p.1 hp, fun c b p => (hU v).shiftC c b p.1, fun b α β off p => (hU v).hemm b α β off p.1⟩
  have key := filter_call hU' hA hu1
    (mul_nonneg (gam_nonneg hu (2 * x.iteration)) (add_nonneg (frob_nonneg _) hC0)) hH (s := x1.be) hg hnext
    hoff hD x1.lambda x1.lowerb x1.upperb hN (by rw [hlocked]; exact hgd) hlt hne
  rw [hlocked, hrun] at key
  exact ⟨hgd, hrun, v, hnext, key⟩

/-- **C89**, sequential CPU backend (partial): every filter call of a solve, relative to the matrix handed in.  `x.iteration`
is the number of rounds before, `C` a bound on the shifts made before. -/
theorem C89_round_partial (hA : FilterAccurate F valR A g) (hu1 : F.u ≤ 1 / 8) (E : Params) (P : Plat R)
    (hP : PermutesIndices P) (cfg : Config R) (hN : cfg.N = N) (hN0 : N ≠ 0) (hsz : cfg.nev + cfg.nex = E.nevex)
    (hmax : Even cfg.maxDeg) (ritzv0 resid0 : ℕ → R) (s : Seq.St K N) (hH : (valM F s.H).IsHermitian)
    (x x1 x' : St R (Seq.St K N × List (Call R)))
    (h : Reach P (traced (Rounded.ops A E)) cfg ritzv0 resid0 (s, []) x) (hs : Step P (traced (Rounded.ops A E)) cfg x x')
    (h1 : FilterStarts P (traced (Rounded.ops A E)) cfg x x1)
    (hdeg : ∀ j, x1.locked ≤ j → j < cfg.nev + cfg.nex → 2 ≤ x1.degrees j)
    {C : ℝ} (hC0 : 0 ≤ C) (hC : ∀ c ∈ shiftsOf x1.be.2, |valR c| ≤ C)
    (hlt : valR x1.lowerb < valR x1.upperb) (hne : valR x1.lambda ≠ valR ((x1.upperb + x1.lowerb) / 2)) :
    ∃ c e t, NearInterval F.u (valR x1.lambda) (valR x1.lowerb) (valR x1.upperb) c e t ∧
    ∃ av be2, filter (traced (Rounded.ops A E)) cfg.N x1.unconverged x1.deg x1.degrees (cfg.nev + cfg.nex) x1.locked
        x1.lambda x1.lowerb x1.upperb x1.be = .ok (av, be2) ∧
      (1 ≤ |t| → Filtered F.u g (((1 + F.u) ^ (2 * x.iteration) - 1) * (frob (valM F s.H) + C)) (valM F s.H) c e t
        x1.locked (cfg.nev + cfg.nex) x1.degrees (fun j => valV F (x1.be.1.C j)) (fun j => valV F (be2.1.C j))) := by
  have key := round_filter (st := fun _ : Unit => id) (mat := Seq.St.H) (ph := phases E) (nl := Seq.St.locked)
    (fun _ => seq_usesKernels A E) hA.kernels hu1
    (by rw [hsz, hN]; exact (bookkeeping (A := A) (E := E)).frame.forget) (fun _ _ => rfl)
    (fun s hi => ⟨trivial, (), hi.1⟩) (fun _ _ => rfl) (matrix_keep s.H).after rfl trivial (by omega) hmax hP hH h hs h1
    hdeg hC0 hC hlt hne
  obtain ⟨-, -, _, -, hkey⟩ := key
  exact hkey

end

/-! ### The distributed backend -/

namespace Par
open Mpi (Layout GSt)

/-- The kernels of a filter call on the parts: the shift adds once per entry, an entry of a product of parts has the
error bound `g`, a reduction adds the contributions in some order of depth at most `e`. -/
structure FilterAccuratePar {K R 𝕜 : Type} [RCLike 𝕜] [Add R] [Sub R] [Mul R] [Div R] [Neg R] [Zero R] [One R] [NatCast R]
    {N : ℕ} {r c : Layout N} (F : Fl K 𝕜) (valR : R → ℝ) (T : Red1 K R r c) (E : DEnv K R) (g : ℝ) (e : ℕ) : Prop where
  real : RealAccurate valR F.u
  ofBase : ∀ x, F.val (E.kern.ofBase x) = (valR x : 𝕜)
  zero : F.val E.kern.zero = 0
  add : ∀ x y, E.kern.add x y = F.add x y
  g_nonneg : 0 ≤ g
  gemm : ∀ {b : ℕ} (p : Fin r.procs) (q : Fin c.procs) (H : Matrix (Fin (r.size p)) (Fin (c.size q)) K) (α β : K)
    (X : Matrix (Fin (c.size q)) (Fin b) K) (Y : Matrix (Fin (r.size p)) (Fin b) K) (i : Fin (r.size p)) (j : Fin b),
    ‖F.val (E.kern.gemm H α β X Y i j) -
      (F.val α * ∑ k, F.val (H i k) * F.val (X k j) + F.val β * F.val (Y i j))‖ ≤
    g * (‖F.val α‖ * ∑ k, ‖F.val (H i k)‖ * ‖F.val (X k j)‖ + ‖F.val β‖ * ‖F.val (Y i j)‖)
  gemmAdj : ∀ {b : ℕ} (p : Fin r.procs) (q : Fin c.procs) (H : Matrix (Fin (r.size p)) (Fin (c.size q)) K) (α β : K)
    (X : Matrix (Fin (r.size p)) (Fin b) K) (Y : Matrix (Fin (c.size q)) (Fin b) K) (i : Fin (c.size q)) (j : Fin b),
    ‖F.val (E.kern.gemmAdj H α β X Y i j) -
      (F.val α * ∑ k, star (F.val (H k i)) * F.val (X k j) + F.val β * F.val (Y i j))‖ ≤
    g * (‖F.val α‖ * ∑ k, ‖F.val (H k i)‖ * ‖F.val (X k j)‖ + ‖F.val β‖ * ‖F.val (Y i j)‖)
  colK : ∀ {ι : Type} (x : Fin r.procs → ι → K) (t : ι), ∃ e' ≤ e,
    Sum F (fun i => x i t) Finset.univ.val e' (T.colK x t)
  rowK : ∀ {ι : Type} (x : Fin c.procs → ι → K) (t : ι), ∃ e' ≤ e,
    Sum F (fun j => x j t) Finset.univ.val e' (T.rowK x t)

/-- A sum of products of parts, of which only the first process adds `β y`. -/
theorem reduce_error {K 𝕜 : Type} [RCLike 𝕜] {F : Fl K 𝕜} {N : ℕ} (L : Layout N) {g : ℝ} (hg : 0 ≤ g) {e e' : ℕ}
    (he : e' ≤ e) {z : Fin L.procs → K} {x : K} (hsum : Sum F z Finset.univ.val e' x) (α β y : 𝕜) (h v : Fin N → 𝕜)
    (zero : Fin L.procs → 𝕜) (hzero : ∀ p, zero p = if p.val ≠ 0 then 0 else β)
    (hz : ∀ p, ‖F.val (z p) - (α * ∑ a, h (L.glob p a) * v (L.glob p a) + zero p * y)‖ ≤
      g * (‖α‖ * ∑ a, ‖h (L.glob p a)‖ * ‖v (L.glob p a)‖ + ‖zero p‖ * ‖y‖)) (hL : 0 < L.procs) :
    ‖F.val x - (α * ∑ k, h k * v k + β * y)‖ ≤
      ((1 + g) * (1 + F.u) ^ e - 1) * (‖α‖ * ∑ k, ‖h k‖ * ‖v k‖ + ‖β‖ * ‖y‖) := by
  have hu := F.u_nonneg
  have hparts : ∀ f : Fin N → ℝ, ∑ p, ∑ a, f (L.glob p a) = ∑ k, f k := fun f => L.sum_glob f
  have hpartsK : ∀ f : Fin N → 𝕜, ∑ p, ∑ a, f (L.glob p a) = ∑ k, f k := fun f => L.sum_glob f
  set B : Fin L.procs → ℝ := fun p => ‖α‖ * ∑ a, ‖h (L.glob p a)‖ * ‖v (L.glob p a)‖ + ‖zero p‖ * ‖y‖ with hB
  set w : Fin L.procs → 𝕜 := fun p => α * ∑ a, h (L.glob p a) * v (L.glob p a) + zero p * y with hw
  have hfirst : ∀ f : Fin L.procs → 𝕜, (∀ p, f p = if p.val ≠ 0 then 0 else β) → ∑ p, f p = β := by
    intro f hf
    rw [Finset.sum_eq_single ⟨0, hL⟩]
    · rw [hf]; simp
    · intro p _ hp
      rw [hf, if_pos (fun h0 => hp (Fin.ext h0))]
    · simp
  have hfirstR : ∑ p, ‖zero p‖ = ‖β‖ := by
    rw [Finset.sum_eq_single ⟨0, hL⟩]
    · rw [hzero]; simp
    · intro p _ hp
      rw [hzero, if_pos (fun h0 => hp (Fin.ext h0)), norm_zero]
    · simp
  have hsumB : ∑ p, B p = ‖α‖ * ∑ k, ‖h k‖ * ‖v k‖ + ‖β‖ * ‖y‖ := by
    simp only [hB]
    rw [Finset.sum_add_distrib, ← Finset.mul_sum, ← Finset.sum_mul, hfirstR, hparts fun k => ‖h k‖ * ‖v k‖]
  have hsumw : ∑ p, w p = α * ∑ k, h k * v k + β * y := by
    simp only [hw]
    rw [Finset.sum_add_distrib, ← Finset.mul_sum, ← Finset.sum_mul, hfirst zero hzero, hpartsK fun k => h k * v k]
  have hwB : ∀ p, ‖w p‖ ≤ B p := by
    intro p
    refine (norm_add_le _ _).trans (add_le_add ?_ (norm_mul_le _ _))
    refine (norm_mul_le _ _).trans (mul_le_mul_of_nonneg_left ?_ (norm_nonneg _))
    exact (norm_sum_le _ _).trans (Finset.sum_le_sum fun a _ => norm_mul_le _ _)
  have hzB : ∀ p, ‖F.val (z p)‖ ≤ (1 + g) * B p := by
    intro p
    calc ‖F.val (z p)‖ = ‖w p + (F.val (z p) - w p)‖ := by congr 1; ring
      _ ≤ B p + g * B p := (norm_add_le _ _).trans (add_le_add (hwB p) (hz p))
      _ = _ := by ring
  have e1 : ‖F.val x - ∑ p, F.val (z p)‖ ≤ gam F.u e * ((1 + g) * ∑ p, B p) := by
    refine (hsum.error he).trans (mul_le_mul_of_nonneg_left ?_ (gam_nonneg hu e))
    rw [Finset.mul_sum]
    exact Finset.sum_le_sum fun p _ => hzB p
  have e2 : ‖∑ p, F.val (z p) - ∑ p, w p‖ ≤ g * ∑ p, B p := by
    rw [← Finset.sum_sub_distrib, Finset.mul_sum]
    exact (norm_sum_le _ _).trans (Finset.sum_le_sum fun p _ => hz p)
  rw [← hsumw, ← hsumB]
  calc ‖F.val x - ∑ p, w p‖ = ‖(F.val x - ∑ p, F.val (z p)) + (∑ p, F.val (z p) - ∑ p, w p)‖ := by congr 1; ring
    _ ≤ gam F.u e * ((1 + g) * ∑ p, B p) + g * ∑ p, B p := (norm_add_le _ _).trans (add_le_add e1 e2)
    _ = _ := by unfold gam; ring

section
variable {K R 𝕜 : Type} [RCLike 𝕜] {N : ℕ} {r c : Layout N} {F : Fl K 𝕜} {valR : R → ℝ} {T : Red1 K R r c} {E : DEnv K R}
  {g : ℝ} {e : ℕ}
variable [Add R] [Sub R] [Mul R] [Div R] [Neg R] [Zero R] [One R] [NatCast R]

/-- The processes together compute products with an error bound of the same kind. -/
theorem filterAccurate (hA : FilterAccuratePar F valR T E g e) :
    FilterAccurate F valR (distArith T E) ((1 + g) * (1 + F.u) ^ e - 1) where
  real := hA.real
  ofBase := hA.ofBase
  add := hA.add
  g_nonneg := by
    have h1 : 1 ≤ (1 + F.u) ^ e := one_le_pow₀ (by linarith [F.u_nonneg])
    nlinarith [hA.g_nonneg]
  gemm := by
    intro b adj H α β X Y n k
    have hif : ∀ m : ℕ, F.val (if m ≠ 0 then E.kern.zero else β) = if m ≠ 0 then 0 else F.val β := by
      intro m
      split_ifs
      · exact hA.zero
      · rfl
    cases adj with
    | true =>
      obtain ⟨j, a, rfl⟩ := c.exists_glob n
      obtain ⟨i0, _, _⟩ := r.exists_glob (c.glob j a)
      have e1 : (distArith T E).gemm true H α β X Y (c.glob j a) k =
          T.colK (fun i => flat (E.kern.gemmAdj (cutH r c i j H) α (if i.val ≠ 0 then E.kern.zero else β) (cutM r i X)
            (cutM c j Y))) (a, k) := by
        show mulAdj T E H α β X Y (c.glob j a) k = _
        unfold mulAdj joinM
        rw [Mpi.assemble_apply]
        rfl
      rw [e1]
      obtain ⟨e', he', hsum⟩ := hA.colK (fun i => flat (E.kern.gemmAdj (cutH r c i j H) α
        (if i.val ≠ 0 then E.kern.zero else β) (cutM r i X) (cutM c j Y))) (a, k)
      have key := reduce_error r hA.g_nonneg he' hsum (F.val α) (F.val β) (F.val (Y (c.glob j a) k))
        (fun q => star (F.val (H q (c.glob j a)))) (fun q => F.val (X q k))
        (fun p => F.val (if p.val ≠ 0 then E.kern.zero else β)) (fun p => hif p.val)
        (fun p => by
          have := hA.gemmAdj p j (cutH r c p j H) α (if p.val ≠ 0 then E.kern.zero else β) (cutM r p X) (cutM c j Y) a k
          simp only [norm_star]
          exact this) (by have := i0.isLt; omega)
      have hn : ∀ q, ‖opM true (valM F H) (c.glob j a) q‖ = ‖F.val (H q (c.glob j a))‖ := fun q => norm_star _
      simp only [norm_star] at key
      simp only [hn]
      exact key
    | false =>
      obtain ⟨i, a, rfl⟩ := r.exists_glob n
      obtain ⟨j0, _, _⟩ := c.exists_glob (r.glob i a)
      have e1 : (distArith T E).gemm false H α β X Y (r.glob i a) k =
          T.rowK (fun j => flat (E.kern.gemm (cutH r c i j H) α (if j.val ≠ 0 then E.kern.zero else β) (cutM c j X)
            (cutM r i Y))) (a, k) := by
        show mul T E H α β X Y (r.glob i a) k = _
        unfold mul joinM
        rw [Mpi.assemble_apply]
        rfl
      rw [e1]
      obtain ⟨e', he', hsum⟩ := hA.rowK (fun j => flat (E.kern.gemm (cutH r c i j H) α
        (if j.val ≠ 0 then E.kern.zero else β) (cutM c j X) (cutM r i Y))) (a, k)
      exact reduce_error c hA.g_nonneg he' hsum (F.val α) (F.val β) (F.val (Y (r.glob i a) k))
        (fun q => F.val (H (r.glob i a) q)) (fun q => F.val (X q k))
        (fun p => F.val (if p.val ≠ 0 then E.kern.zero else β)) (fun p => hif p.val)
        (fun p => hA.gemm i p (cutH r c i p H) α (if p.val ≠ 0 then E.kern.zero else β) (cutM c p X) (cutM r i Y) a k)
        (by have := j0.isLt; omega)

theorem gUsesKernels (T : Red1 K R r c) (E : DEnv K R) :
    UsesKernels (distArith T E) (gOps T E) GSt.toSt (fun g => g.fresh = false ∨ g.next = .bAc) where
  shift := by
    rintro x b g h
    show ({ g.toSt with H := shiftH (distArith T E) (E.kern.ofBase x) g.H, next := if g.fresh then .bAc else g.next } :
      Seq.St K N) = _
    have : (if g.fresh then .bAc else g.next) = g.next := by
      rcases h with h | h
      · rw [h]; rfl
      · rw [h, ite_self]
    rw [this]
    rfl
  shiftC := fun _ _ _ => rfl
  hemm := fun _ _ _ _ _ => rfl

variable [LT R] [DecidableLT R]

/-- The matrix is changed by the shifts only. -/
theorem gMatrix_traced (H0 : Matrix (Fin N) (Fin N) K) :
    Keeps (traced (gOps T E)) (fun p => p.1.H = afterShifts (distArith T E) H0 (shiftsOf p.2)) := by
  have app : ∀ {g : GSt K N} {H : Matrix (Fin N) (Fin N) K} {tr : List (Call R)} {x : Call R}, g.H = H →
      shiftsOf [x] = [] → H = afterShifts (distArith T E) H0 (shiftsOf tr) →
      g.H = afterShifts (distArith T E) H0 (shiftsOf (tr ++ [x])) := by
    intro g H tr x h1 h2 h3
    rw [shiftsOf_append, h2, List.append_nil, h1, h3]
  have hqr : ∀ (k : ℕ) (x : R) (g : GSt K N), ((gOps T E).qr k x g).H = g.H := by
    intro k x g
    show (qrSelect _ _ _ _ _ g).H = g.H
    unfold qrSelect
    dsimp only
    split_ifs <;> rfl
  exact {
    checkSymmetryEasy := fun _ h => app rfl rfl h
    start := fun _ h => app rfl rfl h
    finish := fun _ h => app rfl rfl h
    initVecs := fun b _ h => app (by cases b <;> rfl) rfl h
    qr := fun k x p h => app (hqr k x p.1) rfl h
    lanczos1 := fun _ _ h => app rfl rfl h
    lanczosN := fun _ _ _ h => app rfl rfl h
    lanczosDos := fun _ _ _ _ h => app rfl rfl h
    shift := fun x b p h => by
      show shiftH (distArith T E) (E.kern.ofBase x) p.1.H =
        afterShifts (distArith T E) H0 (shiftsOf (p.2 ++ [.shift x b]))
      rw [shiftsOf_append, h]
      exact (afterShifts_append (distArith T E) H0 _ x).symm
    hemm := fun n a b o p h => app (by
      obtain ⟨⟨⟨H, C, B, C2, B2, next, locked, isSym⟩, fresh⟩, tr⟩ := p
      cases next <;> rfl) rfl h
    rr := fun _ _ h => app rfl rfl h
    resd := fun f k p h => app rfl rfl h
    lock := fun _ _ h => app rfl rfl h
    swap := fun _ _ _ h => app rfl rfl h }

/-- **C89**, distributed CPU backend (partial), for every process grid and distribution and every order of the additions
on each process and in each reduction: every filter call of a solve, relative to the matrix handed in. -/
theorem C89_round_mpi_partial (hA : FilterAccuratePar F valR T E g e) (hu1 : F.u ≤ 1 / 8) (P : Plat R)
    (hP : PermutesIndices P) (cfg : Config R) (hN : cfg.N = N) (hN0 : N ≠ 0) (hsz : cfg.nev + cfg.nex = E.nevex)
    (hmax : Even cfg.maxDeg) (ritzv0 resid0 : ℕ → R) (s : GSt K N) (hH : (valM F s.H).IsHermitian)
    (x x1 x' : St R (GSt K N × List (Call R)))
    (h : Reach P (traced (gOps T E)) cfg ritzv0 resid0 (s, []) x) (hs : Step P (traced (gOps T E)) cfg x x')
    (h1 : FilterStarts P (traced (gOps T E)) cfg x x1)
    (hdeg : ∀ j, x1.locked ≤ j → j < cfg.nev + cfg.nex → 2 ≤ x1.degrees j)
    {C : ℝ} (hC0 : 0 ≤ C) (hC : ∀ c ∈ shiftsOf x1.be.2, |valR c| ≤ C)
    (hlt : valR x1.lowerb < valR x1.upperb) (hne : valR x1.lambda ≠ valR ((x1.upperb + x1.lowerb) / 2)) :
    ∃ c e' t, NearInterval F.u (valR x1.lambda) (valR x1.lowerb) (valR x1.upperb) c e' t ∧
    ∃ av be2, filter (traced (gOps T E)) cfg.N x1.unconverged x1.deg x1.degrees (cfg.nev + cfg.nex) x1.locked
        x1.lambda x1.lowerb x1.upperb x1.be = .ok (av, be2) ∧
      (1 ≤ |t| → Filtered F.u ((1 + g) * (1 + F.u) ^ e - 1)
        (((1 + F.u) ^ (2 * x.iteration) - 1) * (frob (valM F s.H) + C)) (valM F s.H) c e' t
        x1.locked (cfg.nev + cfg.nex) x1.degrees (fun j => valV F (x1.be.1.C j)) (fun j => valV F (be2.1.C j))) := by
  have key := round_filter (st := fun _ : Unit => GSt.toSt) (mat := fun p => p.toSt.H) (ph := gPhases E) (nl := gNl)
    (fun _ => gUsesKernels T E) (filterAccurate hA).kernels hu1
    (by rw [hsz, hN]; exact (gFrame T E).forget) (fun _ _ => rfl) (fun s hi => ⟨.inr hi.1, (), hi.1⟩) (fun _ _ => rfl)
    (gMatrix_traced s.H).after rfl trivial (by omega) hmax hP hH h hs h1 hdeg hC0 hC hlt hne
  obtain ⟨-, -, _, -, hkey⟩ := key
  exact hkey

end

end Par

/-! ### A run -/

namespace Two

theorem real_accurate : RealAccurate (R := Fp 53) Fp.toReal (1 / 2 ^ 53) where
  neg := fun x => by show ((-x.val : ℚ) : ℝ) = -(x.val : ℝ); push_cast; rfl
  zero := by show ((0 : ℚ) : ℝ) = 0; simp
  one := by show ((1 : ℚ) : ℝ) = 1; simp
  two := by
    have : rnd 53 (2 : ℕ) = 2 := by decide +kernel
    show ((rnd 53 (2 : ℕ) : ℚ) : ℝ) = 2
    rw [this]; norm_num
  add := fun x y => by
    have := Fp.err_real (p := 53) (x.val + y.val)
    push_cast at this
    rw [_root_.one_div_pow] at this
    exact this
  sub := fun x y => by
    have := Fp.err_real (p := 53) (x.val - y.val)
    push_cast at this
    rw [_root_.one_div_pow] at this
    exact this
  mul := fun x y => by
    have := Fp.err_real (p := 53) (x.val * y.val)
    push_cast at this
    rw [_root_.one_div_pow] at this
    exact this
  div := fun x y _ => by
    have := Fp.err_real (p := 53) (x.val / y.val)
    push_cast at this
    rw [_root_.one_div_pow] at this
    exact this

theorem fl_u : (Fp.fl 53).u = 1 / 2 ^ 53 := _root_.one_div_pow 2 53

/-- The kernels in double precision. -/
theorem filterAccurate (ub : Fp 53) : FilterAccurate (Fp.fl 53) Fp.toReal (arith 53 ub) (gam (1 / 2 ^ 53) 4) where
  real := by rw [fl_u]; exact real_accurate
  ofBase := fun x => rfl
  add := fun _ _ => rfl
  g_nonneg := gam_nonneg (by positivity) 4
  gemm := by
    intro b adj H α β X Y i j
    set h : Fin 2 → Fp 53 := fun k => if adj then H k i else H i k with hh
    have hop : ∀ k, opM adj (valM (Fp.fl 53) H) i k = (Fp.fl 53).val (h k) := by
      intro k
      cases adj
      · rfl
      · show star ((Fp.fl 53).val (H k i)) = _
        simp [hh]
    simp only [hop]
    have ht : Dot (Fp.fl 53) (Finset.univ.val.map fun k => (h k, X k j)) 2 (h 0 * X 0 j + h 1 * X 1 j) :=
      Dot.add (F := Fp.fl 53) (.prod (h 0) (X 0 j)) (.prod (h 1) (X 1 j))
    have key := gemm_late (F := Fp.fl 53) (d := 2) le_rfl ht (α := α) (β := β) (y := Y i j) rfl
    rw [fl_u] at key
    show ‖(Fp.fl 53).val (if α = 1 ∧ β = 0 then h 0 * X 0 j + h 1 * X 1 j
      else α * (h 0 * X 0 j + h 1 * X 1 j) + β * Y i j) - _‖ ≤ _
    split_ifs with hc
    · obtain ⟨rfl, rfl⟩ := hc
      have h1 := ht.error_le (n := 4) (by norm_num)
      have e1 : (Fp.fl 53).val 1 = 1 := (Fp.fl 53).val_one
      have e0 : (Fp.fl 53).val 0 = 0 := (Fp.fl 53).val_zero
      rw [e1, e0, zero_mul, add_zero, one_mul, norm_zero, zero_mul, add_zero, norm_one, one_mul]
      have e2 : (Fp.fl 53).sum (Finset.univ.val.map fun k => (h k, X k j)) =
          ∑ k, (Fp.fl 53).val (h k) * (Fp.fl 53).val (X k j) := by
        simp [Fl.sum, Finset.sum]
      have e3 : (Fp.fl 53).abs (Finset.univ.val.map fun k => (h k, X k j)) =
          ∑ k, ‖(Fp.fl 53).val (h k)‖ * ‖(Fp.fl 53).val (X k j)‖ := by
        simp [Fl.abs, Finset.sum]
      rw [e2, e3, fl_u] at h1
      exact h1
    · exact key

theorem start_val : valM (Fp.fl 53) (start 53).H = !![1 / 2 ^ 60, 0; 0, 4] := by
  ext i j
  show (((start 53).H i j).val : ℝ) = _
  fin_cases i <;> fin_cases j
  · show (((1 / 2 ^ 60 : ℚ)) : ℝ) = 1 / 2 ^ 60
    norm_num
  · show ((0 : ℚ) : ℝ) = 0
    norm_num
  · show ((0 : ℚ) : ℝ) = 0
    norm_num
  · show ((4 : ℚ) : ℝ) = 4
    norm_num

/-- The eigenvalues of the matrix of the run. -/
theorem start_eigenvalue {μ : ℝ} (h : IsEigenvalue (valM (Fp.fl 53) (start 53).H) μ) : μ = 1 / 2 ^ 60 ∨ μ = 4 := by
  rw [start_val] at h
  obtain ⟨y, hy, h⟩ := h
  have h0 : 1 / 2 ^ 60 * y 0 + 0 * y 1 = μ * y 0 := by
    simpa [Matrix.mulVec, dotProduct, Fin.sum_univ_two] using congrFun h 0
  have h1 : 0 * y 0 + 4 * y 1 = μ * y 1 := by
    simpa [Matrix.mulVec, dotProduct, Fin.sum_univ_two] using congrFun h 1
  by_contra hn
  push Not at hn
  refine hy (funext fun i => ?_)
  have a0 : (μ - 1 / 2 ^ 60) * y 0 = 0 := by linear_combination -h0
  have a1 : (μ - 4) * y 1 = 0 := by linear_combination -h1
  fin_cases i
  · exact (mul_eq_zero.mp a0).resolve_left (sub_ne_zero.mpr hn.1)
  · exact (mul_eq_zero.mp a1).resolve_left (sub_ne_zero.mpr hn.2)

/-- Every interval and scaling point next to those of the first round suit `Filtered`. -/
theorem start_near {c e t : ℝ} (h : NearInterval (1 / 2 ^ 53) (Fp.toReal (⟨1 / 2 ^ 60⟩ : Fp 53))
      (Fp.toReal (⟨4⟩ : Fp 53)) (Fp.toReal (⟨8⟩ : Fp 53)) c e t) :
    1 ≤ |t| ∧ (∀ μ, IsEigenvalue (valM (Fp.fl 53) (start 53).H) μ → |μ - c| ≤ 4 * e) ∧
    ∀ d : ℕ, d = 2 → d * (d + 1) *
        filterEta (1 / 2 ^ 53) (gam (1 / 2 ^ 53) 4) (frob (valM (Fp.fl 53) (start 53).H - (c : ℝ) • 1)) 0 e 4 ≤ 1 ∧
      64 * (d * (d + 1)) * (1 / 2 ^ 53 : ℝ) ≤ 1 := by
  obtain ⟨hc, he, ht⟩ := h
  have f1 : centre (Fp.toReal (⟨4⟩ : Fp 53)) (Fp.toReal (⟨8⟩ : Fp 53)) = 6 := by
    simp only [Fp.toReal, centre]; norm_num
  have f2 : halfWidth (Fp.toReal (⟨4⟩ : Fp 53)) (Fp.toReal (⟨8⟩ : Fp 53)) = 2 := by
    simp only [Fp.toReal, halfWidth]; norm_num
  have f3 : Fp.toReal (⟨1 / 2 ^ 60⟩ : Fp 53) = 1 / 2 ^ 60 := by simp only [Fp.toReal]; norm_num
  rw [f1] at hc
  rw [f2] at he
  rw [f3] at ht
  have c1 : |c - 6| ≤ 1 / 100 := hc.trans (by norm_num)
  have e1 : |e - 2| ≤ 1 / 100 := he.trans (by norm_num)
  obtain ⟨c2, c3⟩ := abs_le.mp c1
  obtain ⟨e2, e3⟩ := abs_le.mp e1
  have hq : (1 / 2 ^ 60 - c) / e ≤ -2 := by
    rw [div_le_iff₀ (by linarith)]
    norm_num at c2 c3 e2 e3 ⊢
    linarith
  refine ⟨?_, ?_, ?_⟩
  · set q := (1 / 2 ^ 60 - c) / e with hq'
    have h3 : |t - q| ≤ 1 / 100 * |q| := ht.trans (mul_le_mul_of_nonneg_right (by norm_num) (abs_nonneg _))
    rw [abs_of_nonpos (show q ≤ 0 by linarith)] at h3
    have := (abs_le.mp h3).2
    rw [abs_of_nonpos (by linarith)]
    linarith
  · intro μ hμ
    rw [abs_le]
    rcases start_eigenvalue hμ with rfl | rfl
    · norm_num
      constructor <;> linarith
    · constructor <;> linarith
  · intro d hd
    subst hd
    refine ⟨?_, by norm_num⟩
    have hfr : frob (valM (Fp.fl 53) (start 53).H - (c : ℝ) • 1) ≤ 10 := by
      rw [start_val]
      unfold frob
      rw [Real.sqrt_le_iff]
      refine ⟨by norm_num, ?_⟩
      simp only [Fin.sum_univ_two, Matrix.sub_apply, Matrix.smul_apply, Matrix.one_apply, Real.norm_eq_abs, sq_abs,
        smul_eq_mul]
      norm_num
      nlinarith
    have hg : gam (1 / 2 ^ 53) 4 ≤ 1 / 10 ^ 6 := by unfold gam; norm_num
    have hg0 : 0 ≤ gam (1 / 2 ^ 53) 4 := gam_nonneg (by positivity) 4
    have hE : filterEps (1 / 2 ^ 53) (gam (1 / 2 ^ 53) 4) ≤ 1 / 10 ^ 3 := by
      unfold filterEps
      norm_num at hg ⊢
      linarith
    have hE0 : 0 ≤ filterEps (1 / 2 ^ 53) (gam (1 / 2 ^ 53) 4) := by
      unfold filterEps
      norm_num
      linarith
    set ε := filterEps (1 / 2 ^ 53) (gam (1 / 2 ^ 53) 4) with hε
    unfold filterEta
    rw [← hε, mul_zero, add_zero]
    have h4 : ε * frob (valM (Fp.fl 53) (start 53).H - (c : ℝ) • 1) / e ≤ 1 / 100 := by
      rw [div_le_iff₀ (by linarith)]
      nlinarith [frob_nonneg (valM (Fp.fl 53) (start 53).H - (c : ℝ) • (1 : Matrix (Fin 2) (Fin 2) ℝ))]
    push_cast
    linarith

/-- Non-vacuity of `C89_filter_partial` and `C89_round_partial`: in the first round of the run in double precision all
hypotheses are met, and so are those of `Filtered`, for every interval and scaling point next to those handed in. -/
example : FilterAccurate (Fp.fl 53) Fp.toReal (arith 53 ⟨8⟩) (gam (1 / 2 ^ 53) 4) ∧ (Fp.fl 53).u ≤ 1 / 8 ∧
    PermutesIndices (plat 53) ∧ (cfg 53).N = 2 ∧ (cfg 53).nev + (cfg 53).nex = params.nevex ∧ Even (cfg 53).maxDeg ∧
    (valM (Fp.fl 53) (start 53).H).IsHermitian ∧
    ∃ x x1 x', Reach (plat 53) (traced (ops (arith 53 ⟨8⟩) params)) (cfg 53) (ritzv0 53) (fun _ => 0) (start 53, []) x ∧
      Step (plat 53) (traced (ops (arith 53 ⟨8⟩) params)) (cfg 53) x x' ∧
      FilterStarts (plat 53) (traced (ops (arith 53 ⟨8⟩) params)) (cfg 53) x x1 ∧ x1.locked = 0 ∧
      (∀ j, x1.locked ≤ j → j < (cfg 53).nev + (cfg 53).nex → 2 ≤ x1.degrees j) ∧
      (∀ c ∈ shiftsOf x1.be.2, |Fp.toReal c| ≤ 0) ∧ Fp.toReal x1.lowerb < Fp.toReal x1.upperb ∧
      Fp.toReal x1.lambda ≠ Fp.toReal ((x1.upperb + x1.lowerb) / 2) ∧ x.iteration = 0 ∧
      valV (Fp.fl 53) (x1.be.1.C 0) ≠ 0 ∧
      ∀ c e t, NearInterval (1 / 2 ^ 53) (Fp.toReal x1.lambda) (Fp.toReal x1.lowerb) (Fp.toReal x1.upperb) c e t →
        1 ≤ |t| ∧ (∀ μ, IsEigenvalue (valM (Fp.fl 53) (start 53).H) μ → |μ - c| ≤ 4 * e) ∧
        ∀ j, j < 2 → x1.degrees j * (x1.degrees j + 1) *
            filterEta (1 / 2 ^ 53) (gam (1 / 2 ^ 53) 4) (frob (valM (Fp.fl 53) (start 53).H - (c : ℝ) • 1)) 0 e 4 ≤ 1 ∧
          64 * (x1.degrees j * (x1.degrees j + 1)) * (1 / 2 ^ 53 : ℝ) ≤ 1 := by
  refine ⟨filterAccurate _, by rw [fl_u]; norm_num, plat_permutes 53, rfl, rfl, by decide, start_hermitian 53, ?_⟩
  have key : Toy.okAnd (fun x => decide (running (cfg 53) x ∧ x.iteration = 0) &&
      Toy.okAnd (fun x1 => decide (x1.locked = 0 ∧ x1.degrees 0 = 2 ∧ x1.degrees 1 = 2 ∧ shiftsOf x1.be.2 = [] ∧
          x1.lambda = ⟨1 / 2 ^ 60⟩ ∧ x1.lowerb = ⟨4⟩ ∧ x1.upperb = ⟨8⟩ ∧ (x1.upperb + x1.lowerb) / 2 = ⟨6⟩ ∧
          x1.be.1.C 0 0 = ⟨1⟩) &&
        Toy.okAnd (fun _ => true) (iter (plat 53) (traced (ops (arith 53 ⟨8⟩) params)) (cfg 53) x))
        (optimise (plat 53) (traced (ops (arith 53 ⟨8⟩) params)) (cfg 53)
          (updateBounds ((cfg 53).nev + (cfg 53).nex) x)))
      (initState (plat 53) (traced (ops (arith 53 ⟨8⟩) params)) (cfg 53) (ritzv0 53) (fun _ => 0) (start 53, []))
      = true := by decide +kernel
  obtain ⟨x, h0, k0⟩ := Toy.okAnd_elim key
  obtain ⟨r0, k0⟩ := Bool.and_eq_true_iff.mp k0
  obtain ⟨x1, h1, k1⟩ := Toy.okAnd_elim k0
  obtain ⟨r1, k1⟩ := Bool.and_eq_true_iff.mp k1
  obtain ⟨x', h2, -⟩ := Toy.okAnd_elim k1
  obtain ⟨r0, hit⟩ := of_decide_eq_true r0
  obtain ⟨a1, a2, a3, a4, a5, a6, a7, a8, a9⟩ := of_decide_eq_true r1
  have hdeg : ∀ j, j < 2 → x1.degrees j = 2 := by
    intro j hj
    have : j = 0 ∨ j = 1 := by omega
    rcases this with rfl | rfl
    · exact a2
    · exact a3
  refine ⟨x, x1, x', .init h0, ⟨r0, h2⟩, ⟨r0, h1⟩, a1, fun j _ hj => (hdeg j hj).ge, by rw [a4]; simp, ?_, ?_, hit, ?_, ?_⟩
  · rw [a6, a7]; simp only [Fp.toReal]; norm_num
  · rw [a5, a8]; simp only [Fp.toReal]; norm_num
  · intro h
    have := congrFun h 0
    unfold valV at this
    rw [a9] at this
    simp [Fp.fl, Fp.toReal] at this
  · rw [a5, a6, a7]
    intro c e t h
    obtain ⟨b1, b2, b3⟩ := start_near h
    exact ⟨b1, b2, fun j hj => b3 _ (hdeg j hj)⟩

end Two

/-! ### A distributed run -/

namespace Par
namespace Four
open Stuck (rowL colL sum)
open Mpi (GSt)

/-- Two vectors. -/
def envF : DEnv (Fp 53) (Fp 53) := { Stuck.env with nex := 1 }

def cfgF : Config (Fp 53) := { Stuck.cfg1 Stuck.tol with nex := 1 }

/-- The diagonal matrix of `1, 2, 3, 4`. -/
def globF : GSt (Fp 53) 4 :=
  ⟨⟨fun i j => if i = j then ⟨(i.val + 1 : ℕ)⟩ else 0, fun _ => Stuck.e1, fun _ _ => 0, fun _ _ => 0, fun _ _ => 0, .bAc, 0,
    true⟩, true⟩

def valF : ℕ → Fp 53 := fun i => if i = 0 then 1 else ⟨4⟩

/-- An entry of a product of parts. -/
theorem entry_error {n : ℕ} (hn : n ≤ 2) (h x : Fin n → Fp 53) (α β y : Fp 53) :
    ‖(Fp.fl 53).val (if β = 0 then α * sum (fun k => h k * x k) else α * sum (fun k => h k * x k) + β * y) -
      ((Fp.fl 53).val α * ∑ k, (Fp.fl 53).val (h k) * (Fp.fl 53).val (x k) + (Fp.fl 53).val β * (Fp.fl 53).val y)‖ ≤
    gam (1 / 2 ^ 53) 5 * (‖(Fp.fl 53).val α‖ * ∑ k, ‖(Fp.fl 53).val (h k)‖ * ‖(Fp.fl 53).val (x k)‖ +
      ‖(Fp.fl 53).val β‖ * ‖(Fp.fl 53).val y‖) := by
  obtain ⟨d', h1, h2⟩ := sum_dot h x
  split_ifs with hb
  · subst hb
    have key := gemm_scaled (F := Fp.fl 53) (d := 3) (by omega) h2 (α := α)
    have e0 : (Fp.fl 53).val 0 = 0 := (Fp.fl 53).val_zero
    rw [Two.fl_u] at key
    rw [e0, zero_mul, add_zero, norm_zero, zero_mul, add_zero]
    refine le_trans key (mul_le_mul_of_nonneg_right (gam_mono (by positivity) (by norm_num)) ?_)
    exact mul_nonneg (norm_nonneg _) (Finset.sum_nonneg fun k _ => by positivity)
  · have key := gemm_late (F := Fp.fl 53) (d := 3) (by omega) h2 (α := α) (β := β) (y := y) rfl
    rw [Two.fl_u] at key
    exact key

/-- The kernels and reductions on the grid in double precision. -/
theorem filterAccuratePar : FilterAccuratePar (Fp.fl 53) Fp.toReal red envF (gam (1 / 2 ^ 53) 5) 3 where
  real := by rw [Two.fl_u]; exact Two.real_accurate
  ofBase := fun x => rfl
  zero := (Fp.fl 53).val_zero
  add := fun _ _ => rfl
  g_nonneg := gam_nonneg (by positivity) 5
  gemm := fun p q H α β X Y i j => entry_error (size_col q) (fun k => H i k) (fun k => X k j) α β (Y i j)
  gemmAdj := by
    intro b p q H α β X Y i j
    have h : ∀ x : ℝ, star x = x := fun x => by simp
    simp only [h]
    exact entry_error (size_row p) (fun k => H k i) (fun k => X k j) α β (Y i j)
  colK := fun x t => ⟨2, by omega, sum_sum fun q => x q t⟩
  rowK := fun x t => ⟨3, le_rfl, sum_sum fun q => x q t⟩

theorem globF_val : valM (Fp.fl 53) globF.H = Matrix.diagonal fun i => (i.val + 1 : ℝ) := by
  ext i j
  show (((if i = j then ⟨(i.val + 1 : ℕ)⟩ else 0 : Fp 53)).val : ℝ) = _
  by_cases h : i = j
  · subst h
    rw [if_pos rfl, Matrix.diagonal_apply_eq]
    push_cast
    rfl
  · rw [if_neg h, Matrix.diagonal_apply_ne _ h]
    show ((0 : ℚ) : ℝ) = 0
    norm_num

/-- Every interval and scaling point next to those of the first round suit `Filtered`. -/
theorem globF_near {c e t : ℝ} (h : NearInterval (1 / 2 ^ 53) 1 (Fp.toReal (⟨4⟩ : Fp 53)) (Fp.toReal (⟨8⟩ : Fp 53)) c e t) :
    1 ≤ |t| ∧ (∀ μ, IsEigenvalue (valM (Fp.fl 53) globF.H) μ → |μ - c| ≤ 4 * e) ∧
    ∀ d : ℕ, d = 2 → d * (d + 1) *
        filterEta (1 / 2 ^ 53) ((1 + gam (1 / 2 ^ 53) 5) * (1 + 1 / 2 ^ 53) ^ 3 - 1)
          (frob (valM (Fp.fl 53) globF.H - (c : ℝ) • 1)) 0 e 4 ≤ 1 ∧
      64 * (d * (d + 1)) * (1 / 2 ^ 53 : ℝ) ≤ 1 := by
  obtain ⟨hc, he, ht⟩ := h
  have f1 : centre (Fp.toReal (⟨4⟩ : Fp 53)) (Fp.toReal (⟨8⟩ : Fp 53)) = 6 := by
    simp only [Fp.toReal, centre]; norm_num
  have f2 : halfWidth (Fp.toReal (⟨4⟩ : Fp 53)) (Fp.toReal (⟨8⟩ : Fp 53)) = 2 := by
    simp only [Fp.toReal, halfWidth]; norm_num
  rw [f1] at hc
  rw [f2] at he
  have c1 : |c - 6| ≤ 1 / 100 := hc.trans (by norm_num)
  have e1 : |e - 2| ≤ 1 / 100 := he.trans (by norm_num)
  obtain ⟨c2, c3⟩ := abs_le.mp c1
  obtain ⟨e2, e3⟩ := abs_le.mp e1
  have hq : (1 - c) / e ≤ -2 := by
    rw [div_le_iff₀ (by linarith)]
    linarith
  refine ⟨?_, ?_, ?_⟩
  · set q := (1 - c) / e with hq'
    have h3 : |t - q| ≤ 1 / 100 * |q| := ht.trans (mul_le_mul_of_nonneg_right (by norm_num) (abs_nonneg _))
    rw [abs_of_nonpos (show q ≤ 0 by linarith)] at h3
    have := (abs_le.mp h3).2
    rw [abs_of_nonpos (by linarith)]
    linarith
  · rintro μ ⟨y, hy, h⟩
    rw [globF_val] at h
    obtain ⟨i, hi⟩ : ∃ i, y i ≠ 0 := by
      by_contra hn
      push Not at hn
      exact hy (funext hn)
    have h3 : (i.val + 1 : ℝ) * y i = μ * y i := by
      have := congrFun h i
      rw [Matrix.mulVec_diagonal] at this
      simpa using this
    have h4 : μ = i.val + 1 := (mul_right_cancel₀ hi h3).symm
    have h5 : (i.val : ℝ) ≤ 3 := by exact_mod_cast Nat.le_of_lt_succ i.isLt
    have h6 : (0 : ℝ) ≤ i.val := Nat.cast_nonneg _
    rw [abs_le, h4]
    constructor <;> linarith
  · rintro d rfl
    refine ⟨?_, by norm_num⟩
    have hfr : frob (valM (Fp.fl 53) globF.H - (c : ℝ) • 1) ≤ 10 := by
      rw [globF_val]
      unfold frob
      rw [Real.sqrt_le_iff]
      refine ⟨by norm_num, ?_⟩
      have e4 : (Matrix.diagonal (fun i : Fin 4 => (i.val + 1 : ℝ)) - (c : ℝ) • 1) =
          Matrix.diagonal fun i : Fin 4 => (i.val + 1 - c : ℝ) := by
        rw [← Matrix.diagonal_one, ← Matrix.diagonal_smul, Matrix.diagonal_sub]
        congr 1
        funext i
        simp
      have e5 : ∑ i, ∑ j, ‖(Matrix.diagonal fun i : Fin 4 => (i.val + 1 - c : ℝ)) i j‖ ^ 2 =
          (1 - c) ^ 2 + (2 - c) ^ 2 + (3 - c) ^ 2 + (4 - c) ^ 2 := by
        have : ∀ i : Fin 4, ∑ j, ‖(Matrix.diagonal fun i : Fin 4 => (i.val + 1 - c : ℝ)) i j‖ ^ 2 =
            (i.val + 1 - c) ^ 2 := by
          intro i
          rw [Finset.sum_eq_single i]
          · rw [Matrix.diagonal_apply_eq, Real.norm_eq_abs, sq_abs]
          · intro j _ hj
            rw [Matrix.diagonal_apply_ne _ (Ne.symm hj)]
            norm_num
          · simp
        rw [Fin.sum_univ_four, this, this, this, this]
        show ((0 : ℕ) + 1 - c : ℝ) ^ 2 + ((1 : ℕ) + 1 - c : ℝ) ^ 2 + ((2 : ℕ) + 1 - c : ℝ) ^ 2 +
          ((3 : ℕ) + 1 - c : ℝ) ^ 2 = _
        push_cast
        ring
      rw [e4, e5]
      nlinarith
    have hg : gam (1 / 2 ^ 53) 5 ≤ 1 / 10 ^ 6 := by unfold gam; norm_num
    have hg0 : 0 ≤ gam (1 / 2 ^ 53) 5 := gam_nonneg (by positivity) 5
    have hE : filterEps (1 / 2 ^ 53) ((1 + gam (1 / 2 ^ 53) 5) * (1 + 1 / 2 ^ 53) ^ 3 - 1) ≤ 1 / 10 ^ 3 := by
      unfold filterEps
      norm_num at hg ⊢
      linarith
    have hE0 : 0 ≤ filterEps (1 / 2 ^ 53) ((1 + gam (1 / 2 ^ 53) 5) * (1 + 1 / 2 ^ 53) ^ 3 - 1) := by
      unfold filterEps
      have hp : (1 : ℝ) ≤ (1 + 1 / 2 ^ 53) ^ 3 := one_le_pow₀ (by norm_num)
      nlinarith [mul_nonneg hg0 (sub_nonneg.mpr hp)]
    set ε := filterEps (1 / 2 ^ 53) ((1 + gam (1 / 2 ^ 53) 5) * (1 + 1 / 2 ^ 53) ^ 3 - 1) with hε
    unfold filterEta
    rw [← hε, mul_zero, add_zero]
    have h4 : ε * frob (valM (Fp.fl 53) globF.H - (c : ℝ) • 1) / e ≤ 1 / 100 := by
      rw [div_le_iff₀ (by linarith)]
      nlinarith [frob_nonneg (valM (Fp.fl 53) globF.H - (c : ℝ) • (1 : Matrix (Fin 4) (Fin 4) ℝ))]
    push_cast
    linarith

/-- Non-vacuity of `C89_round_mpi_partial`: in the first round of a run on a grid of two times three processes in double
precision all hypotheses are met, and so are those of `Filtered`, for every interval and scaling point next to those
handed in. -/
example : FilterAccuratePar (Fp.fl 53) Fp.toReal red envF (gam (1 / 2 ^ 53) 5) 3 ∧ (Fp.fl 53).u ≤ 1 / 8 ∧
    PermutesIndices Stuck.plat ∧ cfgF.N = 4 ∧ cfgF.nev + cfgF.nex = envF.nevex ∧ Even cfgF.maxDeg ∧
    (valM (Fp.fl 53) globF.H).IsHermitian ∧
    ∃ x x1 x', Reach Stuck.plat (traced (gOps red envF)) cfgF valF (fun _ => 0) (globF, []) x ∧
      Step Stuck.plat (traced (gOps red envF)) cfgF x x' ∧
      FilterStarts Stuck.plat (traced (gOps red envF)) cfgF x x1 ∧ x1.locked = 0 ∧
      (∀ j, x1.locked ≤ j → j < cfgF.nev + cfgF.nex → 2 ≤ x1.degrees j) ∧
      (∀ c ∈ shiftsOf x1.be.2, |Fp.toReal c| ≤ 0) ∧ Fp.toReal x1.lowerb < Fp.toReal x1.upperb ∧
      Fp.toReal x1.lambda ≠ Fp.toReal ((x1.upperb + x1.lowerb) / 2) ∧ x.iteration = 0 ∧
      valV (Fp.fl 53) (x1.be.1.C 0) ≠ 0 ∧
      ∀ c e t, NearInterval (1 / 2 ^ 53) (Fp.toReal x1.lambda) (Fp.toReal x1.lowerb) (Fp.toReal x1.upperb) c e t →
        1 ≤ |t| ∧ (∀ μ, IsEigenvalue (valM (Fp.fl 53) globF.H) μ → |μ - c| ≤ 4 * e) ∧
        ∀ j, j < 2 → x1.degrees j * (x1.degrees j + 1) *
            filterEta (1 / 2 ^ 53) ((1 + gam (1 / 2 ^ 53) 5) * (1 + 1 / 2 ^ 53) ^ 3 - 1)
              (frob (valM (Fp.fl 53) globF.H - (c : ℝ) • 1)) 0 e 4 ≤ 1 ∧
          64 * (x1.degrees j * (x1.degrees j + 1)) * (1 / 2 ^ 53 : ℝ) ≤ 1 := by
  refine ⟨filterAccuratePar, by rw [Two.fl_u]; norm_num, Stuck.plat_permutes, rfl, rfl, by decide, ?_, ?_⟩
  · rw [globF_val]
    exact Matrix.isHermitian_diagonal_of_self_adjoint _ (by ext; simp)
  have key : Toy.okAnd (fun x => decide (running cfgF x ∧ x.iteration = 0) &&
      Toy.okAnd (fun x1 => decide (x1.locked = 0 ∧ x1.degrees 0 = 2 ∧ x1.degrees 1 = 2 ∧ shiftsOf x1.be.2 = [] ∧
          x1.lambda = 1 ∧ x1.lowerb = ⟨4⟩ ∧ x1.upperb = ⟨8⟩ ∧ (x1.upperb + x1.lowerb) / 2 = ⟨6⟩ ∧
          x1.be.1.C 0 0 = 1) &&
        Toy.okAnd (fun _ => true) (iter Stuck.plat (traced (gOps red envF)) cfgF x))
        (optimise Stuck.plat (traced (gOps red envF)) cfgF (updateBounds (cfgF.nev + cfgF.nex) x)))
      (initState Stuck.plat (traced (gOps red envF)) cfgF valF (fun _ => 0) (globF, []))
      = true := by decide +kernel
  obtain ⟨x, h0, k0⟩ := Toy.okAnd_elim key
  obtain ⟨r0, k0⟩ := Bool.and_eq_true_iff.mp k0
  obtain ⟨x1, h1, k1⟩ := Toy.okAnd_elim k0
  obtain ⟨r1, k1⟩ := Bool.and_eq_true_iff.mp k1
  obtain ⟨x', h2, -⟩ := Toy.okAnd_elim k1
  obtain ⟨r0, hit⟩ := of_decide_eq_true r0
  obtain ⟨a1, a2, a3, a4, a5, a6, a7, a8, a9⟩ := of_decide_eq_true r1
  have hdeg : ∀ j, j < 2 → x1.degrees j = 2 := by
    intro j hj
    have : j = 0 ∨ j = 1 := by omega
    rcases this with rfl | rfl
    · exact a2
    · exact a3
  have f3 : Fp.toReal (1 : Fp 53) = 1 := by show ((1 : ℚ) : ℝ) = 1; norm_num
  refine ⟨x, x1, x', .init h0, ⟨r0, h2⟩, ⟨r0, h1⟩, a1, fun j _ hj => (hdeg j hj).ge, by rw [a4]; simp, ?_, ?_, hit, ?_, ?_⟩
  · rw [a6, a7]; simp only [Fp.toReal]; norm_num
  · rw [a5, a8, f3]; simp only [Fp.toReal]; norm_num
  · intro h
    have := congrFun h 0
    unfold valV at this
    rw [a9] at this
    have e1 : (Fp.fl 53).val 1 = 1 := (Fp.fl 53).val_one
    rw [e1] at this
    simp at this
  · rw [a5, a6, a7, f3]
    intro c e t h
    obtain ⟨b1, b2, b3⟩ := globF_near h
    exact ⟨b1, b2, fun j hj => b3 _ (hdeg j hj)⟩

end Four
end Par
end Rounded
end Verif
