/-
C05 on the distributed backends: a solve of `diag(1, 2, 3)` in two rounds.  The first round locks the pair of
the value 2, the second finds a value near 1, and the final sort exchanges the values but not the columns.
-/
import Verif.Backend.NoSwapLin
import Verif.Backend.SubspaceInst
import Verif.Backend.MgpuProps
import Verif.Solver.Succeeds
import Verif.Solver.RealPlat

open Polynomial

namespace Verif
namespace NoSwapRun

variable {K : Type*} [RCLike K]

/-- The configuration of the run: two wanted pairs, no extra ones, start vectors of the caller, degree 2,
tolerance `1/10`; the rest is free. -/
noncomputable def conf (c : Config ℝ) : Config ℝ :=
  { c with N := 3, nev := 2, nex := 0, approx := true, optimization := false, deg := 2, tol := 1 / 10 }

/-- The caller's start vectors. -/
def begin (j : ℕ) : Fin 3 → K := if j = 0 then side ((1 : ℝ) : K) ((4 : ℝ) : K) else mid

/-- The caller's start values. -/
noncomputable def values : ℕ → ℝ := fun _ => 11 / 17

/-! ### The bound -/

theorem nrm_begin : nrm2 (side ((1 : ℝ) : K) ((4 : ℝ) : K)) = Real.sqrt 17 := by
  unfold nrm2
  rw [Fin.sum_univ_three]
  simp only [side, Matrix.cons_val_zero, Matrix.cons_val_one, Matrix.cons_val, RCLike.norm_ofReal, norm_zero]
  norm_num

theorem sqrt17 : Real.sqrt 17 ^ 2 = 17 := Real.sq_sqrt (by norm_num)

theorem lzA_begin : lzA mat (side ((1 : ℝ) : K) ((4 : ℝ) : K)) 0 = ((49 / 17 : ℝ) : K) := by
  have e : lzV mat (side ((1 : ℝ) : K) ((4 : ℝ) : K)) 0 =
      ((1 / Real.sqrt 17 : ℝ) : K) • side ((1 : ℝ) : K) ((4 : ℝ) : K) + (0 : K) • mid := by
    rw [lzV_zero, nrm_begin, zero_smul, add_zero]
  rw [lzA, e, mat_hermitian.eq, mat_comb, dot_comb, star_mul_self_norm, RCLike.norm_ofReal, sq_abs,
    star_zero, zero_mul, add_zero, ← RCLike.ofReal_mul, div_pow, sqrt17]
  norm_num

theorem lzB_begin : lzB mat (side ((1 : ℝ) : K) ((4 : ℝ) : K)) 0 = 8 / 17 := by
  have h17 : Real.sqrt 17 ≠ 0 := by positivity
  rw [lzB_eq, lzR_zero, lzA_begin, lzV_zero, nrm_begin, mat_hermitian.eq]
  have h := residual_side (K := K) (v := 49 / 17) (a := 1) (b := 4) (x := ((1 / Real.sqrt 17 : ℝ) : K)) rfl
  have e : ∀ y : Fin 3 → K, nrm2 (mat.mulVec y - ((49 / 17 : ℝ) : K) • y) =
      Real.sqrt (∑ k, ‖mat.mulVec y k - ((49 / 17 : ℝ) : K) * y k‖ ^ 2) := fun y => rfl
  rw [e, h, RCLike.norm_ofReal, sq_abs, div_pow, sqrt17]
  rw [show (1 ^ 2 / 17 * ((1 * (1 - 49 / 17)) ^ 2 + (4 * (3 - 49 / 17)) ^ 2) : ℝ) = (8 / 17) ^ 2 by norm_num]
  exact Real.sqrt_sq (by norm_num)

theorem bound_begin {L : Lapack K} (hL : L.Ok) {C : ℕ → Fin 3 → K} (hC : C 0 = begin 0) :
    lanczosBound axpyOwn L mat 1 C = 57 / 17 := by
  have hs := mLanczos_spec axpyOwn (mat : Matrix (Fin 3) (Fin 3) K) 1 1 (fun _ _ => rfl) (by omega) false C
  have h1 : (mLanczos axpyOwn mat 1 1 false C).d 0 = 49 / 17 := by
    have := hs.1 0 0 (by omega) (by omega)
    rw [Nat.mul_zero, Nat.add_zero] at this
    rw [this]
    rw [hC]
    show RCLike.re (lzA mat (side ((1 : ℝ) : K) ((4 : ℝ) : K)) 0) = _
    rw [lzA_begin, RCLike.ofReal_re]
  have h2 : (mLanczos axpyOwn mat 1 1 false C).rbeta 0 = 8 / 17 := by
    rw [hs.2.2.2.1 0 (by omega), hC]
    exact lzB_begin
  unfold lanczosBound
  simp only [Nat.sub_self]
  rw [stemr_one hL, h1, h2]
  norm_num [abs_of_pos]

/-! ### The filter -/

theorem cheb2 (x : ℝ) : (Chebyshev.T ℝ (2 : ℕ)).eval x = 2 * x ^ 2 - 1 := by
  rw [Nat.cast_ofNat, Chebyshev.T_two]
  simp

theorem poly_first : let p := filterPoly (11 / 17) (11 / 17) (57 / 17) 2
    p.eval 1 = 49 / 529 ∧ p.eval 2 = -1 ∧ p.eval 3 = 49 / 529 := by
  intro p
  refine ⟨?_, ?_, ?_⟩ <;>
  · rw [filterPoly_eval, cheb2, cheb2]
    norm_num [normPoint, centre, halfWidth]

theorem poly_second : let p := filterPoly 2 (49 / 17) (57 / 17) 2
    p.eval 1 = 161 * (8 / 353) ∧ 4 * p.eval 3 = -2 * (8 / 353) := by
  intro p
  refine ⟨?_, ?_⟩ <;>
  · rw [filterPoly_eval, cheb2, cheb2]
    norm_num [normPoint, centre, halfWidth]

/-! ### Locking -/

section Lock
variable {S : Type*} {ops : Chase ℝ S} {P : Plat ℝ}

theorem sort_two (hP : SortsIndices P) {key : ℕ → ℝ} (h : key 0 < key 1) :
    P.sortIdx 2 key 0 = 0 ∧ P.sortIdx 2 key 1 = 1 := by
  obtain ⟨h1, h2, h3⟩ := hP 2 key
  have a0 := h1 0 (by omega)
  have a1 := h1 1 (by omega)
  have a2 := h2 0 1 (by omega) (by omega)
  have a3 := h3 0 1 (by omega) (by omega)
  generalize P.sortIdx 2 key 0 = u at a0 a2 a3 ⊢
  generalize P.sortIdx 2 key 1 = v at a1 a2 a3 ⊢
  interval_cases u <;> interval_cases v
  · simp at a2
  · exact ⟨rfl, rfl⟩
  · exact absurd a3 (not_le.mpr h)
  · simp at a2

theorem lock_first {tol : ℝ} {index : ℕ → ℕ} {ritzv resid last : ℕ → ℝ} {be : S} (i0 : index 0 = 0)
    (i1 : index 1 = 1) (h0 : resid 0 ≤ tol) (h1 : tol < resid 1) (h2 : resid 1 < last 1) :
    lockLoop ops tol index 0 2 0 ⟨ritzv, resid, last, be, 0⟩ = ⟨ritzv, resid, last, be, 1⟩ := by
  unfold lockLoop
  simp only [i0, Nat.zero_add]
  rw [if_neg (fun h => absurd h.1 (not_lt.mpr h0))]
  unfold lockLoop LockSt.exchange
  simp only [ne_eq, not_true, if_false, Nat.zero_add, i1]
  rw [if_pos ⟨h1, h2⟩]

theorem lock_second {tol : ℝ} {index : ℕ → ℕ} {ritzv resid last : ℕ → ℝ} {be : S} (i0 : index 0 = 0)
    (h1 : resid 1 ≤ tol) :
    lockLoop ops tol index 1 1 0 ⟨ritzv, resid, last, be, 0⟩ = ⟨ritzv, resid, last, be, 1⟩ := by
  unfold lockLoop
  simp only [i0, Nat.add_zero]
  rw [if_neg (fun h => absurd h.1 (not_lt.mpr h1))]
  unfold lockLoop LockSt.exchange
  simp

end Lock

/-! ### The two rounds -/

section Rounds
variable {S : Type*} {ops : Chase ℝ S} {P : Plat ℝ} {cols user : S → ℕ → Fin 3 → K} {nl : S → ℕ}
  {ph : Phases S} {c : Config ℝ}

theorem start_degree (hdeg : 2 ≤ c.maxDeg) : startDegree (conf c) = 2 := by
  show min (2 + 2 % 2) c.maxDeg = 2
  omega

theorem lower_keep {n : ℕ} {st : St ℝ S} (h : ¬ st.unconverged < n) (hu : ¬ st.upperb < st.lowerb) :
    (updateBounds n st).lowerb = st.lowerb := by
  unfold updateBounds
  dsimp only
  rw [if_neg (fun hc : st.unconverged < n ∧ _ => h hc.1)]
  exact if_neg hu

theorem lower_new {n : ℕ} {st : St ℝ S} (h : st.unconverged < n)
    (hr : ∀ i, i < st.unconverged → st.resid (st.locked + i) ≤ 1 / 2)
    (hu : ¬ st.upperb < st.ritzv (st.locked + (st.unconverged - 1))) :
    (updateBounds n st).lowerb = st.ritzv (st.locked + (st.unconverged - 1)) := by
  have e : (List.range st.unconverged).all (fun i => !decide (st.resid (st.locked + i) > 1 / 2)) = true := by
    rw [List.all_eq_true]
    intro i hi
    rw [List.mem_range] at hi
    simpa using hr i hi
  unfold updateBounds
  dsimp only
  rw [if_pos (show st.unconverged < n ∧ _ from ⟨h, e⟩)]
  exact if_neg hu

/-- The state after the first round. -/
structure AfterFirst (cols : S → ℕ → Fin 3 → K) (st : St ℝ S) : Prop where
  locked : st.locked = 1
  unconverged : st.unconverged = 1
  iteration : st.iteration = 1
  value0 : st.ritzv 0 = 2
  value1 : st.ritzv 1 = 49 / 17
  resid0 : st.resid 0 = 0
  resid1 : st.resid 1 = 8 / 17
  col0 : ∃ y : K, ‖y‖ = 1 ∧ cols st.be 0 = y • mid
  col1 : ∃ x : K, x ≠ 0 ∧ cols st.be 1 = x • side ((1 : ℝ) : K) ((4 : ℝ) : K)

/-- The state after the second round. -/
structure AfterSecond (cols : S → ℕ → Fin 3 → K) (st : St ℝ S) : Prop where
  locked : st.locked = 2
  unconverged : st.unconverged = 0
  iteration : st.iteration = 2
  value0 : st.ritzv 0 = 2
  value1 : st.ritzv 1 = 25933 / 25925
  resid0 : st.resid 0 = 0
  resid1 : st.resid 1 = 644 / 25925
  col0 : ∃ y : K, ‖y‖ = 1 ∧ cols st.be 0 = y • mid
  col1 : ∃ x : K, 25925 * ‖x‖ ^ 2 = 1 ∧ cols st.be 1 = x • side ((161 : ℝ) : K) ((-2 : ℝ) : K)

theorem first (hP : SortsIndices P) (hB : Backs ops cols user nl ph (conf c) mat)
    (hmax : Even c.maxDeg) (hdeg : 2 ≤ c.maxDeg) (hbig : 8 / 17 < P.maxVal)
    {resid0 : ℕ → ℝ} {be : S} (hpre : ph.pre be) (huser : ∀ j, j < 2 → user be j = begin j)
    (hbound : boundOf ops (conf c) be = 57 / 17) {st st' : St ℝ S}
    (h0 : initState P ops (conf c) values resid0 be = .ok st) (hs : Step P ops (conf c) st st') :
    AfterFirst cols st' := by
  have hi := loopInv_init hB.frame hmax hpre h0
  have hreach : Reach P ops (conf c) values resid0 be st := .init h0
  have hst : st.locked = 0 ∧ st.unconverged = 2 ∧ st.iteration = 0 ∧ st.ritzv = values ∧
      (∀ i, i < 2 → st.resid i = P.maxVal) ∧ (∀ i, st.residLast i = P.maxVal) ∧
      (∀ j, j < 2 → cols st.be j = begin j) ∧ st.lambda = 11 / 17 ∧ st.lowerb = 11 / 17 := by
    obtain ⟨be1, l, hb1, hl, -, rfl⟩ := initState_ok h0
    have hl' : l.ritzv = values ∧ ∀ j, j < 2 → cols l.be j = begin j := by
      unfold lanczos at hl
      split_ifs at hl with c1 c2
      · cases hl
        refine ⟨rfl, fun j hj => ?_⟩
        rw [← huser j hj, ← hB.approx _ be j hj, hb1]
        rfl
      · exact absurd rfl c2
    refine ⟨rfl, rfl, rfl, hl'.1, fun i hi => ?_, fun _ => rfl, hl'.2, ?_, ?_⟩
    · exact if_pos ⟨Nat.zero_le _, by show i < 0 + 2; omega⟩
    · show minElem l.ritzv 0 2 = _
      rw [hl'.1]
      exact ite_self _
    · show maxElem l.ritzv 0 2 = _
      rw [hl'.1]
      exact ite_self _
  obtain ⟨a1, a2, a3, a4, a5, a6, a7, a8, a9⟩ := hst
  obtain ⟨I, _, _, _, hI, -⟩ := filterRuns_of_iter hs.1 hs.2
  obtain ⟨i1, i2, i3⟩ := filterRuns_eq hI
  have hup : st.upperb = 57 / 17 := (reach_upperb hreach).trans hbound
  rw [hup] at i3
  have i1' : I.lambda = 11 / 17 := by
    rw [i1]
    show (if st.unconverged < 2 then _ else st.lambda) = _
    rw [a2, if_neg (by omega), a8]
  have i2' : I.lower = 11 / 17 := by
    rw [i2, lower_keep (by rw [a2]; show ¬ 2 < 2; omega) (by rw [a9, hup]; norm_num), a9]
  obtain ⟨d, q, st3, hr, rfl, -, hd, hsp⟩ := round_space hP hB.frame hB.space hmax hi hs hI
    (by rw [i1', i2']) (by rw [i2', i3]; norm_num)
  have hd' : d = fun _ => 2 := by
    rw [hd (Or.inl rfl), reach_degrees hreach (Or.inl rfl)]
    funext j
    exact start_degree hdeg
  obtain ⟨p1, p2, p3⟩ := poly_first
  set p := filterPoly (11 / 17) (11 / 17) (57 / 17) 2 with hp
  have hf : ∀ j, filtered mat I st.locked d (cols st.be) j = (aeval mat p).mulVec (cols st.be j) := by
    intro j
    unfold filtered
    rw [if_neg (by omega), hd', i1', i2', i3]
  have hf0 : filtered mat I st.locked d (cols st.be) 0 =
      ((49 / 529 : ℝ) : K) • side ((1 : ℝ) : K) ((4 : ℝ) : K) := by
    rw [hf, a7 0 (by omega)]
    show (aeval mat p).mulVec (side _ _) = _
    rw [aeval_side, p1, p3]
    funext i; fin_cases i <;> simp [side]
  have hf1 : filtered mat I st.locked d (cols st.be) 1 = ((-1 : ℝ) : K) • mid := by
    rw [hf, a7 1 (by omega)]
    show (aeval mat p).mulVec mid = _
    rw [aeval_mid, p2]
  obtain ⟨h3, -⟩ := hsp (pair_indep (a := 1) one_ne_zero (RCLike.ofReal_ne_zero.mpr (by norm_num))
    (RCLike.ofReal_ne_zero.mpr (by norm_num)) (Or.inl ⟨hf0, hf1⟩))
  have hlq : nl q = 0 := hr.nlq.trans a1
  have hnq : (conf c).nev + (conf c).nex - nl q = 2 := by rw [hlq]; rfl
  have hYs := hr.columns
  set θ : ℕ → ℝ := (ops.rr ((conf c).nev + (conf c).nex - nl q) q).1 with hθ
  set Y : ℕ → Fin 3 → K := cols (ops.rr ((conf c).nev + (conf c).nex - nl q) q).2 with hY
  have ho : OrthoOn 2 Y := hYs ▸ hB.space.ortho _ hr.synced
  have hgal : ∀ i j, i < 2 → j < 2 → dotc (Y i) (mat.mulVec (Y j)) = if i = j then (θ i : K) else 0 := by
    intro i j hi hj
    have := hB.space.rr_galerkin q hr.ready (by rw [hlq]; exact Nat.zero_le _) i j (by omega) (by omega)
    rw [hlq, Nat.zero_add, Nat.zero_add, ← hlq] at this
    exact this
  have hm : ∀ i, i < 2 → ∃ x y : K, Y i = x • side ((1 : ℝ) : K) ((4 : ℝ) : K) + y • mid := by
    intro i hi
    have : Y i ∈ prefixSpan 2 (filtered mat I st.locked d (cols st.be)) := by
      rw [← hYs]
      exact h3 ▸ mem_prefixSpan hi
    obtain ⟨x, y, e⟩ := mem_pair this
    rw [hf0, hf1, smul_smul, smul_smul] at e
    exact ⟨_, _, e⟩
  obtain ⟨x, y, n1, n2, y0, y1, t0, t1⟩ := ritz_first ho hgal
    (hB.space.rr_asc q hr.ready 0 1 (by omega) (by omega)) hm
  have v0 : st3.ritzv 0 = 2 := by
    have := hr.values 0 (by omega)
    rw [a1] at this
    rw [this, ← hθ, t0]
  have v1 : st3.ritzv 1 = 49 / 17 := by
    have := hr.values 1 (by omega)
    rw [a1] at this
    rw [this, ← hθ, t1]
  have hres : ∀ i, i < 2 → IsResidual mat (st3.ritzv i) (Y i) (st3.resid i) := by
    intro i hi
    have h1 := hr.residuals i (by omega)
    have h2 := hB.space.resd (fun i => st3.ritzv (st.locked + i)) q hr.ready (by rw [hlq]; exact Nat.zero_le _)
      (fun i hi => hr.values i (by omega)) i (by omega)
    rw [← h1, hlq, a1] at h2
    rw [Nat.zero_add, ← hlq] at h2
    exact h2
  have r0 : st3.resid 0 = 0 := by
    have := hres 0 (by omega)
    rw [v0, y0] at this
    rw [residual_mid n2 this]
    norm_num
  have r1 : st3.resid 1 = 8 / 17 := by
    have := hres 1 (by omega)
    rw [v1, y1] at this
    rw [residual_side this, show ‖x‖ ^ 2 = 1 / 17 by linarith]
    rw [show (1 / 17 * ((1 * (1 - 49 / 17)) ^ 2 + (4 * (3 - 49 / 17)) ^ 2) : ℝ) = (8 / 17) ^ 2 by norm_num]
    exact Real.sqrt_sq (by norm_num)
  have rl : st3.residLast 1 = P.maxVal := by
    obtain ⟨τ, hτ, e⟩ := hr.last
    have := e 1 (by omega)
    rw [a1] at this hτ
    rw [a6, a5 _ (PermOn.lt (hi := 2) hτ (by omega))] at this
    rw [this]
    exact ite_self _
  have hl3 : st3.locked = 0 := hr.locked.trans a1
  have hu3 : st3.unconverged = 2 := hr.unconverged.trans a2
  obtain ⟨s0, s1⟩ := sort_two hP (key := fun i => st3.ritzv (0 + i)) (by
    show st3.ritzv 0 < st3.ritzv 1
    rw [v0, v1]; norm_num)
  have hlock := lock_first (ops := ops) (tol := (conf c).tol) (ritzv := st3.ritzv) (resid := st3.resid)
    (last := st3.residLast) (be := st3.be) s0 s1 (by rw [r0]; show (0 : ℝ) ≤ 1 / 10; norm_num)
    (by rw [r1]; show (1 / 10 : ℝ) < 8 / 17; norm_num) (by rw [r1, rl]; exact hbig)
  have hls : locking P ops (st3.unconverged - (conf c).nex) (conf c).tol st3.locked st3.ritzv st3.resid
      st3.residLast st3.be = ⟨st3.ritzv, st3.resid, st3.residLast, st3.be, 1⟩ := by
    rw [hu3, hl3]
    exact hlock
  have hc : cols (ops.lock 1 st3.be) = Y := (hB.frame.lock 1 _ hr.synced
    (by rw [hr.nl3, a1]; show 0 + 1 ≤ 2; omega)).2.2.trans hYs
  unfold lockStep
  rw [hls]
  refine ⟨?_, ?_, ?_, v0, v1, r0, r1, ⟨y, n2, ?_⟩, ⟨x, ?_, ?_⟩⟩
  · show st3.locked + 1 = 1
    rw [hl3]
  · show st3.unconverged - 1 = 1
    rw [hu3]
  · show st3.iteration + 1 = 1
    rw [hr.iteration, a3]
  · exact (congrFun hc 0).trans y0
  · rintro rfl
    norm_num at n1
  · exact (congrFun hc 1).trans y1

theorem second (hP : SortsIndices P) (hB : Backs ops cols user nl ph (conf c) mat)
    (hmax : Even c.maxDeg) (hdeg : 2 ≤ c.maxDeg)
    {resid0 : ℕ → ℝ} {be : S} (hbound : boundOf ops (conf c) be = 57 / 17) {st st' : St ℝ S}
    (hreach : Reach P ops (conf c) values resid0 be st) (hi : LoopInv (conf c) nl ph st)
    (h1 : AfterFirst cols st) (hs : Step P ops (conf c) st st') : AfterSecond cols st' := by
  obtain ⟨a1, a2, a3, w0, w1, q0, q1, ⟨y, n2, c0⟩, ⟨x0, hx0, c1⟩⟩ := h1
  obtain ⟨I, _, _, _, hI, -⟩ := filterRuns_of_iter hs.1 hs.2
  obtain ⟨i1, i2, i3⟩ := filterRuns_eq hI
  have hup : st.upperb = 57 / 17 := (reach_upperb hreach).trans hbound
  rw [hup] at i3
  have i1' : I.lambda = 2 := by
    rw [i1]
    show (if st.unconverged < 2 then (if st.ritzv 1 < st.ritzv 0 then st.ritzv 1 else st.ritzv 0) else
      st.lambda) = _
    rw [a2, if_pos (by omega), w0, w1, if_neg (by norm_num)]
  have i2' : I.lower = 49 / 17 := by
    have e : st.ritzv (st.locked + (st.unconverged - 1)) = 49 / 17 := by rw [a1, a2]; exact w1
    rw [i2, lower_new (by rw [a2]; show 1 < 2; omega) (fun i hi => ?_) (by rw [e, hup]; norm_num), e]
    obtain rfl : i = 0 := by omega
    rw [a1, Nat.add_zero, q1]
    norm_num
  obtain ⟨d, q, st3, hr, rfl, -, hd, hsp⟩ := round_space hP hB.frame hB.space hmax hi hs hI
    (by rw [i1', i2']; norm_num) (by rw [i2', i3]; norm_num)
  have hd' : d = fun _ => 2 := by
    rw [hd (Or.inl rfl), reach_degrees hreach (Or.inl rfl)]
    funext j
    exact start_degree hdeg
  obtain ⟨p1, p3⟩ := poly_second
  set p := filterPoly 2 (49 / 17) (57 / 17) 2 with hp
  have hf0 : filtered mat I st.locked d (cols st.be) 0 = y • mid := by
    unfold filtered
    rw [if_pos (by omega), c0]
  have hf1 : filtered mat I st.locked d (cols st.be) 1 =
      (x0 * ((8 / 353 : ℝ) : K)) • side ((161 : ℝ) : K) ((-2 : ℝ) : K) := by
    unfold filtered
    rw [if_neg (by omega), hd', i1', i2', i3, c1, Matrix.mulVec_smul]
    show x0 • (aeval mat p).mulVec (side _ _) = _
    rw [aeval_side, ← RCLike.ofReal_mul, ← RCLike.ofReal_mul, mul_comm (eval 3 p), p3, p1, mul_one]
    funext i
    fin_cases i <;> simp [side] <;> ring
  have hy : y ≠ 0 := by
    rintro rfl
    norm_num at n2
  have hx : x0 * ((8 / 353 : ℝ) : K) ≠ 0 := mul_ne_zero hx0 (RCLike.ofReal_ne_zero.mpr (by norm_num))
  obtain ⟨h3, -⟩ := hsp (pair_indep (a := 161) (by norm_num) hx hy (Or.inr ⟨hf0, hf1⟩))
  have hlq : nl q = 1 := hr.nlq.trans a1
  have hnq : (conf c).nev + (conf c).nex - nl q = 1 := by rw [hlq]; rfl
  have hle : nl q ≤ (conf c).nev + (conf c).nex := by rw [hlq]; show 1 ≤ 2; omega
  have hYs := hr.columns
  set θ : ℕ → ℝ := (ops.rr ((conf c).nev + (conf c).nex - nl q) q).1 with hθ
  set Y : ℕ → Fin 3 → K := cols (ops.rr ((conf c).nev + (conf c).nex - nl q) q).2 with hY
  have ho : OrthoOn 2 Y := hYs ▸ hB.space.ortho _ hr.synced
  have hgal : dotc (Y 1) (mat.mulVec (Y 1)) = (θ 0 : K) := by
    have := hB.space.rr_galerkin q hr.ready hle 0 0 (by omega) (by omega)
    rw [if_pos rfl] at this
    rw [hlq, Nat.add_zero, ← hlq] at this
    exact hlq ▸ this
  have y0 : Y 0 = y • mid := by
    rw [← hYs, (hr.frozen 0 (by omega)).2.2, c0]
  have hm : ∃ x z : K, Y 1 = x • side ((161 : ℝ) : K) ((-2 : ℝ) : K) + z • mid := by
    have : Y 1 ∈ prefixSpan 2 (filtered mat I st.locked d (cols st.be)) := by
      rw [← hYs]
      exact h3 ▸ mem_prefixSpan (by omega)
    obtain ⟨x, z, e⟩ := mem_pair this
    rw [hf0, hf1, smul_smul, smul_smul, add_comm] at e
    exact ⟨_, _, e⟩
  obtain ⟨x, n1, y1, t0⟩ := ritz_second ho n2 y0 hgal hm
  have v0 : st3.ritzv 0 = 2 := (hr.frozen 0 (by omega)).1.trans w0
  have r0 : st3.resid 0 = 0 := (hr.frozen 0 (by omega)).2.1.trans q0
  have v1 : st3.ritzv 1 = 25933 / 25925 := by
    have := hr.values 0 (by omega)
    rw [a1] at this
    rw [this, ← hθ, t0]
  have r1 : st3.resid 1 = 644 / 25925 := by
    have g1 := hr.residuals 0 (by omega)
    have g2 := hB.space.resd (fun i => st3.ritzv (st.locked + i)) q hr.ready hle
      (fun i hi => hr.values i (by omega)) 0 (by omega)
    rw [← g1, a1, Nat.add_zero, Nat.add_zero] at g2
    have g3 : IsResidual mat (st3.ritzv 1) (Y 1) (st3.resid 1) := by
      rw [show Y 1 = Y (nl q) by rw [hlq]]
      exact g2
    rw [v1, y1] at g3
    rw [residual_side g3, show ‖x‖ ^ 2 = 1 / 25925 by linarith]
    rw [show (1 / 25925 * ((161 * (1 - 25933 / 25925)) ^ 2 + (-2 * (3 - 25933 / 25925)) ^ 2) : ℝ) =
      (644 / 25925) ^ 2 by norm_num]
    exact Real.sqrt_sq (by norm_num)
  have hl3 : st3.locked = 1 := hr.locked.trans a1
  have hu3 : st3.unconverged = 1 := hr.unconverged.trans a2
  have s0 : P.sortIdx 1 (fun i => st3.ritzv (1 + i)) 0 = 0 := by
    have := (hP 1 (fun i => st3.ritzv (1 + i))).1 0 (by omega)
    omega
  have hlock := lock_second (ops := ops) (tol := (conf c).tol) (ritzv := st3.ritzv) (resid := st3.resid)
    (last := st3.residLast) (be := st3.be) s0 (by rw [r1]; show (644 / 25925 : ℝ) ≤ 1 / 10; norm_num)
  have hls : locking P ops (st3.unconverged - (conf c).nex) (conf c).tol st3.locked st3.ritzv st3.resid
      st3.residLast st3.be = ⟨st3.ritzv, st3.resid, st3.residLast, st3.be, 1⟩ := by
    rw [hu3, hl3]
    exact hlock
  have hc : cols (ops.lock 1 st3.be) = Y := (hB.frame.lock 1 _ hr.synced
    (by rw [hr.nl3, a1]; show 1 + 1 ≤ 2; omega)).2.2.trans hYs
  unfold lockStep
  rw [hls]
  refine ⟨?_, ?_, ?_, v0, v1, r0, r1, ⟨y, n2, ?_⟩, ⟨x, ?_, ?_⟩⟩
  · show st3.locked + 1 = 2
    rw [hl3]
  · show st3.unconverged - 1 = 0
    rw [hu3]
  · show st3.iteration + 1 = 2
    rw [hr.iteration, a3]
  · exact (congrFun hc 0).trans y0
  · exact n1
  · exact (congrFun hc 1).trans y1

/-- The solve of the run: two rounds, an exchange of the values and a call of `Swap`. -/
theorem run (hP : SortsIndices P) (hB : Backs ops cols user nl ph (conf c) mat)
    (hmax : Even c.maxDeg) (hdeg : 2 ≤ c.maxDeg) (hit : 2 ≤ c.maxIter) (hbig : 8 / 17 < P.maxVal)
    {resid0 : ℕ → ℝ} {be be0 : S}
    (hsym : c.symCheck = true → (ops.checkSymmetryEasy be).1 = true)
    (hbe0 : be0 = if c.symCheck then (ops.checkSymmetryEasy be).2 else be) (hpre : ph.pre be)
    (huser : ∀ j, j < 2 → user be j = begin j) (hbound : boundOf ops (conf c) be0 = 57 / 17)
    {out : Outcome ℝ S} (h : solve P ops (conf c) values resid0 be = .ok out) :
    out.iterations = 2 ∧ out.locked = 2 ∧ out.ritzv 0 = 25933 / 25925 ∧ out.ritzv 1 = 2 ∧
    out.resid 0 = 0 ∧ out.resid 1 = 644 / 25925 ∧
    ∃ s, cols out.be = cols (ops.swap 0 1 s) ∧ (∃ y : K, ‖y‖ = 1 ∧ cols s 0 = y • mid) ∧
    ∃ x : K, 25925 * ‖x‖ ^ 2 = 1 ∧ cols s 1 = x • side ((161 : ℝ) : K) ((-2 : ℝ) : K) := by
  obtain ⟨be0', st0, st, hbe0', h0, hst, hnr, hnev, rfl⟩ := solve_ok h hsym
  have e0 : be0' = be0 := hbe0'.trans hbe0.symm
  subst e0
  have hpre0 : ph.pre be0' := by
    rw [hbe0]; split_ifs
    · exact hB.frame.check _ hpre
    · exact hpre
  have huser0 : ∀ j, j < 2 → user be0' j = begin j := by
    intro j hj
    rw [hbe0]; split_ifs
    · rw [hB.check]; exact huser j hj
    · exact huser j hj
  have hst0 : st0.unconverged = 2 ∧ st0.iteration = 0 := by
    obtain ⟨be1, l, -, -, -, rfl⟩ := initState_ok h0
    exact ⟨rfl, rfl⟩
  have hrun : ∀ st : St ℝ S, st.unconverged ≠ 0 → st.iteration < 2 → running (conf c) st := fun st h1 h2 =>
    ⟨by show 0 < _; omega, by show _ < c.maxIter; omega⟩
  rcases steps_head hst with rfl | ⟨st1, hs1, hst1⟩
  · exact absurd (hrun _ (by omega) (by omega)) hnr
  have hi1 := loopInv_step_frame hP hB.frame hmax hB.space.swap_cols
    (loopInv_init hB.frame hmax hpre0 h0) hs1
  have g1 := first hP hB hmax hdeg hbig hpre0 huser0 hbound h0 hs1
  rcases steps_head hst1 with rfl | ⟨st2, hs2, hst2⟩
  · exact absurd (hrun _ (by rw [g1.unconverged]; omega) (by rw [g1.iteration]; omega)) hnr
  have g2 := second hP hB hmax hdeg hbound (.step (.init h0) hs1) hi1 g1 hs2
  obtain rfl := steps_of_not_running hst2 (fun hr => absurd hr.1 (by rw [g2.unconverged]; simp))
  have hfin : finalSort ops (conf c).nev st.ritzv st.be = (swapAt st.ritzv 0 1, ops.swap 0 1 st.be) := by
    show (if st.ritzv 0 > st.ritzv 1 then (swapAt st.ritzv 0 1, ops.swap 0 1 st.be)
      else (st.ritzv, st.be)) = _
    rw [if_pos]
    rw [g2.value0, g2.value1]
    norm_num
  have hcols : cols (ops.finish (finalSort ops (conf c).nev st.ritzv st.be).2) =
      cols (ops.swap 0 1 st.be) := by
    rw [hB.frame.finish, hfin]
  refine ⟨g2.iteration, g2.locked, ?_, ?_, g2.resid0, g2.resid1, st.be, hcols, g2.col0, g2.col1⟩
  · show (finalSort ops (conf c).nev st.ritzv st.be).1 0 = _
    rw [hfin]
    exact g2.value1
  · show (finalSort ops (conf c).nev st.ritzv st.be).1 1 = _
    rw [hfin]
    exact g2.value0

end Rounds
end NoSwapRun
end Verif
