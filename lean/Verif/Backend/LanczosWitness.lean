/-
C52, C53: what the Lanczos step does not guarantee, and concrete runs for C20, C21 and C48.
-/
import Verif.Backend.LanczosProps
import Verif.Backend.InPlace
import Mathlib.Tactic.FinCases
import Mathlib.Tactic.NormNum.RealSqrt

namespace Verif

open Matrix

variable {K : Type*} [RCLike K] {N : ℕ}

/-! ### C52 -/

/-- **C52** (part) After `numvec` runs the columns from `numvec` on hold the basis vectors of the last
run.  Missing: the first `numvec` columns, see `C52_basis_refuted`. -/
theorem C52_basis_partial (H : Matrix (Fin N) (Fin N) K) (hH : H.IsHermitian) (M numvec : ℕ)
    (hM : 0 < M) (hn : 0 < numvec) (C : ℕ → Fin N → K) (hC : C (numvec - 1) ≠ 0)
    (he : ∀ k, k + 1 < M → (mLanczos axpyOwn H M numvec true C).e (k + M * (numvec - 1)) ≠ 0) :
    ∃ v : ℕ → Fin N → K, v 0 = ((1 / nrm2 (C (numvec - 1)) : ℝ) : K) • C (numvec - 1) ∧
      (∀ j k, j < M → k < M → dotc (v j) (v k) = if j = k then 1 else 0) ∧
      (∀ k, k + 1 < M → H.mulVec (v k) =
        (if 0 < k then ((mLanczos axpyOwn H M numvec true C).e (k - 1 + M * (numvec - 1)) : K) • v (k - 1)
          else 0)
        + ((mLanczos axpyOwn H M numvec true C).d (k + M * (numvec - 1)) : K) • v k
        + ((mLanczos axpyOwn H M numvec true C).e (k + M * (numvec - 1)) : K) • v (k + 1)) ∧
      ∀ j, numvec ≤ j → j < M → (mLanczos axpyOwn H M numvec true C).C j = v j := by
  obtain ⟨d1, e1, -, -, c1, -⟩ := mLanczos_spec axpyOwn H M numvec (fun _ _ => rfl) hM true C
  have hi : numvec - 1 < numvec := by omega
  have hb : ∀ k, k + 1 < M → lzB H (C (numvec - 1)) k ≠ 0 := fun k hk => by
    rw [← e1 _ k hi hk]; exact he k hk
  obtain ⟨ho, -⟩ := lz_ortho (x := C (numvec - 1)) hH hC (M - 1) (fun k hk => hb k (by omega))
  have hre : ∀ k, ((RCLike.re (lzA H (C (numvec - 1)) k) : ℝ) : K) = lzA H (C (numvec - 1)) k :=
    fun k => RCLike.conj_eq_iff_re.mp (lzA_real hH k)
  refine ⟨lzV H (C (numvec - 1)), rfl, fun j k hj hk => ho j k (by omega) (by omega), ?_, ?_⟩
  · intro k hk
    rw [d1 _ k hi (by omega), e1 _ k hi hk, hre, ← lzR_eq_smul H _ (hb k hk)]
    rcases Nat.eq_zero_or_pos k with h0 | h0
    · subst h0
      rw [if_neg (by omega), lzR_zero, hH.eq]; abel
    · obtain ⟨j, rfl⟩ : ∃ j, k = j + 1 := ⟨k - 1, by omega⟩
      rw [if_pos h0, lzR_succ, hH.eq, Nat.add_sub_cancel, e1 _ j hi (by omega)]; abel
  · intro j h1 h2
    rw [c1 j rfl hn, if_neg (by omega), if_pos h2]

/-- **C52 is false**: with fewer runs than steps, two of the stored columns are the same vector, so
the columns are not the basis of a Lanczos run (whatever the matrix and the start vectors). -/
theorem C52_basis_refuted (H : Matrix (Fin N) (Fin N) K) (M numvec : ℕ) (hn : 0 < numvec)
    (hM : numvec < M) (C : ℕ → Fin N → K) :
    numvec - 1 ≠ M - 1 ∧
    (mLanczos axpyOwn H M numvec true C).C (numvec - 1) = (mLanczos axpyOwn H M numvec true C).C (M - 1) := by
  obtain ⟨-, -, -, -, c1, -⟩ := mLanczos_spec axpyOwn H M numvec (fun _ _ => rfl) (by omega) true C
  refine ⟨by omega, ?_⟩
  rw [c1 _ rfl hn, c1 _ rfl hn, if_pos (by omega), if_neg (by omega), if_pos (by omega)]

/-- With at least as many runs as steps, every stored column is the last vector of another run. -/
theorem C52_basis_refuted_many (H : Matrix (Fin N) (Fin N) K) (M numvec : ℕ) (hn : 0 < M)
    (hM : M ≤ numvec) (C : ℕ → Fin N → K) (j : ℕ) (hj : j < M) :
    (mLanczos axpyOwn H M numvec true C).C j = lzV H (C j) (M - 1) := by
  obtain ⟨-, -, -, -, c1, -⟩ := mLanczos_spec axpyOwn H M numvec (fun _ _ => rfl) (by omega) true C
  rw [c1 _ rfl (by omega), if_pos (by omega)]

section ex2
/-- The matrix exchanging two coordinates. -/
def flip2 : Matrix (Fin 2) (Fin 2) ℝ := !![0, 1; 1, 0]
/-- First unit vector in every column. -/
def startE1 : ℕ → Fin 2 → ℝ := fun _ => ![1, 0]

theorem flip2_herm : flip2.IsHermitian := by
  ext i j; fin_cases i <;> fin_cases j <;> simp [flip2]

theorem flip2_v0 : lzV flip2 ![1, 0] 0 = ![1, 0] := by
  rw [lzV_zero]
  have : nrm2 (K := ℝ) ![1, 0] = 1 := by simp [nrm2, Fin.sum_univ_two]
  rw [this]; simp

theorem flip2_mul (a b : ℝ) : flip2.mulVec ![a, b] = ![b, a] := by
  funext i; fin_cases i <;> simp [flip2, Matrix.mulVec, dotProduct, Fin.sum_univ_two]

theorem flip2_a0 : lzA flip2 ![1, 0] 0 = 0 := by
  rw [lzA, flip2_v0, flip2_herm.eq, flip2_mul]
  simp [dotc, Fin.sum_univ_two]

theorem flip2_r0 : lzR flip2 ![1, 0] 0 = ![0, 1] := by
  rw [lzR_zero, flip2_v0, flip2_a0, flip2_herm.eq, flip2_mul]; simp

theorem flip2_b0 : lzB flip2 ![1, 0] 0 = 1 := by
  rw [lzB_eq, flip2_r0]; simp [nrm2, Fin.sum_univ_two]

theorem flip2_v1 : lzV flip2 ![1, 0] 1 = ![0, 1] := by
  rw [lzV_succ, flip2_b0, flip2_r0]; simp

/-- The hypotheses of C21 and C52 are met by a concrete run of two steps. -/
example : startE1 0 ≠ 0 ∧ ∀ k, k + 1 < 2 → (mLanczos axpyOwn flip2 2 1 true startE1).e (k + 2 * 0) ≠ 0 := by
  refine ⟨fun h => by simpa [startE1] using congrFun h 0, fun k hk => ?_⟩
  obtain rfl : k = 0 := by omega
  rw [(mLanczos_spec axpyOwn flip2 2 1 (fun _ _ => rfl) (by omega) true startE1).2.1 0 0 (by omega) (by omega)]
  show lzB flip2 ![1, 0] 0 ≠ 0
  rw [flip2_b0]; exact one_ne_zero

/-- **C52 is false**: on the matrix exchanging two coordinates, two Lanczos steps from a unit vector
find both eigenvalues exactly, but none of the two vectors extracted afterwards is an eigenvector. -/
theorem C52_ritz_vectors_refuted (L : Lapack ℝ) (s : Seq.St ℝ 2) (k : ℕ) (hk : k < 2)
    (hs : s.C = (lanczosMulti axpyOwn L flip2 2 1 startE1).2) :
    ¬ ∃ θ : ℝ, (Seq.lanczosDos 2 2 (lanczosMulti axpyOwn L flip2 2 1 startE1).1.ritzV s).C k ≠ 0 ∧
      flip2.mulVec ((Seq.lanczosDos 2 2 (lanczosMulti axpyOwn L flip2 2 1 startE1).1.ritzV s).C k) =
        θ • (Seq.lanczosDos 2 2 (lanczosMulti axpyOwn L flip2 2 1 startE1).1.ritzV s).C k := by
  set z := (lanczosMulti axpyOwn L flip2 2 1 startE1).1.ritzV with hz
  obtain ⟨-, -, -, -, c1, -⟩ := mLanczos_spec axpyOwn flip2 2 1 (fun _ _ => rfl) (by omega) true startE1
  have hc : ∀ j, j < 2 → s.C j = ![0, 1] := by
    intro j hj
    rw [hs]
    show (mLanczos axpyOwn flip2 2 1 true startE1).C j = _
    rw [c1 j rfl (by omega)]
    rcases Nat.lt_or_ge j 1 with h | h
    · rw [if_pos h]; exact flip2_v1
    · obtain rfl : j = 1 := by omega
      rw [if_neg (by omega), if_pos (by omega)]; exact flip2_v1
  have hcol : (Seq.lanczosDos 2 2 z s).C k = ![0, z (0 + k * 2) + z (1 + k * 2)] := by
    funext a
    have h1 : (Seq.lanczosDos 2 2 z s).C k a = s.C 0 a * z (0 + k * 2) + s.C 1 a * z (1 + k * 2) := by
      unfold Seq.lanczosDos
      simp only [copyCols]
      rw [writeAt_in _ _ _ hk, setBlk, dif_pos ⟨Nat.zero_le _, by omega⟩]
      refine (Matrix.mul_apply (M := getBlk 0 2 s.C)).trans ?_
      rw [Fin.sum_univ_two]
      simp [getBlk]
    rw [h1, hc 0 (by omega), hc 1 (by omega)]
    fin_cases a <;> simp
  rw [hcol]
  rintro ⟨θ, hne, heq⟩
  rw [flip2_mul] at heq
  have h0 := congrFun heq 0
  simp at h0
  apply hne
  rw [show z (0 + k * 2) + z (1 + k * 2) = 0 by simpa using h0]
  funext a; fin_cases a <;> simp

end ex2

/-! ### C53 -/

section ex3
/-- `diag(0, 1)`. -/
def diag01 : Matrix (Fin 2) (Fin 2) ℝ := !![0, 0; 0, 1]
/-- Start vector `(2, 1)` in every column. -/
def start21 : ℕ → Fin 2 → ℝ := fun _ => ![2, 1]

theorem diag01_herm : diag01.IsHermitian := by
  ext i j; fin_cases i <;> fin_cases j <;> simp [diag01]

theorem diag01_mul (a b : ℝ) : diag01.mulVec ![a, b] = ![0, b] := by
  funext i; fin_cases i <;> simp [diag01, Matrix.mulVec, dotProduct, Fin.sum_univ_two]

theorem nrm21 : nrm2 (K := ℝ) ![2, 1] = Real.sqrt 5 := by
  unfold nrm2
  rw [Fin.sum_univ_two]
  norm_num

theorem diag01_v0 : lzV diag01 ![2, 1] 0 = ![2 / Real.sqrt 5, 1 / Real.sqrt 5] := by
  rw [lzV_zero, nrm21]
  funext i
  fin_cases i <;> simp <;> ring

theorem diag01_a0 : lzA diag01 ![2, 1] 0 = 1 / 5 := by
  rw [lzA, diag01_v0, diag01_herm.eq, diag01_mul, dotc, Fin.sum_univ_two]
  simp only [Matrix.cons_val_zero, Matrix.cons_val_one, star_trivial, mul_zero, zero_add]
  have : Real.sqrt 5 * Real.sqrt 5 = 5 := Real.mul_self_sqrt (by norm_num)
  rw [div_mul_div_comm, this, one_mul]

theorem diag01_b0 : lzB diag01 ![2, 1] 0 = 2 / 5 := by
  have h5 : Real.sqrt 5 ^ 2 = 5 := Real.sq_sqrt (by norm_num)
  have h50 : Real.sqrt 5 ≠ 0 := by positivity
  rw [lzB_eq, lzR_zero, diag01_v0, diag01_a0, diag01_herm.eq, diag01_mul]
  have : ∀ v : Fin 2 → ℝ, nrm2 v ^ 2 = v 0 ^ 2 + v 1 ^ 2 := fun v => by
    rw [nrm2_sq, Fin.sum_univ_two]; simp
  refine (pow_left_inj₀ (nrm2_nonneg _) (by norm_num) two_ne_zero).mp ?_
  rw [this]
  simp only [Pi.sub_apply, Pi.smul_apply, Matrix.cons_val_zero, Matrix.cons_val_one, smul_eq_mul]
  field_simp
  rw [h5]
  norm_num

theorem stemr_one {L : Lapack K} (hL : L.Ok) (d e : ℕ → ℝ) : (L.stemr 1 d e).1 0 = d 0 := by
  obtain ⟨-, ho, heq⟩ := hL.stemr 1 d e
  have h1 := ho 0 0 (by omega) (by omega)
  have h2 := heq 0 0 (by omega) (by omega)
  rw [Finset.sum_range_one, if_pos rfl] at h1
  rw [if_neg (by omega), if_neg (by omega)] at h2
  have hne : (L.stemr 1 d e).2 (0 + 0 * 1) ≠ 0 := fun h => by rw [h] at h1; simp at h1
  have : d 0 * (L.stemr 1 d e).2 (0 + 0 * 1) = (L.stemr 1 d e).1 0 * (L.stemr 1 d e).2 (0 + 0 * 1) := by
    linarith
  exact (mul_right_cancel₀ hne this).symm

/-- **C53 is false**: the bound need not dominate the spectrum.  One Lanczos step on `diag(0, 1)` from
`(2, 1)`, which has parts along both eigenvectors and a remainder that does not vanish, gives `3/5`,
below the eigenvalue `1`. -/
theorem C53_bound_below_spectrum {L : Lapack ℝ} (hL : L.Ok) :
    lanczosBound axpyOwn L diag01 1 start21 = 3 / 5 ∧ IsEigenvalue diag01 1 ∧
      (lanczosMulti axpyOwn L diag01 1 1 start21).1.upperb = 3 / 5 := by
  have h1 : ∀ st, (mLanczos axpyOwn diag01 1 1 st start21).d 0 = 1 / 5 := fun st => by
    have := (mLanczos_spec axpyOwn diag01 1 1 (fun _ _ => rfl) (by omega) st start21).1 0 0 (by omega) (by omega)
    rw [Nat.mul_zero, Nat.add_zero] at this
    rw [this]
    show RCLike.re (lzA diag01 ![2, 1] 0) = 1 / 5
    rw [diag01_a0]; rfl
  have h2 : ∀ st, (mLanczos axpyOwn diag01 1 1 st start21).rbeta 0 = 2 / 5 := fun st => by
    rw [(mLanczos_spec axpyOwn diag01 1 1 (fun _ _ => rfl) (by omega) st start21).2.2.2.1 0 (by omega)]
    exact diag01_b0
  refine ⟨?_, ⟨![0, 1], fun h => by simpa using congrFun h 1, ?_⟩, ?_⟩
  · unfold lanczosBound
    simp only [Nat.sub_self]
    rw [stemr_one hL, h1, h2]
    norm_num [abs_of_pos]
  · rw [diag01_mul]; simp
  · have ht := multi_theta (L := L) axpyOwn diag01 1 1 start21 0 0 (by omega) (by omega)
    rw [stemr_one hL] at ht
    simp only [Nat.mul_zero, Nat.add_zero, Nat.zero_mul] at ht
    have hu : (lanczosMulti axpyOwn L diag01 1 1 start21).1.upperb =
        max |(lanczosMulti axpyOwn L diag01 1 1 start21).1.theta 0|
          |(lanczosMulti axpyOwn L diag01 1 1 start21).1.theta (1 - 1)|
        + |(mLanczos axpyOwn diag01 1 1 true start21).rbeta 0| := by
      rfl
    rw [hu, Nat.sub_self, ht, h1, h2]
    norm_num [abs_of_pos]

/-- Concrete case of C20: the run on `diag(0, 1)` has the Ritz value `1/5` and the last off-diagonal
`2/5`, both strictly positive. -/
example : IsEigenvalue (tridiag 1 (mLanczos axpyOwn diag01 1 1 false start21).d
      (mLanczos axpyOwn diag01 1 1 false start21).e) (1 / 5) ∧
    (mLanczos axpyOwn diag01 1 1 false start21).rbeta 0 = 2 / 5 ∧
    (Lapack.ideal ℝ (fun _ _ => 0) (fun _ => 1) 0).Ok := by
  refine ⟨⟨fun _ => 1, fun h => one_ne_zero (congrFun h 0), ?_⟩, ?_, Lapack.ideal_ok _ _ _⟩
  · have := (mLanczos_spec axpyOwn diag01 1 1 (fun _ _ => rfl) (by omega) false start21).1 0 0
      (by omega) (by omega)
    rw [Nat.mul_zero, Nat.add_zero] at this
    have h2 : (mLanczos axpyOwn diag01 1 1 false start21).d 0 = 1 / 5 := by
      rw [this]
      show RCLike.re (lzA diag01 ![2, 1] 0) = 1 / 5
      rw [diag01_a0]; rfl
    funext i
    fin_cases i
    simp [tridiag, Matrix.mulVec, dotProduct, h2]
  · rw [(mLanczos_spec axpyOwn diag01 1 1 (fun _ _ => rfl) (by omega) false start21).2.2.2.1 0
      (by omega)]
    exact diag01_b0

end ex3

/-- **C53** (part) The bound is not too large: some eigenvalue of `H` comes within twice the last
off-diagonal of it in absolute value.  Missing: that it is large enough, see
`C53_bound_below_spectrum`. -/
theorem C53_bound_tight_partial {L : Lapack K} (hL : L.Ok) (H : Matrix (Fin N) (Fin N) K)
    (hH : H.IsHermitian) (M : ℕ) (hM : 0 < M) (C : ℕ → Fin N → K) (hC : C 0 ≠ 0)
    (he : ∀ k, k + 1 < M → (mLanczos axpyOwn H M 1 false C).e k ≠ 0) :
    ∃ μ, IsEigenvalue H μ ∧
      lanczosBound axpyOwn L H M C ≤ |μ| + 2 * |(mLanczos axpyOwn H M 1 false C).rbeta 0| := by
  set d := (mLanczos axpyOwn H M 1 false C).d with hd
  set e := (mLanczos axpyOwn H M 1 false C).e with hedef
  have hev : ∀ k, k < M → IsEigenvalue (tridiag M d e) ((L.stemr M d e).1 k) := by
    intro k hk
    obtain ⟨-, ho, heq⟩ := hL.stemr M d e
    refine ⟨fun i => (L.stemr M d e).2 (i + k * M), fun h => ?_, ?_⟩
    · have h1 := ho k k hk hk
      rw [if_pos rfl] at h1
      have : ∑ i ∈ Finset.range M, (L.stemr M d e).2 (i + k * M) * (L.stemr M d e).2 (i + k * M)
          = 0 := by
        refine Finset.sum_eq_zero fun i hi => ?_
        have h2 := congrFun h ⟨i, Finset.mem_range.mp hi⟩
        have h3 : (L.stemr M d e).2 (i + k * M) = 0 := h2
        rw [h3, mul_zero]
      rw [this] at h1
      exact zero_ne_one h1
    · funext i
      exact (tridiag_mul M d e (fun a => (L.stemr M d e).2 (a + k * M)) i).trans (heq k i hk i.isLt)
  have hnear : ∀ k, k < M → ∃ μ, IsEigenvalue H μ ∧
      |(L.stemr M d e).1 k| ≤ |μ| + |(mLanczos axpyOwn H M 1 false C).rbeta 0| := by
    intro k hk
    have := C20_ritz_near_spectrum axpyOwn H hH M 1 (fun _ _ => rfl) hM false C 0 (by omega) hC
      (by simpa using he) ((L.stemr M d e).1 k) (by simpa using hev k hk)
    obtain ⟨μ, hμ, hle⟩ := this
    refine ⟨μ, hμ, ?_⟩
    have h1 := abs_sub_abs_le_abs_sub ((L.stemr M d e).1 k) μ
    rw [abs_sub_comm] at h1
    linarith
  unfold lanczosBound
  dsimp only
  rcases le_total |(L.stemr M d e).1 0| |(L.stemr M d e).1 (M - 1)| with h | h
  · obtain ⟨μ, hμ, hle⟩ := hnear (M - 1) (by omega)
    exact ⟨μ, hμ, by rw [max_eq_right h]; linarith⟩
  · obtain ⟨μ, hμ, hle⟩ := hnear 0 hM
    exact ⟨μ, hμ, by rw [max_eq_left h]; linarith⟩

/-! ### C48 for the CUDA backend -/

/-- Start vectors `e1`, `e2`. -/
def startE12 : ℕ → Fin 2 → ℝ := fun i => if i = 0 then ![1, 0] else ![0, 1]

/-- **C48** (part) In the CUDA backend a single run, and the first run of a batch, have their own
coefficients.  Missing: the other runs, see `C48_cuda_refuted`. -/
theorem C48_cuda_single_partial (H : Matrix (Fin N) (Fin N) K) (M : ℕ) (hM : 0 < M) (store : Bool)
    (C : ℕ → Fin N → K) :
    (∀ j, j < M → (mLanczos axpyFirst H M 1 store C).d j = (mLanczos axpyOwn H M 1 store C).d j) ∧
    (∀ j, j + 1 < M → (mLanczos axpyFirst H M 1 store C).e j = (mLanczos axpyOwn H M 1 store C).e j) ∧
    (mLanczos axpyFirst H M 1 store C).rbeta 0 = (mLanczos axpyOwn H M 1 store C).rbeta 0 := by
  obtain ⟨d1, e1, -, r1, -, -⟩ := mLanczos_spec axpyFirst H M 1
    (fun i hi => by show 0 = i; omega) hM store C
  obtain ⟨d2, e2, -, r2, -, -⟩ := mLanczos_spec axpyOwn H M 1 (fun _ _ => rfl) hM store C
  refine ⟨fun j hj => ?_, fun j hj => ?_, ?_⟩
  · have h1 := d1 0 j (by omega) hj
    have h2 := d2 0 j (by omega) hj
    rw [Nat.mul_zero, Nat.add_zero] at h1 h2
    rw [h1, h2]
  · have h1 := e1 0 j (by omega) hj
    have h2 := e2 0 j (by omega) hj
    rw [Nat.mul_zero, Nat.add_zero] at h1 h2
    rw [h1, h2]
  · rw [r1 0 (by omega), r2 0 (by omega)]

/-- **C48 is false of the CUDA backend**: the second run of a batch on `diag(0, 1)` from `e2`, an
eigenvector, reports the last off-diagonal `1` instead of `0`, because it used the coefficient of the
first run. -/
theorem C48_cuda_refuted :
    (mLanczos (InPlace.Kind.axpy .cuda) diag01 1 2 true startE12).rbeta 1 = 1 ∧
    (mLanczos (InPlace.Kind.axpy .cuda) diag01 1 1 true (fun _ => startE12 1)).rbeta 0 = 0 := by
  show (mLanczos axpyFirst diag01 1 2 true startE12).rbeta 1 = 1 ∧
    (mLanczos axpyFirst diag01 1 1 true (fun _ => startE12 1)).rbeta 0 = 0
  have hn1 : nrm2 (K := ℝ) ![0, 1] = 1 := by simp [nrm2, Fin.sum_univ_two]
  have hn0 : nrm2 (K := ℝ) ![1, 0] = 1 := by simp [nrm2, Fin.sum_univ_two]
  constructor
  · have h : (mLanczos axpyFirst diag01 1 2 true startE12).rbeta 1 =
        nrm2 ((-dotc (((1 / nrm2 (startE12 0) : ℝ) : ℝ) • startE12 0)
          (diag01ᴴ.mulVec (((1 / nrm2 (startE12 0) : ℝ) : ℝ) • startE12 0))) •
          (((1 / nrm2 (startE12 1) : ℝ) : ℝ) • startE12 1)
          + diag01ᴴ.mulVec (((1 / nrm2 (startE12 1) : ℝ) : ℝ) • startE12 1)) := rfl
    rw [h]
    show nrm2 ((-dotc (((1 / nrm2 (K := ℝ) ![1, 0] : ℝ) : ℝ) • ![1, 0])
          (diag01ᴴ.mulVec (((1 / nrm2 (K := ℝ) ![1, 0] : ℝ) : ℝ) • ![1, 0]))) •
          (((1 / nrm2 (K := ℝ) ![0, 1] : ℝ) : ℝ) • ![0, 1])
          + diag01ᴴ.mulVec (((1 / nrm2 (K := ℝ) ![0, 1] : ℝ) : ℝ) • ![0, 1])) = 1
    rw [hn0, hn1, diag01_herm.eq]
    norm_num [diag01_mul, dotc, Fin.sum_univ_two, nrm2]
  · rw [(mLanczos_spec axpyFirst diag01 1 1 (fun i hi => by show 0 = i; omega) (by omega) true
      (fun _ => startE12 1)).2.2.2.1 0 (by omega)]
    show lzB diag01 ![0, 1] 0 = 0
    rw [lzB_eq, lzR_zero, lzA, lzV_zero, hn1, diag01_herm.eq]
    norm_num [diag01_mul, dotc, Fin.sum_univ_two, nrm2]

end Verif
