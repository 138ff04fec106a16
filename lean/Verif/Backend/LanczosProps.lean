/-
C20, C21, C48, C52, C53: the Lanczos step of the single-process backends.
-/
import Verif.Backend.LanczosProof
import Verif.Backend.Seq
import Verif.Backend.LapackExists

namespace Verif

open Matrix

variable {K : Type*} [RCLike K] {N : ℕ}

/-! ### C48 -/

/-- **C48** Run `i` of a batch gives the same diagonal, off-diagonal and last off-diagonal as the
run from the same start vector alone, whatever the other start vectors are. -/
theorem C48_batch_independent (H : Matrix (Fin N) (Fin N) K) (M numvec : ℕ) (hM : 0 < M)
    (store store' : Bool) (C C' : ℕ → Fin N → K) (i : ℕ) (hi : i < numvec) (hC : C' 0 = C i) :
    (∀ j, j < M → (mLanczos axpyOwn H M numvec store C).d (j + M * i) = (mLanczos axpyOwn H M 1 store' C').d j) ∧
    (∀ j, j < M → (mLanczos axpyOwn H M numvec store C).e (j + M * i) = (mLanczos axpyOwn H M 1 store' C').e j) ∧
    (mLanczos axpyOwn H M numvec store C).rbeta i = (mLanczos axpyOwn H M 1 store' C').rbeta 0 := by
  obtain ⟨d1, e1, z1, r1, -, -⟩ := mLanczos_spec axpyOwn H M numvec (fun _ _ => rfl) hM store C
  obtain ⟨d2, e2, z2, r2, -, -⟩ := mLanczos_spec axpyOwn H M 1 (fun _ _ => rfl) hM store' C'
  refine ⟨fun j hj => ?_, fun j hj => ?_, ?_⟩
  · have h2 := d2 0 j (by omega) hj
    rw [Nat.mul_zero, Nat.add_zero] at h2
    rw [d1 i j hi hj, h2, hC]
  · by_cases hl : j = M - 1
    · subst hl
      have h2 := z2 0 (by omega)
      rw [Nat.mul_zero, Nat.add_zero] at h2
      rw [z1 i hi, h2]
    · have h2 := e2 0 j (by omega) (by omega)
      rw [Nat.mul_zero, Nat.add_zero] at h2
      rw [e1 i j hi (by omega), h2, hC]
  · rw [r1 i hi, r2 0 (by omega), hC]

/-! ### C21 -/

/-- **C21** As long as no off-diagonal vanishes, run `i` of a batch has built an orthonormal basis `v`
starting from the normalised start vector, with `H v_k = e_{k-1} v_{k-1} + d_k v_k + e_k v_{k+1}`; the
last step leaves a remainder orthogonal to the basis whose norm is the last off-diagonal.  (`hp`: the
backend uses for each run its own coefficients, true of the CPU backends and, for one run, of the
CUDA backend.) -/
theorem C21_lanczos_recurrence (p : ℕ → ℕ) (H : Matrix (Fin N) (Fin N) K) (hH : H.IsHermitian)
    (M numvec : ℕ) (hp : ∀ i, i < numvec → p i = i)
    (hM : 0 < M) (store : Bool) (C : ℕ → Fin N → K) (i : ℕ) (hi : i < numvec) (hC : C i ≠ 0)
    (he : ∀ k, k + 1 < M → (mLanczos p H M numvec store C).e (k + M * i) ≠ 0) :
    ∃ (v : ℕ → Fin N → K) (r : Fin N → K),
      v 0 = ((1 / nrm2 (C i) : ℝ) : K) • C i ∧
      (∀ j k, j < M → k < M → dotc (v j) (v k) = if j = k then 1 else 0) ∧
      (∀ k, k < M → H.mulVec (v k) =
        (if 0 < k then ((mLanczos p H M numvec store C).e (k - 1 + M * i) : K) • v (k - 1) else 0)
        + ((mLanczos p H M numvec store C).d (k + M * i) : K) • v k
        + (if k + 1 < M then ((mLanczos p H M numvec store C).e (k + M * i) : K) • v (k + 1) else r)) ∧
      (∀ k, k < M → dotc (v k) r = 0) ∧
      nrm2 r = (mLanczos p H M numvec store C).rbeta i := by
  obtain ⟨d1, e1, -, r1, -, -⟩ := mLanczos_spec p H M numvec hp hM store C
  have hb : ∀ k, k + 1 < M → lzB H (C i) k ≠ 0 := fun k hk => by
    rw [← e1 i k hi hk]; exact he k hk
  obtain ⟨ho, hr⟩ := lz_ortho (x := C i) hH hC (M - 1) (fun k hk => hb k (by omega))
  have hre : ∀ k, ((RCLike.re (lzA H (C i) k) : ℝ) : K) = lzA H (C i) k := fun k =>
    RCLike.conj_eq_iff_re.mp (lzA_real hH k)
  refine ⟨lzV H (C i), lzR H (C i) (M - 1), rfl, fun j k hj hk => ho j k (by omega) (by omega), ?_,
    fun k hk => hr k (by omega), ?_⟩
  · intro k hk
    have key : H.mulVec (lzV H (C i) k) =
        (if 0 < k then (lzB H (C i) (k - 1) : K) • lzV H (C i) (k - 1) else 0)
        + lzA H (C i) k • lzV H (C i) k + lzR H (C i) k := by
      rcases Nat.eq_zero_or_pos k with h0 | h0
      · subst h0
        rw [if_neg (by omega), lzR_zero, hH.eq]; abel
      · obtain ⟨j, rfl⟩ : ∃ j, k = j + 1 := ⟨k - 1, by omega⟩
        rw [if_pos h0, lzR_succ, hH.eq, Nat.add_sub_cancel]; abel
    rw [key, d1 i k hi hk, hre]
    congr 1
    · congr 1
      by_cases h0 : 0 < k
      · rw [if_pos h0, if_pos h0, e1 i (k - 1) hi (by omega)]
      · rw [if_neg h0, if_neg h0]
    · by_cases hl : k + 1 < M
      · rw [if_pos hl, e1 i k hi hl, lzR_eq_smul H (C i) (hb k hl)]
      · rw [if_neg hl, show k = M - 1 by omega]
  · rw [r1 i hi]; rfl

/-- **C21** In that basis the matrix is the tridiagonal one made of the stored diagonals. -/
theorem C21_tridiagonalises (p : ℕ → ℕ) (H : Matrix (Fin N) (Fin N) K) (hH : H.IsHermitian)
    (M numvec : ℕ) (hp : ∀ i, i < numvec → p i = i)
    (hM : 0 < M) (store : Bool) (C : ℕ → Fin N → K) (i : ℕ) (hi : i < numvec) (hC : C i ≠ 0)
    (he : ∀ k, k + 1 < M → (mLanczos p H M numvec store C).e (k + M * i) ≠ 0) :
    ∃ V : Matrix (Fin N) (Fin M) K, Vᴴ * V = 1 ∧
      Vᴴ * H * V = (tridiag M (fun k => (mLanczos p H M numvec store C).d (k + M * i))
        (fun k => (mLanczos p H M numvec store C).e (k + M * i))).map (fun x => (x : K)) := by
  obtain ⟨v, r, -, ho, hrec, hr, -⟩ := C21_lanczos_recurrence p H hH M numvec hp hM store C i hi hC he
  refine ⟨Matrix.of fun a (k : Fin M) => v k a, ?_, ?_⟩
  · ext j k
    have := ho j k j.isLt k.isLt
    rw [Matrix.mul_apply, Matrix.one_apply]
    refine Eq.trans ?_ (this.trans ?_)
    · rfl
    · by_cases h : j = k
      · subst h; simp
      · rw [if_neg h, if_neg (fun h' => h (Fin.ext h'))]
  · ext j k
    have h1 : ((Matrix.of fun a (k : Fin M) => v k a)ᴴ * H * Matrix.of fun a (k : Fin M) => v k a) j k
        = dotc (v j) (H.mulVec (v k)) := by
      rw [Matrix.mul_assoc, Matrix.mul_apply]
      rfl
    refine Eq.trans h1 ?_
    rw [hrec k k.isLt, dotc_add_right, dotc_add_right, dotc_smul_right, ho j k j.isLt k.isLt,
      Matrix.map_apply, tridiag]
    have hz : dotc (v j) (0 : Fin N → K) = 0 := dotc_zero_right _
    by_cases hjk : j = k
    · subst hjk
      rw [if_pos rfl, if_pos rfl]
      have a1 : dotc (v j) (if 0 < j.val then ((mLanczos p H M numvec store C).e (j.val - 1 + M * i) : K)
          • v (j.val - 1) else 0) = 0 := by
        split_ifs
        · rw [dotc_smul_right, ho j _ j.isLt (by omega), if_neg (by omega), mul_zero]
        · exact hz
      have a2 : dotc (v j) (if j.val + 1 < M then ((mLanczos p H M numvec store C).e (j.val + M * i) : K)
          • v (j.val + 1) else r) = 0 := by
        split_ifs
        · rw [dotc_smul_right, ho j _ j.isLt (by omega), if_neg (by omega), mul_zero]
        · exact hr j j.isLt
      rw [a1, a2]; ring
    · have hne : j.val ≠ k.val := fun h => hjk (Fin.ext h)
      rw [if_neg hjk, if_neg hne, mul_zero, add_zero]
      have a1 : dotc (v j) (if 0 < k.val then ((mLanczos p H M numvec store C).e (k.val - 1 + M * i) : K)
          • v (k.val - 1) else 0) =
          if k.val = j.val + 1 then ((mLanczos p H M numvec store C).e (j + M * i) : K) else 0 := by
        by_cases h : k.val = j.val + 1
        · rw [if_pos (by omega), dotc_smul_right, if_pos h, ho j _ j.isLt (by omega),
            if_pos (by omega), mul_one, show k.val - 1 = j.val by omega]
        · rw [if_neg h]
          split_ifs
          · rw [dotc_smul_right, ho j _ j.isLt (by omega), if_neg (by omega), mul_zero]
          · exact hz
      have a2 : dotc (v j) (if k.val + 1 < M then ((mLanczos p H M numvec store C).e (k.val + M * i) : K)
          • v (k.val + 1) else r) =
          if j.val = k.val + 1 then ((mLanczos p H M numvec store C).e (k + M * i) : K) else 0 := by
        by_cases h : j.val = k.val + 1
        · rw [if_pos (by omega), dotc_smul_right, if_pos h, ho j _ j.isLt (by omega),
            if_pos h, mul_one]
        · rw [if_neg h]
          split_ifs
          · rw [dotc_smul_right, ho j _ j.isLt (by omega), if_neg (by omega), mul_zero]
          · exact hr j j.isLt
      rw [a1, a2]
      by_cases h : k.val = j.val + 1
      · rw [if_pos h, if_pos h, if_neg (by omega), add_zero]
      · rw [if_neg h, if_neg h, zero_add]
        split_ifs <;> simp

/-! ### C20 -/

section ritz
variable {L : Lapack K}

/-- LAPACK returns every eigenvalue of the tridiagonal matrix. -/
theorem stemr_complete (hL : L.Ok) (M : ℕ) (d e : ℕ → ℝ) (θ : ℝ)
    (hθ : IsEigenvalue (tridiag M d e) θ) : ∃ k, k < M ∧ (L.stemr M d e).1 k = θ := by
  obtain ⟨-, ho, heq⟩ := hL.stemr M d e
  obtain ⟨y, hy0, hy⟩ := hθ
  set Z : Matrix (Fin M) (Fin M) ℝ := Matrix.of fun i k => (L.stemr M d e).2 (i + k * M) with hZ
  have hZ1 : Zᴴ * Z = 1 := by
    ext a b
    have := ho a b a.isLt b.isLt
    rw [Matrix.mul_apply, Matrix.one_apply]
    rw [← Fin.sum_univ_eq_sum_range (fun i => (L.stemr M d e).2 (i + a * M) *
      (L.stemr M d e).2 (i + b * M))] at this
    refine Eq.trans ?_ (this.trans ?_)
    · refine Finset.sum_congr rfl fun i _ => ?_
      simp [Z]
    · by_cases h : a = b
      · subst h; simp
      · rw [if_neg h, if_neg (fun h' => h (Fin.ext h'))]
  have hTZ : tridiag M d e * Z = Z * diagonal (fun k : Fin M => (((L.stemr M d e).1 k.val : ℝ) : ℝ)) := by
    ext i k
    have h1 := heq k i k.isLt i.isLt
    have h2 := tridiag_mul M d e (fun a => (L.stemr M d e).2 (a + k * M)) i
    rw [Matrix.mul_apply, Matrix.mul_diagonal]
    have h3 : ∑ j, tridiag M d e i j * Z j k = ∑ j : Fin M, tridiag M d e i j *
        (L.stemr M d e).2 (j + k * M) := rfl
    rw [h3, h2]
    refine Eq.trans h1 ?_
    rw [mul_comm]; rfl
  by_contra hcon
  push Not at hcon
  apply hy0
  have hc : ∀ k, Zᴴ.mulVec y k = 0 := by
    intro k
    have h1 := eig_coord (K := ℝ) hZ1 hTZ y k
    rw [hy, Matrix.mulVec_smul, Pi.smul_apply, smul_eq_mul] at h1
    have h2 : ((L.stemr M d e).1 k - θ) * Zᴴ.mulVec y k = 0 := by
      rw [sub_mul]
      have : ((θ : ℝ) : ℝ) * Zᴴ.mulVec y k = (L.stemr M d e).1 k * Zᴴ.mulVec y k := h1
      linarith
    rcases mul_eq_zero.mp h2 with h | h
    · exact absurd (by linarith) (hcon k k.isLt)
    · exact h
  have : Z.mulVec (Zᴴ.mulVec y) = y := by
    rw [Matrix.mulVec_mulVec, mul_eq_one_comm.mp hZ1, Matrix.one_mulVec]
  rw [← this, show Zᴴ.mulVec y = 0 from funext hc, Matrix.mulVec_zero]

theorem abs_le_max_of_between {a b x : ℝ} (h1 : a ≤ x) (h2 : x ≤ b) : |x| ≤ max |a| |b| := by
  rcases le_total 0 x with h | h
  · rw [abs_of_nonneg h]
    exact le_max_of_le_right (h2.trans (le_abs_self b))
  · rw [abs_of_nonpos h]
    exact le_max_of_le_left (by have := neg_abs_le a; linarith)

/-- **C20** One run: the bound is at least the absolute value of every eigenvalue of the tridiagonal
matrix of the run plus the last off-diagonal. -/
theorem C20_bound_single (p : ℕ → ℕ) (hL : L.Ok) (H : Matrix (Fin N) (Fin N) K) (M : ℕ) (hM : 0 < M)
    (C : ℕ → Fin N → K) (θ : ℝ)
    (hθ : IsEigenvalue (tridiag M (mLanczos p H M 1 false C).d (mLanczos p H M 1 false C).e) θ) :
    |θ| + |(mLanczos p H M 1 false C).rbeta 0| ≤ lanczosBound p L H M C := by
  obtain ⟨k, hk, rfl⟩ := stemr_complete hL M _ _ θ hθ
  obtain ⟨hm, -, -⟩ := hL.stemr M (mLanczos p H M 1 false C).d (mLanczos p H M 1 false C).e
  unfold lanczosBound
  dsimp only
  have := abs_le_max_of_between (hm 0 k (by omega) hk) (hm k (M - 1) (by omega) (by omega))
  linarith

/-- The Ritz values stored by the driver for several runs. -/
theorem multi_theta (p : ℕ → ℕ) (H : Matrix (Fin N) (Fin N) K) (M numvec : ℕ) (C : ℕ → Fin N → K)
    (i k : ℕ) (hi : i < numvec) (hk : k < M) :
    (lanczosMulti p L H M numvec C).1.theta (M * i + k) =
      (L.stemr M (fun k => (mLanczos p H M numvec true C).d (i * M + k))
        (fun k => (mLanczos p H M numvec true C).e (i * M + k))).1 k := by
  set l := mLanczos p H M numvec true C with hl
  have h := forRange_inv (Nat.zero_le numvec) (fun i (o : LanczosOut ℝ) =>
    let r := L.stemr M (fun k => l.d (i * M + k)) (fun k => l.e (i * M + k))
    { o with
      theta := writeAt o.theta (M * i) M r.1
      ritzV := r.2
      tau := forRange 0 M (fun k t =>
        Function.update t (k + i * M) (|r.2 (k * M)| * |r.2 (k * M)|)) o.tau })
    (fun n (o : LanczosOut ℝ) => ∀ i k, i < n → k < M → o.theta (M * i + k) =
      (L.stemr M (fun k => l.d (i * M + k)) (fun k => l.e (i * M + k))).1 k)
    (s := { upperb := 0, theta := fun _ => 0, tau := fun _ => 0, ritzV := fun _ => 0 })
    (fun _ _ h => absurd h (by omega)) (by
      intro n s _ hn ih i k hi hk
      dsimp only
      rw [writeAt]
      by_cases h : i = n
      · subst h
        rw [if_pos (by omega), show M * i + k - M * i = k by omega]
      · have : M * (i + 1) ≤ M * n := Nat.mul_le_mul_left M (by omega)
        rw [Nat.mul_add, Nat.mul_one] at this
        rw [if_neg (by omega)]
        exact ih i k (by omega) hk)
  exact h i k hi hk

theorem forRange_max (f : ℕ → ℝ) (u0 : ℝ) (n : ℕ) (hn : 1 ≤ n) :
    u0 ≤ forRange 1 n (fun i ub => max (f i) ub) u0 ∧
    ∀ i, 1 ≤ i → i < n → f i ≤ forRange 1 n (fun i ub => max (f i) ub) u0 := by
  refine forRange_inv hn (fun i ub => max (f i) ub)
    (fun m ub => u0 ≤ ub ∧ ∀ i, 1 ≤ i → i < m → f i ≤ ub) ⟨le_rfl, fun _ _ _ => by omega⟩ ?_
  intro m s _ _ ih
  refine ⟨ih.1.trans (le_max_right _ _), fun i h1 h2 => ?_⟩
  by_cases h : i = m
  · subst h; exact le_max_left _ _
  · exact (ih.2 i h1 (by omega)).trans (le_max_right _ _)

/-- The bound is at least the absolute value of every Ritz value stored for a run plus the last
off-diagonal of that run. -/
theorem multi_theta_bound (p : ℕ → ℕ) (hL : L.Ok) (H : Matrix (Fin N) (Fin N) K) (M numvec : ℕ)
    (C : ℕ → Fin N → K) (i k : ℕ) (hi : i < numvec) (hk : k < M) :
    |(lanczosMulti p L H M numvec C).1.theta (M * i + k)| + |(mLanczos p H M numvec true C).rbeta i| ≤
      (lanczosMulti p L H M numvec C).1.upperb := by
  have hM : 0 < M := by omega
  rw [multi_theta p H M numvec C i k hi hk]
  obtain ⟨hm, -, -⟩ := hL.stemr M (fun k => (mLanczos p H M numvec true C).d (i * M + k))
    (fun k => (mLanczos p H M numvec true C).e (i * M + k))
  have hb := abs_le_max_of_between (hm 0 k (by omega) hk) (hm k (M - 1) (by omega) (by omega))
  rw [← multi_theta p H M numvec C i 0 hi hM, ← multi_theta p H M numvec C i (M - 1) hi (by omega)] at hb
  set out := (lanczosMulti p L H M numvec C).1 with hout
  have hub : out.upperb = forRange 1 numvec (fun i ub =>
      max (max |out.theta (i * M)| |out.theta ((i + 1) * M - 1)|
        + |(mLanczos p H M numvec true C).rbeta i|) ub)
      (max |out.theta 0| |out.theta (M - 1)| + |(mLanczos p H M numvec true C).rbeta 0|) := rfl
  obtain ⟨h0, h1⟩ := forRange_max (fun i => max |out.theta (i * M)| |out.theta ((i + 1) * M - 1)|
        + |(mLanczos p H M numvec true C).rbeta i|)
      (max |out.theta 0| |out.theta (M - 1)| + |(mLanczos p H M numvec true C).rbeta 0|) numvec
      (by omega)
  rw [hub]
  rcases Nat.eq_zero_or_pos i with hi0 | hi0
  · subst hi0
    refine le_trans ?_ h0
    rw [Nat.mul_zero, Nat.zero_add, Nat.zero_add] at hb
    linarith
  · refine le_trans ?_ (h1 i hi0 hi)
    have e1 : i * M = M * i + 0 := by rw [Nat.mul_comm]; rfl
    have e2 : (i + 1) * M - 1 = M * i + (M - 1) := by
      rw [Nat.add_mul, Nat.one_mul, Nat.mul_comm i M]; omega
    have h2 : max |out.theta (i * M)| |out.theta ((i + 1) * M - 1)| =
        max |out.theta (M * i + 0)| |out.theta (M * i + (M - 1))| := by rw [e2, e1]
    show _ ≤ max |out.theta (i * M)| |out.theta ((i + 1) * M - 1)|
        + |(mLanczos p H M numvec true C).rbeta i|
    rw [h2]
    linarith

/-- **C20** Several runs: the bound is at least the absolute value of every eigenvalue of the
tridiagonal matrix of every run plus the last off-diagonal of that run. -/
theorem C20_bound_multi (p : ℕ → ℕ) (hL : L.Ok) (H : Matrix (Fin N) (Fin N) K) (M numvec : ℕ) (hM : 0 < M)
    (C : ℕ → Fin N → K) (i : ℕ) (hi : i < numvec) (θ : ℝ)
    (hθ : IsEigenvalue (tridiag M (fun k => (mLanczos p H M numvec true C).d (k + M * i))
      (fun k => (mLanczos p H M numvec true C).e (k + M * i))) θ) :
    |θ| + |(mLanczos p H M numvec true C).rbeta i| ≤ (lanczosMulti p L H M numvec C).1.upperb := by
  have hcomm : (fun k => (mLanczos p H M numvec true C).d (k + M * i)) =
      (fun k => (mLanczos p H M numvec true C).d (i * M + k)) := by
    funext k; rw [Nat.mul_comm, Nat.add_comm]
  have hcomm' : (fun k => (mLanczos p H M numvec true C).e (k + M * i)) =
      (fun k => (mLanczos p H M numvec true C).e (i * M + k)) := by
    funext k; rw [Nat.mul_comm, Nat.add_comm]
  rw [hcomm, hcomm'] at hθ
  obtain ⟨k, hk, rfl⟩ := stemr_complete hL M _ _ θ hθ
  rw [← multi_theta p H M numvec C i k hi hk]
  exact multi_theta_bound p hL H M numvec C i k hi hk

end ritz

/-- **C20** What the Ritz values mean: every eigenvalue of the tridiagonal matrix of a run has an
eigenvalue of `H` within the last off-diagonal of that run (if no off-diagonal before vanishes), so
the spectrum of `H` meets the interval `[-upperb, upperb]` near each Ritz value. -/
theorem C20_ritz_near_spectrum (p : ℕ → ℕ) (H : Matrix (Fin N) (Fin N) K) (hH : H.IsHermitian)
    (M numvec : ℕ) (hp : ∀ i, i < numvec → p i = i)
    (hM : 0 < M) (store : Bool) (C : ℕ → Fin N → K) (i : ℕ) (hi : i < numvec) (hC : C i ≠ 0)
    (he : ∀ k, k + 1 < M → (mLanczos p H M numvec store C).e (k + M * i) ≠ 0) (θ : ℝ)
    (hθ : IsEigenvalue (tridiag M (fun k => (mLanczos p H M numvec store C).d (k + M * i))
      (fun k => (mLanczos p H M numvec store C).e (k + M * i))) θ) :
    ∃ μ, IsEigenvalue H μ ∧ |μ - θ| ≤ |(mLanczos p H M numvec store C).rbeta i| := by
  obtain ⟨v, r, -, ho, hrec, hr, hrn⟩ := C21_lanczos_recurrence p H hH M numvec hp hM store C i hi hC he
  set d := fun k => (mLanczos p H M numvec store C).d (k + M * i) with hd
  set e := fun k => (mLanczos p H M numvec store C).e (k + M * i) with hedef
  obtain ⟨y, hy0, hy⟩ := hθ
  -- normalise `y`
  have hny : nrm2 y ≠ 0 := fun h => hy0 (nrm2_eq_zero.mp h)
  set z : Fin M → ℝ := ((1 / nrm2 y : ℝ) : ℝ) • y with hz
  have hzn : ∑ k, z k ^ 2 = 1 := by
    have := dotc_normalised (K := ℝ) hny
    rw [dotc_self] at this
    have h2 : ∑ k, ‖(((1 / nrm2 y : ℝ) : ℝ) • y) k‖ ^ 2 = 1 := by exact_mod_cast this
    rw [← h2]
    refine Finset.sum_congr rfl fun k _ => ?_
    rw [Real.norm_eq_abs, sq_abs]
  have hTz : ∀ k, ∑ j, tridiag M d e k j * z j = θ * z k := by
    intro k
    have h1 : (tridiag M d e).mulVec z = (θ : ℝ) • z := by
      rw [hz, Matrix.mulVec_smul, hy, smul_comm]; rfl
    exact congrFun h1 k
  set V : Matrix (Fin N) (Fin M) K := Matrix.of fun a k => v k a with hV
  have hHV : ∀ k : Fin M, H.mulVec (v k) = ∑ j : Fin M, ((tridiag M d e k j : ℝ) : K) • v j +
      (if k.val + 1 < M then 0 else r) := by
    intro k
    rw [hrec k k.isLt]
    have hs : ∑ j : Fin M, ((tridiag M d e k j : ℝ) : K) • v j =
        (if 0 < k.val then ((e (k.val - 1) : ℝ) : K) • v (k.val - 1) else 0) + ((d k : ℝ) : K) • v k +
        (if k.val + 1 < M then ((e k : ℝ) : K) • v (k.val + 1) else 0) := by
      have hsplit : ∀ j : Fin M, ((tridiag M d e k j : ℝ) : K) • v j =
          (if j.val + 1 = k.val then ((e j : ℝ) : K) • v j else 0) +
          (if j = k then ((d k : ℝ) : K) • v k else 0) +
          (if j.val = k.val + 1 then ((e k : ℝ) : K) • v j else 0) := by
        intro j
        unfold tridiag
        by_cases h1 : k = j
        · subst h1
          rw [if_pos rfl, if_pos rfl, if_neg (by omega), if_neg (by omega)]; simp
        · have hne : k.val ≠ j.val := fun h => h1 (Fin.ext h)
          rw [if_neg h1, if_neg (Ne.symm h1)]
          by_cases h2 : j.val = k.val + 1
          · rw [if_pos h2, if_pos h2, if_neg (by omega)]; simp
          · rw [if_neg h2, if_neg h2]
            by_cases h3 : k.val = j.val + 1
            · rw [if_pos h3, if_pos h3.symm]; simp
            · rw [if_neg h3, if_neg (fun h => h3 h.symm)]; simp
      rw [Finset.sum_congr rfl fun j _ => hsplit j, Finset.sum_add_distrib, Finset.sum_add_distrib]
      congr 1
      · congr 1
        · by_cases h0 : 0 < k.val
          · rw [if_pos h0, Finset.sum_eq_single ⟨k.val - 1, by omega⟩]
            · rw [if_pos (by show k.val - 1 + 1 = k.val; omega)]
            · intro b _ hb
              exact if_neg (fun h => hb (Fin.ext (by show b.val = k.val - 1; omega)))
            · intro h; exact absurd (Finset.mem_univ _) h
          · rw [if_neg h0]
            exact Finset.sum_eq_zero fun j _ => if_neg (by omega)
        · simp
      · by_cases h0 : k.val + 1 < M
        · rw [if_pos h0, Finset.sum_eq_single ⟨k.val + 1, h0⟩]
          · rw [if_pos rfl]
          · intro b _ hb
            exact if_neg (fun h => hb (Fin.ext h))
          · intro h; exact absurd (Finset.mem_univ _) h
        · rw [if_neg h0]
          exact Finset.sum_eq_zero fun j _ => if_neg (by omega)
    rw [hs]
    split_ifs <;> simp [hd, hedef]
  set x : Fin N → K := ∑ k : Fin M, ((z k : ℝ) : K) • v k with hx
  have hxn : ∑ a, ‖x a‖ ^ 2 = 1 := by
    have h1 : dotc x x = 1 := by
      rw [hx, dotc_sum_left]
      have : ∀ k : Fin M, dotc (((z k : ℝ) : K) • v k) (∑ k : Fin M, ((z k : ℝ) : K) • v k) =
          (((z k) ^ 2 : ℝ) : K) := by
        intro k
        rw [dotc_smul_left, dotc_sum_right, Finset.sum_eq_single k]
        · rw [dotc_smul_right, ho k k k.isLt k.isLt, if_pos rfl, mul_one, RCLike.star_def,
            RCLike.conj_ofReal, ← RCLike.ofReal_mul, sq]
        · intro b _ hb
          rw [dotc_smul_right, ho k b k.isLt b.isLt,
            if_neg (fun h => hb (Fin.ext h.symm)), mul_zero]
        · intro h; exact absurd (Finset.mem_univ _) h
      rw [Finset.sum_congr rfl fun k _ => this k, ← RCLike.ofReal_sum, hzn, RCLike.ofReal_one]
    rw [dotc_self] at h1
    exact_mod_cast h1
  obtain ⟨μ, hμ, hle⟩ := C28_residual_certifies_eigenvalue H hH x hxn θ
  refine ⟨μ, hμ, hle.trans ?_⟩
  have hlast : M - 1 < M := by omega
  have hres : H.mulVec x - (θ : K) • x = ((z ⟨M - 1, hlast⟩ : ℝ) : K) • r := by
    have h1 : H.mulVec x = ∑ k : Fin M, ((z k : ℝ) : K) • H.mulVec (v k) := by
      rw [hx]
      rw [Matrix.mulVec_sum]
      exact Finset.sum_congr rfl fun k _ => Matrix.mulVec_smul _ _ _
    rw [h1, Finset.sum_congr rfl fun k _ => by rw [hHV k, smul_add], Finset.sum_add_distrib]
    have h2 : ∑ k : Fin M, ((z k : ℝ) : K) • ∑ j : Fin M, ((tridiag M d e k j : ℝ) : K) • v j =
        (θ : K) • x := by
      have : ∀ k : Fin M, ((z k : ℝ) : K) • ∑ j : Fin M, ((tridiag M d e k j : ℝ) : K) • v j =
          ∑ j : Fin M, (((tridiag M d e k j * z k : ℝ)) : K) • v j := by
        intro k
        rw [Finset.smul_sum]
        refine Finset.sum_congr rfl fun j _ => ?_
        rw [smul_smul, ← RCLike.ofReal_mul, mul_comm]
      rw [Finset.sum_congr rfl fun k _ => this k, Finset.sum_comm, hx, Finset.smul_sum]
      refine Finset.sum_congr rfl fun j _ => ?_
      rw [← Finset.sum_smul, ← RCLike.ofReal_sum, smul_smul, ← RCLike.ofReal_mul, ← hTz j]
      congr 2
      refine Finset.sum_congr rfl fun k _ => ?_
      have hs := congrFun (congrFun (tridiag_isHermitian M d e) k) j
      rw [Matrix.conjTranspose_apply, star_trivial] at hs
      rw [hs]
    have h3 : ∑ k : Fin M, ((z k : ℝ) : K) • (if k.val + 1 < M then 0 else r) =
        ((z ⟨M - 1, hlast⟩ : ℝ) : K) • r := by
      rw [Finset.sum_eq_single ⟨M - 1, hlast⟩]
      · rw [if_neg (by show ¬ (M - 1 + 1 < M); omega)]
      · intro b _ hb
        have : b.val ≠ M - 1 := fun h => hb (Fin.ext h)
        rw [if_pos (by omega), smul_zero]
      · intro h; exact absurd (Finset.mem_univ _) h
    rw [h2, h3, add_sub_cancel_left]
  rw [hres]
  have hzl : |z ⟨M - 1, hlast⟩| ≤ 1 := by
    have h1 : z ⟨M - 1, hlast⟩ ^ 2 ≤ ∑ k, z k ^ 2 :=
      Finset.single_le_sum (f := fun k => z k ^ 2) (fun k _ => sq_nonneg _) (Finset.mem_univ _)
    rw [hzn] at h1
    exact abs_le_one_iff_mul_self_le_one.mpr (by rw [← sq]; exact h1)
  have hsm : nrm2 (((z ⟨M - 1, hlast⟩ : ℝ) : K) • r) = |z ⟨M - 1, hlast⟩| * nrm2 r := by
    have h1 : nrm2 (((z ⟨M - 1, hlast⟩ : ℝ) : K) • r) ^ 2 = (|z ⟨M - 1, hlast⟩| * nrm2 r) ^ 2 := by
      rw [nrm2_sq, mul_pow, nrm2_sq, Finset.mul_sum]
      refine Finset.sum_congr rfl fun a _ => ?_
      rw [Pi.smul_apply, smul_eq_mul, norm_mul, mul_pow, RCLike.norm_ofReal]
    exact (pow_left_inj₀ (nrm2_nonneg _) (mul_nonneg (abs_nonneg _) (nrm2_nonneg _))
      two_ne_zero).mp h1
  rw [hsm, ← hrn, abs_of_nonneg (nrm2_nonneg r)]
  exact mul_le_of_le_one_left (nrm2_nonneg r) hzl

end Verif
