/-
The divisions of `mLanczos`: the kernel with every divisor checked, and when it succeeds (C67).
-/
import Verif.Backend.LanczosProof
import Verif.Backend.CholProof
import Verif.Backend.SubspaceLin

open Polynomial Matrix

namespace Verif

variable {K : Type*} [RCLike K] {N : ℕ}

open Classical in
/-- One step of `mLanczos` (seq 489-547, inplace 464-524, cuda_seq 834-896; the same recurrence on
distributed vectors in chase_mpidla.hpp 1421-1499) that
fails when a quotient `1 / r_beta[i]` with `r_beta[i] = 0` is used to scale a vector.  The quotient is also
formed in the last step (seq 533-536, before the `break`), where it is not used: there nothing is checked. -/
noncomputable def lanczosStepChk (pick : ℕ → ℕ) (H : Matrix (Fin N) (Fin N) K) (M numvec : ℕ)
    (store : Bool) (k : ℕ) (l : LSt K N) : Except Err (LSt K N) :=
  let l' := lanczosStep pick H M numvec store k l
  if k ≠ M - 1 ∧ ∃ i, i < numvec ∧ l'.rbeta i = 0 then .error .divZero else .ok l'

open Classical in
/-- `mLanczos` (as `Verif.mLanczos`) with the divisors checked: the norms of the start vectors
(seq 479-487, inplace 454-462, cuda_seq 824-832, chase_mpidla.hpp 1403-1419) and the off-diagonal entries. -/
noncomputable def mLanczosChk (pick : ℕ → ℕ) (H : Matrix (Fin N) (Fin N) K) (M numvec : ℕ) (store : Bool)
    (C : ℕ → Fin N → K) : Except Err (LSt K N) :=
  if ∃ i, i < numvec ∧ nrm2 (C i) = 0 then .error .divZero else do
  let v1 : ℕ → Fin N → K := fun i => ((1 / nrm2 (C i) : ℝ) : K) • C i
  let l ← forRangeM 0 M (lanczosStepChk pick H M numvec store)
    { v0 := fun _ _ => 0, v1 := v1, v2 := fun _ _ => 0, d := fun _ => 0, e := fun _ => 0,
      rbeta := fun _ => 0, C := C }
  .ok (if store then { l with C := copyCols 0 numvec l.v1 l.C } else l)

/-- The vectors `x, H x, H² x, ...`. -/
noncomputable def krylov (H : Matrix (Fin N) (Fin N) K) (x : Fin N → K) (k : ℕ) : Fin N → K :=
  (H ^ k).mulVec x

theorem krylov_succ (H : Matrix (Fin N) (Fin N) K) (x : Fin N → K) (k : ℕ) :
    H.mulVec (krylov H x k) = krylov H x (k + 1) := by
  unfold krylov
  rw [Matrix.mulVec_mulVec, pow_succ']

/-- A space spanned by leading vectors is mapped into one with one more if each vector is. -/
theorem prefixSpan_map {n m : ℕ} {H : Matrix (Fin N) (Fin N) K} {X Y : ℕ → Fin N → K}
    (h : ∀ j, j < n → H.mulVec (X j) ∈ prefixSpan m Y) {x : Fin N → K} (hx : x ∈ prefixSpan n X) :
    H.mulVec x ∈ prefixSpan m Y := by
  unfold prefixSpan at hx
  induction hx using Submodule.span_induction with
  | mem y hy => obtain ⟨j, hj, rfl⟩ := hy; exact h j hj
  | zero => rw [Matrix.mulVec_zero]; exact Submodule.zero_mem _
  | add y z _ _ hy hz => rw [Matrix.mulVec_add]; exact Submodule.add_mem _ hy hz
  | smul c y _ hy => rw [Matrix.mulVec_smul]; exact Submodule.smul_mem _ _ hy

section
variable {H : Matrix (Fin N) (Fin N) K} {x : Fin N → K}

/-- As long as no off-diagonal vanishes, the Lanczos vectors span the Krylov spaces. -/
theorem lz_krylov (hH : H.IsHermitian) (hx : x ≠ 0) (n : ℕ) (hb : ∀ k, k < n → lzB H x k ≠ 0) :
    ∀ m, m ≤ n + 1 → prefixSpan m (krylov H x) = prefixSpan m (lzV H x) := by
  have ho : ∀ m, m ≤ n + 1 → OrthoOn m (lzV H x) := fun m hm i j hi hj =>
    (lz_ortho hH hx n hb).1 i j (by omega) (by omega)
  intro m
  induction m using Nat.strong_induction_on with
  | _ m ih =>
    intro hm
    refine prefixSpan_eq_of_le (ho m hm).linearIndependent (prefixSpan_le fun j hj => ?_)
    match j with
    | 0 =>
      rw [lzV_zero]
      refine Submodule.smul_mem _ _ ?_
      have : krylov H x 0 = x := by unfold krylov; rw [pow_zero, Matrix.one_mulVec]
      have h0 : krylov H x 0 ∈ prefixSpan m (krylov H x) := mem_prefixSpan hj
      rwa [this] at h0
    | j + 1 =>
      have hmem : ∀ i, i ≤ j → lzV H x i ∈ prefixSpan m (krylov H x) := by
        intro i hi
        have : lzV H x i ∈ prefixSpan (j + 1) (lzV H x) := mem_prefixSpan (by omega)
        rw [← ih (j + 1) hj (by omega)] at this
        exact prefixSpan_mono (by omega) this
      have hmul : Hᴴ.mulVec (lzV H x j) ∈ prefixSpan m (krylov H x) := by
        rw [hH.eq]
        have : lzV H x j ∈ prefixSpan (j + 1) (krylov H x) := by
          rw [ih (j + 1) hj (by omega)]; exact mem_prefixSpan (by omega)
        refine prefixSpan_map (fun i hi => ?_) this
        rw [krylov_succ]
        exact mem_prefixSpan (by omega)
      rw [lzV_succ]
      refine Submodule.smul_mem _ _ ?_
      match j with
      | 0 =>
        rw [lzR_zero]
        exact Submodule.sub_mem _ hmul (Submodule.smul_mem _ _ (hmem 0 le_rfl))
      | j + 1 =>
        rw [lzR_succ]
        exact Submodule.sub_mem _ (Submodule.sub_mem _ hmul (Submodule.smul_mem _ _ (hmem _ le_rfl)))
          (Submodule.smul_mem _ _ (hmem _ (by omega)))

/-- The divisors of a run are nonzero exactly when the first `M` Krylov vectors are independent. -/
theorem lz_divisors_iff (hH : H.IsHermitian) (M : ℕ) (hM : 0 < M) :
    (x ≠ 0 ∧ ∀ k, k + 1 < M → lzB H x k ≠ 0) ↔ LinearIndependent K (fun k : Fin M => krylov H x k) := by
  constructor
  · rintro ⟨hx, hb⟩
    have h := lz_krylov hH hx (M - 1) (fun k hk => hb k (by omega)) M (by omega)
    have ho : OrthoOn M (lzV H x) := fun i j hi hj =>
      (lz_ortho hH hx (M - 1) (fun k hk => hb k (by omega))).1 i j (by omega) (by omega)
    exact linearIndependent_of_span_eq ho.linearIndependent h
  · intro hli
    have hx : x ≠ 0 := by
      have := hli.ne_zero ⟨0, hM⟩
      unfold krylov at this
      rwa [pow_zero, Matrix.one_mulVec] at this
    refine ⟨hx, fun k => ?_⟩
    induction k using Nat.strong_induction_on with
    | _ k ih =>
      intro hk h0
      have hb : ∀ i, i < k → lzB H x i ≠ 0 := fun i hi => ih i hi (by omega)
      have hs := lz_krylov hH hx k hb
      have hR : lzR H x k = 0 := nrm2_eq_zero.mp h0
      -- the remainder vanishes: the space is invariant
      have hinv : ∀ j, j < k + 1 → H.mulVec (lzV H x j) ∈ prefixSpan (k + 1) (lzV H x) := by
        intro j hj
        have hr : lzR H x j ∈ prefixSpan (k + 1) (lzV H x) := by
          rcases Nat.lt_or_ge j k with hjk | hjk
          · rw [lzR_eq_smul H x (hb j hjk)]
            exact Submodule.smul_mem _ _ (mem_prefixSpan (by omega))
          · obtain rfl : j = k := by omega
            rw [hR]; exact Submodule.zero_mem _
        have hv : lzV H x j ∈ prefixSpan (k + 1) (lzV H x) := mem_prefixSpan hj
        match j with
        | 0 =>
          have e : H.mulVec (lzV H x 0) = lzR H x 0 + lzA H x 0 • lzV H x 0 := by
            rw [lzR_zero, hH.eq]; abel
          rw [e]
          exact Submodule.add_mem _ hr (Submodule.smul_mem _ _ hv)
        | j + 1 =>
          have e : H.mulVec (lzV H x (j + 1)) = lzR H x (j + 1) + lzA H x (j + 1) • lzV H x (j + 1)
              + (lzB H x j : K) • lzV H x j := by
            rw [lzR_succ, hH.eq]; abel
          rw [e]
          exact Submodule.add_mem _ (Submodule.add_mem _ hr (Submodule.smul_mem _ _ hv))
            (Submodule.smul_mem _ _ (mem_prefixSpan (by omega)))
      have hk1 : krylov H x (k + 1) ∈ prefixSpan (k + 1) (krylov H x) := by
        rw [hs (k + 1) le_rfl, ← krylov_succ]
        refine prefixSpan_map hinv ?_
        rw [← hs (k + 1) le_rfl]
        exact mem_prefixSpan (by omega)
      refine hli.notMem_span_image (s := {i : Fin M | i.val < k + 1}) (x := ⟨k + 1, hk⟩) (by simp) ?_
      have himg : (fun i : Fin M => krylov H x i) '' {i : Fin M | i.val < k + 1} =
          krylov H x '' {j | j < k + 1} := by
        ext y
        constructor
        · rintro ⟨i, hi, rfl⟩; exact ⟨i, hi, rfl⟩
        · rintro ⟨j, hj, rfl⟩; exact ⟨⟨j, by simp at hj; omega⟩, hj, rfl⟩
      rw [himg]
      exact hk1

end

/-! ### The checked kernel -/

theorem chk_loop {p : ℕ → ℕ} {H : Matrix (Fin N) (Fin N) K} {M numvec : ℕ} {store : Bool}
    {C : ℕ → Fin N → K} (hp : ∀ i, i < numvec → p i = i) (hM : 0 < M) {l0 : LSt K N}
    (h0 : LzInv H M numvec store C 0 l0) :
    ((∀ i, i < numvec → ∀ k, k + 1 < M → lzB H (C i) k ≠ 0) →
      forRangeM 0 M (lanczosStepChk p H M numvec store) l0 =
        .ok (forRange 0 M (lanczosStep p H M numvec store) l0)) ∧
    ((∃ i, i < numvec ∧ ∃ k, k + 1 < M ∧ lzB H (C i) k = 0) →
      forRangeM 0 M (lanczosStepChk p H M numvec store) l0 = .error .divZero) := by
  obtain ⟨m, rfl⟩ : ∃ m, M = m + 1 := ⟨M - 1, by omega⟩
  have hstep : ∀ k l, LzInv H (m + 1) numvec store C k l → k + 1 < m + 1 → ∀ i, i < numvec →
      (lanczosStep p H (m + 1) numvec store k l).rbeta i = lzB H (C i) k := by
    intro k l hl hk i hi
    exact (lzInv_step hl hp hk).rb i hi
  have hinv : ∀ n, n ≤ m → LzInv H (m + 1) numvec store C n
      (forRange 0 n (lanczosStep p H (m + 1) numvec store) l0) := by
    intro n hn
    exact forRange_inv (Nat.zero_le n) (lanczosStep p H (m + 1) numvec store)
      (LzInv H (m + 1) numvec store C) h0 (fun i s _ hi hs => lzInv_step hs hp (by omega))
  have hlast : ∀ l, lanczosStepChk p H (m + 1) numvec store m l =
      .ok (lanczosStep p H (m + 1) numvec store m l) := by
    intro l
    unfold lanczosStepChk
    rw [if_neg (fun h => h.1 rfl)]
  have key : ∀ n, n ≤ m →
      ((∀ i, i < numvec → ∀ k, k < n → lzB H (C i) k ≠ 0) →
        forRangeM 0 n (lanczosStepChk p H (m + 1) numvec store) l0 =
          .ok (forRange 0 n (lanczosStep p H (m + 1) numvec store) l0)) ∧
      ((∃ i, i < numvec ∧ ∃ k, k < n ∧ lzB H (C i) k = 0) →
        forRangeM 0 n (lanczosStepChk p H (m + 1) numvec store) l0 = .error .divZero) := by
    intro n
    induction n with
    | zero =>
      intro _
      refine ⟨fun _ => ?_, ?_⟩
      · rw [forRangeM_of_le le_rfl, forRange_self]
      · rintro ⟨i, -, k, hk, -⟩; omega
    | succ n ih =>
      intro hn
      obtain ⟨ih1, ih2⟩ := ih (by omega)
      rw [forRangeM_succ (Nat.zero_le n), forRange_succ (Nat.zero_le n)]
      have hl := hinv n (by omega)
      refine ⟨fun hb => ?_, ?_⟩
      · rw [ih1 fun i hi k hk => hb i hi k (by omega)]
        show lanczosStepChk p H (m + 1) numvec store n _ = _
        unfold lanczosStepChk
        rw [if_neg]
        rintro ⟨-, i, hi, h⟩
        rw [hstep n _ hl (by omega) i hi] at h
        exact hb i hi n (by omega) h
      · intro hex
        by_cases hc : ∃ i, i < numvec ∧ ∃ k, k < n ∧ lzB H (C i) k = 0
        · rw [ih2 hc]; rfl
        · have hok := ih1 fun i hi k hk h => hc ⟨i, hi, k, hk, h⟩
          rw [hok]
          show lanczosStepChk p H (m + 1) numvec store n _ = _
          obtain ⟨i, hi, k, hk, h⟩ := hex
          have hkn : k = n := by
            by_contra hne
            exact hc ⟨i, hi, k, by omega, h⟩
          subst hkn
          unfold lanczosStepChk
          rw [if_pos ⟨by omega, i, hi, (hstep k _ hl (by omega) i hi).trans h⟩]
  obtain ⟨k1, k2⟩ := key m le_rfl
  rw [forRangeM_succ (Nat.zero_le m), forRange_succ (Nat.zero_le m)]
  refine ⟨fun hb => ?_, ?_⟩
  · rw [k1 fun i hi k hk => hb i hi k (by omega)]
    exact hlast _
  · rintro ⟨i, hi, k, hk, h⟩
    rw [k2 ⟨i, hi, k, by omega, h⟩]; rfl

open Classical in
/-- **C67** The Lanczos process of a batch of start columns divides by nothing that is zero exactly when for
each of the columns `x` the vectors `x, H x, ..., H^(M-1) x` are independent, and otherwise divides by zero. -/
theorem C67_lanczos_partial (p : ℕ → ℕ) (H : Matrix (Fin N) (Fin N) K) (hH : H.IsHermitian) (M numvec : ℕ)
    (hp : ∀ i, i < numvec → p i = i) (hM : 0 < M) (store : Bool) (C : ℕ → Fin N → K) :
    mLanczosChk p H M numvec store C =
      if ∀ i, i < numvec → LinearIndependent K (fun k : Fin M => (H ^ (k : ℕ)).mulVec (C i))
      then .ok (mLanczos p H M numvec store C) else .error .divZero := by
  have hinit : LzInv H M numvec store C 0 ⟨fun _ _ => 0, fun i => ((1 / nrm2 (C i) : ℝ) : K) • C i,
      fun _ _ => 0, fun _ => 0, fun _ => 0, fun _ => 0, C⟩ :=
    ⟨fun _ _ => rfl, fun _ _ => rfl, fun _ _ => rfl, fun _ _ _ h => absurd h (by omega),
      fun _ _ _ h => absurd h (by omega), fun _ _ _ _ _ => rfl, fun _ _ _ h => absurd h (by omega),
      fun _ _ _ => rfl, fun _ => rfl⟩
  obtain ⟨k1, k2⟩ := chk_loop hp hM hinit
  unfold mLanczosChk
  by_cases h : ∀ i, i < numvec → LinearIndependent K (fun k : Fin M => (H ^ (k : ℕ)).mulVec (C i))
  · have h' : ∀ i, i < numvec → C i ≠ 0 ∧ ∀ k, k + 1 < M → lzB H (C i) k ≠ 0 := fun i hi =>
      (lz_divisors_iff hH M hM).mpr (h i hi)
    rw [if_pos h, if_neg (by rintro ⟨i, hi, h0⟩; exact (h' i hi).1 (nrm2_eq_zero.mp h0))]
    dsimp only
    rw [k1 fun i hi => (h' i hi).2]
    rfl
  · rw [if_neg h]
    by_cases h0 : ∃ i, i < numvec ∧ nrm2 (C i) = 0
    · rw [if_pos h0]
    · rw [if_neg h0]
      dsimp only
      push Not at h
      obtain ⟨i, hi, hd⟩ := h
      have hx : C i ≠ 0 := fun hx => h0 ⟨i, hi, nrm2_eq_zero.mpr hx⟩
      have : ¬ (C i ≠ 0 ∧ ∀ k, k + 1 < M → lzB H (C i) k ≠ 0) := fun hh =>
        hd ((lz_divisors_iff hH M hM).mp hh)
      push Not at this
      obtain ⟨k, hk, hb⟩ := this hx
      rw [k2 ⟨i, hi, k, hk, hb⟩]
      rfl

/-- **C67, refutation 1.**  A start column that is an eigenvector: with two or more steps the Lanczos process
divides by zero.  In approximation mode the first start column is the caller's. -/
theorem C67_eigenvector_refuted (p : ℕ → ℕ) (H : Matrix (Fin N) (Fin N) K) (hH : H.IsHermitian)
    (M numvec : ℕ) (hp : ∀ i, i < numvec → p i = i) (hM : 2 ≤ M) (store : Bool) (C : ℕ → Fin N → K)
    (i : ℕ) (hi : i < numvec) (μ : ℝ) (hμ : H.mulVec (C i) = (μ : K) • C i) :
    mLanczosChk p H M numvec store C = .error .divZero := by
  rw [C67_lanczos_partial p H hH M numvec hp (by omega), if_neg]
  intro h
  have := Fintype.linearIndependent_iff.mp (h i hi)
    (fun k => if k.val = 0 then -(μ : K) else if k.val = 1 then 1 else 0) ?_ ⟨1, by omega⟩
  · simp at this
  · obtain ⟨m, rfl⟩ : ∃ m, M = m + 2 := ⟨M - 2, by omega⟩
    rw [Fin.sum_univ_succ, Fin.sum_univ_succ]
    simp [hμ]

/-- **C67, refutation 2.**  A matrix with fewer than `M` distinct eigenvalues, such as a multiple of the
identity with `M = 2`: the Lanczos process divides by zero from every start columns. -/
theorem C67_few_eigenvalues_refuted (p : ℕ → ℕ) (H : Matrix (Fin N) (Fin N) K) (hH : H.IsHermitian)
    (M numvec : ℕ) (hp : ∀ i, i < numvec → p i = i) (hn : 0 < numvec) (store : Bool) (C : ℕ → Fin N → K)
    (S : Finset ℝ) (hS : ∀ μ, IsEigenvalue H μ → μ ∈ S) (hM : S.card < M) :
    mLanczosChk p H M numvec store C = .error .divZero := by
  rw [C67_lanczos_partial p H hH M numvec hp (by omega), if_neg]
  intro h
  set q : ℝ[X] := ∏ μ ∈ S, (X - Polynomial.C μ) with hq
  have hmon : q.Monic := monic_prod_of_monic _ _ fun μ _ => monic_X_sub_C μ
  have hdeg : q.natDegree = S.card := by
    rw [hq, natDegree_prod_of_monic _ _ fun μ _ => monic_X_sub_C μ]
    simp
  have hzero : (aeval H q).mulVec (C 0) = 0 := by
    obtain ⟨w, Z, hZ, hHZ, -⟩ := exists_eig H hH
    have h0 : Zᴴ.mulVec ((aeval H q).mulVec (C 0)) = 0 := by
      funext i
      rw [eig_coord_aeval hZ hHZ hH]
      have : q.eval (w i) = 0 := by
        rw [hq, eval_prod]
        exact Finset.prod_eq_zero (hS _ (eig_isEigenvalue hZ hHZ i)) (by simp)
      rw [this]; simp
    have h2 : Z * Zᴴ = 1 := mul_eq_one_comm.mp hZ
    rw [← Matrix.one_mulVec ((aeval H q).mulVec (C 0)), ← h2, ← Matrix.mulVec_mulVec, h0,
      Matrix.mulVec_zero]
  have := Fintype.linearIndependent_iff.mp (h 0 hn) (fun k => ((q.coeff k : ℝ) : K)) ?_ ⟨S.card, hM⟩
  · have h1 : q.coeff S.card = 1 := by rw [← hdeg]; exact hmon
    simp [h1] at this
  · rw [aeval_eq_sum_range' (n := M) (by omega), Finset.sum_range, Matrix.sum_mulVec] at hzero
    rw [← hzero]
    refine Finset.sum_congr rfl fun k _ => ?_
    rw [Matrix.smul_mulVec]
    exact (RCLike.real_smul_eq_coe_smul (K := K) _ _).symm

end Verif
