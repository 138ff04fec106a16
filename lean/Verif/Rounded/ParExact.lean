/-
Exact arithmetic is an instance of Rounded/Par: with the kernels of Backend/Dense and Backend/Common and sums as
reductions, the distributed backend of Rounded/Par computes what Backend/Mpi computes.
-/
import Verif.Rounded.ParProof

namespace Verif
namespace Rounded
namespace Par

open Matrix
open Mpi (Layout assemble GSt MEnv)

variable {K : Type} [RCLike K] {N : ℕ} {r c : Layout N}

/-- Sums in exact arithmetic. -/
def exactRed : Red1 K ℝ r c where
  colK := fun x q => ∑ i, x i q
  rowK := fun x q => ∑ j, x j q
  colR := fun x q => ∑ i, x i q
  rowR := fun x q => ∑ j, x j q

/-- Exact kernels. -/
noncomputable def exactKern (E : MEnv K) : Kern K ℝ where
  ofBase := fun x => (x : K)
  zero := 0
  one := 1
  add := (· + ·)
  neg := fun x => -x
  differ := fun x y => open Classical in decide (‖x - y‖ > E.symTol)
  gemm := fun H α β X Y => α • (H * X) + β • Y
  gemmAdj := fun H α β X Y => α • (Hᴴ * X) + β • Y
  proj := fun X Y => Xᴴ * Y
  back := fun X Z => X * Z
  heevd := fun M => E.base.lapack.heevd M
  axpy := fun a x y => a • x + y
  scal := fun a x => a • x
  dot := dotc
  normp2 := Mpi.normp2
  nrm2sq := fun x => nrm2 x ^ 2
  sqrt := Real.sqrt
  inv := fun x => 1 / x
  re := RCLike.re
  hhqr := fun X => E.base.lapack.hhqr X
  syherk := Verif.syherk
  potrf := fun A => E.base.lapack.potrf A
  trsm := fun A V => Verif.trsm A V
  shiftGram := fun N A => shiftDiag A (cholShift (N := N) E.base.lapack A : K)
  bound := fun M d e rbeta => Mpi.boundOf E.base.lapack M
    (⟨fun _ _ => 0, fun _ _ => 0, fun _ _ => 0, d, e, rbeta, fun _ _ => 0⟩ : LSt K 0)
  multi := fun M numvec d e rbeta => Mpi.multiOf E.base.lapack M numvec
    (⟨fun _ _ => 0, fun _ _ => 0, fun _ _ => 0, d, e, rbeta, fun _ _ => 0⟩ : LSt K 0)
  above := fun x => open Classical in decide (x > E.base.condUpper)
  below := fun x => open Classical in decide (x < E.base.condLower)

/-- The run-time parameters. -/
noncomputable def exactEnv (E : MEnv K) : DEnv K ℝ where
  toParams := paramsOf E.base
  kern := exactKern E
  gen := E.gen
  probe := E.probe
  scalapack := E.scalapack
  cRuns := E.cRuns
  bRuns := E.bRuns

variable (E : MEnv K)

/-- Only the first process of a communicator contributes `β Y`. -/
theorem sum_beta {n : ℕ} (p : Fin n) (β y : K) : ∑ i : Fin n, (if i.val ≠ 0 then (0 : K) else β) * y = β * y := by
  have : 0 < n := lt_of_le_of_lt (Nat.zero_le _) p.2
  rw [Finset.sum_eq_single (⟨0, this⟩ : Fin n)]
  · simp
  · intro b _ hb
    rw [if_pos (fun h => hb (Fin.ext h)), zero_mul]
  · intro h; exact absurd (Finset.mem_univ _) h

theorem mulAdj_exact {b : ℕ} (H : Matrix (Fin N) (Fin N) K) (α β : K) (X Y : Matrix (Fin N) (Fin b) K) :
    mulAdj (exactRed (r := r) (c := c)) (exactEnv E) H α β X Y = α • (Hᴴ * X) + β • Y := by
  funext n k
  obtain ⟨p0, _, _⟩ := r.exists_glob n
  obtain ⟨j, b', rfl⟩ := c.exists_glob n
  unfold mulAdj joinM
  rw [Mpi.assemble_apply]
  show ∑ i : Fin r.procs, (α • ((cutH r c i j H)ᴴ * cutM r i X) + (if i.val ≠ 0 then (0 : K) else β) • cutM c j Y :
    Matrix (Fin (c.size j)) (Fin b) K) b' k = _
  simp only [Matrix.add_apply, Matrix.smul_apply, smul_eq_mul, Finset.sum_add_distrib]
  rw [sum_beta p0, ← Finset.mul_sum]
  simp only [mul_apply, conjTranspose_apply]
  rw [← r.sum_glob]
  rfl

theorem mul_exact {b : ℕ} (H : Matrix (Fin N) (Fin N) K) (α β : K) (X Y : Matrix (Fin N) (Fin b) K) :
    mul (exactRed (r := r) (c := c)) (exactEnv E) H α β X Y = α • (H * X) + β • Y := by
  funext n k
  obtain ⟨p0, _, _⟩ := c.exists_glob n
  obtain ⟨i, b', rfl⟩ := r.exists_glob n
  unfold mul joinM
  rw [Mpi.assemble_apply]
  show ∑ j : Fin c.procs, (α • (cutH r c i j H * cutM c j X) + (if j.val ≠ 0 then (0 : K) else β) • cutM r i Y :
    Matrix (Fin (r.size i)) (Fin b) K) b' k = _
  simp only [Matrix.add_apply, Matrix.smul_apply, smul_eq_mul, Finset.sum_add_distrib]
  rw [sum_beta p0, ← Finset.mul_sum]
  simp only [mul_apply]
  rw [← c.sum_glob]
  rfl

theorem sum_square {n b m : ℕ} (F : Fin n → Matrix (Fin m) (Fin b) K) :
    square (fun q => ∑ i, flat (F i) q) = ∑ i, F i := by
  funext a k
  rw [Matrix.sum_apply]
  rfl

theorem gram_exact (V : ℕ → Fin N → K) :
    gram (exactRed (r := r) (c := c)) (exactEnv E) V = Verif.gram E.base.nevex V :=
  (sum_square fun i : Fin r.procs => Verif.syherk (getBlk 0 E.base.nevex (cut r i V))).trans
    (Mpi.sum_syherk (X := V) (fun _ _ _ => rfl) _)

theorem trsm_exact {b : ℕ} (A : Matrix (Fin b) (Fin b) K) (V : ℕ → Fin N → K) :
    solveTri (exactEnv E) r A V = Verif.trsm A V :=
  funext fun k => Mpi.assemble_eq r fun p a => Mpi.Part.trsm (φ := r.glob p) (fun _ _ => rfl) A k a

theorem chol1_exact (V : ℕ → Fin N → K) :
    chol1 (exactRed (r := r) (c := c)) (exactEnv E) V = cholQR1c E.base.lapack E.base.nevex V := by
  unfold chol1 cholQR1c
  simp only [gram_exact, trsm_exact]
  rfl

theorem chol2_exact (V : ℕ → Fin N → K) :
    chol2 (exactRed (r := r) (c := c)) (exactEnv E) V = cholQR2c E.base.lapack E.base.nevex ⟨true, true⟩ V := by
  unfold chol2 cholQR2c
  simp only [gram_exact, trsm_exact]
  rfl

theorem shiftedChol2_exact (V : ℕ → Fin N → K) :
    shiftedChol2 (exactRed (r := r) (c := c)) (exactEnv E) V =
      shiftedcholQR2c E.base.lapack E.base.nevex ⟨true, false⟩ V := by
  unfold shiftedChol2 shiftedcholQR2c
  simp only [gram_exact, trsm_exact, true_and]
  rfl

/-! ### Lanczos -/

/-- The same coefficients, and the same vectors as far as there are runs. -/
structure LSame (n : ℕ) (l : LVec K N × LCoef ℝ) (L : LSt K N) : Prop where
  v0 : ∀ t < n, l.1.v0 t = L.v0 t
  v1 : ∀ t < n, l.1.v1 t = L.v1 t
  C : l.1.C = L.C
  d : l.2.d = L.d
  e : l.2.e = L.e
  rbeta : l.2.rbeta = L.rbeta

omit [RCLike K] in
theorem forRange_cong {α : Type*} {f g : ℕ → α → α} {lo hi : ℕ} (h : ∀ k, lo ≤ k → k < hi → ∀ a, f k a = g k a) (a : α) :
    forRange lo hi f a = forRange lo hi g a :=
  forRange_rel (lo := lo) (hi := hi) Eq f g (fun k x y h1 h2 hxy => by rw [hxy]; exact h k h1 h2 y) rfl

omit [RCLike K] in
theorem writeAt_cong {α : Type*} {x y : ℕ → α} {n : ℕ} {f g : ℕ → α} (h : ∀ t < n, f t = g t) (t : ℕ) (ht : t < n) :
    writeAt x 0 n f t = writeAt y 0 n g t := by
  unfold writeAt
  rw [if_pos ⟨Nat.zero_le _, by omega⟩, if_pos ⟨Nat.zero_le _, by omega⟩]
  exact h _ (by omega)

omit [RCLike K] in
theorem writeAt_lt {α : Type*} {x : ℕ → α} {n : ℕ} {f : ℕ → α} {t : ℕ} (ht : t < n) : writeAt x 0 n f t = f t := by
  unfold writeAt
  rw [if_pos ⟨Nat.zero_le _, by omega⟩]
  rfl

omit [RCLike K] in
theorem ext_lt {X : Type} {z : X} {n : ℕ} {x : Fin n → X} {t : ℕ} (h : t < n) : ext z x t = x ⟨t, h⟩ := dif_pos h

omit [RCLike K] in
/-- Vectors are joined from their parts. -/
theorem join_part {V : ℕ → Fin N → K} {f : ∀ p : Fin r.procs, ℕ → Fin (r.size p) → K}
    (h : ∀ p, Mpi.Part (r.glob p) (f p) V) : join r f = V :=
  funext fun k => Mpi.assemble_eq r fun p a => h p k a

omit [RCLike K] in
theorem part_cut (p : Fin r.procs) (V : ℕ → Fin N → K) : Mpi.Part (r.glob p) (cut r p V) V := fun _ _ => rfl

theorem stepW_exact (n k : ℕ) (l : LVec K N) (co : LCoef ℝ) (v2 : ℕ → Fin N → K) (na : ℕ → K) :
    (join r fun i => stepW (exactEnv E) n k (cutL r i l) co (cut r i v2) na) = stepW (exactEnv E) n k l co v2 na := by
  refine join_part fun i => ?_
  have h1 : Mpi.Part (r.glob i)
      (writeAt (cut r i v2) 0 n fun t => (exactEnv E).kern.axpy (na t) ((cutL r i l).v1 t) (cut r i v2 t))
      (writeAt v2 0 n fun t => (exactEnv E).kern.axpy (na t) (l.v1 t) (v2 t)) :=
    (part_cut i v2).writeAt 0 n fun t _ a => rfl
  unfold stepW
  split_ifs
  · refine h1.writeAt 0 n fun t _ a => ?_
    exact congrArg (fun x : K => (exactEnv E).kern.ofBase (-co.rbeta t) • l.v0 t (r.glob i a) + x) (h1 t a)
  · exact h1

theorem stepVec_exact (M n : ℕ) (store : Bool) (k : ℕ) (l : LVec K N) (w : ℕ → Fin N → K) (rb : ℕ → ℝ) :
    (joinL r fun i => stepVec (exactEnv E) M n store k (cutL r i l) (cut r i w) rb) =
      stepVec (exactEnv E) M n store k l w rb := by
  have hC : ∀ i, Mpi.Part (r.glob i)
      (if store then forRange 0 n (fun t C => Function.update C k ((cutL r i l).v1 t)) (cutL r i l).C else (cutL r i l).C)
      (if store then forRange 0 n (fun t C => Function.update C k (l.v1 t)) l.C else l.C) := by
    intro i
    split_ifs
    · exact forRange_rel (Mpi.Part (r.glob i)) _ _ (fun t _ _ _ _ hp => hp.update k fun a => rfl) (part_cut i l.C)
    · exact part_cut i l.C
  have hb : ∀ i, Mpi.Part (r.glob i)
      (writeAt (cut r i w) 0 n fun t => (exactEnv E).kern.scal ((exactEnv E).kern.ofBase ((exactEnv E).kern.inv (rb t))) (cut r i w t))
      (writeAt w 0 n fun t => (exactEnv E).kern.scal ((exactEnv E).kern.ofBase ((exactEnv E).kern.inv (rb t))) (w t)) :=
    fun i => (part_cut i w).writeAt 0 n fun t _ a => rfl
  have e0 := join_cut r l.v0
  have e1 := join_cut r l.v1
  have ew := join_cut r w
  have eb := join_part hb
  have eC := join_part hC
  by_cases hk : k = M - 1
  · unfold joinL stepVec
    simp only [if_pos hk]
    exact LVec.mk.injEq .. ▸ ⟨e0, e1, ew, eC⟩
  · unfold joinL stepVec
    simp only [if_neg hk]
    exact LVec.mk.injEq .. ▸ ⟨e1, eb, e0, eC⟩

theorem lanczosStep_exact (H : Matrix (Fin N) (Fin N) K) (M n : ℕ) (store : Bool) (k : ℕ)
    {l : LVec K N × LCoef ℝ} {L : LSt K N} (h : LSame n l L) :
    LSame n (lanczosStep (exactRed (r := r) (c := c)) (exactEnv E) H M n store k l)
      (Verif.lanczosStep axpyOwn H M n store k L) := by
  let V2 := writeAt L.v2 0 n (fun i => Hᴴ.mulVec (L.v1 i))
  let Z : Matrix (Fin N) (Fin n) K := fun _ _ => 0
  let v2 := setBlk 0 (mulAdj (exactRed (r := r) (c := c)) (exactEnv E) H 1 0 (getBlk 0 n l.1.v1) Z) l.1.v2
  have hv2 : ∀ t < n, v2 t = V2 t := by
    intro t ht
    show setBlk 0 _ l.1.v2 t = _
    rw [mulAdj_exact]
    refine Eq.trans ?_ (writeAt_lt ht).symm
    unfold setBlk
    rw [dif_pos (by omega)]
    funext a
    rw [← h.v1 t ht]
    simp [mulVec, dotProduct, mul_apply, getBlk]
  let na : ℕ → K := ext 0 (fun t : Fin n => ∑ i, -dotc (cutV r i (l.1.v1 t)) (cutV r i (v2 t)))
  have hna : ∀ t < n, na t = -dotc (L.v1 t) (V2 t) := by
    intro t ht
    show ext 0 _ t = _
    rw [ext_lt ht, Finset.sum_neg_distrib, Mpi.sum_dotc (L := r) (x := fun i => cutV r i (l.1.v1 t))
      (y := fun i => cutV r i (v2 t)) (X := l.1.v1 t) (Y := v2 t) (fun _ _ => rfl) (fun _ _ => rfl),
      hv2 t ht, h.v1 t ht]
  let W := stepW (exactEnv E) n k l.1 l.2 v2 na
  let w1 := writeAt V2 0 n (fun i => (-dotc (L.v1 i) (V2 i)) • L.v1 i + V2 i)
  let w := if k > 0 then writeAt w1 0 n (fun i => (-(L.rbeta i : K)) • L.v0 i + w1 i) else w1
  have hw1 : ∀ t < n, writeAt v2 0 n (fun t => na t • l.1.v1 t + v2 t) t = w1 t := by
    intro t ht
    refine writeAt_cong (fun t ht => ?_) t ht
    rw [hna t ht, h.v1 t ht, hv2 t ht]
  have hW : ∀ t < n, W t = w t := by
    intro t ht
    show stepW (exactEnv E) n k l.1 l.2 v2 na t = w t
    unfold stepW
    simp only [w]
    split_ifs
    · refine writeAt_cong (fun t ht => ?_) t ht
      show ((-l.2.rbeta t : ℝ) : K) • l.1.v0 t + writeAt v2 0 n (fun t => na t • l.1.v1 t + v2 t) t = _
      rw [hw1 t ht, h.v0 t ht, h.rbeta, RCLike.ofReal_neg]
    · exact hw1 t ht
  let nr : ℕ → ℝ := ext 0 (fun t : Fin n => ∑ i, nrm2 (cutV r i (W t)) ^ 2)
  have hnr : ∀ t < n, Real.sqrt (nr t) = nrm2 (w t) := by
    intro t ht
    show Real.sqrt (ext 0 _ t) = _
    rw [ext_lt ht, ← hW t ht]
    exact Mpi.sqrt_sum_nrm2 (X := W t) fun _ _ => rfl
  have hco : stepCoef (exactEnv E) M n k l.2 na nr =
      { d := forRange 0 n (fun i d => Function.update d (k + M * i) (RCLike.re (dotc (L.v1 i) (V2 i)))) L.d
        e := if k = M - 1 then L.e
          else forRange 0 n (fun i e => Function.update e (k + M * i) (writeAt L.rbeta 0 n (fun i => nrm2 (w i)) i)) L.e
        rbeta := writeAt L.rbeta 0 n (fun i => nrm2 (w i)) } := by
    have hb : writeAt l.2.rbeta 0 n (fun t => Real.sqrt (nr t)) = writeAt L.rbeta 0 n (fun i => nrm2 (w i)) := by
      rw [h.rbeta]
      exact Mpi.Spmd.writeAt_congr _ _ hnr
    unfold stepCoef
    rw [h.d, h.e]
    show LCoef.mk _ _ (writeAt l.2.rbeta 0 n (fun t => Real.sqrt (nr t))) = _
    congr 1
    · refine forRange_cong (fun t _ ht d => ?_) _
      show Function.update d _ (RCLike.re (-na t)) = _
      rw [hna t ht, neg_neg]
    · show (if _ then _ else forRange 0 n (fun t (e : ℕ → ℝ) => Function.update e (k + M * t)
        (writeAt l.2.rbeta 0 n (fun t => Real.sqrt (nr t)) t)) _) = _
      rw [hb]
  have hstep : lanczosStep (exactRed (r := r) (c := c)) (exactEnv E) H M n store k l =
      (stepVec (exactEnv E) M n store k l.1 W (stepCoef (exactEnv E) M n k l.2 na nr).rbeta,
        stepCoef (exactEnv E) M n k l.2 na nr) := by
    have hj : (join r fun i => stepW (exactEnv E) n k (cutL r i l.1) l.2 (cut r i v2) na) = W :=
      stepW_exact E n k l.1 l.2 v2 na
    have e := stepVec_exact (r := r) E M n store k l.1 W (stepCoef (exactEnv E) M n k l.2 na nr).rbeta
    have e2 : ∀ W', W' = W → (joinL r fun i => stepVec (exactEnv E) M n store k (cutL r i l.1) (cut r i W')
        (stepCoef (exactEnv E) M n k l.2 na (ext 0 (fun t : Fin n => ∑ i, nrm2 (cutV r i (W' t)) ^ 2))).rbeta,
        stepCoef (exactEnv E) M n k l.2 na (ext 0 (fun t : Fin n => ∑ i, nrm2 (cutV r i (W' t)) ^ 2))) =
      (stepVec (exactEnv E) M n store k l.1 W (stepCoef (exactEnv E) M n k l.2 na nr).rbeta,
        stepCoef (exactEnv E) M n k l.2 na nr) := by
      rintro _ rfl
      exact Prod.ext e rfl
    exact e2 _ hj
  rw [hstep, hco]
  have hCC : (if store then forRange 0 n (fun t C => Function.update C k (l.1.v1 t)) l.1.C else l.1.C) =
      if store then forRange 0 n (fun t C => Function.update C k (L.v1 t)) L.C else L.C := by
    rw [h.C]
    split_ifs
    · exact forRange_cong (fun t _ ht C => by rw [h.v1 t ht]) _
    · rfl
  have hL : Verif.lanczosStep axpyOwn H M n store k L =
      let rb := writeAt L.rbeta 0 n (fun i => nrm2 (w i))
      let d := forRange 0 n (fun i d => Function.update d (k + M * i) (RCLike.re (dotc (L.v1 i) (V2 i)))) L.d
      let C := if store then forRange 0 n (fun t C => Function.update C k (L.v1 t)) L.C else L.C
      if k = M - 1 then { L with C := C, v2 := w, d := d, rbeta := rb }
      else
        { v0 := L.v1, v1 := writeAt w 0 n (fun i => ((1 / rb i : ℝ) : K) • w i), v2 := L.v0, d := d
          e := forRange 0 n (fun i e => Function.update e (k + M * i) (rb i)) L.e, rbeta := rb, C := C } := rfl
  rw [hL]
  by_cases hk : k = M - 1
  · unfold stepVec
    simp only [if_pos hk]
    exact ⟨h.v0, h.v1, hCC, rfl, rfl, rfl⟩
  · unfold stepVec
    simp only [if_neg hk]
    refine ⟨h.v1, ?_, hCC, rfl, rfl, rfl⟩
    intro t ht
    dsimp only
    refine writeAt_cong (fun t ht => ?_) t ht
    rw [hW t ht]
    rfl

theorem mLanczos_exact (H : Matrix (Fin N) (Fin N) K) (V : ℕ → Fin N → K) (M n : ℕ) (store : Bool) :
    LSame n (mLanczos (exactRed (r := r) (c := c)) (exactEnv E) H V M n store) (Verif.mLanczos axpyOwn H M n store V) := by
  let nr : ℕ → ℝ := ext 0 (fun t : Fin n => ∑ i, nrm2 (cutV r i (V t)) ^ 2)
  have hnr : ∀ t < n, Real.sqrt (nr t) = nrm2 (V t) := by
    intro t ht
    show Real.sqrt (ext 0 _ t) = _
    rw [ext_lt ht]
    exact Mpi.sqrt_sum_nrm2 (X := V t) fun _ _ => rfl
  let start : LVec K N × LCoef ℝ :=
    (joinL r fun i => (lanczosInit (exactEnv E) n (cut r i V) nr).1, (lanczosInit (exactEnv E) n V nr).2)
  let L0 : LSt K N := { v0 := fun _ _ => 0, v1 := fun i => ((1 / nrm2 (V i) : ℝ) : K) • V i, v2 := fun _ _ => 0
                        d := fun _ => 0, e := fun _ => 0, rbeta := fun _ => 0, C := V }
  have h0 : LSame n start L0 := by
    refine ⟨?_, ?_, join_cut r V, rfl, rfl, rfl⟩
    · intro t _
      exact congrFun (join_part (r := r) (V := fun _ _ => (0 : K))
        (f := fun i => (lanczosInit (exactEnv E) n (cut r i V) nr).1.v0) fun i _ _ => rfl) t
    · intro t ht
      have hj := join_part (r := r) (V := writeAt (fun _ _ => (0 : K)) 0 n fun t => ((1 / Real.sqrt (nr t) : ℝ) : K) • V t)
        (f := fun i => (lanczosInit (exactEnv E) n (cut r i V) nr).1.v1)
        fun i => Mpi.Part.writeAt (φ := r.glob i) (x := fun _ _ => 0) (X := fun _ _ => 0)
          (y := fun t => ((1 / Real.sqrt (nr t) : ℝ) : K) • cut r i V t) (fun _ _ => rfl) 0 n fun t _ a => rfl
      refine (congrFun hj t).trans ?_
      rw [writeAt_lt ht, hnr t ht]
  have h1 := forRange_rel (lo := 0) (hi := M) (LSame n)
    (lanczosStep (exactRed (r := r) (c := c)) (exactEnv E) H M n store) (Verif.lanczosStep axpyOwn H M n store)
    (fun k l L _ _ hl => lanczosStep_exact E H M n store k hl) h0
  show LSame n (lanczosDone n store (forRange 0 M _ start))
    (if store then { forRange 0 M _ L0 with C := copyCols 0 n _ _ } else _)
  unfold lanczosDone
  cases store
  · exact h1
  · refine ⟨h1.v0, h1.v1, ?_, h1.d, h1.e, h1.rbeta⟩
    show copyCols 0 n _ _ = copyCols 0 n _ _
    rw [h1.C]
    refine Mpi.Spmd.writeAt_congr _ _ fun t ht => ?_
    rw [Nat.zero_add]
    exact h1.v1 t ht

/-! ### The backend -/

theorem symCheck_exact (H : Matrix (Fin N) (Fin N) K) :
    symCheckG (exactRed (r := r) (c := c)) (exactEnv E) H = open Classical in
      decide (∀ a, ‖Hᴴ.mulVec (E.glob r).probe a - H.mulVec (E.glob r).probe a‖ ≤ E.symTol) := by
  unfold symCheckG
  dsimp only
  congr 1
  refine propext (forall_congr' fun n => ?_)
  have h1 := mulAdj_exact (r := r) (c := c) E H 1 0 (one (E.glob r).probe) (one fun _ => 0)
  have h2 := mul_exact (r := r) (c := c) E H 1 0 (one (E.glob r).probe) (one fun _ => 0)
  have e1 := congrFun (congrFun h1 n) 0
  have e2 := congrFun (congrFun h2 n) 0
  refine Iff.trans (b := ¬ ‖_ - _‖ > E.symTol) (not_congr decide_eq_true_iff) ?_
  refine Iff.trans (b := ¬ ‖(mulAdj (exactRed (r := r) (c := c)) (exactEnv E) H 1 0 (one (E.glob r).probe) (one fun _ => 0)) n 0 - 
    (mul (exactRed (r := r) (c := c)) (exactEnv E) H 1 0 (one (E.glob r).probe) (one fun _ => 0)) n 0‖ > E.symTol) Iff.rfl ?_
  rw [e1, e2, not_lt]
  simp [mulVec, dotProduct, mul_apply, one]

/-- The exact arithmetic that the processes make up. -/
theorem distArith_exact : distArith (exactRed (r := r) (c := c)) (exactEnv E) = { exactArith E.base with
    randn := (E.glob r).rnd
    symCheck := fun H => open Classical in
      decide (∀ a, ‖Hᴴ.mulVec (E.glob r).probe a - H.mulVec (E.glob r).probe a‖ ≤ E.symTol)
    cholQR2 := cholQR2c E.base.lapack E.base.nevex ⟨true, true⟩
    shiftedcholQR2 := shiftedcholQR2c E.base.lapack E.base.nevex ⟨true, false⟩ } := by
  unfold distArith exactArith
  congr 1
  · funext H; exact symCheck_exact E H
  · funext b adj H α β X Y
    cases adj
    · exact mul_exact E H α β X Y
    · exact mulAdj_exact E H α β X Y
  · funext b X Y
    refine (sum_square fun j : Fin c.procs => (cutM c j X)ᴴ * cutM c j Y).trans ?_
    funext k l
    rw [Matrix.sum_apply]
    simp only [mul_apply, conjTranspose_apply]
    rw [← c.sum_glob]
    rfl
  · funext b b' X Z n k
    obtain ⟨i, a, rfl⟩ := r.exists_glob n
    exact Mpi.assemble_apply r (fun i a => (cutM r i X * Z) a k) i a
  · funext a x y
    exact Mpi.assemble_eq c fun _ _ => rfl
  · funext x
    exact congrArg Real.sqrt (Mpi.sum_normp2 (L := c) (X := x) fun _ _ => rfl)
  · exact funext fun V => chol1_exact E V
  · exact funext fun V => chol2_exact E V
  · exact funext fun V => shiftedChol2_exact E V
  · funext m H V
    have h := mLanczos_exact (r := r) (c := c) E H V m 1 false
    show Mpi.boundOf _ _ _ = lanczosBound _ _ _ _ _
    unfold Mpi.boundOf lanczosBound
    rw [h.d, h.e, h.rbeta]
  · funext m n H V
    have h := mLanczos_exact (r := r) (c := c) E H V m n true
    refine Prod.ext ?_ h.C
    show Mpi.multiOf _ _ _ _ = (lanczosMulti _ _ _ _ _ _).1
    unfold Mpi.multiOf lanczosMulti
    rw [h.d, h.e, h.rbeta]

/-- **With exact kernels and sums the processes compute what Backend/Mpi says**, state by state. -/
theorem exact_gOps : gOps (exactRed (r := r) (c := c)) (exactEnv E) = Mpi.gOps (E.glob r) := by
  have hA := distArith_exact (r := r) (c := c) E
  have hg : asynCxHGatherC (distArith (exactRed (r := r) (c := c)) (exactEnv E)) = Seq.asynCxHGatherC := by
    rw [hA]
    funext l b s
    unfold asynCxHGatherC Seq.asynCxHGatherC exactArith
    simp
  have hr : ∀ block l s, rr (distArith (exactRed (r := r) (c := c)) (exactEnv E)) 0 block l s =
      Seq.rr (E.glob r).base block l s := by
    intro block l s
    unfold rr Seq.rr
    rw [hg, hA]
    rfl
  have hs : ∀ f l u s, gResd (exactRed (r := r) (c := c)) (exactEnv E) f l u s = Seq.resd f l u s := by
    intro f l u s
    rw [Mpi.seq_resd_eq]
    unfold gResd
    dsimp only
    rw [hg]
    generalize Seq.asynCxHGatherC l u s = s1
    have hx : ∀ t, (distArith (exactRed (r := r) (c := c)) (exactEnv E)).axpy
        ((distArith (exactRed (r := r) (c := c)) (exactEnv E)).ofBase (-f t)) (s1.B2 (l + t)) (s1.B (l + t)) =
        (-(f t : K)) • s1.B2 (l + t) + s1.B (l + t) := by
      intro t
      rw [hA]
      show ((-f t : ℝ) : K) • _ + _ = _
      rw [RCLike.ofReal_neg]
    simp only [hx]
    refine Prod.ext ?_ ?_
    · funext t
      dsimp only [ext]
      split_ifs with ht
      · exact congrArg Real.sqrt (Mpi.sum_normp2 (L := c) (X := (-(f t : K)) • s1.B2 (l + t) + s1.B (l + t)) fun _ _ => rfl)
      · rfl
    · show ({ s1 with B := writeAt s1.B l u _ } : Seq.St K N) = { s1 with B := _ }
      congr 1
      funext k
      unfold writeAt
      split_ifs with hk
      · dsimp only
        rw [Nat.add_sub_cancel' hk.1]
      · rfl
  unfold gOps Mpi.gOps
  congr 1
  · funext g
    rw [symCheck_exact]
    rfl
  · have hq : ∀ l, gQrRoutines (exactRed (r := r) (c := c)) (exactEnv E) l = Mpi.gQrRoutines (E.glob r) l := by
      intro l
      unfold gQrRoutines Mpi.gQrRoutines
      simp only [chol1_exact, chol2_exact, shiftedChol2_exact, hA]
      rfl
    funext k cond g
    rw [hq]
    rfl
  · funext m g; rw [hA]; rfl
  · funext m n g; rw [hA]; rfl
  · funext i m z g; rw [hA]; rfl
  · funext b α β o g; rw [hA]; rfl
  · funext b g; rw [hr]
  · funext f k g; rw [hs]; rfl

end Par
end Rounded
end Verif
