/-
C98: the operations of the backends commute with a change of the basis.  For a unitary matrix `Q` the matrix
`H` becomes `Q H Q^*` and every vector `v` becomes `Q v`.
-/
import Verif.Backend.SeqProof
import Verif.Backend.MpiSpec
import Verif.Base.Exchange

namespace Verif

open Matrix

variable {K : Type*} [RCLike K] {N : ℕ}

/-- The columns in the new basis. -/
def rotV (Q : Matrix (Fin N) (Fin N) K) (X : ℕ → Fin N → K) : ℕ → Fin N → K := fun k => Q *ᵥ X k

/-- The matrix in the new basis. -/
def rotM (Q H : Matrix (Fin N) (Fin N) K) : Matrix (Fin N) (Fin N) K := Q * H * Qᴴ

section Blocks
variable (Q : Matrix (Fin N) (Fin N) K)

theorem getBlk_rot (off n : ℕ) (X : ℕ → Fin N → K) : getBlk off n (rotV Q X) = Q * getBlk off n X := rfl

theorem setBlk_rot (off : ℕ) {n : ℕ} (M : Matrix (Fin N) (Fin n) K) (X : ℕ → Fin N → K) :
    setBlk off (Q * M) (rotV Q X) = rotV Q (setBlk off M X) := by
  funext j
  simp only [setBlk, rotV]
  split_ifs <;> rfl

theorem writeAt_rot (off len : ℕ) (X Y : ℕ → Fin N → K) :
    writeAt (rotV Q X) off len (rotV Q Y) = rotV Q (writeAt X off len Y) := by
  funext j
  simp only [writeAt, rotV]
  split_ifs <;> rfl

theorem copyCols_rot (off len : ℕ) (X Y : ℕ → Fin N → K) :
    copyCols off len (rotV Q X) (rotV Q Y) = rotV Q (copyCols off len X Y) :=
  writeAt_rot Q off len Y fun k => X (off + k)

theorem update_rot (X : ℕ → Fin N → K) (k : ℕ) (v : Fin N → K) :
    Function.update (rotV Q X) k (Q *ᵥ v) = rotV Q (Function.update X k v) := by
  funext j
  unfold rotV
  by_cases h : j = k
  · subst h; rw [Function.update_self, Function.update_self]
  · rw [Function.update_of_ne h, Function.update_of_ne h]

theorem swapAt_rot (X : ℕ → Fin N → K) (i j : ℕ) : swapAt (rotV Q X) i j = rotV Q (swapAt X i j) := by
  rw [swapAt_eq_comp, swapAt_eq_comp]
  rfl

end Blocks

section Unitary
variable {Q : Matrix (Fin N) (Fin N) K} (hQ : Qᴴ * Q = 1)
include hQ

theorem rotV_back (X : ℕ → Fin N → K) : rotV Qᴴ (rotV Q X) = X := by
  funext k
  show Qᴴ *ᵥ (Q *ᵥ X k) = X k
  rw [mulVec_mulVec, hQ, one_mulVec]

theorem rotM_back (H : Matrix (Fin N) (Fin N) K) : rotM Qᴴ (rotM Q H) = H := by
  unfold rotM
  rw [conjTranspose_conjTranspose]
  calc Qᴴ * (Q * H * Qᴴ) * Q = (Qᴴ * Q) * H * (Qᴴ * Q) := by simp only [Matrix.mul_assoc]
    _ = H := by rw [hQ, Matrix.one_mul, Matrix.mul_one]

theorem unitary_right : Q * Qᴴ = 1 := mul_eq_one_comm.mp hQ

theorem unitary_star : Qᴴᴴ * Qᴴ = 1 := by rw [conjTranspose_conjTranspose]; exact unitary_right hQ

theorem gram_mul {n m : ℕ} (V : Matrix (Fin N) (Fin n) K) (W : Matrix (Fin N) (Fin m) K) :
    (Q * V)ᴴ * (Q * W) = Vᴴ * W := by
  rw [conjTranspose_mul, Matrix.mul_assoc, ← Matrix.mul_assoc Qᴴ, hQ, Matrix.one_mul]

theorem dotc_rot (x y : Fin N → K) : dotc (Q *ᵥ x) (Q *ᵥ y) = dotc x y := by
  have e : ∀ u v : Fin N → K, dotc u v = star u ⬝ᵥ v := fun _ _ => rfl
  rw [e, e, star_mulVec, dotProduct_mulVec, vecMul_vecMul, hQ, vecMul_one]

theorem nrm2_rot (x : Fin N → K) : nrm2 (Q *ᵥ x) = nrm2 x := by
  have e : ∀ v : Fin N → K, ((∑ i, ‖v i‖ ^ 2 : ℝ) : K) = dotc v v := by
    intro v
    rw [dotc, RCLike.ofReal_sum]
    refine Finset.sum_congr rfl fun i _ => ?_
    rw [RCLike.ofReal_pow]
    exact (RCLike.conj_mul (v i)).symm
  unfold nrm2
  have h : ((∑ i, ‖(Q *ᵥ x) i‖ ^ 2 : ℝ) : K) = ((∑ i, ‖x i‖ ^ 2 : ℝ) : K) := by
    rw [e, e, dotc_rot hQ]
  rw [RCLike.ofReal_injective h]

theorem rotM_conj_mul {n : ℕ} (H : Matrix (Fin N) (Fin N) K) (V : Matrix (Fin N) (Fin n) K) :
    (rotM Q H)ᴴ * (Q * V) = Q * (Hᴴ * V) := by
  unfold rotM
  rw [conjTranspose_mul, conjTranspose_mul, conjTranspose_conjTranspose]
  calc Q * (Hᴴ * Qᴴ) * (Q * V) = Q * Hᴴ * (Qᴴ * Q) * V := by simp only [Matrix.mul_assoc]
    _ = Q * (Hᴴ * V) := by rw [hQ, Matrix.mul_one, Matrix.mul_assoc]

theorem rotM_mul {n : ℕ} (H : Matrix (Fin N) (Fin N) K) (V : Matrix (Fin N) (Fin n) K) :
    rotM Q H * (Q * V) = Q * (H * V) := by
  unfold rotM
  calc Q * H * Qᴴ * (Q * V) = Q * H * (Qᴴ * Q) * V := by simp only [Matrix.mul_assoc]
    _ = Q * (H * V) := by rw [hQ, Matrix.mul_one, Matrix.mul_assoc]

theorem rotM_mulVec (H : Matrix (Fin N) (Fin N) K) (v : Fin N → K) : rotM Q H *ᵥ (Q *ᵥ v) = Q *ᵥ (H *ᵥ v) := by
  unfold rotM
  rw [mulVec_mulVec, mulVec_mulVec, Matrix.mul_assoc, hQ, Matrix.mul_one]

theorem rotM_conj_mulVec (H : Matrix (Fin N) (Fin N) K) (v : Fin N → K) :
    (rotM Q H)ᴴ *ᵥ (Q *ᵥ v) = Q *ᵥ (Hᴴ *ᵥ v) := by
  have e : (rotM Q H)ᴴ = rotM Q Hᴴ := by
    unfold rotM
    rw [conjTranspose_mul, conjTranspose_mul, conjTranspose_conjTranspose, Matrix.mul_assoc]
  rw [e, rotM_mulVec hQ]

theorem shiftH_rot (c : K) (H : Matrix (Fin N) (Fin N) K) : shiftH c (rotM Q H) = rotM Q (shiftH c H) := by
  rw [shiftH_eq, shiftH_eq]
  unfold rotM
  rw [Matrix.mul_add, Matrix.add_mul, Matrix.mul_smul, Matrix.mul_one, Matrix.smul_mul, unitary_right hQ]

theorem mulVec_injective : Function.Injective (Q.mulVec) := fun x y h => by
  have := congrArg (Qᴴ *ᵥ ·) h
  simpa only [mulVec_mulVec, hQ, one_mulVec] using this

end Unitary

/-! ### Orthogonalisation -/

section QR
variable {Q : Matrix (Fin N) (Fin N) K}

omit [RCLike K] in
theorem forRange_eq {α β : Type*} {lo hi : ℕ} (f : α → β) (b : ℕ → α → α) (b' : ℕ → β → β)
    (h : ∀ i a, lo ≤ i → i < hi → b' i (f a) = f (b i a)) (a : α) :
    forRange lo hi b' (f a) = f (forRange lo hi b a) := by
  refine forRange_rel (fun (x : β) (y : α) => x = f y) b' b (fun i x y h1 h2 hxy => ?_) rfl
  rw [hxy]
  exact h i y h1 h2

theorem trsm_rot {n : ℕ} (A : Matrix (Fin n) (Fin n) K) (V : ℕ → Fin N → K) :
    trsm A (rotV Q V) = rotV Q (trsm A V) := by
  unfold trsm
  refine forRange_eq (rotV Q) _ _ (fun j X _ _ => ?_) V
  rw [← update_rot]
  congr 1
  unfold rotV
  rw [mulVec_smul, mulVec_sub, mulVec_sum]
  congr 2
  exact Finset.sum_congr rfl fun k _ => (mulVec_smul _ _ _).symm

variable (hQ : Qᴴ * Q = 1) (L : Lapack K) (n : ℕ)
include hQ

theorem gram_rot (C : ℕ → Fin N → K) : gram n (rotV Q C) = gram n C := by
  unfold gram syherk
  rw [getBlk_rot, gram_mul hQ]

theorem cholQR1c_rot (C : ℕ → Fin N → K) :
    cholQR1c L n (rotV Q C) = ((cholQR1c L n C).1, rotV Q (cholQR1c L n C).2) := by
  unfold cholQR1c
  rw [gram_rot hQ]
  dsimp only
  split_ifs
  · rfl
  · rw [trsm_rot]

theorem cholQR2c_rot (v : CholVariant) (C : ℕ → Fin N → K) :
    cholQR2c L n v (rotV Q C) = ((cholQR2c L n v C).1, rotV Q (cholQR2c L n v C).2) := by
  unfold cholQR2c
  simp only [gram_rot hQ, trsm_rot]
  split_ifs <;> rfl

theorem shiftedcholQR2c_rot (v : CholVariant) (C : ℕ → Fin N → K) :
    shiftedcholQR2c L n v (rotV Q C) = ((shiftedcholQR2c L n v C).1, rotV Q (shiftedcholQR2c L n v C).2) := by
  unfold shiftedcholQR2c
  simp only [gram_rot hQ, trsm_rot]
  split_ifs <;> rfl

end QR

/-! ### Lanczos -/

section Lanczos
variable {Q : Matrix (Fin N) (Fin N) K}

/-- The variables of the Lanczos runs in the new basis. -/
def LSt.rot (Q : Matrix (Fin N) (Fin N) K) (l : LSt K N) : LSt K N :=
  { l with v0 := rotV Q l.v0, v1 := rotV Q l.v1, v2 := rotV Q l.v2, C := rotV Q l.C }

variable (hQ : Qᴴ * Q = 1)
include hQ

theorem lanczosStep_rot (pick : ℕ → ℕ) (H : Matrix (Fin N) (Fin N) K) (M numvec : ℕ) (store : Bool) (k : ℕ)
    (l : LSt K N) :
    lanczosStep pick (rotM Q H) M numvec store k (l.rot Q) = (lanczosStep pick H M numvec store k l).rot Q := by
  have eC : (if store then forRange 0 numvec (fun i C => Function.update C k ((l.rot Q).v1 i)) (l.rot Q).C
      else (l.rot Q).C) = rotV Q (if store then forRange 0 numvec (fun i C => Function.update C k (l.v1 i)) l.C
      else l.C) := by
    split_ifs
    · exact forRange_eq (rotV Q) _ _ (fun i X _ _ => update_rot Q X k (l.v1 i)) l.C
    · rfl
  have ev : writeAt (l.rot Q).v2 0 numvec (fun i => (rotM Q H)ᴴ.mulVec ((l.rot Q).v1 i)) =
      rotV Q (writeAt l.v2 0 numvec (fun i => Hᴴ.mulVec (l.v1 i))) := by
    rw [← writeAt_rot]
    congr 1
    funext i
    exact rotM_conj_mulVec hQ H (l.v1 i)
  have ed : ∀ X : ℕ → Fin N → K, ∀ i, dotc ((l.rot Q).v1 i) (rotV Q X i) = dotc (l.v1 i) (X i) :=
    fun X i => dotc_rot hQ _ _
  have ea : ∀ (a : ℕ → K) (X Y : ℕ → Fin N → K), writeAt (rotV Q X) 0 numvec
      (fun i => a i • rotV Q Y i + rotV Q X i) = rotV Q (writeAt X 0 numvec fun i => a i • Y i + X i) := by
    intro a X Y
    rw [← writeAt_rot]
    congr 1
    funext i
    unfold rotV
    rw [mulVec_add, mulVec_smul]
  have es : ∀ (a : ℕ → K) (X : ℕ → Fin N → K), writeAt (rotV Q X) 0 numvec
      (fun i => a i • rotV Q X i) = rotV Q (writeAt X 0 numvec fun i => a i • X i) := by
    intro a X
    rw [← writeAt_rot]
    congr 1
    funext i
    unfold rotV
    rw [mulVec_smul]
  have en : ∀ (X : ℕ → Fin N → K) i, nrm2 (rotV Q X i) = nrm2 (X i) := fun X i => nrm2_rot hQ _
  unfold lanczosStep
  rw [eC, ev]
  dsimp only
  simp only [ed]
  generalize writeAt l.v2 0 numvec (fun i => Hᴴ.mulVec (l.v1 i)) = X
  generalize (if store = true then forRange 0 numvec (fun i C => Function.update C k (l.v1 i)) l.C else l.C) = C
  have e1 := ea (fun i => -dotc (l.v1 (pick i)) (X (pick i))) X l.v1
  rw [show (l.rot Q).v1 = rotV Q l.v1 from rfl, show (l.rot Q).v0 = rotV Q l.v0 from rfl,
    show (l.rot Q).d = l.d from rfl, show (l.rot Q).e = l.e from rfl,
    show (l.rot Q).rbeta = l.rbeta from rfl, e1]
  generalize (writeAt X 0 numvec fun i => -dotc (l.v1 (pick i)) (X (pick i)) • l.v1 i + X i) = W
  have e2 : (if k > 0 then writeAt (rotV Q W) 0 numvec
      (fun i => (-(l.rbeta (pick i) : K)) • rotV Q l.v0 i + rotV Q W i) else rotV Q W) =
      rotV Q (if k > 0 then writeAt W 0 numvec (fun i => (-(l.rbeta (pick i) : K)) • l.v0 i + W i) else W) := by
    split_ifs
    · exact ea (fun i => -(l.rbeta (pick i) : K)) W l.v0
    · rfl
  rw [e2]
  generalize (if k > 0 then writeAt W 0 numvec (fun i => (-(l.rbeta (pick i) : K)) • l.v0 i + W i) else W) = Z
  simp only [en]
  split_ifs
  · rfl
  · rw [es]
    rfl

theorem mLanczos_rot (pick : ℕ → ℕ) (H : Matrix (Fin N) (Fin N) K) (M numvec : ℕ) (store : Bool)
    (C : ℕ → Fin N → K) :
    mLanczos pick (rotM Q H) M numvec store (rotV Q C) = (mLanczos pick H M numvec store C).rot Q := by
  have e0 : (⟨fun _ _ => 0, fun i => ((1 / nrm2 (rotV Q C i) : ℝ) : K) • rotV Q C i, fun _ _ => 0, fun _ => 0,
      fun _ => 0, fun _ => 0, rotV Q C⟩ : LSt K N) =
      LSt.rot Q ⟨fun _ _ => 0, fun i => ((1 / nrm2 (C i) : ℝ) : K) • C i, fun _ _ => 0, fun _ => 0,
      fun _ => 0, fun _ => 0, C⟩ := by
    unfold LSt.rot
    congr 1
    · funext k
      exact (mulVec_zero Q).symm
    · funext k
      unfold rotV
      rw [nrm2_rot hQ, mulVec_smul]
    · funext k
      exact (mulVec_zero Q).symm
  unfold mLanczos
  dsimp only
  rw [e0, forRange_eq (LSt.rot Q) (lanczosStep pick H M numvec store) _
    (fun k l _ _ => lanczosStep_rot hQ pick H M numvec store k l)]
  split_ifs
  · unfold LSt.rot
    dsimp only
    rw [copyCols_rot]
  · rfl

theorem lanczosBound_rot (pick : ℕ → ℕ) (L : Lapack K) (H : Matrix (Fin N) (Fin N) K) (M : ℕ)
    (C : ℕ → Fin N → K) : lanczosBound pick L (rotM Q H) M (rotV Q C) = lanczosBound pick L H M C := by
  unfold lanczosBound
  rw [mLanczos_rot hQ]
  rfl

theorem lanczosMulti_rot (pick : ℕ → ℕ) (L : Lapack K) (H : Matrix (Fin N) (Fin N) K) (M numvec : ℕ)
    (C : ℕ → Fin N → K) : lanczosMulti pick L (rotM Q H) M numvec (rotV Q C) =
      ((lanczosMulti pick L H M numvec C).1, rotV Q (lanczosMulti pick L H M numvec C).2) := by
  unfold lanczosMulti
  rw [mLanczos_rot hQ]
  rfl

end Lanczos

/-! ### The state of the sequential backend -/

namespace Seq

/-- The state in the new basis. -/
def St.rot (Q : Matrix (Fin N) (Fin N) K) (s : St K N) : St K N :=
  { s with H := rotM Q s.H, C := rotV Q s.C, B := rotV Q s.B, C2 := rotV Q s.C2, B2 := rotV Q s.B2 }

variable {Q : Matrix (Fin N) (Fin N) K} (hQ : Qᴴ * Q = 1)
include hQ

theorem rot_back (s : St K N) : (s.rot Q).rot Qᴴ = s := by
  unfold St.rot
  simp only [rotM_back hQ, rotV_back hQ]

theorem apply_rot (α β : K) (offset block locked : ℕ) (s : St K N) :
    apply α β offset block locked (s.rot Q) = (apply α β offset block locked s).rot Q := by
  have e : ∀ (X Y : Matrix (Fin N) (Fin block) K), α • (Q * X) + β • (Q * Y) = Q * (α • X + β • Y) := by
    intro X Y
    rw [Matrix.mul_add, Matrix.mul_smul, Matrix.mul_smul]
  unfold apply
  rw [show (s.rot Q).next = s.next from rfl]
  cases s.next
  · show ({ s.rot Q with C := _, next := _ } : St K N) = _
    rw [show (s.rot Q).H = rotM Q s.H from rfl, show (s.rot Q).C = rotV Q s.C from rfl,
      show (s.rot Q).B = rotV Q s.B from rfl, getBlk_rot, getBlk_rot, rotM_mul hQ, e, setBlk_rot]
    rfl
  · show ({ s.rot Q with B := _, next := _ } : St K N) = _
    rw [show (s.rot Q).H = rotM Q s.H from rfl, show (s.rot Q).C = rotV Q s.C from rfl,
      show (s.rot Q).B = rotV Q s.B from rfl, getBlk_rot, getBlk_rot, rotM_conj_mul hQ, e, setBlk_rot]
    rfl

theorem gather_rot (locked block : ℕ) (s : St K N) :
    asynCxHGatherC locked block (s.rot Q) = (asynCxHGatherC locked block s).rot Q := by
  unfold asynCxHGatherC
  rw [show (s.rot Q).H = rotM Q s.H from rfl, show (s.rot Q).C = rotV Q s.C from rfl,
    show (s.rot Q).B = rotV Q s.B from rfl, show (s.rot Q).B2 = rotV Q s.B2 from rfl,
    show (s.rot Q).C2 = rotV Q s.C2 from rfl, getBlk_rot, rotM_conj_mul hQ, setBlk_rot, copyCols_rot]
  rfl

theorem rr_rot (E : Env K) (block locked : ℕ) (s : St K N) :
    rr E block locked (s.rot Q) = ((rr E block locked s).1, (rr E block locked s).2.rot Q) := by
  unfold rr
  rw [gather_rot hQ]
  generalize asynCxHGatherC locked block s = t
  dsimp only
  rw [show (t.rot Q).C = rotV Q t.C from rfl,
    show (t.rot Q).B = rotV Q t.B from rfl, show (t.rot Q).B2 = rotV Q t.B2 from rfl,
    show (t.rot Q).C2 = rotV Q t.C2 from rfl, getBlk_rot, getBlk_rot, getBlk_rot, gram_mul hQ,
    Matrix.mul_assoc, setBlk_rot, copyCols_rot]
  rfl

theorem resd_rot (ritzv : ℕ → ℝ) (locked unconverged : ℕ) (s : St K N) :
    resd ritzv locked unconverged (s.rot Q) =
      ((resd ritzv locked unconverged s).1, (resd ritzv locked unconverged s).2.rot Q) := by
  unfold resd
  rw [gather_rot hQ]
  generalize asynCxHGatherC locked unconverged s = t
  refine forRange_eq (fun p : (ℕ → ℝ) × St K N => (p.1, p.2.rot Q)) _ _ (fun i p _ _ => ?_) (fun _ => 0, t)
  have e : Function.update (p.2.rot Q).B (locked + i)
      ((-(ritzv i : K)) • (p.2.rot Q).B2 (locked + i) + (p.2.rot Q).B (locked + i)) =
      rotV Q (Function.update p.2.B (locked + i)
        ((-(ritzv i : K)) • p.2.B2 (locked + i) + p.2.B (locked + i))) := by
    rw [← update_rot, mulVec_add, mulVec_smul]
    rfl
  dsimp only
  rw [e]
  congr 1
  congr 1
  exact nrm2_rot hQ _

omit hQ in
theorem lockVectorCopy_rot (E : Env K) (locked : ℕ) (s : St K N) :
    lockVectorCopy E locked (s.rot Q) = (lockVectorCopy E locked s).rot Q := by
  unfold lockVectorCopy
  rw [show (s.rot Q).C = rotV Q s.C from rfl, show (s.rot Q).C2 = rotV Q s.C2 from rfl]
  dsimp only
  rw [copyCols_rot, copyCols_rot]
  rfl

omit hQ in
theorem swap_rot (i j : ℕ) (s : St K N) : swap i j (s.rot Q) = (swap i j s).rot Q := by
  unfold swap
  rw [show (s.rot Q).C = rotV Q s.C from rfl, show (s.rot Q).C2 = rotV Q s.C2 from rfl, swapAt_rot, swapAt_rot]
  rfl

omit hQ in
theorem lanczosDos_rot (idx m : ℕ) (z : ℕ → ℝ) (s : St K N) :
    lanczosDos idx m z (s.rot Q) = (lanczosDos idx m z s).rot Q := by
  have h : ∀ Z : Matrix (Fin m) (Fin idx) K,
      ({ s.rot Q with
        C2 := setBlk 0 (getBlk 0 m (s.rot Q).C * Z) (s.rot Q).C2
        C := copyCols 0 m (setBlk 0 (getBlk 0 m (s.rot Q).C * Z) (s.rot Q).C2) (s.rot Q).C } : St K N) =
      St.rot Q { s with
        C2 := setBlk 0 (getBlk 0 m s.C * Z) s.C2
        C := copyCols 0 m (setBlk 0 (getBlk 0 m s.C * Z) s.C2) s.C } := by
    intro Z
    rw [show (s.rot Q).C = rotV Q s.C from rfl, show (s.rot Q).C2 = rotV Q s.C2 from rfl, getBlk_rot,
      Matrix.mul_assoc, setBlk_rot, copyCols_rot]
    rfl
  exact h _

end Seq
end Verif
