/-
C99: the operations of the sequential backend on real data are the same with real and with complex scalars.
-/
import Verif.Backend.BasisProps

namespace Verif

open Matrix

variable (K : Type*) [RCLike K] {N : ℕ}

/-- Real vectors as vectors over `K`. -/
def cV (X : ℕ → Fin N → ℝ) : ℕ → Fin N → K := fun k i => (X k i : K)

/-- A real matrix as a matrix over `K`. -/
def cM {m n : ℕ} (A : Matrix (Fin m) (Fin n) ℝ) : Matrix (Fin m) (Fin n) K := fun i j => (A i j : K)

variable {K}

section Algebra
variable {m n p : ℕ}

theorem cM_mul (A : Matrix (Fin m) (Fin n) ℝ) (B : Matrix (Fin n) (Fin p) ℝ) : cM K (A * B) = cM K A * cM K B := by
  funext i j
  simp [cM, Matrix.mul_apply]

theorem cM_conj (A : Matrix (Fin m) (Fin n) ℝ) : cM K Aᴴ = (cM K A)ᴴ := by
  funext i j
  simp [cM, Matrix.conjTranspose_apply]

theorem cM_add (A B : Matrix (Fin m) (Fin n) ℝ) : cM K (A + B) = cM K A + cM K B := by
  funext i j
  simp [cM]

theorem cM_smul (a : ℝ) (A : Matrix (Fin m) (Fin n) ℝ) : cM K (a • A) = (a : K) • cM K A := by
  funext i j
  simp [cM]

theorem cM_one : cM K (1 : Matrix (Fin n) (Fin n) ℝ) = 1 := by
  funext i j
  by_cases h : i = j
  · subst h; simp [cM]
  · simp [cM, Matrix.one_apply_ne h]

theorem cM_triu (A : Matrix (Fin n) (Fin n) ℝ) : cM K (triu A) = triu (cM K A) := by
  funext i j
  simp only [cM, triu]
  split_ifs <;> simp

theorem cM_injective : Function.Injective (cM K : Matrix (Fin m) (Fin n) ℝ → _) := by
  intro A B h
  funext i j
  exact RCLike.ofReal_injective (congrFun (congrFun h i) j)

theorem cM_diagonal (w : Fin n → ℝ) : cM K (diagonal w) = diagonal fun i => (w i : K) := by
  funext i j
  by_cases h : i = j
  · subst h; simp [cM]
  · simp [cM, Matrix.diagonal_apply_ne _ h]

theorem cM_mulVec (A : Matrix (Fin m) (Fin n) ℝ) (v : Fin n → ℝ) :
    cM K A *ᵥ (fun i => (v i : K)) = fun i => ((A *ᵥ v) i : K) := by
  funext i
  simp [cM, Matrix.mulVec, dotProduct]

theorem getBlk_c (off n : ℕ) (X : ℕ → Fin N → ℝ) : getBlk off n (cV K X) = cM K (getBlk off n X) := rfl

theorem setBlk_c (off : ℕ) {n : ℕ} (M : Matrix (Fin N) (Fin n) ℝ) (X : ℕ → Fin N → ℝ) :
    setBlk off (cM K M) (cV K X) = cV K (setBlk off M X) := by
  funext j i
  simp only [setBlk, cV]
  split_ifs <;> rfl

theorem writeAt_c (off len : ℕ) (X Y : ℕ → Fin N → ℝ) :
    writeAt (cV K X) off len (cV K Y) = cV K (writeAt X off len Y) := by
  funext j i
  simp only [writeAt, cV]
  split_ifs <;> rfl

theorem copyCols_c (off len : ℕ) (X Y : ℕ → Fin N → ℝ) :
    copyCols off len (cV K X) (cV K Y) = cV K (copyCols off len X Y) :=
  writeAt_c off len Y fun k => X (off + k)

theorem update_c (X : ℕ → Fin N → ℝ) (k : ℕ) (v : Fin N → ℝ) :
    Function.update (cV K X) k (fun i => (v i : K)) = cV K (Function.update X k v) := by
  funext j i
  unfold cV
  by_cases h : j = k
  · subst h; rw [Function.update_self, Function.update_self]
  · rw [Function.update_of_ne h, Function.update_of_ne h]

theorem swapAt_c (X : ℕ → Fin N → ℝ) (i j : ℕ) : swapAt (cV K X) i j = cV K (swapAt X i j) := by
  rw [swapAt_eq_comp, swapAt_eq_comp]
  rfl

theorem dotc_c (x y : Fin N → ℝ) : dotc (fun i => (x i : K)) (fun i => (y i : K)) = ((dotc x y : ℝ) : K) := by
  simp [dotc]

theorem nrm2_c (x : Fin N → ℝ) : nrm2 (fun i => (x i : K)) = nrm2 x := by
  simp [nrm2]

theorem shiftH_c (c : ℝ) (H : Matrix (Fin N) (Fin N) ℝ) : shiftH (c : K) (cM K H) = cM K (shiftH c H) := by
  rw [shiftH_eq, shiftH_eq, cM_add, cM_smul, cM_one]

theorem ent_c (A : Matrix (Fin n) (Fin n) ℝ) (i j : ℕ) : ent (cM K A) i j = ((ent A i j : ℝ) : K) := by
  unfold ent cM
  split_ifs <;> simp

theorem trsm_c (A : Matrix (Fin n) (Fin n) ℝ) (V : ℕ → Fin N → ℝ) : trsm (cM K A) (cV K V) = cV K (trsm A V) := by
  unfold trsm
  refine forRange_eq (cV K) _ _ (fun j X _ _ => ?_) V
  rw [← update_c]
  congr 1
  funext i
  simp [ent_c, cV]

theorem gram_c (n : ℕ) (C : ℕ → Fin N → ℝ) : gram n (cV K C) = cM K (gram n C) := by
  unfold gram syherk
  rw [getBlk_c, cM_mul, cM_conj]

end Algebra

/-- The LAPACK for `K` does with real matrices what the LAPACK for real numbers does. -/
structure Lapack.Extends (L' : Lapack K) (L : Lapack ℝ) : Prop where
  potrf : ∀ {n : ℕ} (A : Matrix (Fin n) (Fin n) ℝ), L'.potrf (cM K A) = ((L.potrf A).1, cM K (L.potrf A).2)
  hhqr : ∀ {m n : ℕ} (V : Matrix (Fin m) (Fin n) ℝ), L'.hhqr (cM K V) = cM K (L.hhqr V)
  heevd : ∀ {n : ℕ} (A : Matrix (Fin n) (Fin n) ℝ), L'.heevd (cM K A) = ((L.heevd A).1, cM K (L.heevd A).2)
  stemr : L'.stemr = L.stemr
  eps : L'.eps = L.eps

section QR
variable {L' : Lapack K} {L : Lapack ℝ} (hL : L'.Extends L) (n : ℕ)
include hL

theorem cholQR1c_c (C : ℕ → Fin N → ℝ) :
    cholQR1c L' n (cV K C) = ((cholQR1c L n C).1, cV K (cholQR1c L n C).2) := by
  unfold cholQR1c
  rw [gram_c, hL.potrf]
  dsimp only
  split_ifs
  · rfl
  · rw [trsm_c]

theorem cholQR2c_c (v : CholVariant) (C : ℕ → Fin N → ℝ) :
    cholQR2c L' n v (cV K C) = ((cholQR2c L n v C).1, cV K (cholQR2c L n v C).2) := by
  unfold cholQR2c
  simp only [gram_c, hL.potrf, trsm_c]
  split_ifs <;> rfl

theorem shiftDiag_c (A : Matrix (Fin n) (Fin n) ℝ) :
    shiftDiag (cM K A) ((cholShift (N := N) L' (cM K A) : ℝ) : K) =
      cM K (shiftDiag A (RCLike.ofReal (cholShift (N := N) L A) : ℝ)) := by
  have e : cholShift (N := N) L' (cM K A) = cholShift (N := N) L A := by
    unfold cholShift cM
    rw [hL.eps]
    simp
  rw [e]
  funext i j
  simp only [shiftDiag, cM]
  split_ifs <;> simp

theorem shiftedcholQR2c_c (v : CholVariant) (C : ℕ → Fin N → ℝ) :
    shiftedcholQR2c L' n v (cV K C) = ((shiftedcholQR2c L n v C).1, cV K (shiftedcholQR2c L n v C).2) := by
  unfold shiftedcholQR2c
  simp only [gram_c, shiftDiag_c hL, hL.potrf, trsm_c]
  split_ifs <;> rfl

theorem hhQRc_c (C : ℕ → Fin N → ℝ) : hhQRc L' n (cV K C) = cV K (hhQRc L n C) := by
  unfold hhQRc
  rw [getBlk_c, hL.hhqr, setBlk_c]

end QR

/-! ### Lanczos -/

/-- The variables of the Lanczos runs over `K`. -/
def LSt.c (K : Type*) [RCLike K] (l : LSt ℝ N) : LSt K N :=
  { v0 := cV K l.v0, v1 := cV K l.v1, v2 := cV K l.v2, d := l.d, e := l.e, rbeta := l.rbeta, C := cV K l.C }

theorem lanczosStep_c (pick : ℕ → ℕ) (H : Matrix (Fin N) (Fin N) ℝ) (M numvec : ℕ) (store : Bool) (k : ℕ)
    (l : LSt ℝ N) :
    lanczosStep pick (cM K H) M numvec store k (l.c K) = (lanczosStep pick H M numvec store k l).c K := by
  have eC : (if store then forRange 0 numvec (fun i C => Function.update C k ((l.c K).v1 i)) (l.c K).C
      else (l.c K).C) = cV K (if store then forRange 0 numvec (fun i C => Function.update C k (l.v1 i)) l.C
      else l.C) := by
    split_ifs
    · exact forRange_eq (cV K) _ _ (fun i X _ _ => update_c X k (l.v1 i)) l.C
    · rfl
  have ev : writeAt (l.c K).v2 0 numvec (fun i => (cM K H)ᴴ.mulVec ((l.c K).v1 i)) =
      cV K (writeAt l.v2 0 numvec (fun i => Hᴴ.mulVec (l.v1 i))) := by
    rw [← writeAt_c]
    congr 1
    funext i
    rw [← cM_conj]
    exact cM_mulVec Hᴴ (l.v1 i)
  have ed : ∀ X : ℕ → Fin N → ℝ, ∀ i, dotc ((l.c K).v1 i) (cV K X i) = ((dotc (l.v1 i) (X i) : ℝ) : K) :=
    fun X i => dotc_c _ _
  have ea : ∀ (a : ℕ → ℝ) (X Y : ℕ → Fin N → ℝ), writeAt (cV K X) 0 numvec
      (fun i => (-((a i : ℝ) : K)) • cV K Y i + cV K X i) = cV K (writeAt X 0 numvec fun i => (-a i) • Y i + X i) := by
    intro a X Y
    rw [← writeAt_c]
    congr 1
    funext i j
    simp [cV]
  have es : ∀ (a : ℕ → ℝ) (X : ℕ → Fin N → ℝ), writeAt (cV K X) 0 numvec
      (fun i => ((a i : ℝ) : K) • cV K X i) = cV K (writeAt X 0 numvec fun i => a i • X i) := by
    intro a X
    rw [← writeAt_c]
    congr 1
    funext i j
    simp [cV]
  have en : ∀ (X : ℕ → Fin N → ℝ) i, nrm2 (cV K X i) = nrm2 (X i) := fun X i => nrm2_c _
  unfold lanczosStep
  rw [eC, ev]
  dsimp only
  simp only [ed, RCLike.ofReal_re]
  generalize writeAt l.v2 0 numvec (fun i => Hᴴ.mulVec (l.v1 i)) = X
  generalize (if store = true then forRange 0 numvec (fun i C => Function.update C k (l.v1 i)) l.C else l.C) = C
  have e1 := ea (fun i => dotc (l.v1 (pick i)) (X (pick i))) X l.v1
  rw [show (l.c K).v1 = cV K l.v1 from rfl, show (l.c K).v0 = cV K l.v0 from rfl,
    show (l.c K).d = l.d from rfl, show (l.c K).e = l.e from rfl,
    show (l.c K).rbeta = l.rbeta from rfl, e1]
  generalize (writeAt X 0 numvec fun i => -dotc (l.v1 (pick i)) (X (pick i)) • l.v1 i + X i) = W
  have e2 : (if k > 0 then writeAt (cV K W) 0 numvec
      (fun i => (-(l.rbeta (pick i) : K)) • cV K l.v0 i + cV K W i) else cV K W) =
      cV K (if k > 0 then writeAt W 0 numvec (fun i => (-((l.rbeta (pick i) : ℝ) : ℝ)) • l.v0 i + W i) else W) := by
    split_ifs
    · exact ea (fun i => l.rbeta (pick i)) W l.v0
    · rfl
  rw [e2]
  generalize (if k > 0 then writeAt W 0 numvec (fun i => (-((l.rbeta (pick i) : ℝ) : ℝ)) • l.v0 i + W i) else W) = Z
  simp only [en]
  split_ifs
  · rfl
  · rw [es]
    rfl

theorem mLanczos_c (pick : ℕ → ℕ) (H : Matrix (Fin N) (Fin N) ℝ) (M numvec : ℕ) (store : Bool)
    (C : ℕ → Fin N → ℝ) :
    mLanczos pick (cM K H) M numvec store (cV K C) = (mLanczos pick H M numvec store C).c K := by
  have e0 : (⟨fun _ _ => 0, fun i => ((1 / nrm2 (cV K C i) : ℝ) : K) • cV K C i, fun _ _ => 0, fun _ => 0,
      fun _ => 0, fun _ => 0, cV K C⟩ : LSt K N) =
      LSt.c K ⟨fun _ _ => 0, fun i => (RCLike.ofReal (1 / nrm2 (C i)) : ℝ) • C i, fun _ _ => 0, fun _ => 0,
      fun _ => 0, fun _ => 0, C⟩ := by
    unfold LSt.c
    congr 1
    · funext k i
      simp [cV]
    · funext k i
      rw [show nrm2 (cV K C k) = nrm2 (C k) from nrm2_c _]
      simp [cV]
    · funext k i
      simp [cV]
  unfold mLanczos
  dsimp only
  rw [e0, forRange_eq (LSt.c K) (lanczosStep pick H M numvec store) _
    (fun k l _ _ => lanczosStep_c pick H M numvec store k l)]
  split_ifs
  · unfold LSt.c
    dsimp only
    rw [copyCols_c]
  · rfl

theorem lanczosBound_c {L' : Lapack K} {L : Lapack ℝ} (hL : L'.Extends L) (pick : ℕ → ℕ)
    (H : Matrix (Fin N) (Fin N) ℝ) (M : ℕ) (C : ℕ → Fin N → ℝ) :
    lanczosBound pick L' (cM K H) M (cV K C) = lanczosBound pick L H M C := by
  unfold lanczosBound
  rw [mLanczos_c, hL.stemr]
  rfl

theorem lanczosMulti_c {L' : Lapack K} {L : Lapack ℝ} (hL : L'.Extends L) (pick : ℕ → ℕ)
    (H : Matrix (Fin N) (Fin N) ℝ) (M numvec : ℕ) (C : ℕ → Fin N → ℝ) :
    lanczosMulti pick L' (cM K H) M numvec (cV K C) =
      ((lanczosMulti pick L H M numvec C).1, cV K (lanczosMulti pick L H M numvec C).2) := by
  unfold lanczosMulti
  rw [mLanczos_c, hL.stemr]
  rfl

/-! ### The state of the sequential backend -/

namespace Seq

/-- The state over `K`. -/
def St.c (K : Type*) [RCLike K] (s : St ℝ N) : St K N :=
  { H := cM K s.H, C := cV K s.C, B := cV K s.B, C2 := cV K s.C2, B2 := cV K s.B2, next := s.next,
    locked := s.locked, isSym := s.isSym }

theorem apply_c (α β : ℝ) (offset block locked : ℕ) (s : St ℝ N) :
    apply (α : K) (β : K) offset block locked (s.c K) = (apply α β offset block locked s).c K := by
  unfold apply
  rw [show (s.c K).next = s.next from rfl]
  cases s.next
  · show ({ s.c K with C := _, next := _ } : St K N) = _
    rw [show (s.c K).H = cM K s.H from rfl, show (s.c K).C = cV K s.C from rfl,
      show (s.c K).B = cV K s.B from rfl, getBlk_c, getBlk_c, ← cM_mul, ← cM_smul, ← cM_smul, ← cM_add, setBlk_c]
    rfl
  · show ({ s.c K with B := _, next := _ } : St K N) = _
    rw [show (s.c K).H = cM K s.H from rfl, show (s.c K).C = cV K s.C from rfl,
      show (s.c K).B = cV K s.B from rfl, getBlk_c, getBlk_c, ← cM_conj, ← cM_mul, ← cM_smul, ← cM_smul, ← cM_add,
      setBlk_c]
    rfl

theorem gather_c (locked block : ℕ) (s : St ℝ N) :
    asynCxHGatherC locked block (s.c K) = (asynCxHGatherC locked block s).c K := by
  unfold asynCxHGatherC
  rw [show (s.c K).H = cM K s.H from rfl, show (s.c K).C = cV K s.C from rfl,
    show (s.c K).B = cV K s.B from rfl, show (s.c K).B2 = cV K s.B2 from rfl,
    show (s.c K).C2 = cV K s.C2 from rfl, getBlk_c, ← cM_conj, ← cM_mul, setBlk_c, copyCols_c]
  rfl

theorem rr_c {E' : Env K} {E : Env ℝ} (hL : E'.lapack.Extends E.lapack) (block locked : ℕ) (s : St ℝ N) :
    rr E' block locked (s.c K) = ((rr E block locked s).1, (rr E block locked s).2.c K) := by
  unfold rr
  rw [gather_c]
  generalize asynCxHGatherC locked block s = t
  simp only [show (t.c K).C = cV K t.C from rfl,
    show (t.c K).B = cV K t.B from rfl, show (t.c K).B2 = cV K t.B2 from rfl,
    show (t.c K).C2 = cV K t.C2 from rfl, getBlk_c, ← cM_conj, ← cM_mul, hL.heevd, setBlk_c, copyCols_c]
  rfl

theorem resd_c (ritzv : ℕ → ℝ) (locked unconverged : ℕ) (s : St ℝ N) :
    resd ritzv locked unconverged (s.c K) =
      ((resd ritzv locked unconverged s).1, (resd ritzv locked unconverged s).2.c K) := by
  unfold resd
  rw [gather_c]
  generalize asynCxHGatherC locked unconverged s = t
  refine forRange_eq (fun p : (ℕ → ℝ) × St ℝ N => (p.1, p.2.c K)) _ _ (fun i p _ _ => ?_) (fun _ => 0, t)
  have e : Function.update (p.2.c K).B (locked + i)
      ((-(ritzv i : K)) • (p.2.c K).B2 (locked + i) + (p.2.c K).B (locked + i)) =
      cV K (Function.update p.2.B (locked + i)
        ((-(RCLike.ofReal (ritzv i) : ℝ)) • p.2.B2 (locked + i) + p.2.B (locked + i))) := by
    rw [← update_c]
    congr 1
    funext j
    simp [St.c, cV]
  dsimp only
  rw [e]
  congr 1
  congr 1
  exact nrm2_c _

theorem lockVectorCopy_c {E' : Env K} {E : Env ℝ} (hn : E'.nevex = E.nevex) (locked : ℕ) (s : St ℝ N) :
    lockVectorCopy E' locked (s.c K) = (lockVectorCopy E locked s).c K := by
  unfold lockVectorCopy
  rw [show (s.c K).C = cV K s.C from rfl, show (s.c K).C2 = cV K s.C2 from rfl, hn]
  dsimp only
  rw [copyCols_c, copyCols_c]
  rfl

theorem swap_c (i j : ℕ) (s : St ℝ N) : swap i j (s.c K) = (swap i j s).c K := by
  unfold swap
  rw [show (s.c K).C = cV K s.C from rfl, show (s.c K).C2 = cV K s.C2 from rfl, swapAt_c, swapAt_c]
  rfl

theorem lanczosDos_c (idx m : ℕ) (z : ℕ → ℝ) (s : St ℝ N) :
    lanczosDos idx m z (s.c K) = (lanczosDos idx m z s).c K := by
  have h : ∀ Z : Matrix (Fin m) (Fin idx) ℝ,
      ({ s.c K with
        C2 := setBlk 0 (getBlk 0 m (s.c K).C * cM K Z) (s.c K).C2
        C := copyCols 0 m (setBlk 0 (getBlk 0 m (s.c K).C * cM K Z) (s.c K).C2) (s.c K).C } : St K N) =
      St.c K { s with
        C2 := setBlk 0 (getBlk 0 m s.C * Z) s.C2
        C := copyCols 0 m (setBlk 0 (getBlk 0 m s.C * Z) s.C2) s.C } := by
    intro Z
    rw [show (s.c K).C = cV K s.C from rfl, show (s.c K).C2 = cV K s.C2 from rfl, getBlk_c,
      ← cM_mul, setBlk_c, copyCols_c]
    rfl
  exact h fun a b => z (a + b * m)

end Seq
end Verif
