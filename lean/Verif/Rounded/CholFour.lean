/-
A run of the distributed backend with Cholesky QR that meets the hypotheses of C87: two times three processes, a matrix of
dimension four, two vectors, double precision.
-/
import Verif.Rounded.CholTwo

set_option linter.unusedSectionVars false

namespace Verif
namespace Rounded
namespace Par
namespace Four

open Matrix Finset
open Verif.Spmd
open Mpi (Layout GSt RunsOk scatter assemble)
open Mpi.Spmd (Pos Own EndsWith)
open Stuck (rowL colL sum)

/-! ### Backends whose steps can be computed -/

/-- Where a row is stored. -/
def locate {N : ℕ} (L : Layout N) (n : Fin N) : Option (Σ p : Fin L.procs, Fin (L.size p)) :=
  (List.finRange L.procs).findSome? fun p => (List.finRange (L.size p)).findSome? fun a =>
    if L.glob p a = n then some ⟨p, a⟩ else none

theorem locate_ok {N : ℕ} (L : Layout N) (n : Fin N) : ∃ x, locate L n = some x ∧ L.glob x.1 x.2 = n := by
  have h : ∀ x, locate L n = some x → L.glob x.1 x.2 = n := by
    intro x hx
    obtain ⟨p, -, h1⟩ := List.exists_of_findSome?_eq_some hx
    obtain ⟨a, -, h2⟩ := List.exists_of_findSome?_eq_some h1
    split_ifs at h2 with h3
    cases h2
    exact h3
  cases hl : locate L n with
  | some x => exact ⟨x, rfl, h x hl⟩
  | none =>
    exfalso
    obtain ⟨p, a, hpa⟩ := L.exists_glob n
    unfold locate at hl
    rw [List.findSome?_eq_none_iff] at hl
    have h1 := hl p (List.mem_finRange p)
    rw [List.findSome?_eq_none_iff] at h1
    have h2 := h1 a (List.mem_finRange a)
    rw [if_pos hpa] at h2
    cases h2

/-- `assemble`, computed. -/
def put {N : ℕ} {K : Type*} (z : K) (L : Layout N) (v : (p : Fin L.procs) → Fin (L.size p) → K) (n : Fin N) : K :=
  match locate L n with
  | some x => v x.1 x.2
  | none => z

theorem assemble_eq {N : ℕ} {K : Type*} (z : K) (L : Layout N) (v : (p : Fin L.procs) → Fin (L.size p) → K) :
    assemble L v = put z L v := by
  funext n
  obtain ⟨x, h1, h2⟩ := locate_ok L n
  unfold put
  rw [h1]
  dsimp only
  rw [← h2, Mpi.assemble_apply]

section
variable {K R : Type} [Neg R] [Zero R] {N : ℕ} {r c : Layout N}

/-- The backend `gOps` with the arithmetic `A` in place of that of the processes. -/
def gOpsA (T : Red1 K R r c) (E : DEnv K R) (A : Arith K R N) : Chase R (GSt K N) where
  checkSymmetryEasy := fun g => (A.symCheck g.H, { g with isSym := A.symCheck g.H })
  start := fun g => { g with locked := 0 }
  finish := fun g => g
  initVecs := fun random g => ⟨initVecs E.toParams (if random then initRndVecs A E.toParams g.toSt else g.toSt), g.fresh⟩
  qr := fun _ cond g => qrSelect
    { hhQR := fun g => { g with C := A.hhQR g.C, next := if E.scalapack then g.next else .bAc }
      cholQR1 := fun g => ((A.cholQR1 g.C).1, { g with C := (A.cholQR1 g.C).2 })
      cholQR2 := fun g => ((A.cholQR2 g.C).1, { g with C := (A.cholQR2 g.C).2 })
      shiftedcholQR2 := fun g => ((A.shiftedcholQR2 g.C).1, { g with C := (A.shiftedcholQR2 g.C).2 })
      lockCopy := fun _ g' => { g' with toSt := lockVectorCopy E.toParams g.locked g'.toSt } }
    E.doCholQR E.envDisable (E.kern.above cond) (E.kern.below cond) g
  lanczos1 := fun m g => (A.lanczos1 m g.H g.C, g)
  lanczosN := fun m numvec g => ((A.lanczosN m numvec g.H g.C).1, { g with C := (A.lanczosN m numvec g.H g.C).2 })
  lanczosDos := fun idx m z g => { g with toSt := lanczosDos A idx m z g.toSt }
  shift := fun x _ g => { g with
    H := shiftH A (E.kern.ofBase x) g.H
    next := if g.fresh then .bAc else g.next
    fresh := false }
  hemm := fun block α β offset g =>
    { g with toSt := apply A (E.kern.ofBase α) (E.kern.ofBase β) offset block g.locked g.toSt }
  rr := fun block g => ((rr A 0 block g.locked g.toSt).1, { g with toSt := (rr A 0 block g.locked g.toSt).2 })
  resd := fun ritzv fixednev g =>
    let u := E.nevex - fixednev
    let s := asynCxHGatherC A g.locked u g.toSt
    let x : ℕ → Fin N → K := fun t => A.axpy (A.ofBase (-ritzv t)) (s.B2 (g.locked + t)) (s.B (g.locked + t))
    (ext 0 fun t : Fin u => E.kern.sqrt (T.rowR (fun j (t : Fin u) => E.kern.normp2 (cutV c j (x t))) t),
      { g with toSt := { s with B := writeAt s.B g.locked u x } })
  lock := fun k g => { g with locked := g.locked + k }
  swap := fun _ _ g => g

theorem gOps_eq (T : Red1 K R r c) (E : DEnv K R) : gOps T E = gOpsA T E (distArith T E) := rfl
end

/-! ### Kernels -/

/-- A dense eigensolver for diagonal matrices of order two. -/
def heevdC {b : ℕ} (M : Matrix (Fin b) (Fin b) (Fp 53)) : (Fin b → Fp 53) × Matrix (Fin b) (Fin b) (Fp 53) :=
  if Two.ent M 0 0 ≤ Two.ent M 1 1 then
    (fun i => if b ≤ 2 then ⟨if i.val = 0 then Two.ent M 0 0 else Two.ent M 1 1⟩ else 0, fun i j => if i = j then 1 else 0)
  else (fun i => if b = 2 then ⟨if i.val = 0 then Two.ent M 1 1 else Two.ent M 0 0⟩ else 0,
    fun i j => if b = 2 then (if i = j then 0 else 1) else if i = j then 1 else 0)

theorem heevdC_ascends {b : ℕ} (M : Matrix (Fin b) (Fin b) (Fp 53)) (i j : Fin b) (hij : i ≤ j) :
    (heevdC M).1 i ≤ (heevdC M).1 j := by
  have hij' : i.val ≤ j.val := hij
  have le : ∀ x y : ℚ, x ≤ y → (⟨x⟩ : Fp 53) ≤ ⟨y⟩ := fun _ _ h => h
  unfold heevdC
  by_cases h : Two.ent M 0 0 ≤ Two.ent M 1 1
  · rw [if_pos h]
    dsimp only
    by_cases hb : b ≤ 2
    · rw [if_pos hb, if_pos hb]
      refine le _ _ ?_
      split_ifs
      · exact le_rfl
      · exact h
      · omega
      · exact le_rfl
    · rw [if_neg hb, if_neg hb]
  · rw [if_neg h]
    dsimp only
    by_cases hb : b = 2
    · rw [if_pos hb, if_pos hb]
      refine le _ _ ?_
      split_ifs
      · exact le_rfl
      · exact (not_le.mp h).le
      · omega
      · exact le_rfl
    · rw [if_neg hb, if_neg hb]

/-- Kernels with Cholesky QR as in `Two`, and a dense eigensolver for diagonal matrices of dimension two. -/
noncomputable def kernC : Kern (Fp 53) (Fp 53) :=
  { kern with
    hhqr := hhqr
    potrf := Two.potrf
    trsm := Two.trsm
    shiftGram := fun N => Two.shiftGram N
    sqrt := fun x => if 0 < x.val then ⟨Two.qsqrt x.val⟩ else 0
    heevd := heevdC
    above := fun x => 10 ^ 8 < x.val
    below := fun x => x.val < 20 }

noncomputable def envC : DEnv (Fp 53) (Fp 53) := { env with nex := 1, doCholQR := true, kern := kernC }

/-- The kernels of Cholesky QR of the processes together, computed. -/
noncomputable def cholC : CholKern (Fp 53) 4 2 where
  gram := gram red envC
  potrf := Two.potrf
  trsm := fun U V l => put 0 rowL fun i => Two.trsm U (cut rowL i V) l
  shift := Two.shiftGram 4

/-- The products, computed. -/
noncomputable def mulAdjC {b : ℕ} (H : Matrix (Fin 4) (Fin 4) (Fp 53)) (α β : Fp 53) (X Y : Matrix (Fin 4) (Fin b) (Fp 53)) :
    Matrix (Fin 4) (Fin b) (Fp 53) := fun n k =>
  put 0 colL (fun j a => (square (red.colK fun i => flat (envC.kern.gemmAdj (cutH rowL colL i j H) α
    (if i.val ≠ 0 then envC.kern.zero else β) (cutM rowL i X) (cutM colL j Y))) :
      Matrix (Fin (colL.size j)) (Fin b) (Fp 53)) a k) n
noncomputable def mulC {b : ℕ} (H : Matrix (Fin 4) (Fin 4) (Fp 53)) (α β : Fp 53) (X Y : Matrix (Fin 4) (Fin b) (Fp 53)) :
    Matrix (Fin 4) (Fin b) (Fp 53) := fun n k =>
  put 0 rowL (fun i a => (square (red.rowK fun j => flat (envC.kern.gemm (cutH rowL colL i j H) α
    (if j.val ≠ 0 then envC.kern.zero else β) (cutM colL j X) (cutM rowL i Y))) :
      Matrix (Fin (rowL.size i)) (Fin b) (Fp 53)) a k) n

theorem mulAdj_eq {b : ℕ} (H : Matrix (Fin 4) (Fin 4) (Fp 53)) (α β : Fp 53) (X Y : Matrix (Fin 4) (Fin b) (Fp 53)) :
    mulAdj red envC H α β X Y = mulAdjC H α β X Y := by
  funext n k
  unfold mulAdj joinM mulAdjC
  rw [assemble_eq (0 : Fp 53) colL]

theorem mul_eq {b : ℕ} (H : Matrix (Fin 4) (Fin 4) (Fp 53)) (α β : Fp 53) (X Y : Matrix (Fin 4) (Fin b) (Fp 53)) :
    mul red envC H α β X Y = mulC H α β X Y := by
  funext n k
  unfold mul joinM mulC
  rw [assemble_eq (0 : Fp 53) rowL]

/-- The arithmetic of the processes together, computed. -/
noncomputable def arithC : Arith (Fp 53) (Fp 53) 4 :=
  { distArith red envC with
    gemm := fun adj H α β X Y => if adj then mulAdjC H α β X Y else mulC H α β X Y
    gemmBack := fun X Z n k => put 0 rowL (fun i a => envC.kern.back (cutM rowL i X) Z a k) n
    axpy := fun α x y => put 0 colL fun j => envC.kern.axpy α (cutV colL j x) (cutV colL j y)
    cholQR1 := cholC.qr1
    cholQR2 := cholC.qr2
    shiftedcholQR2 := cholC.shifted ⟨true, false⟩
    lanczos1 := fun _ _ _ => ⟨8⟩ }

theorem chol_eq : distChol red envC = cholC := by
  have e1 : (distChol red envC).trsm = cholC.trsm := by
    funext U V l
    exact assemble_eq (0 : Fp 53) rowL fun i => Two.trsm U (cut rowL i V) l
  show (⟨gram red envC, Two.potrf, (distChol red envC).trsm, Two.shiftGram 4⟩ : CholKern (Fp 53) 4 2) = _
  rw [e1]
  rfl

theorem arith_eq : distArith red envC = arithC := by
  have e2 : chol1 red envC = cholC.qr1 := by rw [← chol_eq]; rfl
  have e3 : chol2 red envC = cholC.qr2 := by rw [← chol_eq]; rfl
  have e4 : shiftedChol2 red envC = cholC.shifted ⟨true, false⟩ := by
    rw [← chol_eq]; funext X; exact (usesChol (T := red) (E := envC)).shifted X
  unfold arithC
  rw [← e2, ← e3, ← e4]
  unfold distArith
  congr 1
  · funext b adj H α β X Y
    cases adj
    · exact mul_eq H α β X Y
    · exact mulAdj_eq H α β X Y
  · funext b m X Z n k
    exact congrFun (assemble_eq (0 : Fp 53) rowL _) n
  · funext α x y
    exact assemble_eq (0 : Fp 53) colL _

/-! ### The run -/

/-- One wanted pair and one more, one round. -/
def cfgC : Config (Fp 53) := { Stuck.cfg1 Stuck.tol with nex := 1, maxIter := 1 }

/-- As `Stuck.plat`, with an estimate for the condition that makes `QR` choose `cholQR2`. -/
def platC : Plat (Fp 53) := { Stuck.plat with condEst := fun _ _ _ _ _ _ => ⟨100⟩ }

/-- The first unit vectors; the matrix is diagonal with entries `1, 2, 3, 4`. -/
def globC : GSt (Fp 53) 4 :=
  ⟨⟨fun i j => if i = j then ⟨(i.val + 1 : ℕ)⟩ else 0, fun k i => if i.val = k then 1 else 0, fun _ _ => 0, fun _ _ => 0,
    fun _ _ => 0, .bAc, 0, true⟩, true⟩

/-- Start values. -/
def valC : ℕ → Fp 53 := fun i => ⟨(i + 1 : ℕ)⟩

/-- The block is not diagonal, or a column vanishes. -/
def badB (_ : ℕ) (x : Fp 53) (s : GSt (Fp 53) 4) : Bool :=
  decide (s.C 0 0 = 0) || decide (s.C 0 1 ≠ 0) || decide (s.C 0 2 ≠ 0) || decide (s.C 0 3 ≠ 0) ||
    decide (s.C 1 0 ≠ 0) || decide (s.C 1 1 = 0) || decide (s.C 1 2 ≠ 0) || decide (s.C 1 3 ≠ 0) || decide (x ≠ ⟨100⟩)

theorem runC : ∃ out, solve platC (watchB badB (gOpsA red envC arithC)) cfgC valC (fun _ => 0)
      (globC, false) = .ok out ∧ out.be.2 = false ∧ 0 < out.iterations := by
  obtain ⟨out, h, g⟩ := Toy.okAnd_elim (p := fun out : Outcome (Fp 53) (GSt (Fp 53) 4 × Bool) =>
      decide (out.be.2 = false ∧ 0 < out.iterations))
    (x := solve platC (watchB badB (gOpsA red envC arithC)) cfgC valC (fun _ => 0) (globC, false))
    (by rw [Toy.solve_eq_solveE]; decide +kernel)
  exact ⟨out, h, of_decide_eq_true g⟩

/-! ### The hypotheses -/

theorem orthoC : OrthoPar (Fp.fl 53) rowL envC envC.nevex 3 0 where
  back := orthoPar.back
  heevd := by
    intro b _ M
    have hid : ∀ V : Matrix (Fin b) (Fin b) (Fp 53), (∀ i j, V i j = if i = j then 1 else 0) →
        ∃ W : Matrix (Fin b) (Fin b) ℝ, Wᴴ * W = 1 ∧ ∀ j, Verif.nrm2 (fun k => (Fp.fl 53).val (V k j) - W k j) ≤ 0 := by
      intro V hV
      refine ⟨1, by simp, fun j => ?_⟩
      have e : (fun k => (Fp.fl 53).val (V k j) - (1 : Matrix (Fin b) (Fin b) ℝ) k j) = 0 := by
        ext k
        rw [hV, Matrix.one_apply]
        split_ifs
        · show ((1 : ℚ) : ℝ) - 1 = 0; simp
        · show ((0 : ℚ) : ℝ) - 0 = 0; simp
      rw [e]
      simp [Verif.nrm2]
    by_cases h : Two.ent M 0 0 ≤ Two.ent M 1 1
    · exact hid _ fun i j => by
        show (heevdC M).2 i j = _
        unfold heevdC
        rw [if_pos h]
    · by_cases hb : b = 2
      · subst hb
        refine ⟨!![0, 1; 1, 0], by ext i j; fin_cases i <;> fin_cases j <;> simp [Matrix.mul_apply, Fin.sum_univ_two], ?_⟩
        intro j
        have e : (fun k => (Fp.fl 53).val ((envC.kern.heevd M).2 k j) - (!![0, 1; 1, 0] : Matrix (Fin 2) (Fin 2) ℝ) k j) = 0 := by
          have e1 : ∀ k, (envC.kern.heevd M).2 k j = if k = j then 0 else 1 := by
            intro k
            show (heevdC M).2 k j = _
            unfold heevdC
            rw [if_neg h]
            rfl
          have e2 : (Fp.fl 53).val 0 = 0 := (Fp.fl 53).val_zero
          have e3 : (Fp.fl 53).val 1 = 1 := (Fp.fl 53).val_one
          ext k
          rw [e1]
          fin_cases k <;> fin_cases j <;> simp [e2, e3]
        rw [e]
        simp [Verif.nrm2]
      · exact hid _ fun i j => by
          show (heevdC M).2 i j = _
          unfold heevdC
          rw [if_neg h]
          show (if b = 2 then _ else _) = _
          rw [if_neg hb]

theorem ascendsC : Ascends envC := by
  intro b M i j hij
  exact heevdC_ascends M i j hij

theorem cholPar : CholPar (Fp.fl 53) red envC 3 2 (Two.epsQ : ℝ) ((1 / 2) ^ 50) where
  syherk := by
    intro q X i j _
    obtain ⟨d', h1, h2⟩ := sum_dot (fun a => X a i) fun a => X a j
    have := size_row q
    exact ⟨d', by omega, h2⟩
  colK := fun x t => ⟨2, le_rfl, sum_sum fun q => x q t⟩
  depth := by
    show (1 + (1 / 2 : ℝ) ^ 53) ^ 5 - 1 ≤ _
    norm_num
  potrf := fun G h => Two.potrf_ok G (by norm_num) h
  succeeds := fun G h => Two.succeeds G (by norm_num) h
  trsm := fun _ U X hU j a => Two.trsm_ok U X (by positivity) hU j a
  shift := fun G => Two.shift_ok (by norm_num) G (by norm_num)

theorem qrC (X : ℕ → Fin 4 → Fp 53) : QrOf ((1 / 2) ^ 39) envC.nevex (fun j => valV (Fp.fl 53) (X j))
    fun j => valV (Fp.fl 53) ((distArith red envC).hhQR X j) := by
  obtain ⟨Q, hQ, h⟩ := qr_ok X
  refine ⟨Q, hQ, fun j hj => ⟨(h j hj).1.trans (by norm_num), ?_⟩⟩
  obtain ⟨t, ht⟩ := (h j hj).2
  exact ⟨t, ht.trans (mul_le_mul_of_nonneg_right (by norm_num) (nrm2_nonneg _))⟩

/-- A diagonal block without vanishing columns has condition one. -/
theorem conditioned_diag {p : ℕ} {X : ℕ → Fin 4 → Fp p} (h00 : X 0 0 ≠ 0) (h01 : X 0 1 = 0) (h02 : X 0 2 = 0) (h03 : X 0 3 = 0)
    (h10 : X 1 0 = 0) (h11 : X 1 1 ≠ 0) (h12 : X 1 2 = 0) (h13 : X 1 3 = 0) : Conditioned (Fp.fl p) 1 2 X := by
  have hne : ∀ x : Fp p, x ≠ 0 → (Fp.fl p).val x ≠ 0 := by
    intro x hx h
    have h1 : ((x.val : ℚ) : ℝ) = 0 := h
    have h2 : x.val = 0 := by exact_mod_cast h1
    exact hx (by cases x; exact congrArg Fp.mk h2)
  have hz : (Fp.fl p).val (0 : Fp p) = 0 := (Fp.fl p).val_zero
  have z : ∀ k i, X k i = 0 → valV (Fp.fl p) (X k) i = 0 := by
    intro k i h
    show (Fp.fl p).val (X k i) = 0
    rw [h, hz]
  refine ⟨one_pos, fun j hj h => ?_, fun b => ?_⟩
  · rcases (by omega : j = 0 ∨ j = 1) with rfl | rfl
    · exact hne _ h00 (congrFun h 0)
    · exact hne _ h11 (congrFun h 1)
  · rw [Finset.sum_range_succ, Finset.sum_range_one, Finset.sum_range_succ, Finset.sum_range_one, nrm2_sq, nrm2_sq, nrm2_sq,
      Fin.sum_univ_four, Fin.sum_univ_four, Fin.sum_univ_four]
    simp only [Pi.add_apply, Pi.smul_apply, z _ _ h01, z _ _ h02, z _ _ h03, z _ _ h10, z _ _ h12, z _ _ h13]
    simp only [smul_zero, norm_zero, add_zero, zero_add, norm_smul]
    apply le_of_eq
    ring

theorem unit_small : 528 * (((2 : ℕ) : ℝ) * Real.sqrt ((2 : ℕ) : ℝ) * (1 / 2) ^ 50) ≤ (1 / 2) ^ 39 := by
  have h : Real.sqrt ((2 : ℕ) : ℝ) ≤ 3 / 2 := Real.sqrt_le_iff.mpr ⟨by norm_num, by norm_num⟩
  generalize Real.sqrt ((2 : ℕ) : ℝ) = y at *
  push_cast
  nlinarith

theorem good_diag (k : ℕ) (x : Fp 53) (s : GSt (Fp 53) 4)
    (hb : IllConditioned (Fp.fl 53) (distArith red envC) envC.toParams (Two.epsQ : ℝ) ((1 / 2) ^ 50) ((1 / 2) ^ 39) k x
      s.C) : badB k x s = true := by
  by_contra hc
  apply hb.2
  simp only [badB, Bool.or_eq_true, decide_eq_true_eq, not_or, not_not] at hc
  obtain ⟨⟨⟨⟨⟨⟨⟨⟨c1, c2⟩, c3⟩, c4⟩, c5⟩, c6⟩, c7⟩, c8⟩, rfl⟩ := hc
  refine ⟨1, conditioned_diag c1 c2 c3 c4 c5 c6 c7 c8, ?_⟩
  have a1 : (distArith red envC).above ⟨100⟩ = false := by
    show decide ((10 : ℚ) ^ 8 < 100) = false
    norm_num
  have a2 : (distArith red envC).below ⟨100⟩ = false := by
    show decide ((100 : ℚ) < 20) = false
    norm_num
  rw [if_neg (by rw [a1]; simp), if_neg (by rw [a2]; simp)]
  have := unit_small
  show 704 * (((2 : ℕ) : ℝ) * Real.sqrt ((2 : ℕ) : ℝ) * (1 / 2) ^ 50) ≤ 1 ^ 2
  have h3 : (0 : ℝ) ≤ ((2 : ℕ) : ℝ) * Real.sqrt ((2 : ℕ) : ℝ) * (1 / 2) ^ 50 := by positivity
  have h4 : (2 : ℝ) * (1 / 2) ^ 39 ≤ 1 := by norm_num
  linarith

theorem avoidsC : QrAvoids platC (gOps red envC) cfgC valC (fun _ => 0) globC
    fun l x t => IllConditioned (Fp.fl 53) (distArith red envC) envC.toParams (Two.epsQ : ℝ) ((1 / 2) ^ 50) ((1 / 2) ^ 39)
      l x t.C := by
  obtain ⟨out, h1, h2, -⟩ := runC
  rw [← arith_eq, ← gOps_eq] at h1
  exact QrAvoids.of_run good_diag h1 h2

/-- Non-vacuity of `C87_cholesky_mpi` and `C87_cholesky_processes`: double precision on a grid of two times three
processes, two vectors, Cholesky QR switched on with kernels of relative error `2^-50`, and a run of one round in which
`QR` uses `cholQR2`. -/
example : OrthoPar (Fp.fl 53) rowL envC envC.nevex 3 0 ∧ CholPar (Fp.fl 53) red envC 3 2 (Two.epsQ : ℝ) ((1 / 2) ^ 50) ∧
    528 * ((envC.nevex : ℝ) * Real.sqrt envC.nevex * (1 / 2) ^ 50) ≤ (1 / 2) ^ 39 ∧ Ascends envC ∧
    cholDisable envC.doCholQR envC.envDisable ≠ 1 ∧
    (∀ X, QrOf ((1 / 2) ^ 39) envC.nevex (fun j => valV (Fp.fl 53) (X j))
      fun j => valV (Fp.fl 53) ((distArith red envC).hhQR X j)) ∧
    SortsIndices platC ∧ cfgC.N = 4 ∧ cfgC.nev + cfgC.nex = envC.nevex ∧ Even cfgC.maxDeg ∧ cfgC.symCheck = false ∧
    (∃ out, solve platC (gOps red envC) cfgC valC (fun _ => 0) globC = .ok out ∧ 0 < out.iterations) ∧
    QrAvoids platC (gOps red envC) cfgC valC (fun _ => 0) globC
      (fun l x t => IllConditioned (Fp.fl 53) (distArith red envC) envC.toParams (Two.epsQ : ℝ) ((1 / 2) ^ 50)
        ((1 / 2) ^ 39) l x t.C) ∧
    RunsOk rowL colL envC.cRuns ∧ RunsOk colL rowL envC.bRuns ∧
    (∃ n u p o own, Runs (fun p : Pos rowL colL => solveProg red.const envC platC cfgC valC
      (fun _ => 0) p (scatter rowL colL globC p.1 p.2)) n u ∧ Final u ∧ u p = .ret (.ok o, own) ∧ 0 < o.iterations) := by
  have hdef : ∀ {S : Type} (ops : Chase (Fp 53) S) (be : S), ∃ out, solve platC ops cfgC valC
      (fun _ => 0) be = .ok out ∧ 0 < out.iterations := by
    intro S ops be
    obtain ⟨out, h1, h2⟩ := C51_approx_solve_defined platC ops cfgC rfl (by decide) (by decide)
      (by decide) (by decide) (by decide) (by decide) (by decide) (by intro h; cases h) valC (fun _ => 0) be
    exact ⟨out, h1, h2 (by intro h; cases h) (by decide)⟩
  refine ⟨orthoC, cholPar, unit_small, ascendsC, by decide, qrC, plat_sorts, rfl, rfl, by decide, rfl, hdef _ _, avoidsC,
    Stuck.envRuns.1, Stuck.envRuns.2, ?_⟩
  obtain ⟨out, h1, h2⟩ := hdef (gOps red envC) globC
  obtain ⟨n, hn⟩ := prog_gives red envC Stuck.envRuns.1 Stuck.envRuns.2 (solveT platC cfgC valC fun _ => 0) globC
  have hfin : Final (fun p : Pos rowL colL => (.ret (((solveT platC cfgC valC fun _ => 0).run
      (gOps red envC) globC).1, scatter rowL colL ((solveT platC cfgC valC fun _ => 0).run
      (gOps red envC) globC).2 p.1 p.2) : Prog (fun p => Except Err (Outcome (Fp 53) Unit) × Own (Fp 53) rowL colL p)
      p)) := fun p => ⟨_, rfl⟩
  have he := C77_outcome_partial (E := envC) platC cfgC valC (fun _ => 0) Stuck.envRuns.1
    Stuck.envRuns.2 red globC hn hfin ((0 : Fin 2), (0 : Fin 3))
  rw [h1] at he
  exact ⟨n, _, _, _, _, hn, hfin, he, h2⟩

end Four
end Par
end Rounded
end Verif
