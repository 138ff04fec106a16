/-
The programs of Rounded/Par come to an end with what Rounded/ParGlobal computes, if the reductions are the same on
every communicator.
-/
import Verif.Rounded.ParGlobal
import Verif.Rounded.Run
import Verif.Backend.MpiSpmdProof

namespace Verif
namespace Rounded
namespace Par

open Matrix
open Seq (NextOp)
open Verif.Spmd
open Mpi (Layout Proc redist assemble GSt scatter RunsOk)
open Mpi.Spmd (Pos Own c2b b2c collectCol andCol swapOwn loopP c2b_gives b2c_gives loop_gives writeAt_congr writeAt_zero)

variable {K R : Type} {N : ℕ} {r c : Layout N}

/-! ### Cutting and joining -/

theorem cutV_assemble (L : Layout N) (f : ∀ p : Fin L.procs, Fin (L.size p) → K) (p : Fin L.procs) :
    cutV L p (assemble L f) = f p := funext fun a => Mpi.assemble_apply L f p a

theorem cut_join (L : Layout N) (f : ∀ p : Fin L.procs, ℕ → Fin (L.size p) → K) (p : Fin L.procs) :
    cut L p (join L f) = f p := funext fun k => cutV_assemble L (fun p => f p k) p

theorem cutM_joinM (L : Layout N) {b : ℕ} (f : ∀ p : Fin L.procs, Matrix (Fin (L.size p)) (Fin b) K)
    (p : Fin L.procs) : cutM L p (joinM L f) = f p :=
  funext fun a => funext fun k => Mpi.assemble_apply L (fun p a => f p a k) p a

theorem cutL_joinL (L : Layout N) (f : ∀ p : Fin L.procs, LVec K (L.size p)) (p : Fin L.procs) :
    cutL L p (joinL L f) = f p := by
  unfold cutL joinL
  simp only [cut_join]

theorem join_cut (L : Layout N) (V : ℕ → Fin N → K) : join L (fun p => cut L p V) = V :=
  funext fun _ => Mpi.assemble_eq L fun _ _ => rfl

/-- Global vectors are determined by their parts. -/
theorem cut_ext (L : Layout N) {V W : ℕ → Fin N → K} (h : ∀ p, cut L p V = cut L p W) : V = W := by
  rw [← join_cut L V, ← join_cut L W]
  congr 1
  funext p
  exact h p

theorem cut_setBlk (L : Layout N) (p : Fin L.procs) (off : ℕ) {n : ℕ} (X : Matrix (Fin N) (Fin n) K)
    (V : ℕ → Fin N → K) : cut L p (setBlk off X V) = setBlk off (cutM L p X) (cut L p V) := by
  funext k
  show cutV L p (setBlk off X V k) = _
  unfold setBlk
  split_ifs <;> rfl

theorem cut_writeAt (L : Layout N) (p : Fin L.procs) (off n : ℕ) (V f : ℕ → Fin N → K) :
    cut L p (writeAt V off n f) = writeAt (cut L p V) off n (cut L p f) := by
  funext k
  show cutV L p (writeAt V off n f k) = _
  unfold writeAt
  split_ifs <;> rfl

theorem cut_copyCols (L : Layout N) (p : Fin L.procs) (off n : ℕ) (V W : ℕ → Fin N → K) :
    cut L p (copyCols off n V W) = copyCols off n (cut L p V) (cut L p W) := cut_writeAt L p off n W _

theorem getBlk_cut (L : Layout N) (p : Fin L.procs) (off n : ℕ) (V : ℕ → Fin N → K) :
    getBlk off n (cut L p V) = cutM L p (getBlk off n V) := rfl

theorem redist_cut {r c : Layout N} {runs : List Dist.Run} (h : RunsOk r c runs) (v : Fin N → K) (j : Fin c.procs)
    (dst : Fin (c.size j) → K) : redist runs (fun i => cutV r i v) j dst = cutV c j v :=
  funext fun b => Mpi.redist_spec h (fun _ _ => rfl) j dst b

theorem square_flat {m b : ℕ} (X : Matrix (Fin m) (Fin b) K) : square (flat X) = X := rfl

theorem flat_square {m b : ℕ} (x : Fin m × Fin b → K) : flat (square x) = x := rfl

/-- A reduction whose result is known. -/
theorem op_gives {P : Type} [Finite P] {α : P → Type} {M A : P → Type} (c : Coll P M A) {m : ∀ p, M p} (x : ∀ p, A p)
    {k : ∀ p, A p → Prog α p} {a : ∀ p, α p} (hx : ∀ p, c.act p (fun q _ => m q) = x p)
    (h : Gives (fun p => k p (x p)) a) : Gives (fun p => .op c (m p) (k p)) a := by
  refine Gives.op c m ?_
  have : (fun p => k p (c.act p fun q _ => m q)) = fun p => k p (x p) := by funext p; rw [hx]
  rw [this]
  exact h

variable (T : Red1 K R r c) (E : DEnv K R)

theorem flat_mulAdj {b : ℕ} (H : Matrix (Fin N) (Fin N) K) (α β : K) (X Y : Matrix (Fin N) (Fin b) K)
    (j : Fin c.procs) : flat (cutM c j (mulAdj T E H α β X Y)) = T.colK fun i => flat (E.kern.gemmAdj (cutH r c i j H) α
      (if i.val ≠ 0 then E.kern.zero else β) (cutM r i X) (cutM c j Y)) := by
  unfold mulAdj
  rw [cutM_joinM, flat_square]

theorem flat_mul {b : ℕ} (H : Matrix (Fin N) (Fin N) K) (α β : K) (X Y : Matrix (Fin N) (Fin b) K)
    (i : Fin r.procs) : flat (cutM r i (mul T E H α β X Y)) = T.rowK fun j => flat (E.kern.gemm (cutH r c i j H) α
      (if j.val ≠ 0 then E.kern.zero else β) (cutM c j X) (cutM r i Y)) := by
  unfold mul
  rw [cutM_joinM, flat_square]

/-! ### The calls -/

theorem agree_iff {m : ℕ} (w u : Fin m → K) : agree E w u = true ↔ ∀ a, ¬ E.kern.differ (w a) (u a) = true := by
  have := Mpi.forRange_all (n := m) fun a => E.kern.differ (w a) (u a) = true
  rw [← this]
  unfold agree
  simp only [Bool.decide_eq_true]

theorem symCheck_gives (hc : RunsOk r c E.cRuns) (hb : RunsOk c r E.bRuns) (g : GSt K N) :
    Gives (fun p : Pos r c => symCheckProg T.const E p (scatter r c g p.1 p.2))
      fun p => (symCheckG T E g.H, scatter r c { g with isSym := symCheckG T E g.H } p.1 p.2) := by
  obtain ⟨v, hv⟩ : ∃ v, v = assemble r fun i a => E.probe i a := ⟨_, rfl⟩
  have hcv : ∀ i : Fin r.procs, (fun a : Fin (r.size i) => E.probe i a) = cutV r i v := fun i => by
    rw [hv, cutV_assemble]
  have hcv' : ∀ i : Fin r.procs, (fun (_ : ℕ) (a : Fin (r.size i)) => E.probe i a) = fun _ => cutV r i v :=
    fun i => funext fun _ => hcv i
  obtain ⟨U, hU⟩ : ∃ U, U = mulAdj T E g.H E.kern.one E.kern.zero (one v) (one fun _ => E.kern.zero) := ⟨_, rfl⟩
  obtain ⟨UT, hUT⟩ : ∃ U, U = mul T E g.H E.kern.one E.kern.zero (one v) (one fun _ => E.kern.zero) := ⟨_, rfl⟩
  have hS : symCheckG T E g.H = decide (∀ i : Fin r.procs, agree E
      (cutV r i fun n => U n 0) (cutV r i fun n => UT n 0) = true) := by
    unfold symCheckG
    rw [← hv]
    dsimp only
    rw [← hU, ← hUT, decide_eq_decide]
    simp only [agree_iff]
    constructor
    · intro h i a
      exact h _
    · intro h n
      obtain ⟨i, a, rfl⟩ := r.exists_glob n
      exact h i a
  rw [hS]
  unfold symCheckProg
  simp only [hcv, hcv']
  refine ((c2b_gives 1 (fun p _ => cutV r p.1 v) E.cRuns fun _ _ _ => E.kern.zero).congr
    (b := fun (p : Pos r c) k => if k < 1 then cutV c p.2 v else fun _ => E.kern.zero) fun p => funext fun k => ?_).bind ?_
  · split_ifs
    · exact redist_cut hc v p.2 _
    · rfl
  refine op_gives _ (fun p : Pos r c => flat (cutM c p.2 U)) (fun p => ?_) ?_
  · rw [hU, flat_mulAdj]
    simp only [ite_self]
    rfl
  refine op_gives _ (fun p : Pos r c => flat (cutM r p.1 UT)) (fun p => ?_) ?_
  · rw [hUT, flat_mul]
    simp only [ite_self]
    rfl
  refine ((b2c_gives 1 (fun p _ => cutV c p.2 fun n => U n 0) E.bRuns fun p _ => cutV r p.1 v).congr
    (b := fun (p : Pos r c) k => if k < 1 then cutV r p.1 fun n => U n 0 else cutV r p.1 v) fun p => funext fun k => ?_).bind ?_
  · split_ifs
    · exact redist_cut hb _ p.1 _
    · rfl
  refine Gives.op _ _ ?_
  exact Gives.ret _

theorem hemm_gives [Neg R] [Zero R] (g : GSt K N) (block : ℕ) (α β : K) (offset : ℕ) :
    Gives (fun p : Pos r c => hemmProg T.const E p block α β offset (scatter r c g p.1 p.2))
      fun p => ((), scatter r c { g with toSt := apply (distArith T E) α β offset block g.locked g.toSt } p.1 p.2) := by
  obtain ⟨⟨H, C, B, C2, B2, next, locked, isSym⟩, fresh⟩ := g
  cases next with
  | bAc =>
    refine op_gives _ (fun p : Pos r c => flat (cutM c p.2 (mulAdj T E H α β (getBlk (locked + offset) block C)
      (getBlk (locked + offset) block B)))) (fun p => by rw [flat_mulAdj]; rfl) ?_
    refine (Gives.ret _).congr fun p => Prod.ext rfl ?_
    unfold scatter apply
    dsimp only
    congr 1
    exact (cut_setBlk c p.2 _ _ B).symm
  | cAb =>
    refine op_gives _ (fun p : Pos r c => flat (cutM r p.1 (mul T E H α β (getBlk (locked + offset) block B)
      (getBlk (locked + offset) block C)))) (fun p => by rw [flat_mul]; rfl) ?_
    refine (Gives.ret _).congr fun p => Prod.ext rfl ?_
    unfold scatter apply
    dsimp only
    congr 1
    exact (cut_setBlk r p.1 _ _ C).symm

theorem gather_gives [Neg R] [Zero R] (hc : RunsOk r c E.cRuns) (g : GSt K N) (block : ℕ) :
    Gives (fun p : Pos r c => gatherProg T.const E p block (scatter r c g p.1 p.2))
      fun p => scatter r c { g with toSt := asynCxHGatherC (distArith T E) g.locked block g.toSt } p.1 p.2 := by
  unfold gatherProg
  refine (c2b_gives block (fun p k => cutV r p.1 (g.C2 (g.locked + k))) E.cRuns
    fun p k => cutV c p.2 (g.B2 (g.locked + k))).bind ?_
  refine op_gives _ (fun p : Pos r c => flat (cutM c p.2 (mulAdj T E g.H E.kern.one E.kern.zero (getBlk g.locked block g.C)
      (getBlk g.locked block g.B)))) (fun p => ?_) ?_
  · rw [flat_mulAdj]
    simp only [ite_self]
    rfl
  refine (Gives.ret _).congr fun p => ?_
  unfold scatter asynCxHGatherC
  dsimp only
  congr 1
  · exact (cut_setBlk c p.2 _ _ g.B).symm
  · refine Eq.trans ?_ (cut_copyCols c p.2 _ _ g.C2 g.B2).symm
    refine writeAt_congr _ _ fun k hk => ?_
    rw [if_pos hk]
    exact redist_cut hc _ p.2 _

theorem rr_gives [Neg R] [Zero R] (hc : RunsOk r c E.cRuns) (g : GSt K N) (block : ℕ) :
    Gives (fun p : Pos r c => rrProg T.const E p block (scatter r c g p.1 p.2))
      fun p => ((rr (distArith T E) 0 block g.locked g.toSt).1,
        scatter r c { g with toSt := (rr (distArith T E) 0 block g.locked g.toSt).2 } p.1 p.2) := by
  refine (gather_gives T E hc g block).bind ?_
  let s1 := asynCxHGatherC (distArith T E) g.locked block g.toSt
  let M := (distArith T E).gemmProj (getBlk g.locked block s1.B2) (getBlk g.locked block s1.B)
  refine op_gives _ (fun _ : Pos r c => flat M) (fun p => rfl) ?_
  refine (Gives.ret _).congr fun p => Prod.ext rfl ?_
  show _ = scatter r c { g with toSt := { s1 with
    C := setBlk g.locked ((distArith T E).gemmBack (getBlk g.locked block s1.C2) (E.kern.heevd M).2) s1.C
    C2 := copyCols g.locked block (setBlk g.locked ((distArith T E).gemmBack (getBlk g.locked block s1.C2)
      (E.kern.heevd M).2) s1.C) s1.C2 } } p.1 p.2
  have hC : cut r p.1 (setBlk g.locked ((distArith T E).gemmBack (getBlk g.locked block s1.C2) (E.kern.heevd M).2) s1.C) =
      setBlk g.locked (E.kern.back (getBlk g.locked block (cut r p.1 s1.C2)) (E.kern.heevd M).2) (cut r p.1 s1.C) := by
    rw [cut_setBlk]
    congr 1
    show cutM r p.1 (joinM r fun i => E.kern.back (cutM r i (getBlk g.locked block s1.C2)) (E.kern.heevd M).2) = _
    rw [cutM_joinM, getBlk_cut]
  unfold scatter
  dsimp only
  congr 1
  · exact hC.symm
  · refine Eq.trans ?_ (cut_copyCols r p.1 _ _ _ s1.C2).symm
    rw [hC]
    rfl

theorem resdLocal_eq [Neg R] [Zero R] (ritzv : ℕ → R) (l u : ℕ) {m n : ℕ} (p : Proc K m n) :
    resdLocal E ritzv l u p =
      (fun t => if t < u then E.kern.normp2 (E.kern.axpy (E.kern.ofBase (-ritzv t)) (p.B2 (l + t)) (p.B (l + t))) else 0,
        writeAt p.B l u fun t => E.kern.axpy (E.kern.ofBase (-ritzv t)) (p.B2 (l + t)) (p.B (l + t))) := by
  refine (Mpi.cols_loop l u (fun i v => E.kern.axpy (E.kern.ofBase (-ritzv i)) (p.B2 (l + i)) v) E.kern.normp2 _ _).trans ?_
  refine Prod.ext rfl (funext fun k => ?_)
  unfold writeAt
  dsimp only
  split_ifs with h
  · rw [Nat.add_sub_cancel' h.1]
  · rfl

theorem resd_gives [Neg R] [Zero R] (hc : RunsOk r c E.cRuns) (g : GSt K N) (ritzv : ℕ → R) (fixednev : ℕ) :
    Gives (fun p : Pos r c => resdProg T.const E p ritzv fixednev (scatter r c g p.1 p.2))
      fun p => ((gResd T E ritzv g.locked (E.nevex - fixednev) g.toSt).1,
        scatter r c { g with toSt := (gResd T E ritzv g.locked (E.nevex - fixednev) g.toSt).2 } p.1 p.2) := by
  unfold resdProg
  obtain ⟨u, hu⟩ : ∃ u, u = E.nevex - fixednev := ⟨_, rfl⟩
  rw [← hu]
  refine (gather_gives T E hc g u).bind ?_
  let s1 := asynCxHGatherC (distArith T E) g.locked u g.toSt
  let x : ℕ → Fin N → K := fun t => (distArith T E).axpy (E.kern.ofBase (-ritzv t)) (s1.B2 (g.locked + t))
    (s1.B (g.locked + t))
  have hx : ∀ (j : Fin c.procs) (t : ℕ), cutV c j (x t) = E.kern.axpy (E.kern.ofBase (-ritzv t))
      (cutV c j (s1.B2 (g.locked + t))) (cutV c j (s1.B (g.locked + t))) := fun j t =>
    cutV_assemble c (fun j => E.kern.axpy (E.kern.ofBase (-ritzv t)) (cutV c j (s1.B2 (g.locked + t)))
      (cutV c j (s1.B (g.locked + t)))) j
  refine op_gives _ (fun _ : Pos r c => T.rowR fun j (t : Fin u) => E.kern.normp2 (cutV c j (x t))) (fun p => ?_) ?_
  · refine congrArg T.rowR (funext fun j => funext fun t => ?_)
    refine (congrFun (congrArg Prod.fst (resdLocal_eq E ritzv _ u _)) t).trans ?_
    dsimp only
    rw [if_pos t.2, hx]
    rfl
  refine (Gives.ret _).congr fun p => Prod.ext rfl ?_
  show _ = scatter r c { g with toSt := { s1 with B := writeAt s1.B g.locked u x } } p.1 p.2
  unfold scatter
  dsimp only
  congr 1
  refine (congrArg Prod.snd (resdLocal_eq E ritzv _ u _)).trans ?_
  refine Eq.trans ?_ (cut_writeAt c p.2 _ _ s1.B x).symm
  dsimp only
  refine writeAt_congr _ _ fun t _ => ?_
  exact (hx p.2 t).symm

/-! ### Orthogonalisation -/

/-- The state with other vectors. -/
def withC (g : GSt K N) (V : ℕ → Fin N → K) : GSt K N := { g with C := V }

theorem gram_gives {α : Pos r c → Type} (g : GSt K N)
    {k : ∀ p : Pos r c, Matrix (Fin E.nevex) (Fin E.nevex) K → Prog α p} {a : ∀ p, α p}
    (h : Gives (fun p => k p (gram T E g.C)) a) :
    Gives (fun p => gramProg T.const E p (scatter r c g p.1 p.2) (k p)) a := by
  unfold gramProg
  exact op_gives _ (fun _ : Pos r c => flat (gram T E g.C)) (fun p => rfl) h

theorem scatter_trsm {b : ℕ} (A : Matrix (Fin b) (Fin b) K) (g : GSt K N) (p : Pos r c) :
    putC (scatter r c g p.1 p.2) (E.kern.trsm A (scatter r c g p.1 p.2).C) =
      scatter r c (withC g (solveTri E r A g.C)) p.1 p.2 := by
  unfold putC scatter withC
  dsimp only
  congr 1
  exact (cut_join r (fun i => E.kern.trsm A (cut r i g.C)) p.1).symm

theorem cholQR1_gives (g : GSt K N) :
    Gives (fun p : Pos r c => cholQR1Prog T.const E p (scatter r c g p.1 p.2))
      fun p => ((chol1 T E g.C).1, scatter r c (withC g (chol1 T E g.C).2) p.1 p.2) := by
  unfold cholQR1Prog chol1
  refine gram_gives T E g ?_
  simp only [scatter_trsm]
  split_ifs <;> exact Gives.ret _

theorem cholQR2_gives (g : GSt K N) :
    Gives (fun p : Pos r c => cholQR2Prog T.const E p (scatter r c g p.1 p.2))
      fun p => ((chol2 T E g.C).1, scatter r c (withC g (chol2 T E g.C).2) p.1 p.2) := by
  unfold cholQR2Prog chol2
  refine gram_gives T E g ?_
  simp only [scatter_trsm]
  split_ifs
  · exact Gives.ret _
  · exact gram_gives T E (withC g (solveTri E r (E.kern.potrf (gram T E g.C)).2 g.C)) (Gives.ret _)

theorem shiftedcholQR2_gives (g : GSt K N) :
    Gives (fun p : Pos r c => shiftedcholQR2Prog T.const E p (scatter r c g p.1 p.2))
      fun p => ((shiftedChol2 T E g.C).1, scatter r c (withC g (shiftedChol2 T E g.C).2) p.1 p.2) := by
  have key : ∀ g1 : GSt K N, Gives (fun p : Pos r c => gramProg T.const E p (scatter r c g1 p.1 p.2) fun A =>
      if (E.kern.potrf A).1 ≠ 0 then .ret ((E.kern.potrf A).1, scatter r c g1 p.1 p.2)
      else gramProg T.const E p (scatter r c (withC g1 (solveTri E r (E.kern.potrf A).2 g1.C)) p.1 p.2) fun A' =>
        .ret ((E.kern.potrf A).1, scatter r c (withC g1 (solveTri E r (E.kern.potrf A').2
          (solveTri E r (E.kern.potrf A).2 g1.C))) p.1 p.2))
      fun p => if (E.kern.potrf (gram T E g1.C)).1 ≠ 0 then
          ((E.kern.potrf (gram T E g1.C)).1, scatter r c g1 p.1 p.2)
        else ((E.kern.potrf (gram T E g1.C)).1, scatter r c (withC g1 (solveTri E r
          (E.kern.potrf (gram T E (solveTri E r (E.kern.potrf (gram T E g1.C)).2 g1.C))).2
          (solveTri E r (E.kern.potrf (gram T E g1.C)).2 g1.C))) p.1 p.2) := by
    intro g1
    refine gram_gives T E g1 ?_
    split_ifs
    · exact Gives.ret _
    · exact gram_gives T E (withC g1 (solveTri E r (E.kern.potrf (gram T E g1.C)).2 g1.C)) (Gives.ret _)
  unfold shiftedcholQR2Prog shiftedChol2
  refine gram_gives T E g ?_
  simp only [scatter_trsm]
  by_cases h1 : (E.kern.potrf (E.kern.shiftGram N (gram T E g.C))).1 ≠ 0
  · simp only [if_pos h1]
    exact Gives.ret _
  · simp only [if_neg h1]
    refine (key (withC g (solveTri E r (E.kern.potrf (E.kern.shiftGram N (gram T E g.C))).2 g.C))).congr fun p => ?_
    by_cases h2 : (E.kern.potrf (gram T E (solveTri E r
        (E.kern.potrf (E.kern.shiftGram N (gram T E g.C))).2 g.C))).1 ≠ 0
    · refine (if_pos h2).trans ?_
      rw [if_pos h2]
      rfl
    · refine (if_neg h2).trans ?_
      rw [if_neg h2]
      rfl

theorem hhQR_gives [Neg R] [Zero R] (g : GSt K N) (l : ℕ) :
    Gives (fun p : Pos r c => hhQRProg E p (scatter r c g p.1 p.2))
      fun p => scatter r c ((gQrRoutines T E l).hhQR g) p.1 p.2 := by
  unfold hhQRProg
  refine op_gives _ (fun _ : Pos r c => g.C) (fun p => funext fun k => Mpi.assemble_eq r fun _ _ => rfl) ?_
  refine (Gives.ret _).congr fun p => ?_
  unfold gQrRoutines scatter
  dsimp only
  congr 1
  exact (cut_setBlk r p.1 _ _ g.C).symm

theorem lockCopy_eq [Neg R] [Zero R] (g : GSt K N) (b : Bool) (p : Pos r c) :
    lockCopyOwn E (scatter r c g p.1 p.2) = scatter r c ((gQrRoutines T E g.locked).lockCopy b g) p.1 p.2 := by
  have hC : cut r p.1 (copyCols 0 g.locked g.C2 g.C) = copyCols 0 g.locked (cut r p.1 g.C2) (cut r p.1 g.C) :=
    cut_copyCols r p.1 _ _ _ _
  show _ = scatter r c { g with toSt := lockVectorCopy E.toParams g.locked g.toSt } p.1 p.2
  unfold lockCopyOwn lockVectorCopy scatter
  dsimp only
  congr 1
  · exact hC.symm
  · refine Eq.trans ?_ (cut_copyCols r p.1 _ _ _ g.C2).symm
    rw [hC]
    rfl

theorem qr_gives [Neg R] [Zero R] (k : ℕ) (cond : R) (g : GSt K N) :
    Gives (fun p : Pos r c => qrProg T.const E p cond (scatter r c g p.1 p.2))
      fun p => ((), scatter r c ((gOps T E).qr k cond g) p.1 p.2) := by
  -- what follows a Cholesky variant with the same `info` everywhere
  have tail : ∀ (info : ℤ) (g' : GSt K N), g'.locked = g.locked →
      Gives (fun p : Pos r c => if info ≠ 0 then
          (hhQRProg E p (scatter r c g' p.1 p.2)).bind fun d => .ret ((), lockCopyOwn E d)
        else .ret ((), lockCopyOwn E (scatter r c g' p.1 p.2)))
      fun p => ((), scatter r c (if info ≠ 0 then (gQrRoutines T E g.locked).lockCopy true
          ((gQrRoutines T E g.locked).hhQR g')
        else (gQrRoutines T E g.locked).lockCopy false g') p.1 p.2) := by
    intro info g' hl
    rw [← hl]
    by_cases hi : info ≠ 0
    · simp only [if_pos hi]
      refine (hhQR_gives T E g' g'.locked).bind ((Gives.ret _).congr fun p => Prod.ext rfl ?_)
      exact lockCopy_eq T E ((gQrRoutines T E g'.locked).hhQR g') true p
    · simp only [if_neg hi]
      exact (Gives.ret _).congr fun p => Prod.ext rfl (lockCopy_eq T E g' false p)
  show Gives _ fun p : Pos r c => ((), scatter r c (qrSelect (gQrRoutines T E g.locked) E.doCholQR E.envDisable (E.kern.above cond)
    (E.kern.below cond) g) p.1 p.2)
  unfold qrProg qrSelect
  by_cases hd : cholDisable E.doCholQR E.envDisable = 1
  · simp only [if_pos hd]
    exact (hhQR_gives T E g g.locked).bind ((Gives.ret _).congr fun p => Prod.ext rfl
      (lockCopy_eq T E ((gQrRoutines T E g.locked).hhQR g) true p))
  · simp only [if_neg hd]
    by_cases hu : E.kern.above cond = true
    · simp only [if_pos hu]
      exact (shiftedcholQR2_gives T E g).bind (tail _ (withC g (shiftedChol2 T E g.C).2) rfl)
    · simp only [if_neg hu]
      by_cases hl : E.kern.below cond = true
      · simp only [if_pos hl]
        exact (cholQR1_gives T E g).bind (tail _ (withC g (chol1 T E g.C).2) rfl)
      · simp only [if_neg hl]
        exact (cholQR2_gives T E g).bind (tail _ (withC g (chol2 T E g.C).2) rfl)

/-! ### Lanczos -/

theorem lanczosStep_gives [Neg R] [Zero R] (hb : RunsOk c r E.bRuns) (g : GSt K N) (M numvec : ℕ) (store : Bool) (k : ℕ)
    (l : LVec K N × LCoef R) :
    Gives (fun p : Pos r c => lanczosStepProg T.const E p (scatter r c g p.1 p.2) M numvec store k
        (cutL r p.1 l.1, l.2))
      fun p => (cutL r p.1 (lanczosStep T E g.H M numvec store k l).1, (lanczosStep T E g.H M numvec store k l).2) := by
  unfold lanczosStepProg
  let w := mulAdj T E g.H E.kern.one E.kern.zero (getBlk 0 numvec l.1.v1) fun _ _ => E.kern.zero
  let v2 := setBlk 0 w l.1.v2
  let nalpha := ext E.kern.zero (T.colK fun i (t : Fin numvec) =>
    E.kern.neg (E.kern.dot (cutV r i (l.1.v1 t)) (cutV r i (v2 t))))
  let W := join r fun i => stepW E numvec k (cutL r i l.1) l.2 (cut r i v2) nalpha
  let nrm := T.colR fun i (t : Fin numvec) => E.kern.nrm2sq (cutV r i (W t))
  have hW : ∀ i, cut r i W = stepW E numvec k (cutL r i l.1) l.2 (cut r i v2) nalpha := fun i =>
    cut_join r (fun i => stepW E numvec k (cutL r i l.1) l.2 (cut r i v2) nalpha) i
  refine op_gives _ (fun p : Pos r c => flat (cutM c p.2 w)) (fun p => ?_) ?_
  · refine Eq.trans ?_ (flat_mulAdj T E _ _ _ _ _ p.2).symm
    simp only [ite_self]
    rfl
  have h2 := (b2c_gives numvec
    (fun (p : Pos r c) t => cutV c p.2 fun n => if h : t < numvec then w n ⟨t, h⟩ else E.kern.zero)
    E.bRuns fun p => cut r p.1 l.1.v2).congr (b := fun p : Pos r c => cut r p.1 v2) fun p => funext fun t => by
      show _ = cutV r p.1 (setBlk 0 w l.1.v2 t)
      unfold setBlk
      split_ifs with h3 h4 h4
      · exact redist_cut hb (fun n => w n ⟨t, h3⟩) p.1 _
      · omega
      · omega
      · rfl
  have h2' : Gives (fun p : Pos r c => b2c p numvec (fun t b => if h : t < numvec then
      flat (cutM c p.2 w) (b, ⟨t, h⟩) else E.kern.zero) E.bRuns (cut r p.1 l.1.v2)) fun p => cut r p.1 v2 := h2
  refine h2'.bind ?_
  refine op_gives _ (fun _ : Pos r c => T.colK fun i (t : Fin numvec) =>
    E.kern.neg (E.kern.dot (cutV r i (l.1.v1 t)) (cutV r i (v2 t)))) (fun p => rfl) ?_
  refine op_gives _ (fun _ : Pos r c => nrm) (fun p => ?_) ?_
  · refine congrArg T.colR (funext fun i => funext fun t => ?_)
    show _ = E.kern.nrm2sq (cut r i W t)
    rw [hW]
  refine (Gives.ret _).congr fun p => Prod.ext ?_ rfl
  show _ = cutL r p.1 (joinL r fun i => stepVec E M numvec store k (cutL r i l.1) (cut r i W)
    (stepCoef E M numvec k l.2 nalpha (ext 0 nrm)).rbeta)
  rw [cutL_joinL, hW]

theorem mLanczos_gives [Neg R] [Zero R] (hb : RunsOk c r E.bRuns) (g : GSt K N) (M numvec : ℕ) (store : Bool) :
    Gives (fun p : Pos r c => mLanczosProg T.const E p (scatter r c g p.1 p.2) M numvec store)
      fun p => (cutL r p.1 (mLanczos T E g.H g.C M numvec store).1, (mLanczos T E g.H g.C M numvec store).2) := by
  unfold mLanczosProg
  let nrm := ext 0 (T.colR fun i (t : Fin numvec) => E.kern.nrm2sq (cutV r i (g.C t)))
  let start : LVec K N × LCoef R :=
    (joinL r fun i => (lanczosInit E numvec (cut r i g.C) nrm).1, (lanczosInit E numvec g.C nrm).2)
  refine op_gives _ (fun _ : Pos r c => T.colR fun i (t : Fin numvec) => E.kern.nrm2sq (cutV r i (g.C t)))
    (fun p => rfl) ?_
  have hloop : ∀ (n lo : ℕ) (l : LVec K N × LCoef R),
      Gives (fun p : Pos r c => loopP (α := fun p : Pos r c => LVec K (r.size p.1) × LCoef R)
        (fun k l => lanczosStepProg T.const E p (scatter r c g p.1 p.2) M numvec store k l) lo n
        (cutL r p.1 l.1, l.2))
      fun p => (cutL r p.1 (loop (lanczosStep T E g.H M numvec store) lo n l).1,
        (loop (lanczosStep T E g.H M numvec store) lo n l).2) := by
    intro n
    induction n with
    | zero => intro lo l; exact Gives.ret _
    | succ n ih =>
      intro lo l
      exact (lanczosStep_gives T E hb g M numvec store lo l).bind (ih (lo + 1) _)
  have h1 := hloop M 0 start
  have h0 : (fun p : Pos r c => loopP (α := fun p : Pos r c => LVec K (r.size p.1) × LCoef R)
        (fun k l => lanczosStepProg T.const E p (scatter r c g p.1 p.2) M numvec store k l) 0 M
        (cutL r p.1 start.1, start.2)) =
      fun p : Pos r c => loopP (fun k l => lanczosStepProg T.const E p (scatter r c g p.1 p.2) M numvec store k l) 0 M
        (lanczosInit E numvec (cut r p.1 g.C) nrm) := by
    funext p
    congr 1
    refine Prod.ext ?_ rfl
    exact cutL_joinL r (fun i => (lanczosInit E numvec (cut r i g.C) nrm).1) p.1
  rw [h0] at h1
  refine h1.bind ((Gives.ret _).congr fun p => ?_)
  show _ = (cutL r p.1 (lanczosDone numvec store (forRange 0 M (lanczosStep T E g.H M numvec store) start)).1,
    (lanczosDone numvec store (forRange 0 M (lanczosStep T E g.H M numvec store) start)).2)
  unfold forRange
  rw [Nat.sub_zero]
  unfold lanczosDone
  split_ifs
  · refine Prod.ext ?_ rfl
    unfold cutL
    dsimp only
    rw [cut_copyCols]
  · rfl

/-! ### The other calls -/

theorem initVecs_eq [Neg R] [Zero R] (random : Bool) (g : GSt K N) (p : Pos r c) :
    initVecsOwn E random (scatter r c g p.1 p.2) = scatter r c ((gOps T E).initVecs random g) p.1 p.2 := by
  cases random with
  | false =>
    show _ = scatter r c ⟨initVecs E.toParams g.toSt, g.fresh⟩ p.1 p.2
    unfold initVecsOwn initVecs scatter
    dsimp only
    congr 1
    exact (cut_copyCols r p.1 _ _ _ _).symm
  | true =>
    have hC : cut r p.1 (writeAt g.C 0 E.nevex fun k => (distArith T E).randn k) =
        writeAt (cut r p.1 g.C) 0 E.nevex fun k a => E.gen p.1 (k * r.size p.1 + a) := by
      rw [cut_writeAt]
      congr 1
      funext k
      exact cutV_assemble r (fun i a => E.gen i (k * r.size i + a)) p.1
    show _ = scatter r c ⟨initVecs E.toParams (initRndVecs (distArith T E) E.toParams g.toSt), g.fresh⟩ p.1 p.2
    unfold initVecsOwn initVecs initRndVecs scatter
    dsimp only
    congr 1
    · exact hC.symm
    · refine Eq.trans ?_ (cut_copyCols r p.1 _ _ _ _).symm
      refine Eq.trans ?_ (congrArg (fun x => copyCols 0 E.nevex x (cut r p.1 g.C2)) hC.symm)
      rfl

theorem lanczosDos_eq [Neg R] [Zero R] (idx m : ℕ) (z : ℕ → R) (g : GSt K N) (p : Pos r c) :
    lanczosDosOwn E idx m z (scatter r c g p.1 p.2) = scatter r c ((gOps T E).lanczosDos idx m z g) p.1 p.2 := by
  have hC : cut r p.1 (setBlk 0 ((distArith T E).gemmBack (getBlk 0 m g.C)
      (fun (a : Fin m) (b : Fin idx) => E.kern.ofBase (z (a + b * m)))) g.C2) =
      setBlk 0 (E.kern.back (getBlk 0 m (cut r p.1 g.C)) fun (a : Fin m) (b : Fin idx) =>
        E.kern.ofBase (z (a + b * m))) (cut r p.1 g.C2) := by
    rw [cut_setBlk]
    congr 1
    exact cutM_joinM r (fun i => E.kern.back (cutM r i (getBlk 0 m g.C)) (fun (a : Fin m) (b : Fin idx) =>
      E.kern.ofBase (z (a + b * m)))) p.1
  show _ = scatter r c { g with toSt := lanczosDos (distArith T E) idx m z g.toSt } p.1 p.2
  unfold lanczosDosOwn lanczosDos scatter
  dsimp only
  congr 1
  · refine Eq.trans ?_ (cut_copyCols r p.1 _ _ _ _).symm
    exact congrArg (fun x => copyCols 0 m x (cut r p.1 g.C)) hC.symm
  · exact hC.symm

theorem shiftLocal_eq (i : Fin r.procs) (j : Fin c.procs) (x : K)
    (H : Matrix (Fin (r.size i)) (Fin (c.size j)) K) (a : Fin (r.size i)) (b : Fin (c.size j)) :
    shiftLocal E (r.tab i) (c.tab j) x H a b =
      if r.glob i a = c.glob j b then E.kern.add (H a b) x else H a b := by
  refine (Mpi.blocks_loop i j (fun g h y => if h = g then E.kern.add y x else y) (fun bj bi q p H =>
    if q + (c.tab j).offs bj = p + (r.tab i).offs bi then
      fun a b => if a.val = p + (r.tab i).offsL bi ∧ b.val = q + (c.tab j).offsL bj
        then E.kern.add (H a b) x else H a b
    else H) ?_ H a b).trans ?_
  · intro bj bi q p H a b
    by_cases h : q + (c.tab j).offs bj = p + (r.tab i).offs bi
    · refine (congrFun (congrFun (if_pos h) a) b).trans ?_
      simp only [h, if_true]
    · refine (congrFun (congrFun (if_neg h) a) b).trans ?_
      simp only [h, if_false, ite_self]
  · by_cases h : r.glob i a = c.glob j b
    · simp only [h, if_true]
    · rw [if_neg h, if_neg fun hc => h (Fin.ext hc.symm)]

theorem shift_eq [Neg R] [Zero R] (x : R) (b : Bool) (g : GSt K N) (p : Pos r c) :
    shiftOwn E (E.kern.ofBase x) (scatter r c g p.1 p.2) = scatter r c ((gOps T E).shift x b g) p.1 p.2 := by
  have hH : shiftLocal E (r.tab p.1) (c.tab p.2) (E.kern.ofBase x) (cutH r c p.1 p.2 g.H) =
      cutH r c p.1 p.2 (shiftH (distArith T E) (E.kern.ofBase x) g.H) := by
    funext a b
    rw [shiftLocal_eq, shiftH_eq]
    rfl
  show _ = scatter r c { g with
    H := shiftH (distArith T E) (E.kern.ofBase x) g.H
    next := if g.fresh then .bAc else g.next
    fresh := false } p.1 p.2
  unfold shiftOwn scatter
  dsimp only
  congr 1

theorem swapOwn_eq (i j : ℕ) (g : GSt K N) (p : Pos r c) :
    swapOwn i j (scatter r c g p.1 p.2) = scatter r c g p.1 p.2 :=
  congrFun (congrFun (Mpi.swap_eq i j (scatter r c g)) p.1) p.2

/-- **Every call**: with reductions that are the same on every communicator the processes get the same answer, the one
of the global backend, and are left with their parts of its state. -/
theorem call_gives [Neg R] [Zero R] (hc : RunsOk r c E.cRuns) (hb : RunsOk c r E.bRuns) (q : Req R) (g : GSt K N) :
    Gives (fun p : Pos r c => callProg T.const E p q (scatter r c g p.1 p.2))
      fun p => ((q.run (gOps T E) g).1, scatter r c (q.run (gOps T E) g).2 p.1 p.2) := by
  cases q with
  | checkSymmetryEasy => exact symCheck_gives T E hc hb g
  | start => exact Gives.ret _
  | finish => exact Gives.ret _
  | initVecs b => exact (Gives.ret _).congr fun p => Prod.ext rfl (initVecs_eq T E b g p)
  | qr k cond => exact qr_gives T E k cond g
  | lanczos1 m => exact (mLanczos_gives T E hb g m 1 false).bind (Gives.ret _)
  | lanczosN m k => exact (mLanczos_gives T E hb g m k true).bind (Gives.ret _)
  | lanczosDos i m z => exact (Gives.ret _).congr fun p => Prod.ext rfl (lanczosDos_eq T E i m z g p)
  | shift x b => exact (Gives.ret _).congr fun p => Prod.ext rfl (shift_eq T E x b g p)
  | hemm n a b o => exact hemm_gives T E g n _ _ o
  | rr b => exact rr_gives T E hc g b
  | resd f k => exact resd_gives T E hc g f k
  | lock k => exact Gives.ret _
  | swap i j => exact (Gives.ret _).congr fun p => Prod.ext rfl (swapOwn_eq i j g p)

/-- Any sequence of calls. -/
theorem prog_gives [Neg R] [Zero R] (hc : RunsOk r c E.cRuns) (hb : RunsOk c r E.bRuns) {α : Type} (t : Script R α)
    (g : GSt K N) :
    Gives (fun p : Pos r c => prog T.const E p t (scatter r c g p.1 p.2))
      fun p => ((t.run (gOps T E) g).1, scatter r c (t.run (gOps T E) g).2 p.1 p.2) := by
  induction t generalizing g with
  | ret a => exact Gives.ret _
  | ask q k ih => exact (call_gives T E hc hb q g).bind (ih _ _)

end Par
end Rounded
end Verif
