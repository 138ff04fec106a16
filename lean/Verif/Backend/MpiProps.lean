/-
C33, C34, C38, C49, C55 and the parts of C05, C09, C13, C45, C50 that concern the distributed backend.

Everywhere `r` and `c` are arbitrary layouts of the rows and of the columns (any number of processes, any
sizes), the block-cyclic and the block layouts of the code among them (`cyclicLayout`, `blockLayout`).
`Rep s g` says that every process holds its part of the global state `g`; in particular all processes of a
grid row hold the same `C`, `C2`, all of a grid column the same `B`, `B2`.
-/
import Verif.Backend.MpiSolve
import Verif.Backend.MpiLayout
import Verif.Solver.Trace
import Verif.Solver.ToyProof
import Verif.Backend.UserArray

namespace Verif
namespace Mpi

open Matrix
open Seq (NextOp)

variable {K : Type*} [RCLike K] {N : ℕ} {r c : Layout N} {E : MEnv K}

/-! ### C33: products -/

/-- An order in which contributions are summed up: any binary tree. -/
inductive Reduction (ι : Type*) where
  | one (p : ι)
  | join (a b : Reduction ι)

namespace Reduction
variable {ι : Type*}

/-- The processes that contribute, in order. -/
def procs : Reduction ι → List ι
  | one p => [p]
  | join a b => a.procs ++ b.procs

/-- The result of the reduction. -/
def sum {M : Type*} [Add M] (x : ι → M) : Reduction ι → M
  | one p => x p
  | join a b => a.sum x + b.sum x

/-- Every process contributes exactly once. -/
def Complete [DecidableEq ι] (t : Reduction ι) : Prop := ∀ p, t.procs.count p = 1

theorem sum_eq_list {M : Type*} [AddCommMonoid M] (x : ι → M) (t : Reduction ι) :
    t.sum x = (t.procs.map x).sum := by
  induction t with
  | one p => simp [sum, procs]
  | join a b iha ihb => simp [sum, procs, iha, ihb]

/-- Whatever the order of the summation, the result is the sum over all processes. -/
theorem Complete.sum_eq [DecidableEq ι] [Fintype ι] {M : Type*} [AddCommMonoid M] {t : Reduction ι}
    (h : t.Complete) (x : ι → M) : t.sum x = ∑ p, x p := by
  rw [sum_eq_list]
  have hp : t.procs.Perm Finset.univ.toList := by
    rw [List.perm_iff_count]
    intro p
    rw [h p, List.count_eq_one_of_mem (Finset.nodup_toList _) (by simp)]
  rw [(hp.map x).sum_eq, Finset.sum_map_toList]

end Reduction

/-- `apply` with arbitrary orders of summation; they may differ from process to process. -/
def applyWith (tB : Fin r.procs → Fin c.procs → Reduction (Fin r.procs))
    (tC : Fin r.procs → Fin c.procs → Reduction (Fin c.procs)) (α β : K) (offset block locked : ℕ)
    (s : Fam K r c) : Fam K r c := fun i j =>
  match (s i j).next with
  | .bAc =>
    { s i j with
      B := setBlk (locked + offset)
        ((tB i j).sum fun i' : Fin r.procs => gemmB α β (locked + offset) block i' (s i' j)) (s i j).B
      next := .cAb }
  | .cAb =>
    { s i j with
      C := setBlk (locked + offset)
        ((tC i j).sum fun j' : Fin c.procs => gemmC α β (locked + offset) block j' (s i j')) (s i j).C
      next := .bAc }

/-- **C33** The order in which contributions are reduced does not matter. -/
theorem C33_reduction_order {tB : Fin r.procs → Fin c.procs → Reduction (Fin r.procs)}
    {tC : Fin r.procs → Fin c.procs → Reduction (Fin c.procs)} (hB : ∀ i j, (tB i j).Complete)
    (hC : ∀ i j, (tC i j).Complete) (α β : K) (offset block locked : ℕ) (s : Fam K r c) :
    applyWith tB tC α β offset block locked s = apply α β offset block locked s := by
  funext i j
  unfold applyWith apply
  rw [(hB i j).sum_eq, (hC i j).sum_eq]
  rfl

/-- **C33** Product from the row layout to the column layout: on every process, the columns of the
window become `alpha H^* C + beta B`, all others stay; nothing else changes. -/
theorem C33_apply_to_B {s : Fam K r c} {g : GSt K N} (h : Rep s g) (hn : g.next = .bAc) (α β : K)
    (offset block locked : ℕ) (i : Fin r.procs) (j : Fin c.procs) :
    (∀ k b, (apply α β offset block locked s i j).B k b =
      if locked + offset ≤ k ∧ k < locked + offset + block then
        α * (∑ x, star (g.H x (c.glob j b)) * g.C k x) + β * g.B k (c.glob j b)
      else g.B k (c.glob j b)) ∧
    (apply α β offset block locked s i j).H = (s i j).H ∧
    (apply α β offset block locked s i j).C = (s i j).C ∧
    (apply α β offset block locked s i j).C2 = (s i j).C2 ∧
    (apply α β offset block locked s i j).B2 = (s i j).B2 ∧
    (apply α β offset block locked s i j).next = .cAb := by
  have hi : (s i j).next = .bAc := (h.next i j).trans hn
  refine ⟨fun k b => ?_, ?_⟩
  · rw [(apply_rep h α β offset block locked).B i j k b]
    show (Seq.apply α β offset block locked g.toSt).B k _ = _
    unfold Seq.apply
    rw [hn]
    show setBlk _ (α • (g.Hᴴ * getBlk _ _ g.C) + β • getBlk _ _ g.B) g.B k _ = _
    rw [setBlk_axpby]
    split_ifs
    · rfl
    · rfl
  · unfold apply
    rw [hi]
    exact ⟨rfl, rfl, rfl, rfl, rfl⟩

/-- **C33** Product from the column layout to the row layout: `alpha H B + beta C`. -/
theorem C33_apply_to_C {s : Fam K r c} {g : GSt K N} (h : Rep s g) (hn : g.next = .cAb) (α β : K)
    (offset block locked : ℕ) (i : Fin r.procs) (j : Fin c.procs) :
    (∀ k a, (apply α β offset block locked s i j).C k a =
      if locked + offset ≤ k ∧ k < locked + offset + block then
        α * (∑ x, g.H (r.glob i a) x * g.B k x) + β * g.C k (r.glob i a)
      else g.C k (r.glob i a)) ∧
    (apply α β offset block locked s i j).H = (s i j).H ∧
    (apply α β offset block locked s i j).B = (s i j).B ∧
    (apply α β offset block locked s i j).C2 = (s i j).C2 ∧
    (apply α β offset block locked s i j).B2 = (s i j).B2 ∧
    (apply α β offset block locked s i j).next = .bAc := by
  have hi : (s i j).next = .cAb := (h.next i j).trans hn
  refine ⟨fun k b => ?_, ?_⟩
  · rw [(apply_rep h α β offset block locked).C i j k b]
    show (Seq.apply α β offset block locked g.toSt).C k _ = _
    unfold Seq.apply
    rw [hn]
    show setBlk _ (α • (g.H * getBlk _ _ g.B) + β • getBlk _ _ g.C) g.C k _ = _
    rw [setBlk_axpby]
    split_ifs
    · rfl
    · rfl
  · unfold apply
    rw [hi]
    exact ⟨rfl, rfl, rfl, rfl, rfl⟩

omit [RCLike K] in
/-- The states of all processes that hold the parts of a global state. -/
def scatter (r c : Layout N) (g : GSt K N) : Fam K r c := fun i j =>
  { H := fun a b => g.H (r.glob i a) (c.glob j b)
    C := fun k a => g.C k (r.glob i a)
    C2 := fun k a => g.C2 k (r.glob i a)
    B := fun k b => g.B k (c.glob j b)
    B2 := fun k b => g.B2 k (c.glob j b)
    next := g.next, locked := g.locked, isSym := g.isSym, fresh := g.fresh }

omit [RCLike K] in
theorem scatter_rep (r c : Layout N) (g : GSt K N) : Rep (scatter r c g) g :=
  ⟨fun _ _ _ _ => rfl, fun _ _ _ _ => rfl, fun _ _ _ _ => rfl, fun _ _ _ _ => rfl,
    fun _ _ _ _ => rfl, fun _ _ => rfl, fun _ _ => rfl, fun _ _ => rfl, fun _ _ => rfl⟩

omit [RCLike K] in
/-- The parts determine the states of all processes. -/
theorem Rep.unique {s s' : Fam K r c} {g : GSt K N} (h : Rep s g) (h' : Rep s' g) : s = s' := by
  have key : ∀ {s : Fam K r c}, Rep s g → s = scatter r c g := by
    intro s h
    funext i j
    have e1 := h.H i j
    have e2 := h.C i j
    have e3 := h.C2 i j
    have e4 := h.B i j
    have e5 := h.B2 i j
    have e6 := h.next i j
    have e7 := h.locked i j
    have e8 := h.isSym i j
    have e9 := h.fresh i j
    unfold scatter
    rcases hs : s i j with ⟨a1, a2, a3, a4, a5, a6, a7, a8, a9⟩
    rw [hs] at e1 e2 e3 e4 e5 e6 e7 e8 e9
    dsimp only at e1 e2 e3 e4 e5 e6 e7 e8 e9
    subst e6 e7 e8 e9
    rw [show a1 = _ from funext fun a => funext fun b => e1 a b,
      show a2 = _ from funext fun a => funext fun b => e2 a b,
      show a3 = _ from funext fun a => funext fun b => e3 a b,
      show a4 = _ from funext fun a => funext fun b => e4 a b,
      show a5 = _ from funext fun a => funext fun b => e5 a b]
  rw [key h, key h']

/-- Non-vacuity of the hypotheses on layouts and orders: seven rows in blocks of two on three processes,
starting with the second, seven columns in blocks of three on two; a lopsided tree over three processes.
(`scatter_rep` gives states for every matrix.) -/
example : ∃ (r c : Layout 7) (t : Reduction (Fin 3)), r.procs = 3 ∧ c.procs = 2 ∧ t.Complete :=
  have h1 : CyclicOk 7 2 1 3 := ⟨by decide, by decide, by decide⟩
  have h2 : CyclicOk 7 3 0 2 := ⟨by decide, by decide, by decide⟩
  ⟨cyclicLayout h1, cyclicLayout h2, .join (.join (.one 2) (.one 0)) (.one 1), rfl, rfl,
    by intro p; fin_cases p <;> decide⟩

/-! ### C34: shifts -/

/-- **C34** A shift adds the number to the entries on the diagonal of the distributed matrix and leaves
the others alone, on every process. -/
theorem C34_shift (x : K) (s : Fam K r c) (i : Fin r.procs) (j : Fin c.procs) (a : Fin (r.size i))
    (b : Fin (c.size j)) :
    (shift x s i j).H a b = (s i j).H a b + if r.glob i a = c.glob j b then x else 0 := by
  show shiftLocal (r.tab i) (c.tab j) x (s i j).H a b = _
  rw [shiftLocal_eq]
  split_ifs <;> simp

/-- **C34** Every entry of the matrix is held by exactly one process, at exactly one place; so each
diagonal entry is shifted exactly once. -/
theorem C34_entry_once (r c : Layout N) (g h : Fin N) :
    ∃! q : (Σ i, Fin (r.size i)) × (Σ j, Fin (c.size j)),
      r.glob q.1.1 q.1.2 = g ∧ c.glob q.2.1 q.2.2 = h := by
  obtain ⟨i, a, hi⟩ := r.exists_glob g
  obtain ⟨j, b, hj⟩ := c.exists_glob h
  refine ⟨(⟨i, a⟩, ⟨j, b⟩), ⟨hi, hj⟩, ?_⟩
  rintro ⟨x, y⟩ ⟨hx, hy⟩
  exact Prod.ext (r.bij.1 (hx.trans hi.symm)) (c.bij.1 (hy.trans hj.symm))

/-- **C34** A shift and its reverse leave every process's block as it was. -/
theorem C34_shift_back (x : K) (s : Fam K r c) (i : Fin r.procs) (j : Fin c.procs) :
    (shift x (shift (-x) s) i j).H = (s i j).H := by
  funext a b
  rw [C34_shift, C34_shift]
  split_ifs <;> simp

/-! ### C38: Rayleigh-Ritz and residuals -/

/-- **C38** The matrix that process `(i, j)` diagonalises is the projection of the global matrix, the
same on every process. -/
theorem C38_projected_matrix (hE : RunsOk r c E.cRuns) {s : Fam K r c} {g : GSt K N} (h : Rep s g)
    (locked block : ℕ) (i : Fin r.procs) (k l : Fin block) :
    rrMatrix locked block (asynCxHGatherC E locked block s) i k l =
      ∑ x, star (g.C2 (locked + k) x) * ∑ y, star (g.H y x) * g.C (locked + l) y := by
  have hg := gather_rep hE h locked block
  have := sum_gram (L := c) (x := fun j => (asynCxHGatherC E locked block s i j).B2)
    (y := fun j => (asynCxHGatherC E locked block s i j).B) (fun j k b => hg.B2 i j k b)
    (fun j k b => hg.B i j k b) locked block locked block
  unfold rrMatrix
  rw [this]
  show ((getBlk locked block (copyCols locked block g.C2 g.B2))ᴴ *
    getBlk locked block (setBlk locked (g.Hᴴ * getBlk locked block g.C) g.B)) k l = _
  rw [getBlk_setBlk, Matrix.mul_apply]
  refine Finset.sum_congr rfl fun x _ => ?_
  congr 1
  rw [conjTranspose_apply]
  unfold getBlk
  rw [copyCols_apply, if_pos ⟨by omega, by omega⟩]

/-- **C38** The residuals every process gets are those of the global matrix and the global vectors. -/
theorem C38_residuals (hE : RunsOk r c E.cRuns) {s : Fam K r c} {g : GSt K N} (h : Rep s g)
    (ritzv : ℕ → ℝ) (fixednev : ℕ) (i : Fin r.procs) (j : Fin c.procs) (t : ℕ)
    (ht : t < E.base.nevex - fixednev) :
    (resd E ritzv fixednev (fun i j => (s i j).locked) s).1 i j t =
      Real.sqrt (∑ x, ‖(∑ y, star (g.H y x) * g.C (g.locked + t) y) -
        (ritzv t : K) * g.C2 (g.locked + t) x‖ ^ 2) := by
  rw [(resd_rep hE h ritzv fixednev).1 i j, seq_resd_eq]
  dsimp only
  rw [if_pos ht]
  unfold nrm2
  congr 1
  refine Finset.sum_congr rfl fun x _ => ?_
  have e1 : (Seq.asynCxHGatherC g.locked (E.base.nevex - fixednev) g.toSt).B2 (g.locked + t) x =
      g.C2 (g.locked + t) x := by
    show copyCols _ _ _ _ _ _ = _
    rw [copyCols_apply, if_pos ⟨by omega, by omega⟩]
  have e2 : (Seq.asynCxHGatherC g.locked (E.base.nevex - fixednev) g.toSt).B (g.locked + t) x =
      ∑ y, star (g.H y x) * g.C (g.locked + t) y := by
    show setBlk _ _ _ _ _ = _
    rw [setBlk_mem (by omega) (by omega)]
    show (g.Hᴴ * getBlk _ _ g.C) x _ = _
    rw [Matrix.mul_apply]
    refine Finset.sum_congr rfl fun y _ => ?_
    rw [conjTranspose_apply]
    unfold getBlk
    dsimp only
    rw [Nat.add_sub_cancel_left]
  rw [Pi.add_apply, Pi.smul_apply, e1, e2, smul_eq_mul, neg_mul, neg_add_eq_sub]

/-! ### C49: all processes run in step -/

/-- Recording the calls of two corresponding backends gives corresponding backends. -/
theorem _root_.Verif.Sim.traced {R S S' : Type*} {ops : Chase R S} {ops' : Chase R S'}
    {rel : S → S' → Prop} (hs : Sim ops ops' rel) :
    Sim (Verif.traced ops) (Verif.traced ops') (fun p p' => rel p.1 p'.1 ∧ p.2 = p'.2) where
  checkSymmetryEasy := fun _ _ h => ⟨(hs.checkSymmetryEasy _ _ h.1).1,
    (hs.checkSymmetryEasy _ _ h.1).2, congrArg (· ++ _) h.2⟩
  start := fun _ _ h => ⟨hs.start _ _ h.1, congrArg (· ++ _) h.2⟩
  finish := fun _ _ h => ⟨hs.finish _ _ h.1, congrArg (· ++ _) h.2⟩
  initVecs := fun _ _ _ h => ⟨hs.initVecs _ _ _ h.1, congrArg (· ++ _) h.2⟩
  qr := fun _ _ _ _ h => ⟨hs.qr _ _ _ _ h.1, congrArg (· ++ _) h.2⟩
  lanczos1 := fun _ _ _ h => ⟨(hs.lanczos1 _ _ _ h.1).1, (hs.lanczos1 _ _ _ h.1).2,
    congrArg (· ++ _) h.2⟩
  lanczosN := fun _ _ _ _ h => ⟨(hs.lanczosN _ _ _ _ h.1).1, (hs.lanczosN _ _ _ _ h.1).2,
    congrArg (· ++ _) h.2⟩
  lanczosDos := fun _ _ _ _ _ h => ⟨hs.lanczosDos _ _ _ _ _ h.1, congrArg (· ++ _) h.2⟩
  shift := fun _ _ _ _ h => ⟨hs.shift _ _ _ _ h.1, congrArg (· ++ _) h.2⟩
  hemm := fun _ _ _ _ _ _ h => ⟨hs.hemm _ _ _ _ _ _ h.1, congrArg (· ++ _) h.2⟩
  rr := fun _ _ _ h => ⟨(hs.rr _ _ _ h.1).1, (hs.rr _ _ _ h.1).2, congrArg (· ++ _) h.2⟩
  resd := fun _ _ _ _ h => ⟨(hs.resd _ _ _ _ h.1).1, (hs.resd _ _ _ _ h.1).2,
    congrArg (· ++ _) h.2⟩
  lock := fun _ _ _ h => ⟨hs.lock _ _ _ h.1, congrArg (· ++ _) h.2⟩
  swap := fun _ _ _ _ h => ⟨hs.swap _ _ _ _ h.1, congrArg (· ++ _) h.2⟩

/-- **C49** Two processes that start from the same options and arrays and get the same answers from their
backends (whatever the states of these are) make the same calls in the same order with the same
arguments, or fail in the same way, and return the same values, residuals, and number of rounds. -/
theorem C49_same_answers {R S S' : Type*} [Add R] [Sub R] [Mul R] [Div R] [Neg R] [Zero R] [One R] [NatCast R] [LT R] [DecidableLT R]
    (P : Plat R) (cfg : Config R)
    (ops : Chase R S) (ops' : Chase R S') (rel : S → S' → Prop) (hs : Sim ops ops' rel)
    (ritzv0 resid0 : ℕ → R) (s : S) (s' : S') (h : rel s s') :
    RelE (fun a b => a.ritzv = b.ritzv ∧ a.resid = b.resid ∧ a.iterations = b.iterations ∧
        a.locked = b.locked ∧ a.be.2 = b.be.2)
      (solve P (traced ops) cfg ritzv0 resid0 (s, [])) (solve P (traced ops') cfg ritzv0 resid0 (s', [])) := by
  have := solve_sim hs.traced P cfg ritzv0 resid0 (be := (s, [])) (be' := (s', [])) ⟨h, rfl⟩
  generalize solve P (traced ops) cfg ritzv0 resid0 (s, []) = x at this ⊢
  generalize solve P (traced ops') cfg ritzv0 resid0 (s', []) = y at this ⊢
  cases this with
  | error e => exact RelE.error e
  | ok h => exact RelE.ok ⟨h.ritzv, h.resid, h.iterations, h.locked, h.be.2⟩

/-- **C49** On the distributed backend, all processes of the grid see the same run: the same calls with the
same arguments, the same outcome. -/
theorem C49_same_run (hc : RunsOk r c E.cRuns) (hb : RunsOk c r E.bRuns) (P : Plat ℝ) (cfg : Config ℝ)
    (ritzv0 resid0 : ℕ → ℝ) {s : Fam K r c} {g : GSt K N} (h : Rep s g) (i0 i1 : Fin r.procs)
    (j0 j1 : Fin c.procs) :
    solve P (traced (opsAt E i0 j0)) cfg ritzv0 resid0 (s, []) =
      solve P (traced (opsAt E i1 j1)) cfg ritzv0 resid0 (s, []) := by
  have h0 := solve_sim (sim hc hb i0 j0).traced P cfg ritzv0 resid0 (be := (s, [])) (be' := (g, []))
    ⟨h, rfl⟩
  have h1 := solve_sim (sim hc hb i1 j1).traced P cfg ritzv0 resid0 (be := (s, [])) (be' := (g, []))
    ⟨h, rfl⟩
  generalize solve P (traced (opsAt E i0 j0)) cfg ritzv0 resid0 (s, []) = x at h0 ⊢
  generalize solve P (traced (opsAt E i1 j1)) cfg ritzv0 resid0 (s, []) = y at h1 ⊢
  generalize solve P (traced (gOps (E.glob r))) cfg ritzv0 resid0 (g, []) = z at h0 h1
  cases h0 with
  | error e => cases h1; rfl
  | ok h0 =>
    cases h1 with
    | ok h1 =>
      rename_i a z b
      obtain ⟨a1, a2, a3, a4, a5, a6⟩ := a
      obtain ⟨b1, b2, b3, b4, b5, b6⟩ := b
      obtain ⟨e1, e2, e3, e4, e5, e6⟩ := h0
      obtain ⟨f1, f2, f3, f4, f5, f6⟩ := h1
      dsimp only at e1 e2 e3 e4 e5 e6 f1 f2 f3 f4 f5 f6
      rw [e1, e2, e3, e4, e6, f1, f2, f3, f4, f6, e5.unique f5]

/-! ### C55: the grid does not matter -/

/-- The start vectors and the symmetry check only enter through their results. -/
theorem solve_congr_start {R S : Type*} [Add R] [Sub R] [Mul R] [Div R] [Neg R] [Zero R] [One R] [NatCast R] [LT R] [DecidableLT R]
    (P : Plat R) (cfg : Config R)
    (ops : Chase R S) (init : Bool → S → S) (check : S → Bool × S) (ritzv0 resid0 : ℕ → R) (s : S)
    (hi : init (!cfg.approx) = ops.initVecs (!cfg.approx))
    (hk : cfg.symCheck = true → check s = ops.checkSymmetryEasy s) :
    solve P { ops with initVecs := init, checkSymmetryEasy := check } cfg ritzv0 resid0 s =
      solve P ops cfg ritzv0 resid0 s := by
  have hl : ∀ tol index locked n k st,
      lockLoop { ops with initVecs := init, checkSymmetryEasy := check } tol index locked n k st =
        lockLoop ops tol index locked n k st := by
    intro tol index locked n
    induction n with
    | zero => intro k st; rfl
    | succ n ih =>
      intro k st
      unfold lockLoop
      dsimp only
      split_ifs
      · rfl
      · exact ih _ _
  have h0 : ∀ st, iter P { ops with initVecs := init, checkSymmetryEasy := check } cfg st =
      iter P ops cfg st := by
    intro st
    have : ∀ st, lockStep P { ops with initVecs := init, checkSymmetryEasy := check } cfg st =
        lockStep P ops cfg st := by
      intro st
      unfold lockStep locking
      dsimp only
      rw [hl]
    unfold iter
    simp only [this]
    rfl
  have h1 : ∀ be, initState P { ops with initVecs := init, checkSymmetryEasy := check } cfg ritzv0 resid0 be
      = initState P ops cfg ritzv0 resid0 be := by
    intro be
    unfold initState
    dsimp only
    rw [hi]
    rfl
  have h2 : ∀ n st, Toy.loopFuel P { ops with initVecs := init, checkSymmetryEasy := check } cfg n st =
      Toy.loopFuel P ops cfg n st := by
    intro n
    induction n with
    | zero => intro st; rfl
    | succ n ih =>
      intro st
      unfold Toy.loopFuel
      rw [h0]
      simp only [ih]
  have h3 : ∀ st, solveLoop P { ops with initVecs := init, checkSymmetryEasy := check } cfg st =
      solveLoop P ops cfg st := by
    intro st
    rw [Toy.loopFuel_eq _ _ _ _ st rfl, Toy.loopFuel_eq _ _ _ _ st rfl, h2]
  unfold solve
  have h4 : (if cfg.symCheck then check s else (true, s)) =
      (if cfg.symCheck then ops.checkSymmetryEasy s else (true, s)) := by
    split_ifs with h
    · exact hk h
    · rfl
  dsimp only
  simp only [h4, h1, h3]
  rfl

/-- **C55** For start vectors supplied by the user, the result of a solve does not depend on the number
of processes, the shape of the grid, or the distribution of the matrix: two distributed backends that hold the
same matrix and vectors return the same values and residuals after the same number of rounds, and their
processes end up with the parts of the same vectors. -/
theorem C55_grid_independent {r' c' : Layout N} {E' : MEnv K}
    (hc : RunsOk r c E.cRuns) (hb : RunsOk c r E.bRuns) (hc' : RunsOk r' c' E'.cRuns)
    (hb' : RunsOk c' r' E'.bRuns) (hbase : E.base = E'.base) (hsca : E.scalapack = E'.scalapack)
    (P : Plat ℝ) (cfg : Config ℝ) (ritzv0 resid0 : ℕ → ℝ) {s : Fam K r c} {s' : Fam K r' c'}
    {g : GSt K N} (h : Rep s g) (h' : Rep s' g) (ha : cfg.approx = true)
    (hsym : cfg.symCheck = true → g.H.IsHermitian ∧ 0 ≤ E.symTol ∧ 0 ≤ E'.symTol)
    (i0 : Fin r.procs) (j0 : Fin c.procs) (i1 : Fin r'.procs) (j1 : Fin c'.procs) :
    RelE (fun a b => a.ritzv = b.ritzv ∧ a.resid = b.resid ∧ a.iterations = b.iterations ∧
        a.locked = b.locked ∧ ∃ X : ℕ → Fin N → K,
          (∀ i j k l, (a.be i j).C k l = X k (r.glob i l)) ∧
          ∀ i j k l, (b.be i j).C k l = X k (r'.glob i l))
      (solve P (opsAt E i0 j0) cfg ritzv0 resid0 s) (solve P (opsAt E' i1 j1) cfg ritzv0 resid0 s') := by
  have h0 := solve_sim (sim hc hb i0 j0) P cfg ritzv0 resid0 h
  have h1 := solve_sim (sim hc' hb' i1 j1) P cfg ritzv0 resid0 h'
  have e : solve P (gOps (E'.glob r')) cfg ritzv0 resid0 g = solve P (gOps (E.glob r)) cfg ritzv0 resid0 g := by
    have e1 : gOps (E'.glob r') = { gOps (E.glob r) with
        initVecs := (gOps (E'.glob r')).initVecs
        checkSymmetryEasy := (gOps (E'.glob r')).checkSymmetryEasy } := by
      unfold gOps gQrRoutines MEnv.glob
      dsimp only
      rw [hbase, hsca]
    rw [e1]
    refine solve_congr_start P cfg _ _ _ ritzv0 resid0 g ?_ fun hk => ?_
    · rw [ha]
      funext t
      show (⟨Seq.initVecs E'.base t.toSt, t.fresh⟩ : GSt K N) = ⟨Seq.initVecs E.base t.toSt, t.fresh⟩
      rw [hbase]
    · obtain ⟨a1, a2, a3⟩ := hsym hk
      show (gSymCheck (E'.glob r') g, ({ g with isSym := gSymCheck (E'.glob r') g } : GSt K N)) =
        (gSymCheck (E.glob r) g, ({ g with isSym := gSymCheck (E.glob r) g } : GSt K N))
      rw [gSymCheck_hermitian (G := E'.glob r') a3 g a1, gSymCheck_hermitian (G := E.glob r) a2 g a1]
  rw [e] at h1
  generalize solve P (opsAt E i0 j0) cfg ritzv0 resid0 s = x at h0 ⊢
  generalize solve P (opsAt E' i1 j1) cfg ritzv0 resid0 s' = y at h1 ⊢
  generalize solve P (gOps (E.glob r)) cfg ritzv0 resid0 g = z at h0 h1
  cases h0 with
  | error e => cases h1; exact RelE.error _
  | ok h0 =>
    cases h1 with
    | ok h1 =>
      rename_i a z b
      exact RelE.ok ⟨h0.ritzv.trans h1.ritzv.symm, h0.resid.trans h1.resid.symm,
        h0.iterations.trans h1.iterations.symm, h0.locked.trans h1.locked.symm, z.be.C,
        h0.be.C, h1.be.C⟩

/-! ### C54: start vectors -/

/-- **C54** (distributed CPU backend) If the arrays of the processes hold the rows of vectors `V`, so that
all processes of a grid row were given the same rows, then in approximation mode the block the solver starts
from is `V`, on every process and in every column. -/
theorem C54_start_vectors_mpi (s : Fam K r c) (V : ℕ → Fin N → K)
    (hV : ∀ i j k a, (s i j).C k a = V k (r.glob i a)) (i0 : Fin r.procs) (j0 : Fin c.procs) :
    ∀ i j k a, ((opsAt E i0 j0).initVecs false ((opsAt E i0 j0).start s) i j).C k a = V k (r.glob i a) :=
  hV

/-- Any vectors can be handed over, on any grid: every process is given its rows of them. -/
example (g : GSt K N) (i0 : Fin r.procs) (j0 : Fin c.procs) : ∀ i j k a,
    ((opsAt E i0 j0).initVecs false ((opsAt E i0 j0).start (scatter r c g)) i j).C k a = g.C k (r.glob i a) :=
  C54_start_vectors_mpi (scatter r c g) g.C (scatter_rep r c g).C i0 j0

/-- **C54** (distributed CPU backend) Without approximation mode the block does not depend on the user's
array: two processes of the same grid row hold the same rows, drawn by the generator of that row, each entry
from its own place in the stream. -/
theorem C54_random_start_mpi (s : Fam K r c) (i0 : Fin r.procs) (j0 : Fin c.procs) (i : Fin r.procs)
    (j : Fin c.procs) (k : ℕ) (hk : k < E.base.nev + E.base.nex) (a : Fin (r.size i)) :
    ((opsAt E i0 j0).initVecs true ((opsAt E i0 j0).start s) i j).C k a = E.gen i (k * r.size i + a) := by
  have h : k < E.base.nevex := hk
  simp [opsAt, initVecs, initRndVecs, writeAt, h]

/-! ### C05, C50, C03: whole solves -/

/-- **C05**, the cause of its failure on the distributed backend: `Swap` leaves all data of all
processes as they are. -/
theorem C05_mpi_swap_noop (i0 : Fin r.procs) (j0 : Fin c.procs) (a b : ℕ) (s : Fam K r c) :
    (opsAt E i0 j0).swap a b s = s := swap_eq a b s

/-- **C50, C05, C13** (partial, distributed CPU backend).  After a solve every process holds its block of
the original matrix and its rows of vectors `X`.  If there was a round, `X` is orthonormal and the
returned pairs are certified, but with the columns in the order `σ`: value `i` belongs to column `σ i`, where
`σ` moves only the wanted pairs and is the identity after a single round.  Missing from the full claim:
`σ` is the rearrangement of the final sort, which `Swap` should have applied to the columns. -/
theorem C50_mpi_partial (hc : RunsOk r c E.cRuns) (hb : RunsOk c r E.bRuns) (P : Plat ℝ)
    (hP : SortsIndices P) (hkeep : SortKeepsSorted P) (hL : E.base.lapack.Ok) (ht : 0 ≤ E.symTol)
    (cfg : Config ℝ) (hnev : E.base.nev = cfg.nev) (hnex : E.base.nex = cfg.nex) (hN : cfg.N = N)
    (hle : cfg.nev + cfg.nex ≤ N) (hmax : Even cfg.maxDeg) (ritzv0 resid0 : ℕ → ℝ)
    {s : Fam K r c} {g : GSt K N} (h : Rep s g) (hH : g.H.IsHermitian) (i0 : Fin r.procs)
    (j0 : Fin c.procs) (out : Outcome ℝ (Fam K r c))
    (ho : solve P (opsAt E i0 j0) cfg ritzv0 resid0 s = .ok out) :
    (∀ i j, (out.be i j).H = (s i j).H) ∧
    ∃ X : ℕ → Fin N → K, (∀ i j k a, (out.be i j).C k a = X k (r.glob i a)) ∧
      (0 < out.iterations →
        (∀ k l, k < cfg.nev + cfg.nex → l < cfg.nev + cfg.nex →
          ∑ x, star (X k x) * X l x = if k = l then 1 else 0) ∧
        ∃ σ : Equiv.Perm ℕ, (∀ i, cfg.nev ≤ i → σ i = i) ∧ (out.iterations = 1 → σ = 1) ∧
          CertifiedPairs g.H cfg.nev (cfg.nev + cfg.nex) out.ritzv out.resid (X ∘ σ)) := by
  have h0 := solve_sim (sim hc hb i0 j0) P cfg ritzv0 resid0 h
  rw [ho] at h0
  generalize hz : solve P (gOps (E.glob r)) cfg ritzv0 resid0 g = z at h0
  cases h0 with
  | ok h0 =>
    rename_i z
    obtain ⟨g1, g2⟩ := gSolve (G := E.glob r) P hP hL ht cfg hnev hnex hN hle hmax ritzv0 resid0 g hH z hz
    refine ⟨fun i j => ?_, z.be.C, h0.be.C, fun hit => ?_⟩
    · funext a b
      rw [h0.be.H, g1, h.H]
    · rw [h0.iterations] at hit
      obtain ⟨be0, st, -, -, -, σ, h5, -, -, h8, h9, -, h10⟩ := g2 hit
      refine ⟨h9, σ, fun i hi => h5 i (Or.inr hi), fun h1 => h8 (h0.iterations.symm.trans h1), ?_⟩
      rw [h0.ritzv, h0.resid]
      exact h10 hkeep

/-- **C03** (distributed CPU backend) Once a pair is locked, no later round changes its value, its residual
or, on any process, its column. -/
theorem C03_mpi (hc : RunsOk r c E.cRuns) (hb : RunsOk c r E.bRuns) (P : Plat ℝ)
    (hP : SortsIndices P) (hL : E.base.lapack.Ok) (cfg : Config ℝ) (hnev : E.base.nev = cfg.nev)
    (hnex : E.base.nex = cfg.nex) (hN : cfg.N = N) (hle : cfg.nev + cfg.nex ≤ N)
    (hmax : Even cfg.maxDeg) (ritzv0 resid0 : ℕ → ℝ) {s : Fam K r c} {g : GSt K N} (h : Rep s g)
    (hH : g.H.IsHermitian) (i0 : Fin r.procs) (j0 : Fin c.procs) (st st' : St ℝ (Fam K r c))
    (hr : Reach P (opsAt E i0 j0) cfg ritzv0 resid0 s st) (hs : Steps P (opsAt E i0 j0) cfg st st') :
    st.locked ≤ st'.locked ∧
    ∀ k, k < st.locked → st'.ritzv k = st.ritzv k ∧ st'.resid k = st.resid k ∧
      ∀ i j, (st'.be i j).C k = (st.be i j).C k := by
  subst hN
  have hE : (E.glob r).base.nevex = cfg.nev + cfg.nex := by
    show E.base.nevex = _
    unfold Env.nevex; rw [hnev, hnex]
  have hf := gFrame (G := E.glob r) hL (by rw [hE]; exact hle) hH
  have hp := gMakesPairs (G := E.glob r) hL hH
  have hrs := gMakesResiduals (G := E.glob r) hL hH
  have ha := gMakesAscending (G := E.glob r) hL hH
  rw [hE] at hf hp hrs ha
  have hS := sim (K := K) (E := E) hc hb i0 j0
  -- a round of the distributed backend is a round of the global one
  have step : ∀ {a b : St ℝ (Fam K r c)} {a' : St ℝ (GSt K cfg.N)}, St.Rel Rep a a' →
      Step P (opsAt E i0 j0) cfg a b → ∃ b', Step P (gOps (E.glob r)) cfg a' b' ∧ St.Rel Rep b b' := by
    intro a b a' hab hst
    have := iter_sim hS P cfg hab
    rw [hst.2] at this
    generalize hy : iter P (gOps (E.glob r)) cfg a' = y at this
    cases this with
    | ok hh =>
      rename_i b'
      refine ⟨b', ⟨?_, hy⟩, hh⟩
      obtain ⟨h1, h2⟩ := hst.1
      exact ⟨hab.unconverged ▸ h1, hab.iteration ▸ h2⟩
  have start : ∃ st1, Reach P (gOps (E.glob r)) cfg ritzv0 resid0 g st1 ∧ St.Rel Rep st st1 := by
    clear hs
    induction hr with
    | init hi =>
      have := initState_sim hS P cfg ritzv0 resid0 h
      rw [hi] at this
      generalize hy : initState P (gOps (E.glob r)) cfg ritzv0 resid0 g = y at this
      cases this with
      | ok hh => exact ⟨_, .init hy, hh⟩
    | step h1 h2 ih =>
      obtain ⟨st1, k1, k2⟩ := ih
      obtain ⟨b', k3, k4⟩ := step k2 h2
      exact ⟨b', .step k1 k3, k4⟩
  obtain ⟨st1, k1, k2⟩ := start
  have more : ∃ st2, Steps P (gOps (E.glob r)) cfg st1 st2 ∧ St.Rel Rep st' st2 := by
    induction hs with
    | refl => exact ⟨st1, .refl _, k2⟩
    | tail h1 h2 ih =>
      obtain ⟨b, l1, l2⟩ := ih
      obtain ⟨b', l3, l4⟩ := step l2 h2
      exact ⟨b', l1.tail l3, l4⟩
  obtain ⟨st2, k3, k4⟩ := more
  obtain ⟨m1, m2⟩ := C03_locked_pairs_frozen_noSwap P (gOps (E.glob r)) GSt.cols GSt.nl
    (gPhases (E.glob r) g.H) (IsRayleigh g.H) (IsResidual g.H) cfg hP hf (fun _ _ _ => rfl) hmax ha hp hrs
    ritzv0 resid0 g rfl st1 st2 k1 k3
  rw [k2.locked, k4.locked]
  refine ⟨m1, fun k hk => ?_⟩
  obtain ⟨n1, n3, n2⟩ := m2 k hk
  rw [k4.ritzv, k2.ritzv, k4.resid, k2.resid]
  refine ⟨n1, n3, fun i j => ?_⟩
  funext a
  rw [k4.be.C, k2.be.C]
  exact congrFun n2 _

/-! ### C13: the filter restores the matrix -/

/-- On any backend whose products leave the matrix alone and whose shifts are undone by the opposite
shift, a filter that completes leaves the matrix as it was. -/
theorem filter_restores {R S M : Type*} [Field R] {ops : Chase R S} (mat : S → M) (add : R → M → M)
    (hadd : ∀ x m, add x (add (-x) m) = m) (hs : ∀ x b s, mat (ops.shift x b s) = add x (mat s))
    (hh : ∀ n x y o s, mat (ops.hemm n x y o s) = mat s) {n u deg : ℕ} {degrees : ℕ → ℕ}
    {dsize p0 : ℕ} {l lo up : R} {s s' : S} {av : ℕ}
    (h : filter ops n u deg degrees dsize p0 l lo up s = .ok (av, s')) : mat s' = mat s := by
  unfold filter at h
  split_ifs at h
  dsimp only at h
  split at h
  · cases h
  · split at h
    · cases h
    · rename_i st hst
      cases h
      have : mat st.be = add (-((up + lo) / 2)) (mat s) := by
        refine forRangeM_pres_partial _
          (fun st : FilterSt R S => mat st.be = add (-((up + lo) / 2)) (mat s)) ?_ ?_ hst
        · show mat (ops.hemm _ _ _ _ _) = _
          rw [hh, hs]
        · intro i st1 st2 _ _ h1 h2
          unfold filterStep at h2
          split_ifs at h2
          dsimp only at h2
          split at h2
          · cases h2
          · cases h2
            exact (hh _ _ _ _ _).trans h1
      rw [hs, this, hadd]

/-- **C13** (distributed CPU backend) A filter that completes leaves the block of the matrix on every
process as it was; whatever the degrees, the bounds and the data, and even if the processes do not hold parts
of one matrix. -/
theorem C13_mpi (i0 : Fin r.procs) (j0 : Fin c.procs) {n u deg : ℕ} {degrees : ℕ → ℕ}
    {dsize p0 av : ℕ} (lambda1 lower upper : ℝ) (s s' : Fam K r c)
    (h : filter (opsAt E i0 j0) n u deg degrees dsize p0 lambda1 lower upper s = .ok (av, s'))
    (i : Fin r.procs) (j : Fin c.procs) : (s' i j).H = (s i j).H := by
  refine filter_restores (ops := opsAt E i0 j0) (fun s : Fam K r c => (s i j).H)
    (fun (x : ℝ) H => shiftLocal (r.tab i) (c.tab j) (x : K) H) ?_ (fun x b s => rfl) ?_ h
  · intro x H
    funext a b
    rw [shiftLocal_eq, shiftLocal_eq]
    split_ifs <;> simp
  · intro n x y o s
    show (apply (x : K) (y : K) o n (s i j).locked s i j).H = _
    unfold apply
    cases (s i j).next <;> rfl

/-! ### C09: the symmetry check -/

/-- **C09** (distributed CPU backend) The check compares `H^* v` and `H v` entry by entry, with an
absolute tolerance; `v` is the vector of which process row `i` draws its part. -/
theorem C09_mpi_check_iff (hc : RunsOk r c E.cRuns) (hb : RunsOk c r E.bRuns) {s : Fam K r c}
    {H : Matrix (Fin N) (Fin N) K} (hH : ∀ i j a b, (s i j).H a b = H (r.glob i a) (c.glob j b))
    {v : Fin N → K} (hv : ∀ i a, v (r.glob i a) = E.probe i a) :
    symCheck E s = true ↔ ∀ x, ‖((H - Hᴴ).mulVec v) x‖ ≤ E.symTol := by
  let g : GSt K N := ⟨⟨H, fun _ _ => 0, fun _ _ => 0, fun _ _ => 0, fun _ _ => 0, .bAc, 0, false⟩, false⟩
  have e1 : symCheck E s = symCheck E (scatter r c g) := by
    have : ∀ i, symLocal E s i = symLocal E (scatter r c g) i := by
      intro i
      have hs : ∀ i j, (s i j).H = (scatter r c g i j).H := fun i j => funext fun a => funext fun b => hH i j a b
      unfold symLocal
      simp only [hs]
    unfold symCheck
    simp only [this]
  have hv' : v = (E.glob r).probe := (assemble_eq r fun p a => (hv p a).symm).symm
  rw [e1, symCheck_rep hc hb (scatter_rep r c g)]
  unfold gSymCheck
  rw [decide_eq_true_eq, ← hv']
  refine forall_congr' fun x => ?_
  rw [Matrix.sub_mulVec, Pi.sub_apply, norm_sub_rev]
  rfl

/-- **C09** (distributed CPU backend) A Hermitian matrix is accepted. -/
theorem C09_mpi_hermitian_accepted (hc : RunsOk r c E.cRuns) (hb : RunsOk c r E.bRuns) {s : Fam K r c}
    {H : Matrix (Fin N) (Fin N) K} (hs : ∀ i j a b, (s i j).H a b = H (r.glob i a) (c.glob j b))
    (hH : H.IsHermitian) (ht : 0 ≤ E.symTol) : symCheck E s = true := by
  rw [C09_mpi_check_iff hc hb hs (v := (E.glob r).probe) 
    (fun i a => assemble_apply r (fun p a => E.probe p a) i a)]
  intro x
  rw [hH.eq, sub_self, Matrix.zero_mulVec]
  simpa using ht

/-- **C09 is false as stated on the distributed backend**: whatever the matrix, a small enough positive
multiple of it is accepted, because the tolerance is absolute; also if the matrix is far from Hermitian
and the random vector sees it. -/
theorem C09_mpi_refuted (hc : RunsOk r c E.cRuns) (hb : RunsOk c r E.bRuns) (ht : 0 < E.symTol)
    (H : Matrix (Fin N) (Fin N) K) {v : Fin N → K} (hv : ∀ i a, v (r.glob i a) = E.probe i a)
    (hskew : (H - Hᴴ).mulVec v ≠ 0) :
    ∃ t : ℝ, 0 < t ∧ (((t : K) • H) - ((t : K) • H)ᴴ).mulVec v ≠ 0 ∧
      ∀ s : Fam K r c, (∀ i j a b, (s i j).H a b = ((t : K) • H) (r.glob i a) (c.glob j b)) →
        symCheck E s = true := by
  set w := (H - Hᴴ).mulVec v with hw
  have hpos : 0 < 1 + ∑ x, ‖w x‖ := by
    have : 0 ≤ ∑ x, ‖w x‖ := Finset.sum_nonneg fun _ _ => norm_nonneg _
    linarith
  have hlin : ∀ t : ℝ, (((t : K) • H) - ((t : K) • H)ᴴ).mulVec v = (t : K) • w := by
    intro t
    have : ((t : K) • H)ᴴ = (t : K) • Hᴴ := by
      rw [conjTranspose_smul]
      simp
    rw [this, ← smul_sub, Matrix.smul_mulVec]
  refine ⟨E.symTol / (1 + ∑ x, ‖w x‖), div_pos ht hpos, ?_, ?_⟩
  · rw [hlin]
    refine smul_ne_zero ?_ hskew
    exact_mod_cast (div_pos ht hpos).ne'
  · intro s hs
    rw [C09_mpi_check_iff hc hb hs hv]
    intro x
    rw [hlin, Pi.smul_apply, norm_smul, RCLike.norm_ofReal, abs_of_pos (div_pos ht hpos), div_mul_eq_mul_div,
      div_le_iff₀ hpos]
    refine mul_le_mul_of_nonneg_left ?_ ht.le
    have : ‖w x‖ ≤ ∑ x, ‖w x‖ := Finset.single_le_sum (fun _ _ => norm_nonneg _) (Finset.mem_univ x)
    linarith

/-! ### C45: symmetrisation -/

theorem halveLocal_eq (upper : Bool) (i : Fin r.procs) (j : Fin c.procs)
    (H : Matrix (Fin (r.size i)) (Fin (c.size j)) K) (a : Fin (r.size i)) (b : Fin (c.size j)) :
    halveLocal upper (r.tab i) (c.tab j) H a b =
      if c.glob j b = r.glob i a then H a b * (1 / 2 : K)
      else if (if upper then c.glob j b < r.glob i a else c.glob j b > r.glob i a) then 0
      else H a b := by
  refine (blocks_loop i j (fun g h y => if h = g then y * (1 / 2 : K)
    else if (if upper then h < g else h > g) then 0 else y) _ (fun bj bi q p H a b => rfl) H a b).trans ?_
  simp only [Fin.ext_iff, Fin.lt_def, gt_iff_lt]

/-- **C45** (distributed CPU backend with ScaLAPACK) Symmetrising keeps the chosen triangle, mirrors it
into the other one and makes the diagonal real: the processes then hold the parts of a Hermitian matrix. -/
theorem C45_mpi_symmetrise (hsca : E.scalapack = true) (upper : Bool) {s : Fam K r c}
    {H : Matrix (Fin N) (Fin N) K} (hs : ∀ i j a b, (s i j).H a b = H (r.glob i a) (c.glob j b)) :
    ∃ S : Matrix (Fin N) (Fin N) K, S.IsHermitian ∧
      (∀ p q, (if upper then p < q else q < p) → S p q = H p q) ∧
      (∀ p, S p p = (RCLike.re (H p p) : K)) ∧
      ∀ i j a b, (symmetrise E upper s i j).H a b = S (r.glob i a) (c.glob j b) := by
  let U : Matrix (Fin N) (Fin N) K := fun p q =>
    if q = p then H p q * (1 / 2 : K)
    else if (if upper then q < p else q > p) then 0 else H p q
  have hU : ∀ i j a b, halveLocal upper (r.tab i) (c.tab j) (s i j).H a b = U (r.glob i a) (c.glob j b) := by
    intro i j a b
    rw [halveLocal_eq, hs]
  have hA : assembleH (r := r) (c := c) (fun i j => halveLocal upper (r.tab i) (c.tab j) (s i j).H) = U := by
    funext p q
    obtain ⟨i, a, rfl⟩ := r.exists_glob p
    obtain ⟨j, b, rfl⟩ := c.exists_glob q
    have h1 : (Equiv.ofBijective _ r.bij).symm (r.glob i a) = ⟨i, a⟩ :=
      (Equiv.ofBijective _ r.bij).symm_apply_apply (⟨i, a⟩ : Σ p, Fin (r.tab p).size)
    have h2 : (Equiv.ofBijective _ c.bij).symm (c.glob j b) = ⟨j, b⟩ :=
      (Equiv.ofBijective _ c.bij).symm_apply_apply (⟨j, b⟩ : Σ p, Fin (c.tab p).size)
    unfold assembleH
    dsimp only
    rw [h1, h2]
    exact hU i j a b
  refine ⟨U + Uᴴ, ?_, ?_, ?_, ?_⟩
  · rw [Matrix.IsHermitian, conjTranspose_add, conjTranspose_conjTranspose, add_comm]
  · intro p q hpq
    rw [Matrix.add_apply, conjTranspose_apply]
    have e1 : U p q = H p q := by
      show (if q = p then _ else if _ then _ else _) = _
      cases upper <;> simp only [if_true, Bool.false_eq_true, if_false] at hpq ⊢ <;>
        rw [if_neg (by omega), if_neg (by omega)]
    have e2 : U q p = 0 := by
      show (if p = q then _ else if _ then _ else _) = _
      cases upper <;> simp only [if_true, Bool.false_eq_true, if_false] at hpq ⊢ <;>
        rw [if_neg (by omega), if_pos (by omega)]
    rw [e1, e2, star_zero, add_zero]
  · intro p
    rw [Matrix.add_apply, conjTranspose_apply]
    show (if p = p then _ else _) + star (if p = p then _ else _) = _
    rw [if_pos rfl, RCLike.star_def, map_mul, map_div₀, map_one, map_ofNat, ← add_mul, RCLike.add_conj]
    field_simp
  · intro i j a b
    unfold symmetrise
    rw [if_pos hsca]
    dsimp only
    rw [hA, hU]
    rfl

/-- **C45 is false on the distributed backend without ScaLAPACK**: nothing happens. -/
theorem C45_mpi_refuted (hsca : E.scalapack = false) (upper : Bool) (s : Fam K r c) :
    symmetrise E upper s = s := by
  unfold symmetrise
  rw [hsca]
  rfl

/-! ### A concrete grid -/

section example_
variable (K)

theorem exRow : CyclicOk 7 2 0 3 := ⟨by decide, by decide, by decide⟩
theorem exCol : CyclicOk 7 3 0 2 := ⟨by decide, by decide, by decide⟩

/-- The parameters of a 3 x 2 grid with different block sizes for rows and columns. -/
noncomputable def exMEnv : MEnv K where
  base := exEnv K
  gen := fun p k => (p + k : ℕ)
  probe := fun p k => (p + k : ℕ)
  scalapack := true
  symTol := 0
  cRuns := commRuns 7 2 3 0 3 2 0 fun p => if p = 0 then 3 else 2
  bRuns := commRuns 7 3 2 0 2 3 0 fun p => if p = 0 then 4 else 3

theorem exRuns : RunsOk (cyclicLayout exRow) (cyclicLayout exCol) (exMEnv K).cRuns ∧
    RunsOk (cyclicLayout exCol) (cyclicLayout exRow) (exMEnv K).bRuns := by
  constructor
  · refine cyclic_runs (by decide) exRow exCol (Or.inr ⟨rfl, rfl⟩)
      (lens := fun p => if p = 0 then 3 else 2) ?_
    intro p hp
    interval_cases p <;> exact ⟨_, rfl⟩
  · refine cyclic_runs (by decide) exCol exRow (Or.inr ⟨rfl, rfl⟩)
      (lens := fun p => if p = 0 then 4 else 3) ?_
    intro p hp
    interval_cases p <;> exact ⟨_, rfl⟩

/-- Non-vacuity of C49, C50 and C55 on that grid: a solve of a matrix that is not diagonal completes with
at least one round. -/
example : ∃ (s : Fam K (cyclicLayout exRow) (cyclicLayout exCol)) (g : GSt K 7)
    (out : Outcome ℝ (Fam K (cyclicLayout exRow) (cyclicLayout exCol))),
    Rep s g ∧ g.H = exMat K ∧ g.H.IsHermitian ∧
    solve (realPlat 1 id) (opsAt (exMEnv K) (2 : Fin 3) (1 : Fin 2)) (exCfg 4) (fun _ => 0) (fun _ => 0) s
      = .ok out ∧ 0 < out.iterations ∧ (exMEnv K).base.lapack.Ok ∧ SortsIndices (realPlat 1 id) ∧
    SortKeepsSorted (realPlat 1 id) := by
  let g : GSt K 7 := ⟨⟨exMat K, fun _ _ => 0, fun _ _ => 0, fun _ _ => 0, fun _ _ => 0, .bAc, 0, true⟩, true⟩
  have hL : (exEnv K).lapack.Ok := Lapack.ideal_ok _ _ _
  obtain ⟨out, ho, hpos⟩ := C51_approx_solve_defined (realPlat 1 id)
    (opsAt (r := cyclicLayout exRow) (c := cyclicLayout exCol) (exMEnv K) (2 : Fin 3) (1 : Fin 2)) (exCfg 4) rfl
    (by decide) (by decide) (by decide) (by decide) (by decide) (by decide) (by decide)
    (fun h => absurd h (by decide)) (fun _ => 0) (fun _ => 0) (scatter _ _ g)
  refine ⟨scatter _ _ g, g, out, scatter_rep _ _ _, rfl, exMat_hermitian, ho, hpos (fun _ => ?_) (by decide), hL,
    realPlat_sorts _ _, realPlat_keeps _ _⟩
  exact C09_mpi_hermitian_accepted (exRuns K).1 (exRuns K).2 (fun _ _ _ _ => rfl) exMat_hermitian (le_refl _)

end example_

end Mpi
end Verif
