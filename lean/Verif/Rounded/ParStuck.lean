/-
What happens on the distributed CPU backend when the rows of the grid add the contributions to a residual in different
orders: lemmas about the programs of the processes up to the first residual, in any arithmetic.
-/
import Verif.Rounded.ParProps

namespace Verif
namespace Rounded
namespace Par

open Verif.Spmd
open Script
open Mpi (Layout RunsOk GSt scatter Proc)
open Mpi.Spmd (Pos Own EndsWith)

variable {K R : Type} {N : ℕ} {r c : Layout N}

/-- The reductions `T`, but the sums of reals on the row communicators are `ρ`. -/
def mixed (T : Red1 K R r c) (ρ : Fin r.procs → ∀ {ι : Type}, (Fin c.procs → ι → R) → ι → R) : Reds K R r c where
  colK := fun _ {_} x => T.colK x
  rowK := fun _ {_} x => T.rowK x
  colR := fun _ {_} x => T.colR x
  rowR := ρ

/-- The call does not ask for residuals. -/
def NoResd : Req R → Prop
  | .resd _ _ => False
  | _ => True

/-- Performing calls other than `Resd` leads from one program and state to another. -/
inductive Before {S α : Type} (ops : Chase R S) : Script R α → S → Script R α → S → Prop
  | refl (t s) : Before ops t s t s
  | call {q k s t s'} : NoResd q → Before ops (k (q.run ops s).1) (q.run ops s).2 t s' → Before ops (.ask q k) s t s'

section
variable [Neg R] [Zero R] (T : Red1 K R r c) (ρ : Fin r.procs → ∀ {ι : Type}, (Fin c.procs → ι → R) → ι → R)
  (E : DEnv K R)

theorem call_mixed (p : Pos r c) (q : Req R) (hq : NoResd q) (d : Own K r c p) :
    callProg (mixed T ρ) E p q d = callProg T.const E p q d := by
  cases q with
  | resd _ _ => exact hq.elim
  | qr k cond => rfl
  | _ => rfl

/-- Up to the first residual all is as with the reductions `T`. -/
theorem before_leads (hc : RunsOk r c E.cRuns) (hb : RunsOk c r E.bRuns) {α : Type} {t t' : Script R α}
    {g g' : GSt K N} (h : Before (gOps T E) t g t' g') :
    Leads (fun p : Pos r c => prog (mixed T ρ) E p t (scatter r c g p.1 p.2))
      fun p => prog (mixed T ρ) E p t' (scatter r c g' p.1 p.2) := by
  induction h with
  | refl => exact Leads.refl _
  | @call q k s t s' hq _ ih =>
    refine Leads.trans ?_ ih
    have h1 := Leads.bind (call_gives T E hc hb q s) (α := fun p => α × Own K r c p)
      (fun p (x : q.Ans × Own K r c p) => prog (mixed T ρ) E p (k x.1) x.2)
    refine Eq.mp (congrArg (fun s => Leads s _) (funext fun p => ?_)) h1
    show (callProg T.const E p q _).bind _ = (callProg (mixed T ρ) E p q _).bind _
    rw [call_mixed T ρ E p q hq]

/-- The residual vectors before their norms are taken. -/
noncomputable def resVec (ritzv : ℕ → R) (locked u : ℕ) (s : Seq.St K N) : ℕ → Fin N → K :=
  let s := asynCxHGatherC (distArith T E) locked u s
  fun t => (distArith T E).axpy (E.kern.ofBase (-ritzv t)) (s.B2 (locked + t)) (s.B (locked + t))

/-- Every row gets its own residuals. -/
theorem resd_mixed (hc : RunsOk r c E.cRuns) (g : GSt K N) (ritzv : ℕ → R) (fixednev : ℕ) :
    Gives (fun p : Pos r c => resdProg (mixed T ρ) E p ritzv fixednev (scatter r c g p.1 p.2))
      fun p => (ext 0 fun t : Fin (E.nevex - fixednev) => E.kern.sqrt (ρ p.1 (fun j (t : Fin (E.nevex - fixednev)) =>
          E.kern.normp2 (cutV c j (resVec T E ritzv g.locked (E.nevex - fixednev) g.toSt t))) t),
        scatter r c { g with toSt := (gResd T E ritzv g.locked (E.nevex - fixednev) g.toSt).2 } p.1 p.2) := by
  unfold resdProg
  obtain ⟨u, hu⟩ : ∃ u, u = E.nevex - fixednev := ⟨_, rfl⟩
  rw [← hu]
  refine Gives.bind (gather_gives T E hc g u) ?_
  let s1 := asynCxHGatherC (distArith T E) g.locked u g.toSt
  let x : ℕ → Fin N → K := resVec T E ritzv g.locked u g.toSt
  have hx : ∀ (j : Fin c.procs) (t : ℕ), cutV c j (x t) = E.kern.axpy (E.kern.ofBase (-ritzv t))
      (cutV c j (s1.B2 (g.locked + t))) (cutV c j (s1.B (g.locked + t))) := fun j t =>
    cutV_assemble c (fun j => E.kern.axpy (E.kern.ofBase (-ritzv t)) (cutV c j (s1.B2 (g.locked + t)))
      (cutV c j (s1.B (g.locked + t)))) j
  refine op_gives _ (fun p : Pos r c => ρ p.1 fun j (t : Fin u) => E.kern.normp2 (cutV c j (x t))) (fun p => ?_) ?_
  · refine congrArg (ρ p.1) (funext fun j => funext fun t => ?_)
    refine (congrFun (congrArg Prod.fst (resdLocal_eq E ritzv _ u _)) t).trans ?_
    dsimp only
    rw [if_pos t.2, hx]
    rfl
  refine (Gives.ret _).congr fun p => Prod.ext rfl ?_
  show _ = scatter r c { g with toSt := { s1 with B := writeAt s1.B g.locked u x } } p.1 p.2
  unfold scatter
  dsimp only
  congr 1
  refine (congrArg Prod.snd (resdLocal_eq E ritzv _ u _)).trans ?_
  refine Eq.trans ?_ (cut_writeAt c p.2 _ _ s1.B x).symm
  dsimp only
  refine Mpi.Spmd.writeAt_congr _ _ fun t _ => ?_
  exact (hx p.2 t).symm

end

/-! ### The first round of a small solve, in any arithmetic -/

namespace Stuck

section
variable [Add R] [Sub R] [Mul R] [Div R] [Neg R] [Zero R] [One R] [NatCast R] [LT R] [DecidableLT R]

/-- One wanted pair of a matrix of dimension four, no extra vectors, filter of degree two, a start vector given. -/
def cfg1 (tol : R) : Config R where
  N := 4
  nev := 1
  nex := 0
  approx := true
  maxIter := 25
  tol := tol
  deg := 2
  optimization := false
  maxDeg := 36
  degExtra := 2
  lanczosIter := 10
  numLanczos := 4
  cholqr := false
  symCheck := false


/-- The end of `solve`. -/
def endT (cfg : Config R) (st : St R Unit) : Script R (Except Err (Outcome R Unit)) :=
  (finalSortT cfg.nev st.ritzv).bind fun ritzv =>
    do_ .finish <| .ret (.ok { ritzv, resid := st.resid, iterations := st.iteration, locked := st.locked, be := () })

/-- The state before the first round. -/
def st0 (P : Plat R) (r0 s0 : ℕ → R) (ub : R) : St R Unit where
  ritzv := r0
  resid := writeAt s0 0 1 fun _ => P.maxVal
  residLast := fun _ => P.maxVal
  degrees := fun _ => 2
  deg := 2
  lowerb := r0 0
  upperb := ub
  lambda := r0 0
  locked := 0
  unconverged := 1
  iteration := 0
  be := ()

/-- The calls before the first round. -/
theorem start_eq (P : Plat R) (tol : R) (r0 s0 : ℕ → R) : solveT P (cfg1 tol) r0 s0 =
     .ask .start fun _ => .ask (.initVecs false) fun _ => .ask (.lanczos1 1) fun (ub : R) =>
      (solveLoopT P (cfg1 tol) 25 (st0 P r0 s0 ub)).bindE (endT (cfg1 tol)) := by with_unfolding_all rfl

/-- The centre of the interval that is damped. -/
def ctr (ub : R) (r0 : ℕ → R) : R := (ub + if r0 0 > ub then ub else r0 0) / 2
/-- Half its length, and the factors of the two products of the filter. -/
def rad (ub : R) (r0 : ℕ → R) : R := (ub - if r0 0 > ub then ub else r0 0) / 2
def sig (ub : R) (r0 : ℕ → R) : R := rad ub r0 / (r0 0 - ctr ub r0)
def sig2 (ub : R) (r0 : ℕ → R) : R := 1 / (2 / sig ub r0 - sig ub r0)

/-- The state after the bounds have been updated. -/
def st1 (P : Plat R) (r0 s0 : ℕ → R) (ub : R) : St R Unit := updateBounds 1 (st0 P r0 s0 ub)

theorem iter_eq (P : Plat R) (tol : R) (r0 s0 : ℕ → R) (ub : R) : iterT P (cfg1 tol) (st0 P r0 s0 ub) =
    .ask (.shift (-ctr ub r0) false) fun _ => .ask (.hemm 1 (sig ub r0 / rad ub r0) 0 0) fun _ =>
    .ask (.hemm 1 (2 * sig2 ub r0 / rad ub r0) (-sig ub r0 * sig2 ub r0) 0) fun _ =>
    .ask (.shift (ctr ub r0) true) fun _ =>
    (projectT P (cfg1 tol) (st1 P r0 s0 ub)).bind fun st => (lockStepT P (cfg1 tol) st).bind fun st => .ret (.ok st) := by
  with_unfolding_all rfl

/-- The state after the residuals are known. -/
def st2 (P : Plat R) (r0 s0 : ℕ → R) (ub : R) (vals res : ℕ → R) : St R Unit :=
  { st1 P r0 s0 ub with
    ritzv := writeAt r0 0 1 vals
    resid := writeAt (st1 P r0 s0 ub).resid 0 1 res
    residLast := forRange 0 1 (fun i rl => Function.update rl (0 + i)
      (stdMin (rl (0 + i)) ((st1 P r0 s0 ub).resid (0 + i)))) (st1 P r0 s0 ub).residLast }

/-- What a process does after it got the residuals of the first round. -/
def restT (P : Plat R) (tol : R) (st : St R Unit) : Script R (Except Err (Outcome R Unit)) :=
  (((lockStepT P (cfg1 tol) st).bind fun st => .ret (.ok st)).bindE (solveLoopT P (cfg1 tol) 24)).bindE
    (endT (cfg1 tol))

/-- The calls of the first round up to the residual. -/
theorem loop_eq (P : Plat R) (tol : R) (r0 s0 : ℕ → R) (ub : R) :
    (solveLoopT P (cfg1 tol) 25 (st0 P r0 s0 ub)).bindE (endT (cfg1 tol)) =
    .ask (.shift (-ctr ub r0) false) fun _ => .ask (.hemm 1 (sig ub r0 / rad ub r0) 0 0) fun _ =>
    .ask (.hemm 1 (2 * sig2 ub r0 / rad ub r0) (-sig ub r0 * sig2 ub r0) 0) fun _ =>
    .ask (.shift (ctr ub r0) true) fun _ =>
    .ask (.qr 0 (P.condEst ub (st1 P r0 s0 ub).lowerb (r0 0) (r0 0) 2 2)) fun _ =>
    .ask (.rr 1) fun (vals : ℕ → R) => .ask (.resd (fun i => writeAt r0 0 1 vals (0 + i)) 0) fun (res : ℕ → R) =>
    restT P tol (st2 P r0 s0 ub vals res) := by
  have h : solveLoopT P (cfg1 tol) 25 (st0 P r0 s0 ub) =
      (iterT P (cfg1 tol) (st0 P r0 s0 ub)).bindE (solveLoopT P (cfg1 tol) 24) := by
    rw [solveLoopT, if_pos]
    exact ⟨Nat.one_pos, Nat.succ_pos 24⟩
  rw [h, iter_eq]
  rfl

/-- With a residual that is not above the tolerance the process returns without meeting the others again. -/
theorem rest_done (P : Plat R) (tol : R) (r0 s0 : ℕ → R) (ub : R) (vals res : ℕ → R)
    (hP : ∀ key, P.sortIdx 1 key 0 = 0) (h : ¬ res 0 > tol) :
    ∃ out, restT P tol (st2 P r0 s0 ub vals res) = .ask (.lock 1) fun _ => .ask .finish fun _ => .ret (.ok out) := by
  unfold restT lockStepT lockingT
  show ∃ out, (((Script.bind (lockLoopT tol (P.sortIdx 1 _) 0 1 0 _) _).bind _).bindE _).bindE _ = _
  rw [lockLoopT]
  dsimp only
  rw [hP, if_neg]
  · refine ⟨⟨(st2 P r0 s0 ub vals res).ritzv, (st2 P r0 s0 ub vals res).resid, 1, 1, ()⟩, ?_⟩
    with_unfolding_all rfl
  · rintro ⟨h1, -⟩
    exact h h1

omit [LT R] [DecidableLT R] in
theorem filter_head (n u deg : ℕ) (degrees : ℕ → ℕ) (dsize p0 : ℕ) (lambda1 lower upper : R) (hn : n ≠ 0) :
    ∃ x a b k, filterT n u deg degrees dsize p0 lambda1 lower upper =
      .ask (.shift x false) fun _ => .ask (.hemm u a b 0) k := by
  unfold filterT
  rw [if_neg hn]
  dsimp only
  rw [Nat.zero_div]
  exact ⟨_, _, _, _, rfl⟩

theorem iter_head (P : Plat R) (tol : R) (st : St R Unit) :
    ∃ x a b k, iterT P (cfg1 tol) st = .ask (.shift x false) fun _ => .ask (.hemm st.unconverged a b 0) k := by
  have h : iterT P (cfg1 tol) st = (filterT 4 st.unconverged (updateBounds 1 st).deg st.degrees 1 st.locked
      (updateBounds 1 st).lambda (updateBounds 1 st).lowerb st.upperb).bindE fun _ =>
      (projectT P (cfg1 tol) (updateBounds 1 st)).bind fun st =>
      (lockStepT P (cfg1 tol) st).bind fun st => .ret (.ok st) := by with_unfolding_all rfl
  obtain ⟨x, a, b, k, h'⟩ := filter_head 4 st.unconverged (updateBounds 1 st).deg st.degrees 1 st.locked
      (updateBounds 1 st).lambda (updateBounds 1 st).lowerb st.upperb (by decide)
  rw [h, h']
  exact ⟨x, a, b, _, rfl⟩

/-- With a residual above the tolerance it begins another round. -/
theorem rest_on (P : Plat R) (tol : R) (r0 s0 : ℕ → R) (ub : R) (vals res : ℕ → R)
    (hP : ∀ key, P.sortIdx 1 key 0 = 0) (h : res 0 > tol) (h' : res 0 < P.maxVal) :
    ∃ x a b k, restT P tol (st2 P r0 s0 ub vals res) =
      .ask (.lock 0) fun _ => .ask (.shift x false) fun _ => .ask (.hemm 1 a b 0) k := by
  let st := st2 P r0 s0 ub vals res
  let st' : St R Unit := { st with iteration := 1 }
  have hl : st.residLast (0 + 0) = P.maxVal := by
    show stdMin P.maxVal P.maxVal = _
    unfold stdMin; split_ifs <;> rfl
  have h1 : restT P tol st = .ask (.lock 0) fun _ => (solveLoopT P (cfg1 tol) 24 st').bindE (endT (cfg1 tol)) := by
    unfold restT lockStepT lockingT
    show (((Script.bind (lockLoopT tol (P.sortIdx 1 _) 0 1 0 _) _).bind _).bindE _).bindE _ = _
    rw [lockLoopT]
    dsimp only
    rw [hP, if_pos]
    · rfl
    · exact ⟨h, by rw [hl]; exact h'⟩
  have h2 : solveLoopT P (cfg1 tol) 24 st' = (iterT P (cfg1 tol) st').bindE (solveLoopT P (cfg1 tol) 23) := by
    rw [solveLoopT, if_pos]
    exact ⟨Nat.one_pos, Nat.succ_lt_succ (Nat.succ_pos 23)⟩
  obtain ⟨x, a, b, k, h3⟩ := iter_head P tol st'
  refine ⟨x, a, b, fun y => ((k y).bindE (solveLoopT P (cfg1 tol) 23)).bindE (endT (cfg1 tol)), ?_⟩
  rw [h1, h2, h3]
  rfl


end

/-! ### Double precision -/

section
variable {p : ℕ}

/-- The sum from left to right. -/
def sum {n : ℕ} (f : Fin n → Fp p) : Fp p := (List.finRange n).foldl (fun s k => s + f k) 0

/-- The largest number of at most `n` bits whose square is at most `x`. -/
def isqrt (x : ℕ) : ℕ → ℕ → ℕ
  | 0, y => y
  | n + 1, y => isqrt x n (if (y + 2 ^ n) ^ 2 ≤ x then y + 2 ^ n else y)

/-- The square root, computed to 120 places behind the point and rounded. -/
def sqrt (x : Fp p) : Fp p := ⟨rnd p ((isqrt (x.val * 4 ^ 120).floor.toNat 160 0 : ℕ) / 2 ^ 120)⟩

/-- Kernels in `p`-bit arithmetic.  Products, sums and norms are computed in the obvious order.  Orthogonalisation
returns unit vectors, the dense eigensolver the diagonal: enough for a block of one vector. -/
def kern (p : ℕ) (ub : Fp p) : Kern (Fp p) (Fp p) where
  ofBase := id
  zero := 0
  one := 1
  add := (· + ·)
  neg := (- ·)
  differ := fun a b => decide (a ≠ b)
  gemm := fun H α β X Y a k =>
    let s := α * sum fun j => H a j * X j k
    if β = 0 then s else s + β * Y a k
  gemmAdj := fun H α β X Y a k =>
    let s := α * sum fun j => H j a * X j k
    if β = 0 then s else s + β * Y a k
  proj := fun X Y a b => sum fun i => X i a * Y i b
  back := fun X Z a k => sum fun i => X a i * Z i k
  heevd := fun M => (fun i => M i i, fun i j => if i = j then 1 else 0)
  axpy := fun a x y i => a * x i + y i
  scal := fun a x i => a * x i
  dot := fun x y => sum fun i => x i * y i
  normp2 := fun x => sum fun i => x i * x i
  nrm2sq := fun x => sum fun i => x i * x i
  sqrt := sqrt
  inv := fun x => 1 / x
  re := id
  hhqr := fun _ a k => if a.val = k.val then 1 else 0
  syherk := fun X a b => sum fun i => X i a * X i b
  potrf := fun A => (1, A)
  trsm := fun _ V => V
  shiftGram := fun _ A => A
  bound := fun _ _ _ _ => ub
  multi := fun _ _ _ _ _ => ⟨ub, fun _ => 0, fun _ => 0, fun _ => 0⟩
  above := fun _ => false
  below := fun _ => false

theorem rowOk : Mpi.CyclicOk 4 2 0 2 := ⟨by decide, by decide, by decide⟩
theorem colOk : Mpi.CyclicOk 4 1 0 3 := ⟨by decide, by decide, by decide⟩

/-- Rows 0, 1 and 2, 3 on the two rows of the grid; columns 0, 3 and 1 and 2 on its three columns. -/
abbrev rowL : Layout 4 := Mpi.cyclicLayout rowOk
abbrev colL : Layout 4 := Mpi.cyclicLayout colOk

/-- The parameters. -/
def env : DEnv (Fp 53) (Fp 53) where
  nev := 1
  nex := 0
  doCholQR := false
  envDisable := none
  kern := kern 53 ⟨8⟩
  gen := fun _ _ => 0
  probe := fun _ _ => 0
  scalapack := false
  cRuns := Mpi.commRuns 4 2 2 0 1 3 0 fun _ => 2
  bRuns := Mpi.commRuns 4 1 3 0 2 2 0 fun p => if p = 0 then 2 else 1

theorem envRuns : RunsOk rowL colL env.cRuns ∧ RunsOk colL rowL env.bRuns := by
  constructor
  · refine Mpi.cyclic_runs (by decide) rowOk colOk (Or.inr ⟨rfl, rfl⟩) (lens := fun _ => 2) ?_
    intro p hp
    interval_cases p <;> exact ⟨_, rfl⟩
  · refine Mpi.cyclic_runs (by decide) colOk rowOk (Or.inr ⟨rfl, rfl⟩) (lens := fun p => if p = 0 then 2 else 1) ?_
    intro p hp
    interval_cases p <;> exact ⟨_, rfl⟩

/-- Sums of two and of three numbers, from left to right. -/
def add2 (x : Fin rowL.procs → Fp 53) : Fp 53 := x (0 : Fin 2) + x (1 : Fin 2)
def add3 (x : Fin colL.procs → Fp 53) : Fp 53 := (x (0 : Fin 3) + x (1 : Fin 3)) + x (2 : Fin 3)
/-- The sum of three numbers in another order. -/
def add3' (x : Fin colL.procs → Fp 53) : Fp 53 := x (0 : Fin 3) + (x (1 : Fin 3) + x (2 : Fin 3))

/-- All reductions from left to right. -/
def left : Red1 (Fp 53) (Fp 53) rowL colL where
  colK := fun x i => add2 fun q => x q i
  rowK := fun x i => add3 fun q => x q i
  colR := fun x i => add2 fun q => x q i
  rowR := fun x i => add3 fun q => x q i

/-- The sums of reals on the second row in the other order. -/
def rows (i : Fin rowL.procs) {ι : Type} (x : Fin colL.procs → ι → Fp 53) (t : ι) : Fp 53 :=
  if i.val = 0 then add3 fun q => x q t else add3' fun q => x q t

/-- The matrix: `1, 2, 3, 4` on the diagonal, and three small entries beside the first one. -/
def mat : Matrix (Fin 4) (Fin 4) (Fp 53) := fun i j =>
  if i = j then ⟨(i.val + 1 : ℕ)⟩
  else if i.val = 0 ∨ j.val = 0 then (if i.val + j.val = 3 then ⟨3 / 2 ^ 36⟩ else ⟨1 / 2 ^ 61⟩)
  else 0

/-- The first unit vector. -/
def e1 : Fin 4 → Fp 53 := fun i => if i.val = 0 then 1 else 0

/-- The global state before the solve. -/
def glob : GSt (Fp 53) 4 := ⟨⟨mat, fun _ => e1, fun _ _ => 0, fun _ _ => 0, fun _ _ => 0, .bAc, 0, true⟩, true⟩

/-- The tolerance and the start value. -/
def tol : Fp 53 := ⟨3 / 2 ^ 36⟩
def val0 : ℕ → Fp 53 := fun _ => 1

def plat : Plat (Fp 53) where
  maxVal := ⟨1000000⟩
  degNeeded := fun _ _ _ _ _ => some 2
  condEst := fun _ _ _ _ _ _ => 1
  sortIdx := fun u key k => Toy.plat.sortIdx u (fun i => (key i).val) k
  gauss := fun _ => ⟨1 / 2⟩

theorem plat_permutes : PermutesIndices plat := fun u key => Toy.plat_sorts.permutes u fun i => (key i).val

/-- Part `j` of the product of the matrix and the first unit vector. -/
def prodPart (j : Fin colL.procs) : Fin (colL.size j) → Fp 53 := fun b =>
  add2 fun i => (kern 53 ⟨8⟩).gemmAdj (cutH rowL colL i j mat) 1 0 (one (cutV rowL i e1)) (one fun _ => 0) b (0 : Fin 1)

/-- The residual of row `i` of the grid. -/
def resAt (i : Fin rowL.procs) : Fp 53 := sqrt (rows i (fun j (_ : Fin 1) =>
  (kern 53 ⟨8⟩).normp2 ((kern 53 ⟨8⟩).axpy (-1) (cutV colL j e1) (prodPart j))) 0)

theorem resAt_eq : resAt (0 : Fin 2) = ⟨3 / 2 ^ 36⟩ ∧ resAt (1 : Fin 2) = ⟨3 / 2 ^ 36 + 1 / 2 ^ 87⟩ := by
  decide +kernel

/-- What the state looks like from the orthogonalisation on. -/
structure Good (s : Seq.St (Fp 53) 4) : Prop where
  H : s.H = mat
  C : s.C 0 = e1
  C2 : s.C2 0 = e1
  next : s.next = .bAc

theorem parts_ok : (∀ i a, (kern 53 ⟨8⟩).back (cutM rowL i (one e1)) (fun i j : Fin 1 => if i = j then 1 else 0) a
      (0 : Fin 1) = e1 (rowL.glob i a)) ∧
    add3 (fun j => (kern 53 ⟨8⟩).proj (one (cutV colL j e1)) (one (prodPart j)) (0 : Fin 1) (0 : Fin 1)) = 1 := by
  decide +kernel

/-- The product of the matrix and the vector. -/
theorem gather_cut {s : Seq.St (Fp 53) 4} (h : Good s) (j : Fin colL.procs) :
    cutV colL j ((asynCxHGatherC (distArith left env) 0 1 s).B 0) = prodPart j := by
  funext b
  have h1 := congrFun (congrFun (cutM_joinM colL (fun j => square (left.colK fun i => flat (env.kern.gemmAdj
    (cutH rowL colL i j s.H) env.kern.one (if i.val ≠ 0 then env.kern.zero else env.kern.zero)
    (cutM rowL i (getBlk 0 1 s.C)) (cutM colL j (getBlk 0 1 s.B))))) j) b) (0 : Fin 1)
  refine h1.trans ?_
  have hC : getBlk 0 1 s.C = one e1 := by
    funext a k
    have : (0 + k.val) = 0 := by omega
    show s.C (0 + k.val) a = e1 a
    rw [this, h.C]
  rw [hC, h.H]
  change add2 (fun i => env.kern.gemmAdj (cutH rowL colL i j mat) env.kern.one
    (if i.val ≠ 0 then env.kern.zero else env.kern.zero) (cutM rowL i (one e1)) (cutM colL j (getBlk 0 1 s.B)) b
    (0 : Fin 1)) = add2 _
  refine congrArg add2 (funext fun i => ?_)
  rw [ite_self]
  rfl

theorem gather_B2 {s : Seq.St (Fp 53) 4} (h : Good s) : (asynCxHGatherC (distArith left env) 0 1 s).B2 0 = e1 := h.C2

/-- Rayleigh-Ritz finds the first diagonal entry and leaves the vector. -/
theorem rr_good {s : Seq.St (Fp 53) 4} (h : Good s) :
    (rr (distArith left env) 0 1 0 s).1 0 = 1 ∧ Good (rr (distArith left env) 0 1 0 s).2 := by
  have hC : (rr (distArith left env) 0 1 0 s).2.C 0 = e1 := by
    change Mpi.assemble rowL (fun i a => env.kern.back (cutM rowL i
      (getBlk 0 1 (asynCxHGatherC (distArith left env) 0 1 s).C2)) (fun i j : Fin 1 => if i = j then 1 else 0) a
      (0 : Fin 1)) = e1
    refine Mpi.assemble_eq rowL fun i a => ?_
    refine Eq.trans ?_ (parts_ok.1 i a)
    have hB : getBlk 0 1 (asynCxHGatherC (distArith left env) 0 1 s).C2 = one e1 := by
      funext a k
      have : (0 + k.val) = 0 := by omega
      show s.C2 (0 + k.val) a = e1 a
      rw [this, h.C2]
    rw [hB]
    rfl
  refine ⟨?_, h.H, hC, hC, h.next⟩
  refine Eq.trans ?_ parts_ok.2
  show add3 (fun j => env.kern.proj (cutM colL j (getBlk 0 1 _)) (cutM colL j (getBlk 0 1 _)) (0 : Fin 1) (0 : Fin 1)) = _
  refine congrArg add3 (funext fun j => ?_)
  have e : ∀ V : ℕ → Fin 4 → Fp 53, cutM colL j (getBlk 0 1 V) = one (cutV colL j (V 0)) := by
    intro V
    funext a k
    have : (0 + k.val) = 0 := by omega
    show V (0 + k.val) _ = V 0 _
    rw [this]
  rw [e, e, gather_cut h, gather_B2 h]
  rfl

/-- The residual vector. -/
theorem resVec_cut {s : Seq.St (Fp 53) 4} (h : Good s) (ritzv : ℕ → Fp 53) (h1 : ritzv 0 = 1) (j : Fin colL.procs) :
    cutV colL j (resVec left env ritzv 0 1 s 0) = (kern 53 ⟨8⟩).axpy (-1) (cutV colL j e1) (prodPart j) := by
  refine (cutV_assemble colL (fun j => env.kern.axpy (env.kern.ofBase (-ritzv 0))
    (cutV colL j ((asynCxHGatherC (distArith left env) 0 1 s).B2 0))
    (cutV colL j ((asynCxHGatherC (distArith left env) 0 1 s).B 0))) j).trans ?_
  rw [gather_cut h, gather_B2 h, h1]
  rfl

/-- The shifts of the first round cancel. -/
theorem shifts_ok : ∀ i j, shiftH (distArith left env) (ctr ⟨8⟩ val0) (shiftH (distArith left env) (-ctr ⟨8⟩ val0) mat) i j =
    mat i j := by
  intro i j
  have e : (distArith left env).add = (· + ·) := rfl
  unfold shiftH
  rw [e]
  fin_cases i <;> fin_cases j <;> decide +kernel

/-- The state after a call. -/
noncomputable def after (q : Req (Fp 53)) (g : GSt (Fp 53) 4) : GSt (Fp 53) 4 := (q.run (gOps left env) g).2

/-- The state after the filter. -/
noncomputable def filtered : GSt (Fp 53) 4 :=
  after (.shift (ctr ⟨8⟩ val0) true) <|
  after (.hemm 1 (2 * sig2 ⟨8⟩ val0 / rad ⟨8⟩ val0) (-sig ⟨8⟩ val0 * sig2 ⟨8⟩ val0) 0) <|
  after (.hemm 1 (sig ⟨8⟩ val0 / rad ⟨8⟩ val0) 0 0) <|
  after (.shift (-ctr ⟨8⟩ val0) false) <| after (.initVecs false) <| after .start glob

/-- The state after the orthogonalisation, and after Rayleigh-Ritz. -/
noncomputable def ortho : GSt (Fp 53) 4 := after (.qr 0 1) filtered
noncomputable def ritz : GSt (Fp 53) 4 := after (.rr 1) ortho

/-- The values Rayleigh-Ritz hands back. -/
noncomputable def vals : ℕ → Fp 53 := ((Req.rr 1).run (gOps left env) ortho).1

theorem ortho_good : Good ortho.toSt where
  H := by
    funext i j
    exact shifts_ok i j
  C := rfl
  C2 := rfl
  next := rfl

theorem ritz_good : vals 0 = 1 ∧ Good ritz.toSt := rr_good ortho_good

/-- The first round up to the residuals. -/
theorem before_resd (resid0 : ℕ → Fp 53) : Before (gOps left env) (solveT plat (cfg1 tol) val0 resid0) glob
    (.ask (.resd (fun i => writeAt val0 0 1 vals (0 + i)) 0) fun (res : ℕ → Fp 53) =>
      restT plat tol (st2 plat val0 resid0 ⟨8⟩ vals res)) ritz := by
  rw [start_eq]
  refine .call trivial (.call trivial (.call trivial ?_))
  show Before _ ((solveLoopT plat (cfg1 tol) 25 (st0 plat val0 resid0 ⟨8⟩)).bindE (endT (cfg1 tol))) _ _ _
  rw [loop_eq]
  exact .call trivial (.call trivial (.call trivial (.call trivial (.call trivial (.call trivial (.refl _ _))))))


theorem sorts1 : ∀ key, plat.sortIdx 1 key 0 = 0 := fun key => by
  have h := (plat_permutes 1 key).1 0 (by decide)
  omega

/-- The answer to `Resd` on row `i`. -/
noncomputable def ansAt (i : Fin rowL.procs) : ℕ → Fp 53 :=
  ext 0 fun t : Fin 1 => sqrt (rows i (fun j (t : Fin 1) => (kern 53 ⟨8⟩).normp2 (cutV colL j
    (resVec left env (fun i => writeAt val0 0 1 vals (0 + i)) 0 1 ritz.toSt t))) t)

theorem ext_zero {X : Type} (z : X) (f : Fin 1 → X) : ext z f 0 = f 0 := dif_pos Nat.one_pos

theorem ansAt_zero (i : Fin rowL.procs) : ansAt i 0 = resAt i := by
  have h := resVec_cut ritz_good.2 (fun i => writeAt val0 0 1 vals (0 + i)) ritz_good.1
  unfold ansAt resAt
  rw [ext_zero]
  refine congrArg sqrt ?_
  have e : (fun j (t : Fin 1) => (kern 53 ⟨8⟩).normp2 (cutV colL j
    (resVec left env (fun i => writeAt val0 0 1 vals (0 + i)) 0 1 ritz.toSt t))) = fun j (_ : Fin 1) =>
      (kern 53 ⟨8⟩).normp2 ((kern 53 ⟨8⟩).axpy (-1) (cutV colL j e1) (prodPart j)) := by
    funext j t
    have ht : (t : ℕ) = 0 := by omega
    rw [ht, h]
  exact congrArg (fun f : Fin colL.procs → Fin 1 → Fp 53 => rows i f 0) e

/-- The state after `Resd`. -/
noncomputable def done : GSt (Fp 53) 4 :=
  { ritz with toSt := (gResd left env (fun i => writeAt val0 0 1 vals (0 + i)) 0 1 ritz.toSt).2 }

theorem resd_at (g : GSt (Fp 53) 4) (ritzv : ℕ → Fp 53) {l u : ℕ} (hl : g.locked = l) (hu : env.nevex - 0 = u) :
    Gives (fun p : Pos rowL colL => resdProg (mixed left rows) env p ritzv 0 (scatter rowL colL g p.1 p.2))
      fun p => (ext 0 fun t : Fin u => sqrt (rows p.1 (fun j (t : Fin u) =>
          (kern 53 ⟨8⟩).normp2 (cutV colL j (resVec left env ritzv l u g.toSt t))) t),
        scatter rowL colL { g with toSt := (gResd left env ritzv l u g.toSt).2 } p.1 p.2) := by
  subst hl hu
  exact resd_mixed left rows env envRuns.1 g ritzv 0

theorem ritz_locked : ritz.locked = 0 := rfl

theorem resd_ritz : Gives (fun p : Pos rowL colL => resdProg (mixed left rows) env p
    (fun i => writeAt val0 0 1 vals (0 + i)) 0 (scatter rowL colL ritz p.1 p.2))
    fun p => (ansAt p.1, scatter rowL colL done p.1 p.2) :=
  resd_at ritz (fun i => writeAt val0 0 1 vals (0 + i)) ritz_locked rfl

theorem leads_of_gives {P : Type} {α β : P → Type} {s : Conf β} {b : ∀ p, β p} (h : Gives s b)
    (f : ∀ p, β p → Prog α p) : Leads (fun p => (s p).bind (f p)) fun p => f p (b p) := Leads.bind h f

/-- What a process does with the answer to `Resd`. -/
noncomputable def goOn (resid0 : ℕ → Fp 53) (p : Pos rowL colL) (x : (ℕ → Fp 53) × Own (Fp 53) rowL colL p) :
    Prog (fun p => Except Err (Outcome (Fp 53) Unit) × Own (Fp 53) rowL colL p) p :=
  prog (mixed left rows) env p (restT plat tol (st2 plat val0 resid0 ⟨8⟩ vals x.1)) x.2

theorem prog_ask (resid0 : ℕ → Fp 53) (ritzv : ℕ → Fp 53) (p : Pos rowL colL) (d : Own (Fp 53) rowL colL p) :
    prog (mixed left rows) env p (.ask (.resd ritzv 0) fun (res : ℕ → Fp 53) =>
      restT plat tol (st2 plat val0 resid0 ⟨8⟩ vals res)) d =
    (resdProg (mixed left rows) env p ritzv 0 d).bind (goOn resid0 p) := rfl

/-- Where the processes are after the first residual. -/
theorem leads_split (resid0 : ℕ → Fp 53) :
    Leads (fun p : Pos rowL colL => solveProg (mixed left rows) env plat (cfg1 tol) val0 resid0 p
        (scatter rowL colL glob p.1 p.2))
      fun p => goOn resid0 p (ansAt p.1, scatter rowL colL done p.1 p.2) := by
  refine (before_leads left rows env envRuns.1 envRuns.2 (before_resd resid0)).trans ?_
  have h : Leads (fun p : Pos rowL colL => (resdProg (mixed left rows) env p (fun i => writeAt val0 0 1 vals (0 + i)) 0
      (scatter rowL colL ritz p.1 p.2)).bind (goOn resid0 p))
      fun p => goOn resid0 p (ansAt p.1, scatter rowL colL done p.1 p.2) := leads_of_gives resd_ritz (goOn resid0)
  exact Eq.mp (congrArg (fun s => Leads s _) (funext fun p => (prog_ask resid0 _ p _).symm)) h

theorem row0 (resid0 : ℕ → Fp 53) (p : Pos rowL colL) (hp : p.1.val = 0) :
    ∃ out d, goOn resid0 p (ansAt p.1, scatter rowL colL done p.1 p.2) = .ret (.ok out, d) := by
  have e : p.1 = (0 : Fin 2) := Fin.ext hp
  obtain ⟨out, h⟩ := rest_done plat tol val0 resid0 ⟨8⟩ vals (ansAt p.1) sorts1 (by
    rw [ansAt_zero, e, resAt_eq.1]
    exact lt_irrefl (3 / 2 ^ 36 : ℚ))
  unfold goOn
  dsimp only
  rw [h]
  exact ⟨_, _, rfl⟩

theorem row1 (resid0 : ℕ → Fp 53) (p : Pos rowL colL) (hp : p.1.val = 1) :
    ∃ m k, goOn resid0 p (ansAt p.1, scatter rowL colL done p.1 p.2) =
      .op (redCol (mixed left rows).colK fun j => Fin (colL.size j) × Fin 1) m k := by
  have e : p.1 = (1 : Fin 2) := Fin.ext hp
  have hv : resAt (1 : Fin 2) > tol ∧ resAt (1 : Fin 2) < plat.maxVal := by
    rw [resAt_eq.2]
    constructor
    · show (3 / 2 ^ 36 : ℚ) < 3 / 2 ^ 36 + 1 / 2 ^ 87
      norm_num
    · show (3 / 2 ^ 36 + 1 / 2 ^ 87 : ℚ) < 1000000
      norm_num
  obtain ⟨x, a, b, k, h⟩ := rest_on plat tol val0 resid0 ⟨8⟩ vals (ansAt p.1) sorts1
    (by rw [ansAt_zero, e]; exact hv.1) (by rw [ansAt_zero, e]; exact hv.2)
  unfold goOn
  dsimp only
  rw [h]
  exact ⟨_, _, rfl⟩

end

end Stuck

/-- **C77 is false if communicators may add in different orders.**  In double precision (numbers of 53 bits, rounded
to nearest, ties to even, no overflow or underflow), on a grid of two rows and three columns: all kernels are the same on
all processes and all reductions add from left to right, except that the second row adds the squared norms of the
residuals in another order.  Then there is a symmetric matrix and a schedule after which the processes of the first row
have returned and those of the second one wait for them in a reduction for ever. -/
theorem C77_refuted : ∃ (r c : Layout 4) (E : DEnv (Fp 53) (Fp 53)) (red : Reds (Fp 53) (Fp 53) r c) (P : Plat (Fp 53))
    (cfg : Config (Fp 53)) (ritzv0 resid0 : ℕ → Fp 53) (g : GSt (Fp 53) 4) (hr : r.procs = 2) (hcp : c.procs = 3),
    RunsOk r c E.cRuns ∧ RunsOk c r E.bRuns ∧ PermutesIndices P ∧ (∀ i j, g.H i j = g.H j i) ∧
    (∀ j {ι : Type} (x : Fin r.procs → ι → Fp 53) t, red.colK j x t = x (hr ▸ 0) t + x (hr ▸ 1) t ∧
      red.colR j x t = x (hr ▸ 0) t + x (hr ▸ 1) t) ∧
    (∀ i {ι : Type} (x : Fin c.procs → ι → Fp 53) t,
      red.rowK i x t = (x (hcp ▸ 0) t + x (hcp ▸ 1) t) + x (hcp ▸ 2) t ∧
      red.rowR i x t = if i.val = 0 then (x (hcp ▸ 0) t + x (hcp ▸ 1) t) + x (hcp ▸ 2) t
        else x (hcp ▸ 0) t + (x (hcp ▸ 1) t + x (hcp ▸ 2) t)) ∧
    ∃ (n : ℕ) (u : Conf fun p => Except Err (Outcome (Fp 53) Unit) × Own (Fp 53) r c p),
      Runs (fun p : Pos r c => solveProg red E P cfg ritzv0 resid0 p (scatter r c g p.1 p.2)) n u ∧
      (∀ p, p.1.val = 0 → ∃ out d, u p = .ret (.ok out, d)) ∧ (∀ p, p.1.val = 1 → ∀ a, u p ≠ .ret a) ∧
      ∀ v, ¬ Move u v := by
  refine ⟨Stuck.rowL, Stuck.colL, Stuck.env, mixed Stuck.left Stuck.rows, Stuck.plat, Stuck.cfg1 Stuck.tol, Stuck.val0,
    fun _ => 0, Stuck.glob, rfl, rfl, Stuck.envRuns.1, Stuck.envRuns.2, Stuck.plat_permutes, ?_, ?_, ?_, ?_⟩
  · show ∀ i j : Fin 4, Stuck.mat i j = Stuck.mat j i
    intro i j
    fin_cases i <;> fin_cases j <;> rfl
  · exact fun j ι x t => ⟨rfl, rfl⟩
  · exact fun i ι x t => ⟨rfl, rfl⟩
  · obtain ⟨n, h⟩ := Stuck.leads_split fun _ => 0
    refine ⟨n, _, h, Stuck.row0 _, fun p hp a ha => ?_, ?_⟩
    · obtain ⟨m, k, h1⟩ := Stuck.row1 (fun _ => 0) p hp
      rw [h1] at ha
      cases ha
    · rintro v ⟨p, M, A, cc, m, k, hs, -, -⟩
      have hlt : p.1.val < 2 := p.1.2
      have hp := hs p (cc.equiv.refl p)
      by_cases hp0 : p.1.val = 0
      · obtain ⟨out, d, h0⟩ := Stuck.row0 (fun _ => 0) p hp0
        dsimp only at hp
        rw [h0] at hp
        cases hp
      · obtain ⟨m', k', h1⟩ := Stuck.row1 (fun _ => 0) p (by omega)
        dsimp only at hp
        rw [h1] at hp
        injection hp with hM hA hcc _ _
        subst hM hA
        have hcc := eq_of_heq hcc
        subst hcc
        have h2 := hs ((0 : Fin 2), p.2) rfl
        obtain ⟨out, d, h0⟩ := Stuck.row0 (fun _ => 0) ((0 : Fin 2), p.2) rfl
        dsimp only at h2
        rw [h0] at h2
        cases h2

/-- Non-vacuity of the theorems of C77: with the same kernels, the same matrix and sums from left to right everywhere
there is a complete schedule, and all processes have performed the same positive number of rounds. -/
example : Reproducible Stuck.left.const ∧ RunsOk Stuck.rowL Stuck.colL Stuck.env.cRuns ∧
    RunsOk Stuck.colL Stuck.rowL Stuck.env.bRuns ∧
    ∃ n u, Runs (fun p : Pos Stuck.rowL Stuck.colL => solveProg Stuck.left.const Stuck.env Stuck.plat
      (Stuck.cfg1 Stuck.tol) Stuck.val0 (fun _ => 0) p (scatter Stuck.rowL Stuck.colL Stuck.glob p.1 p.2)) n u ∧ Final u ∧
    ∃ k, 0 < k ∧ ∀ p, ∃ out d, u p = .ret (.ok out, d) ∧ out.iterations = k := by
  obtain ⟨out, ho, hpos⟩ := C51_approx_solve_defined Stuck.plat (gOps Stuck.left Stuck.env) (Stuck.cfg1 Stuck.tol) rfl
    (by decide) (by decide) (by decide) (by decide) (by decide) (by decide) (by decide)
    (fun h => absurd h (by decide)) Stuck.val0 (fun _ => 0) Stuck.glob
  obtain ⟨n, h⟩ := prog_gives Stuck.left Stuck.env Stuck.envRuns.1 Stuck.envRuns.2
    (solveT Stuck.plat (Stuck.cfg1 Stuck.tol) Stuck.val0 fun _ => 0) Stuck.glob
  refine ⟨.const _, Stuck.envRuns.1, Stuck.envRuns.2, n, _, h, fun p => ⟨_, rfl⟩, out.iterations,
    hpos (fun h => absurd h (by decide)) (by decide), fun p => ?_⟩
  have he := C77_outcome_partial Stuck.plat (Stuck.cfg1 Stuck.tol) Stuck.val0 (fun _ => 0) Stuck.envRuns.1 Stuck.envRuns.2
    Stuck.left Stuck.glob h (fun p => ⟨_, rfl⟩) p
  rw [ho] at he
  exact ⟨_, _, he, rfl⟩

end Par
end Rounded
end Verif
