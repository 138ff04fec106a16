/-
The algorithm as a program that asks a backend: `solveT` is `solve` (Solver/Model) with the calls of the
interface left open, a tree that branches on the answers of the backend.  `solveT_run`: performing the
calls on any backend is `solve`.  So the same program can be run by several processes (Backend/MpiSpmd).
-/
import Verif.Solver.Model

set_option linter.unusedSectionVars false

namespace Verif

/-- A call of the interface `chase::Chase<T>`: algorithm/interface.hpp 17-125. -/
inductive Req (R : Type) where
  | checkSymmetryEasy
  | start
  | finish
  | initVecs (random : Bool)
  | qr (fixednev : ℕ) (cond : R)
  | lanczos1 (m : ℕ)
  | lanczosN (m numvec : ℕ)
  | lanczosDos (idx m : ℕ) (ritzV : ℕ → R)
  | shift (c : R) (unshift : Bool)
  | hemm (block : ℕ) (alpha beta : R) (offset : ℕ)
  | rr (block : ℕ)
  | resd (ritzv : ℕ → R) (fixednev : ℕ)
  | lock (newConverged : ℕ)
  | swap (i j : ℕ)

variable {R : Type} {S : Type*} {α β γ : Type}

/-- What the call hands back. -/
def Req.Ans : Req R → Type
  | .checkSymmetryEasy => Bool
  | .lanczos1 _ => R
  | .lanczosN _ _ => LanczosOut R
  | .rr _ => ℕ → R
  | .resd _ _ => ℕ → R
  | _ => Unit

/-- The call on a backend. -/
def Req.run (ops : Chase R S) : (q : Req R) → S → q.Ans × S
  | .checkSymmetryEasy, s => ops.checkSymmetryEasy s
  | .start, s => ((), ops.start s)
  | .finish, s => ((), ops.finish s)
  | .initVecs random, s => ((), ops.initVecs random s)
  | .qr k cond, s => ((), ops.qr k cond s)
  | .lanczos1 m, s => ops.lanczos1 m s
  | .lanczosN m numvec, s => ops.lanczosN m numvec s
  | .lanczosDos idx m z, s => ((), ops.lanczosDos idx m z s)
  | .shift c b, s => ((), ops.shift c b s)
  | .hemm block a b off, s => ((), ops.hemm block a b off s)
  | .rr block, s => ops.rr block s
  | .resd ritzv k, s => ops.resd ritzv k s
  | .lock k, s => ((), ops.lock k s)
  | .swap i j, s => ((), ops.swap i j s)

/-- A program that calls the interface. -/
inductive Script (R : Type) (α : Type) where
  | ret (a : α)
  | ask (q : Req R) (k : q.Ans → Script R α)

namespace Script

/-- First `t`, then `f` with its result. -/
def bind : Script R α → (α → Script R β) → Script R β
  | .ret a, f => f a
  | .ask q k, f => .ask q fun x => (k x).bind f

/-- First `t`, then `f` unless `t` failed. -/
def bindE (t : Script R (Except Err α)) (f : α → Script R (Except Err β)) : Script R (Except Err β) :=
  t.bind fun
    | .error e => .ret (.error e)
    | .ok a => f a

/-- The calls performed on a backend. -/
def run (ops : Chase R S) : Script R α → S → α × S
  | .ret a, s => (a, s)
  | .ask q k, s => (k (q.run ops s).1).run ops (q.run ops s).2

theorem run_bind (ops : Chase R S) (t : Script R α) (f : α → Script R β) (s : S) :
    (t.bind f).run ops s = (f (t.run ops s).1).run ops (t.run ops s).2 := by
  induction t generalizing s with
  | ret a => rfl
  | ask q k ih => exact ih _ _

/-- A call whose answer is not used. -/
def do_ (q : Req R) (t : Script R α) : Script R α := .ask q fun _ => t

/-- `n` iterations. -/
def loopT {σ : Type} (body : ℕ → σ → Script R σ) : ℕ → ℕ → σ → Script R σ
  | _, 0, s => .ret s
  | lo, n + 1, s => (body lo s).bind (loopT body (lo + 1) n)

/-- `for (i = lo; i < hi; ++i) body(i)`. -/
def forT {σ : Type} (lo hi : ℕ) (body : ℕ → σ → Script R σ) (s : σ) : Script R σ :=
  loopT body lo (hi - lo) s

/-- `n` iterations of a body that may fail. -/
def loopE {σ : Type} (body : ℕ → σ → Script R (Except Err σ)) : ℕ → ℕ → σ → Script R (Except Err σ)
  | _, 0, s => .ret (.ok s)
  | lo, n + 1, s => (body lo s).bindE (loopE body (lo + 1) n)

/-- `for (i = lo; i < hi; ++i) body(i)` with a body that may fail. -/
def forE {σ : Type} (lo hi : ℕ) (body : ℕ → σ → Script R (Except Err σ)) (s : σ) :
    Script R (Except Err σ) :=
  loopE body lo (hi - lo) s

/-- A result and the backend, put together by `emb`; failures forget the backend. -/
def joinE {σ : Type} {τ : Type*} (emb : σ → S → τ) : Except Err σ × S → Except Err τ
  | (.ok a, s) => .ok (emb a s)
  | (.error e, _) => .error e

theorem forT_run {σ : Type} {τ : Type*} (ops : Chase R S) (emb : σ → S → τ)
    {f : ℕ → σ → Script R σ} {g : ℕ → τ → τ}
    (h : ∀ i a s, emb ((f i a).run ops s).1 ((f i a).run ops s).2 = g i (emb a s))
    (lo hi : ℕ) (a : σ) (s : S) :
    emb ((forT lo hi f a).run ops s).1 ((forT lo hi f a).run ops s).2 =
      forRange lo hi g (emb a s) := by
  unfold forT forRange
  generalize hi - lo = n
  induction n generalizing lo a s with
  | zero => rfl
  | succ n ih =>
    show emb (((f lo a).bind (loopT f (lo + 1) n)).run ops s).1
      (((f lo a).bind (loopT f (lo + 1) n)).run ops s).2 = loop g (lo + 1) n (g lo (emb a s))
    rw [run_bind, ih, h]

theorem bindE_run {σ τ' : Type} {υ : Type*} (ops : Chase R S)
    (emb' : τ' → S → υ) (t : Script R (Except Err σ)) (f : σ → Script R (Except Err τ')) (s : S) :
    joinE emb' ((t.bindE f).run ops s) =
      match t.run ops s with
      | (.error e, _) => .error e
      | (.ok a, s) => joinE emb' ((f a).run ops s) := by
  unfold bindE
  rw [run_bind]
  rcases t.run ops s with ⟨e | a, s'⟩ <;> rfl

theorem forE_run {σ : Type} {τ : Type*} (ops : Chase R S) (emb : σ → S → τ)
    {f : ℕ → σ → Script R (Except Err σ)} {g : ℕ → τ → Except Err τ}
    (h : ∀ i a s, joinE emb ((f i a).run ops s) = g i (emb a s))
    (lo hi : ℕ) (a : σ) (s : S) :
    joinE emb ((forE lo hi f a).run ops s) = forRangeM lo hi g (emb a s) := by
  unfold forE forRangeM
  generalize hi - lo = n
  induction n generalizing lo a s with
  | zero => rfl
  | succ n ih =>
    show joinE emb (((f lo a).bindE (loopE f (lo + 1) n)).run ops s) = _
    rw [bindE_run, loopM, ← h]
    rcases (f lo a).run ops s with ⟨e | a', s'⟩
    · rfl
    · exact ih (lo + 1) a' s'

end Script

open Script

/-! ### The algorithm -/

section Degrees
variable [Add R] [Sub R] [Mul R] [Div R] [Neg R] [Zero R] [One R] [NatCast R] [LT R] [DecidableLT R]

/-- The arrays, put together with a backend. -/
def Pairs.with (p : Pairs R Unit) (be : S) : Pairs R S :=
  ⟨p.degrees, p.ritzv, p.resid, p.residLast, be⟩

/-- Exchange of two pairs during the degree sort: algorithm.inc 60-64. -/
def exchangeT (locked k j : ℕ) (p : Pairs R Unit) : Script R (Pairs R Unit) :=
  do_ (.swap (k + locked) (j + locked)) <| .ret
    { degrees := swapAt p.degrees (locked + k) (locked + j)
      ritzv := swapAt p.ritzv (locked + k) (locked + j)
      resid := swapAt p.resid (locked + k) (locked + j)
      residLast := swapAt p.residLast (locked + k) (locked + j)
      be := () }

/-- The exchange sort of `calc_degrees`: algorithm.inc 56-65. -/
def sortDegreesT (unconverged locked : ℕ) (p : Pairs R Unit) : Script R (Pairs R Unit) :=
  forT 0 (unconverged - 1) (fun j p =>
    forT j unconverged (fun k p =>
      if p.degrees (locked + k) < p.degrees (locked + j) then exchangeT locked k j p else .ret p) p) p

theorem sortDegreesT_run (ops : Chase R S) (u locked : ℕ) (p : Pairs R Unit) (be : S) :
    ((sortDegreesT u locked p).run ops be).1.with ((sortDegreesT u locked p).run ops be).2 =
      sortDegrees ops u locked (p.with be) := by
  unfold sortDegreesT sortDegrees
  refine forT_run ops Pairs.with (fun j p be => ?_) _ _ _ _
  refine forT_run ops Pairs.with (fun k p be => ?_) _ _ _ _
  show _ = if p.degrees (locked + k) < p.degrees (locked + j) then _ else _
  split_ifs <;> rfl

/-- `Algorithm<T>::calc_degrees`: algorithm.inc 19-68. -/
def calcDegreesT (P : Plat R) (cfg : Config R) (unconverged nex : ℕ) (upperb lowerb tol : R)
    (locked : ℕ) (p : Pairs R Unit) : Script R (Except Err (ℕ × Pairs R Unit)) :=
  if unconverged ≤ nex then .ret (.error .wrap) else
    let c := (upperb + lowerb) / 2
    let e := (upperb - lowerb) / 2
    match rawDegrees P cfg (unconverged - nex) locked c e tol p.ritzv p.resid p.degrees with
    | .error err => .ret (.error err)
    | .ok d =>
      (sortDegreesT unconverged locked
        { p with degrees := fillDegrees unconverged nex locked d }).bind fun p =>
        .ret (.ok (p.degrees (locked + (unconverged - 1)), p))

theorem calcDegreesT_run (P : Plat R) (ops : Chase R S) (cfg : Config R) (u nex : ℕ)
    (ub lb tol : R) (locked : ℕ) (p : Pairs R Unit) (be : S) :
    joinE (fun x be => (x.1, x.2.with be)) ((calcDegreesT P cfg u nex ub lb tol locked p).run ops be) =
      calcDegrees P ops cfg u nex ub lb tol locked (p.with be) := by
  unfold calcDegreesT calcDegrees
  split_ifs
  · rfl
  · dsimp only
    show _ = match rawDegrees P cfg (u - nex) locked ((ub + lb) / 2) ((ub - lb) / 2) tol p.ritzv
      p.resid p.degrees with
    | .error err => _
    | .ok d => _
    cases rawDegrees P cfg (u - nex) locked ((ub + lb) / 2) ((ub - lb) / 2) tol p.ritzv
      p.resid p.degrees with
    | error e => rfl
    | ok d =>
      dsimp only
      rw [run_bind]
      have h := sortDegreesT_run ops u locked { p with degrees := fillDegrees u nex locked d } be
      show Except.ok (_, Pairs.with _ _) = _
      rw [h]
      have h' := congrArg Pairs.degrees h
      exact congrArg (fun d : ℕ → ℕ => Except.ok (d (locked + (u - 1)), _)) h'

end Degrees

section Locking
variable [LT R] [DecidableLT R]

def LockSt.with (st : LockSt R Unit) (be : S) : LockSt R S :=
  ⟨st.ritzv, st.resid, st.residLast, be, st.converged⟩

/-- Exchange of two pairs during locking: algorithm.inc 108-114. -/
def lockExchangeT (locked j : ℕ) (st : LockSt R Unit) : Script R (LockSt R Unit) :=
  if j ≠ st.converged then
    do_ (.swap (j + locked) (st.converged + locked)) <| .ret
    { st with
      resid := swapAt st.resid (locked + j) (locked + st.converged)
      residLast := swapAt st.residLast (locked + j) (locked + st.converged)
      ritzv := swapAt st.ritzv (locked + j) (locked + st.converged) }
  else .ret st

theorem lockExchangeT_run (ops : Chase R S) (locked j : ℕ) (st : LockSt R Unit) (be : S) :
    ((lockExchangeT locked j st).run ops be).1.with ((lockExchangeT locked j st).run ops be).2 =
      (st.with be).exchange ops locked j := by
  unfold lockExchangeT LockSt.exchange
  show _ = if j ≠ st.converged then _ else _
  split_ifs <;> rfl

/-- The walk of `locking`: algorithm.inc 87-116. -/
def lockLoopT (tol : R) (index : ℕ → ℕ) (locked : ℕ) : ℕ → ℕ → LockSt R Unit → Script R (LockSt R Unit)
  | 0, _, st => .ret st
  | n + 1, k, st =>
    let j := index k
    if st.resid (locked + j) > tol ∧ st.resid (locked + j) < st.residLast (locked + j) then .ret st
    else
      (lockExchangeT locked j st).bind fun st =>
        lockLoopT tol index locked n (k + 1) { st with converged := st.converged + 1 }

theorem lockLoopT_run (ops : Chase R S) (tol : R) (index : ℕ → ℕ) (locked n k : ℕ)
    (st : LockSt R Unit) (be : S) :
    ((lockLoopT tol index locked n k st).run ops be).1.with
        ((lockLoopT tol index locked n k st).run ops be).2 =
      lockLoop ops tol index locked n k (st.with be) := by
  induction n generalizing k st be with
  | zero => rfl
  | succ n ih =>
    unfold lockLoopT lockLoop
    dsimp only
    by_cases h : st.resid (locked + index k) > tol ∧
        st.resid (locked + index k) < st.residLast (locked + index k)
    · rw [if_pos h]
      exact (if_pos h).symm
    · rw [if_neg h]
      refine Eq.trans ?_ (if_neg h).symm
      rw [run_bind, ih, ← lockExchangeT_run]
      rfl

/-- `Algorithm<T>::locking`: algorithm.inc 70-118. -/
def lockingT (P : Plat R) (unconverged : ℕ) (tol : R) (locked : ℕ) (ritzv resid residLast : ℕ → R) :
    Script R (LockSt R Unit) :=
  let index := P.sortIdx unconverged (fun i => ritzv (locked + i))
  lockLoopT tol index locked unconverged 0 { ritzv, resid, residLast, be := (), converged := 0 }

theorem lockingT_run (P : Plat R) (ops : Chase R S) (u : ℕ) (tol : R) (locked : ℕ)
    (ritzv resid residLast : ℕ → R) (be : S) :
    ((lockingT P u tol locked ritzv resid residLast).run ops be).1.with
        ((lockingT P u tol locked ritzv resid residLast).run ops be).2 =
      locking P ops u tol locked ritzv resid residLast be :=
  lockLoopT_run ops tol _ locked u 0 _ be

end Locking

section Filter
variable [Add R] [Sub R] [Mul R] [Div R] [Neg R] [Zero R] [One R] [NatCast R]

def FilterSt.with (st : FilterSt R Unit) (be : S) : FilterSt R S :=
  ⟨st.p, st.unprocessed, st.offset, st.numMult, st.av, st.sigma, be⟩

/-- Body of the main loop of `filter`: algorithm.inc 159-176. -/
def filterStepT (degrees : ℕ → ℕ) (dsize n : ℕ) (e sigma1 : R) (st : FilterSt R Unit) :
    Script R (Except Err (FilterSt R Unit)) :=
  if n = 0 then .ret (.error .divZero) else
    let sigmaNew := 1 / (2 / sigma1 - st.sigma)
    let alpha := 2 * sigmaNew / e
    let beta := -st.sigma * sigmaNew
    do_ (.hemm st.unprocessed alpha beta (st.offset / n)) <|
    let numMult := st.numMult + 1
    .ret (match walk degrees dsize n numMult st.p st.unprocessed st.offset with
    | .error err => .error err
    | .ok (p, u, off) =>
      .ok { p, unprocessed := u, offset := off, numMult, av := st.av + st.unprocessed,
            sigma := sigmaNew, be := () })

theorem filterStepT_run (ops : Chase R S) (degrees : ℕ → ℕ) (dsize n : ℕ) (e sigma1 : R)
    (st : FilterSt R Unit) (be : S) :
    joinE FilterSt.with ((filterStepT degrees dsize n e sigma1 st).run ops be) =
      filterStep ops degrees dsize n e sigma1 (st.with be) := by
  unfold filterStepT filterStep
  split_ifs
  · rfl
  · dsimp only
    show joinE _ (match walk degrees dsize n (st.numMult + 1) st.p st.unprocessed st.offset with
      | .error err => .error err
      | .ok (p, u, off) => _, _) =
      match walk degrees dsize n (st.numMult + 1) st.p st.unprocessed st.offset with
      | .error err => .error err
      | .ok (p, u, off) => _
    cases walk degrees dsize n (st.numMult + 1) st.p st.unprocessed st.offset with
    | error e => rfl
    | ok x => rfl

/-- `Algorithm<T>::filter`: algorithm.inc 120-184. -/
def filterT (n unprocessed deg : ℕ) (degrees : ℕ → ℕ) (dsize p0 : ℕ) (lambda1 lower upper : R) :
    Script R (Except Err ℕ) :=
  if n = 0 then .ret (.error .divZero) else
    let c := (upper + lower) / 2
    let e := (upper - lower) / 2
    let sigma1 := e / (lambda1 - c)
    do_ (.shift (-c) false) <|
    do_ (.hemm unprocessed (sigma1 / e) 0 (0 / n)) <|
    match walkFirst degrees dsize n 1 p0 unprocessed 0 with
    | .error err => .ret (.error err)
    | .ok (p, u, off) =>
      (forE 2 (deg + 1) (fun _ st => filterStepT degrees dsize n e sigma1 st)
        { p, unprocessed := u, offset := off, numMult := 1, av := unprocessed,
          sigma := sigma1, be := () }).bindE fun st =>
        do_ (.shift c true) <| .ret (.ok st.av)

theorem filterT_run (ops : Chase R S) (n u deg : ℕ) (degrees : ℕ → ℕ) (dsize p0 : ℕ)
    (lambda1 lower upper : R) (be : S) :
    joinE (fun av be => (av, be)) ((filterT n u deg degrees dsize p0 lambda1 lower upper).run ops be) =
      filter ops n u deg degrees dsize p0 lambda1 lower upper be := by
  unfold filterT filter
  split_ifs
  · rfl
  · dsimp only
    cases walkFirst degrees dsize n 1 p0 u 0 with
    | error e => rfl
    | ok x =>
      obtain ⟨p, u', off⟩ := x
      dsimp only
      have h := forE_run ops FilterSt.with
        (fun _ st be => filterStepT_run ops degrees dsize n ((upper - lower) / 2)
          ((upper - lower) / 2 / (lambda1 - (upper + lower) / 2)) st be)
        2 (deg + 1) ⟨p, u', off, 1, u, (upper - lower) / 2 / (lambda1 - (upper + lower) / 2), ()⟩
        (ops.hemm u ((upper - lower) / 2 / (lambda1 - (upper + lower) / 2) / ((upper - lower) / 2)) 0
          (0 / n) (ops.shift (-((upper + lower) / 2)) false be))
      dsimp only [FilterSt.with] at h
      show joinE _ ((bindE _ _).run ops (ops.hemm _ _ _ _ (ops.shift _ _ be))) = _
      rw [bindE_run, ← h]
      rcases (forE 2 (deg + 1) _ _).run ops _ with ⟨e | st, be'⟩ <;> rfl

end Filter

section Lanczos
variable [Add R] [Sub R] [Mul R] [Div R] [Neg R] [Zero R] [One R] [NatCast R] [LT R] [DecidableLT R]

/-- Interspersing: algorithm.inc 307-313. -/
def intersperseT (idx nevex : ℕ) (ritzv : ℕ → R) : Script R (Except Err (ℕ → R)) :=
  forE 1 idx (fun i r =>
    let j := i * (nevex / idx)
    if j < nevex ∧ i < nevex then do_ (.swap i j) <| .ret (.ok (swapAt r i j))
    else .ret (.error .oob)) ritzv

theorem intersperseT_run (ops : Chase R S) (idx nevex : ℕ) (ritzv : ℕ → R) (be : S) :
    joinE (fun r be => (r, be)) ((intersperseT idx nevex ritzv).run ops be) =
      intersperse ops idx nevex ritzv be := by
  unfold intersperseT intersperse
  refine forE_run ops (fun r be => (r, be)) (fun i r be => ?_) _ _ _ _
  dsimp only
  split_ifs <;> rfl

def LanczosRes.with (l : LanczosRes R Unit) (be : S) : LanczosRes R S :=
  ⟨l.upperb, l.ritzv, l.idx, be⟩

/-- The part of `lanczos` after the Lanczos runs: algorithm.inc 225-320. -/
def dosT (P : Plat R) (N numvec m nevex : ℕ) (ritzv : ℕ → R) (o : LanczosOut R) :
    Script R (Except Err (LanczosRes R Unit)) :=
  let total := numvec * m
  if total = 0 then .ret (.error .oob) else
  let sorted := fun i => o.theta (P.sortIdx total o.theta i)
  let lambda := sorted 0
  let search := (nevex : R) / (N : R)
  match dosSearch P o.theta o.tau sorted total numvec search total 0 0 with
  | .error e => .ret (.error e)
  | .ok lowerb =>
    match dosIdx o.theta ((numvec - 1) * m) m lowerb with
    | .negSucc _ => .ret (.error .oob)
    | .ofNat idx =>
      (if idx > 0 then do_ (.lanczosDos idx m o.ritzV) (.ret ()) else .ret ()).bind fun _ =>
      if nevex = 0 ∨ nevex < idx then .ret (.error .oob) else
      let r := dosValues o.theta ((numvec - 1) * m) idx nevex lambda lowerb ritzv
      (intersperseT idx nevex r).bindE fun r =>
        .ret (.ok { upperb := o.upperb, ritzv := r, idx, be := () })

/-- `Algorithm<T>::lanczos`: algorithm.inc 186-322. -/
def lanczosT (P : Plat R) (N numvec m nevex : ℕ) (random : Bool) (ritzv : ℕ → R) :
    Script R (Except Err (LanczosRes R Unit)) :=
  if m = 0 then .ret (.error .wrap) else
  if random = false then
    .ask (.lanczos1 m) fun (ub : R) => .ret (.ok { upperb := ub, ritzv, idx := 0, be := () })
  else .ask (.lanczosN m numvec) fun (o : LanczosOut R) => dosT P N numvec m nevex ritzv o

theorem dosT_run (P : Plat R) (ops : Chase R S) (N numvec m nevex : ℕ) (ritzv : ℕ → R)
    (o : LanczosOut R) (be : S) :
    joinE LanczosRes.with ((dosT P N numvec m nevex ritzv o).run ops be) =
      if numvec * m = 0 then .error .oob else
      match dosSearch P o.theta o.tau (fun i => o.theta (P.sortIdx (numvec * m) o.theta i))
        (numvec * m) numvec ((nevex : R) / (N : R)) (numvec * m) 0 0 with
      | .error e => .error e
      | .ok lowerb =>
        match dosIdx o.theta ((numvec - 1) * m) m lowerb with
        | .negSucc _ => .error .oob
        | .ofNat idx =>
          let be := if idx > 0 then ops.lanczosDos idx m o.ritzV be else be
          if nevex = 0 ∨ nevex < idx then .error .oob else
          match intersperse ops idx nevex (dosValues o.theta ((numvec - 1) * m) idx nevex
            (o.theta (P.sortIdx (numvec * m) o.theta 0)) lowerb ritzv) be with
          | .error e => .error e
          | .ok (r, be) => .ok { upperb := o.upperb, ritzv := r, idx, be } := by
  unfold dosT
  by_cases h0 : numvec * m = 0
  · rw [if_pos h0, if_pos h0]
    rfl
  rw [if_neg h0, if_neg h0]
  dsimp only
  cases dosSearch P o.theta o.tau (fun i => o.theta (P.sortIdx (numvec * m) o.theta i))
    (numvec * m) numvec ((nevex : R) / (N : R)) (numvec * m) 0 0 with
  | error e => rfl
  | ok lowerb =>
    dsimp only
    cases dosIdx o.theta ((numvec - 1) * m) m lowerb with
    | negSucc _ => rfl
    | ofNat idx =>
      dsimp only
      rw [run_bind]
      have hbe : ((if idx > 0 then do_ (.lanczosDos idx m o.ritzV) (.ret ()) else .ret () :
          Script R Unit).run ops be).2 =
          if idx > 0 then ops.lanczosDos idx m o.ritzV be else be := by
        split_ifs <;> rfl
      rw [hbe]
      by_cases h1 : nevex = 0 ∨ nevex < idx
      · rw [if_pos h1, if_pos h1]
        rfl
      · rw [if_neg h1, if_neg h1]
        rw [bindE_run, ← intersperseT_run]
        rcases (intersperseT idx nevex _).run ops _ with ⟨e | r, be'⟩ <;> rfl

theorem lanczosT_run (P : Plat R) (ops : Chase R S) (N numvec m nevex : ℕ) (random : Bool)
    (ritzv : ℕ → R) (be : S) :
    joinE LanczosRes.with ((lanczosT P N numvec m nevex random ritzv).run ops be) =
      lanczos P ops N numvec m nevex random ritzv be := by
  unfold lanczosT lanczos
  split_ifs with h1 h2
  · rfl
  · rfl
  · exact dosT_run P ops N numvec m nevex ritzv (ops.lanczosN m numvec be).1
      (ops.lanczosN m numvec be).2

end Lanczos

section Solve
variable [Add R] [Sub R] [Mul R] [Div R] [Neg R] [Zero R] [One R] [NatCast R] [LT R] [DecidableLT R]

def St.with (st : St R Unit) (be : S) : St R S :=
  ⟨st.ritzv, st.resid, st.residLast, st.degrees, st.deg, st.lowerb, st.upperb, st.lambda, st.locked,
    st.unconverged, st.iteration, be⟩

/-- Degree optimisation step of an iteration: algorithm.inc 466-470. -/
def optimiseT (P : Plat R) (cfg : Config R) (st : St R Unit) : Script R (Except Err (St R Unit)) :=
  if cfg.optimization ∧ st.iteration ≠ 0 then
    (calcDegreesT P cfg st.unconverged cfg.nex st.upperb st.lowerb cfg.tol st.locked
      { degrees := st.degrees, ritzv := st.ritzv, resid := st.resid, residLast := st.residLast,
        be := () }).bindE fun x =>
      .ret (.ok { st with deg := x.1, degrees := x.2.degrees, ritzv := x.2.ritzv, resid := x.2.resid,
                          residLast := x.2.residLast })
  else .ret (.ok st)

theorem optimiseT_run (P : Plat R) (ops : Chase R S) (cfg : Config R) (st : St R Unit) (be : S) :
    joinE St.with ((optimiseT P cfg st).run ops be) = optimise P ops cfg (st.with be) := by
  unfold optimiseT optimise
  show _ = if cfg.optimization ∧ st.iteration ≠ 0 then _ else _
  split_ifs
  · have h := calcDegreesT_run P ops cfg st.unconverged cfg.nex st.upperb st.lowerb cfg.tol st.locked
      { degrees := st.degrees, ritzv := st.ritzv, resid := st.resid, residLast := st.residLast,
        be := () } be
    dsimp only [Pairs.with] at h
    dsimp only [St.with]
    rw [bindE_run, ← h]
    rcases (calcDegreesT P cfg _ _ _ _ _ _ _).run ops be with ⟨e | x, be'⟩ <;> rfl
  · rfl

/-- QR, Rayleigh-Ritz and residuals of an iteration: algorithm.inc 494-531. -/
def projectT (P : Plat R) (cfg : Config R) (st : St R Unit) : Script R (St R Unit) :=
  let cond := P.condEst st.upperb st.lowerb (st.ritzv 0) (st.ritzv st.locked)
    (st.degrees st.locked) (maxElem st.degrees st.locked (cfg.nev + cfg.nex - st.locked))
  do_ (.qr st.locked cond) <|
  .ask (.rr st.unconverged) fun (vals : ℕ → R) =>
  let ritzv := writeAt st.ritzv st.locked st.unconverged vals
  let residLast := forRange 0 st.unconverged
    (fun i rl => Function.update rl (st.locked + i)
      (stdMin (rl (st.locked + i)) (st.resid (st.locked + i)))) st.residLast
  .ask (.resd (fun i => ritzv (st.locked + i)) st.locked) fun (res : ℕ → R) =>
  let resid := writeAt st.resid st.locked (cfg.nev + cfg.nex - st.locked) res
  .ret { st with ritzv, resid, residLast }

theorem projectT_run (P : Plat R) (ops : Chase R S) (cfg : Config R) (st : St R Unit) (be : S) :
    ((projectT P cfg st).run ops be).1.with ((projectT P cfg st).run ops be).2 =
      project P ops cfg (st.with be) := rfl

/-- Locking step of an iteration: algorithm.inc 535-552. -/
def lockStepT (P : Plat R) (cfg : Config R) (st : St R Unit) : Script R (St R Unit) :=
  (lockingT P (st.unconverged - cfg.nex) cfg.tol st.locked st.ritzv st.resid st.residLast).bind fun l =>
  do_ (.lock l.converged) <| .ret
  { st with
    ritzv := l.ritzv, resid := l.resid, residLast := l.residLast
    locked := st.locked + l.converged
    unconverged := st.unconverged - l.converged
    iteration := st.iteration + 1 }

theorem lockStepT_run (P : Plat R) (ops : Chase R S) (cfg : Config R) (st : St R Unit) (be : S) :
    ((lockStepT P cfg st).run ops be).1.with ((lockStepT P cfg st).run ops be).2 =
      lockStep P ops cfg (st.with be) := by
  unfold lockStepT lockStep
  rw [run_bind]
  have h := lockingT_run P ops (st.unconverged - cfg.nex) cfg.tol st.locked st.ritzv st.resid
    st.residLast be
  dsimp only [St.with]
  rw [← h]
  rfl

/-- One outer iteration of `solve`: algorithm.inc 426-552. -/
def iterT (P : Plat R) (cfg : Config R) (st : St R Unit) : Script R (Except Err (St R Unit)) :=
  (optimiseT P cfg (updateBounds (cfg.nev + cfg.nex) st)).bindE fun st =>
  (filterT cfg.N st.unconverged st.deg st.degrees (cfg.nev + cfg.nex) st.locked
    st.lambda st.lowerb st.upperb).bindE fun _ =>
  (projectT P cfg st).bind fun st =>
  (lockStepT P cfg st).bind fun st => .ret (.ok st)

theorem iterT_run (P : Plat R) (ops : Chase R S) (cfg : Config R) (st : St R Unit) (be : S) :
    joinE St.with ((iterT P cfg st).run ops be) = iter P ops cfg (st.with be) := by
  unfold iterT iter
  have hu : updateBounds (cfg.nev + cfg.nex) (st.with be) =
    (updateBounds (cfg.nev + cfg.nex) st).with be := rfl
  rw [hu]
  rw [bindE_run, ← optimiseT_run]
  rcases (optimiseT P cfg _).run ops be with ⟨e | st, be⟩
  · rfl
  · show joinE _ (Script.run ops (bindE _ _) be) =
      match filter ops cfg.N st.unconverged st.deg st.degrees (cfg.nev + cfg.nex) st.locked
        st.lambda st.lowerb st.upperb be with
      | .error e => _
      | .ok (_, be) => _
    rw [bindE_run, ← filterT_run]
    rcases (filterT cfg.N _ _ _ _ _ _ _ _).run ops be with ⟨e | av, be⟩
    · rfl
    · show joinE _ (Script.run ops (Script.bind _ _) be) = Except.ok _
      rw [run_bind, run_bind]
      show Except.ok (St.with _ _) = _
      rw [lockStepT_run, projectT_run]
      rfl

/-- The outer loop of `solve`: algorithm.inc 424-553; the first argument bounds the iterations. -/
def solveLoopT (P : Plat R) (cfg : Config R) : ℕ → St R Unit → Script R (Except Err (St R Unit))
  | 0, st => .ret (.ok st)
  | n + 1, st =>
    if running cfg st then (iterT P cfg st).bindE fun st => solveLoopT P cfg n st else .ret (.ok st)

theorem solveLoopT_run (P : Plat R) (ops : Chase R S) (cfg : Config R) (n : ℕ) (st : St R Unit)
    (be : S) (hn : cfg.maxIter ≤ st.iteration + n) :
    joinE St.with ((solveLoopT P cfg n st).run ops be) = solveLoop P ops cfg (st.with be) := by
  induction n generalizing st be with
  | zero =>
    rw [solveLoop, dif_neg]
    · rfl
    · rintro ⟨-, h⟩
      exact absurd h (by show ¬ st.iteration < _; omega)
  | succ n ih =>
    rw [solveLoop]
    unfold solveLoopT
    by_cases hr : running cfg st
    · have hr' : running cfg (st.with be) := hr
      rw [if_pos hr, dif_pos hr', bindE_run]
      have hi := iterT_run P ops cfg st be
      rcases h1 : (iterT P cfg st).run ops be with ⟨e | st', be'⟩
      · rw [h1] at hi
        have hi : Except.error e = iter P ops cfg (st.with be) := hi
        dsimp only
        split
        · rename_i e' h2
          rw [← hi] at h2
          cases h2
          rfl
        · rename_i st2 h2
          rw [← hi] at h2
          cases h2
      · rw [h1] at hi
        have hi : Except.ok (st'.with be') = iter P ops cfg (st.with be) := hi
        have h2 : st'.iteration = st.iteration + 1 :=
          iter_iteration P ops cfg (st.with be) (st'.with be') hi.symm
        dsimp only
        split
        · rename_i e' h3
          rw [← hi] at h3
          cases h3
        · rename_i st2 h3
          rw [← hi] at h3
          cases h3
          exact ih st' be' (by omega)
    · have hr' : ¬ running cfg (st.with be) := hr
      rw [if_neg hr, dif_neg hr']
      rfl

/-- The final exchange sort: algorithm.inc 559-567. -/
def finalSortT (nev : ℕ) (ritzv : ℕ → R) : Script R (ℕ → R) :=
  forT 0 (nev - 1) (fun i r =>
    forT (i + 1) nev (fun j r =>
      if r i > r j then do_ (.swap i j) <| .ret (swapAt r i j) else .ret r) r) ritzv

theorem finalSortT_run (ops : Chase R S) (nev : ℕ) (ritzv : ℕ → R) (be : S) :
    (finalSortT nev ritzv).run ops be = finalSort ops nev ritzv be := by
  unfold finalSortT finalSort
  refine forT_run ops (fun r be => (r, be)) (fun i r be => ?_) _ _ _ _
  refine forT_run ops (fun r be => (r, be)) (fun j r be => ?_) _ _ _ _
  dsimp only
  split_ifs <;> rfl

/-- Initialisation of `solve`: algorithm.inc 357-422. -/
def initStateT (P : Plat R) (cfg : Config R) (ritzv0 resid0 : ℕ → R) :
    Script R (Except Err (St R Unit)) :=
  do_ .start <|
  let nevex := cfg.nev + cfg.nex
  let residLast : ℕ → R := fun _ => P.maxVal
  let resid := writeAt resid0 0 nevex (fun _ => P.maxVal)
  let deg := min (cfg.deg + cfg.deg % 2) cfg.maxDeg
  let degrees : ℕ → ℕ := fun _ => deg
  let random := !cfg.approx
  do_ (.initVecs random) <|
  (if random then do_ (.qr 0 1) (.ret ()) else .ret ()).bind fun _ =>
  (lanczosT P cfg.N cfg.numLanczos (min nevex (min (cfg.N / 2) cfg.lanczosIter)) nevex
    random ritzv0).bindE fun l =>
    .ret (if nevex = 0 then .error .oob else
    .ok { ritzv := l.ritzv, resid, residLast, degrees, deg
          lowerb := maxElem l.ritzv 0 nevex, upperb := l.upperb
          lambda := minElem l.ritzv 0 nevex
          locked := 0, unconverged := nevex, iteration := 0, be := () })

theorem initStateT_run (P : Plat R) (ops : Chase R S) (cfg : Config R) (ritzv0 resid0 : ℕ → R)
    (be : S) :
    joinE St.with ((initStateT P cfg ritzv0 resid0).run ops be) =
      initState P ops cfg ritzv0 resid0 be := by
  unfold initStateT initState
  dsimp only
  show joinE St.with (Script.run ops (Script.bind _ _) (ops.initVecs _ (ops.start be))) = _
  rw [run_bind]
  have hbe : ((if (!cfg.approx) = true then do_ (.qr 0 1) (.ret ()) else .ret () : Script R Unit).run ops
      (ops.initVecs (!cfg.approx) (ops.start be))).2 =
      if (!cfg.approx) = true then ops.qr 0 1 (ops.initVecs (!cfg.approx) (ops.start be))
      else ops.initVecs (!cfg.approx) (ops.start be) := by
    split_ifs <;> rfl
  rw [hbe]
  rw [bindE_run, ← lanczosT_run]
  rcases (lanczosT P cfg.N _ _ _ _ _).run ops _ with ⟨e | l, be'⟩
  · rfl
  · show joinE St.with (ite _ _ _, be') = ite _ _ _
    split_ifs <;> rfl

def Outcome.with (o : Outcome R Unit) (be : S) : Outcome R S :=
  ⟨o.ritzv, o.resid, o.iterations, o.locked, be⟩

/-- `Algorithm<T>::solve`: algorithm.inc 324-572. -/
def solveT (P : Plat R) (cfg : Config R) (ritzv0 resid0 : ℕ → R) :
    Script R (Except Err (Outcome R Unit)) :=
  (if cfg.symCheck then .ask .checkSymmetryEasy fun (b : Bool) => .ret b else .ret true :
    Script R Bool).bind fun ok =>
  if ok = false then
    .ret (.ok { ritzv := ritzv0, resid := resid0, iterations := 0, locked := 0, be := () })
  else
    (initStateT P cfg ritzv0 resid0).bindE fun st =>
    (solveLoopT P cfg cfg.maxIter st).bindE fun st =>
    if cfg.nev = 0 then .ret (.error .wrap) else
    (finalSortT cfg.nev st.ritzv).bind fun ritzv =>
    do_ .finish <| .ret (.ok
      { ritzv, resid := st.resid, iterations := st.iteration, locked := st.locked, be := () })

/-- `solve` is the program `solveT` performed on the backend. -/
theorem solveT_run (P : Plat R) (ops : Chase R S) (cfg : Config R) (ritzv0 resid0 : ℕ → R) (be : S) :
    joinE Outcome.with ((solveT P cfg ritzv0 resid0).run ops be) =
      solve P ops cfg ritzv0 resid0 be := by
  unfold solveT solve
  rw [run_bind]
  have hok : ((if cfg.symCheck then .ask .checkSymmetryEasy fun (b : Bool) => .ret b else .ret true :
      Script R Bool).run ops be) = if cfg.symCheck then ops.checkSymmetryEasy be else (true, be) := by
    split_ifs <;> rfl
  rw [hok]
  rcases (if cfg.symCheck then ops.checkSymmetryEasy be else (true, be)) with ⟨ok, be1⟩
  dsimp only
  by_cases h0 : ok = false
  · rw [if_pos h0, if_pos h0]
    rfl
  rw [if_neg h0, if_neg h0]
  rw [bindE_run, ← initStateT_run]
  rcases (initStateT P cfg ritzv0 resid0).run ops be1 with ⟨e | st, be2⟩
  · rfl
  · show joinE _ (Script.run ops (bindE _ _) be2) =
      match solveLoop P ops cfg (st.with be2) with
      | .error e => _
      | .ok st => _
    rw [bindE_run, ← solveLoopT_run P ops cfg cfg.maxIter st be2 (Nat.le_add_left _ _)]
    rcases (solveLoopT P cfg cfg.maxIter st).run ops be2 with ⟨e | st, be3⟩
    · rfl
    · show joinE _ (Script.run ops (ite _ _ _) be3) = ite _ _ _
      by_cases h1 : cfg.nev = 0
      · rw [if_pos h1, if_pos h1]
        rfl
      · rw [if_neg h1, if_neg h1, run_bind, finalSortT_run]
        rfl

end Solve
end Verif
