/-
Model of `chase::Algorithm<T>` (algorithm/algorithm.inc), written against the abstract interface
`chase::Chase<T>` (algorithm/interface.hpp).

Scalars `Base<T>` are elements of a type `R` with the operations the code uses and a decidable `<`, and
no law about them: `R` may be the real numbers, or floating point numbers with rounded operations and
values for which every comparison is false (NaN).  Arrays (`ritzv_`, `resid_`, `residLast_`, `degrees_`) are functions on
indices; a C++ pointer `ritzv = ritzv_ + locked` is modelled by adding `locked` to the index.
-/
import Verif.Config.Model
import Mathlib.Order.Defs.LinearOrder
import Mathlib.Algebra.Field.Defs

namespace Verif

/-- What `Lanczos(M, numvec, ...)` hands back: the upper bound, the Ritz values `Theta`, the weights
`Tau` (both `numvec*M` entries) and the eigenvector matrix of the last tridiagonal system. -/
structure LanczosOut (R : Type*) where
  upperb : R
  theta : ℕ → R
  tau : ℕ → R
  ritzV : ℕ → R

/-- The abstract class `chase::Chase<T>`: algorithm/interface.hpp 17-125.  `S` is the (arbitrary)
state behind the interface.  Scalars `T(alpha)` stay in `R` here; the conversion to `T` is part of
the backend.  `rr` returns the `block` values it writes through `ritzv`, `resd` the values it writes
through `resd`. -/
structure Chase (R S : Type*) where
  checkSymmetryEasy : S → Bool × S
  start : S → S
  finish : S → S
  initVecs : Bool → S → S
  qr : ℕ → R → S → S
  lanczos1 : ℕ → S → R × S
  lanczosN : ℕ → ℕ → S → LanczosOut R × S
  lanczosDos : ℕ → ℕ → (ℕ → R) → S → S
  shift : R → Bool → S → S
  hemm : ℕ → R → R → ℕ → S → S
  rr : ℕ → S → (ℕ → R) × S
  resd : (ℕ → R) → ℕ → S → (ℕ → R) × S
  lock : ℕ → S → S
  swap : ℕ → ℕ → S → S

/-- Library functions used as black boxes by the algorithm. -/
structure Plat (R : Type*) where
  /-- `std::numeric_limits<Base<T>>::max()` -/
  maxVal : R
  /-- `std::ceil(std::abs(std::log(resid / tol) / std::log(rho)))` with `rho` computed from
  `t = (ritzv - c)/e` (algorithm.inc 35-40); `none` if the floating point result cannot be converted
  to `size_t`.  Arguments: `ritzv c e resid tol`. -/
  degNeeded : R → R → R → R → R → Option ℕ
  /-- the condition estimate of algorithm.inc 496-511.
  Arguments: `upperb lowerb ritzv_[0] ritzv[0] degrees[0] max(degrees)`. -/
  condEst : R → R → R → R → ℕ → ℕ → R
  /-- `std::sort` on `[0, u)` by key (algorithm.inc 83-84): position `k` holds `sortIdx u key k`. -/
  sortIdx : ℕ → (ℕ → R) → ℕ → ℕ
  /-- the Gaussian cdf `G` of algorithm.inc 237-239 -/
  gauss : R → R

variable {R S : Type*}

/-- Writing `len` consecutive entries through a pointer to position `off`. -/
def writeAt {α : Type*} (f : ℕ → α) (off len : ℕ) (g : ℕ → α) : ℕ → α :=
  fun i => if off ≤ i ∧ i < off + len then g (i - off) else f i

/-- `*std::max_element(f + lo, f + lo + len)` for `len ≥ 1`: the first element, replaced by every
strictly larger one. -/
def maxElem {α : Type*} [LT α] [DecidableLT α] (f : ℕ → α) (lo len : ℕ) : α :=
  forRange (lo + 1) (lo + len) (fun i m => if m < f i then f i else m) (f lo)

/-- `*std::min_element(f + lo, f + lo + len)` for `len ≥ 1`. -/
def minElem {α : Type*} [LT α] [DecidableLT α] (f : ℕ → α) (lo len : ℕ) : α :=
  forRange (lo + 1) (lo + len) (fun i m => if f i < m then f i else m) (f lo)

/-- `std::min(a, b)`: the first argument unless the second is smaller. -/
def stdMin {α : Type*} [LT α] [DecidableLT α] (a b : α) : α := if b < a then b else a

/-- `std::abs`. -/
def stdAbs {α : Type*} [LT α] [DecidableLT α] [Zero α] [Neg α] (x : α) : α := if x < 0 then -x else x

theorem stdMin_eq {α : Type*} [LinearOrder α] (a b : α) : stdMin a b = min a b := by
  unfold stdMin
  split_ifs with h
  · exact (min_eq_right h.le).symm
  · exact (min_eq_left (not_lt.mp h)).symm

theorem stdAbs_eq {α : Type*} [Field α] [LinearOrder α] [IsStrictOrderedRing α] (x : α) :
    stdAbs x = |x| := by
  unfold stdAbs
  split_ifs with h
  · exact (abs_of_neg h).symm
  · exact (abs_of_nonneg (not_lt.mp h)).symm

/-- The arrays reordered by the degree sort, together with the backend. -/
structure Pairs (R S : Type*) where
  degrees : ℕ → ℕ
  ritzv : ℕ → R
  resid : ℕ → R
  residLast : ℕ → R
  be : S

section Degrees
variable [Add R] [Sub R] [Mul R] [Div R] [Neg R] [Zero R] [One R] [NatCast R] [LT R] [DecidableLT R]

/-- First loop of `calc_degrees`: algorithm.inc 33-43.  Writes `degrees[i]` for
`i < unconverged - nex`. -/
def rawDegrees (P : Plat R) (cfg : Config R) (cnt locked : ℕ) (c e tol : R)
    (ritzv resid : ℕ → R) (degrees : ℕ → ℕ) : Except Err (ℕ → ℕ) :=
  forRangeM 0 cnt (fun i d =>
    match P.degNeeded (ritzv (locked + i)) c e (resid (locked + i)) tol with
    | none => .error .badConv
    | some k => .ok (Function.update d (locked + i) (min (k + cfg.degExtra) cfg.maxDeg))) degrees

/-- Second and third loop of `calc_degrees`: algorithm.inc 45-53 (guard columns get the degree of
the last wanted column; then every degree is made even). -/
def fillDegrees (unconverged nex locked : ℕ) (degrees : ℕ → ℕ) : ℕ → ℕ :=
  let d1 := forRange (unconverged - nex) unconverged
    (fun i d => Function.update d (locked + i) (d (locked + (unconverged - 1 - nex)))) degrees
  forRange 0 unconverged
    (fun i d => Function.update d (locked + i) (d (locked + i) + d (locked + i) % 2)) d1

/-- Exchange of two pairs during the degree sort: algorithm.inc 60-64. -/
def Pairs.exchange (ops : Chase R S) (locked k j : ℕ) (p : Pairs R S) : Pairs R S :=
  { degrees := swapAt p.degrees (locked + k) (locked + j)
    ritzv := swapAt p.ritzv (locked + k) (locked + j)
    resid := swapAt p.resid (locked + k) (locked + j)
    residLast := swapAt p.residLast (locked + k) (locked + j)
    be := ops.swap (k + locked) (j + locked) p.be }

/-- The exchange sort of `calc_degrees`: algorithm.inc 56-65. -/
def sortDegrees (ops : Chase R S) (unconverged locked : ℕ) (p : Pairs R S) : Pairs R S :=
  forRange 0 (unconverged - 1) (fun j p =>
    forRange j unconverged (fun k p =>
      if p.degrees (locked + k) < p.degrees (locked + j) then p.exchange ops locked k j else p) p) p

/-- `Algorithm<T>::calc_degrees`: algorithm.inc 19-68.  Returns the new arrays and the returned
degree.  With `unconverged ≤ nex` the expressions `unconverged - nex`, `unconverged - 1 - nex` or
`unconverged - 1` wrap around, which is an error outcome here. -/
def calcDegrees (P : Plat R) (ops : Chase R S) (cfg : Config R) (unconverged nex : ℕ)
    (upperb lowerb tol : R) (locked : ℕ) (p : Pairs R S) : Except Err (ℕ × Pairs R S) :=
  if unconverged ≤ nex then .error .wrap else
    let c := (upperb + lowerb) / 2
    let e := (upperb - lowerb) / 2
    match rawDegrees P cfg (unconverged - nex) locked c e tol p.ritzv p.resid p.degrees with
    | .error err => .error err
    | .ok d =>
      let p := sortDegrees ops unconverged locked
        { p with degrees := fillDegrees unconverged nex locked d }
      .ok (p.degrees (locked + (unconverged - 1)), p)

end Degrees

section Locking
variable [LT R] [DecidableLT R]

/-- Arrays handled by `locking`. -/
structure LockSt (R S : Type*) where
  ritzv : ℕ → R
  resid : ℕ → R
  residLast : ℕ → R
  be : S
  converged : ℕ

/-- Exchange of two pairs during locking: algorithm.inc 108-114. -/
def LockSt.exchange (ops : Chase R S) (locked j : ℕ) (st : LockSt R S) : LockSt R S :=
  if j ≠ st.converged then
    { st with
      resid := swapAt st.resid (locked + j) (locked + st.converged)
      residLast := swapAt st.residLast (locked + j) (locked + st.converged)
      ritzv := swapAt st.ritzv (locked + j) (locked + st.converged)
      be := ops.swap (j + locked) (st.converged + locked) st.be }
  else st

/-- The walk of `locking`: algorithm.inc 87-116; first argument: remaining iterations, second: `k`.
`index` is the array computed before the walk and never updated. -/
def lockLoop (ops : Chase R S) (tol : R) (index : ℕ → ℕ) (locked : ℕ) :
    ℕ → ℕ → LockSt R S → LockSt R S
  | 0, _, st => st
  | n + 1, k, st =>
    let j := index k
    if st.resid (locked + j) > tol ∧ st.resid (locked + j) < st.residLast (locked + j) then st
    else
      let st := st.exchange ops locked j
      lockLoop ops tol index locked n (k + 1) { st with converged := st.converged + 1 }

/-- `Algorithm<T>::locking`: algorithm.inc 70-118. -/
def locking (P : Plat R) (ops : Chase R S) (unconverged : ℕ) (tol : R) (locked : ℕ)
    (ritzv resid residLast : ℕ → R) (be : S) : LockSt R S :=
  let index := P.sortIdx unconverged (fun i => ritzv (locked + i))
  lockLoop ops tol index locked unconverged 0
    { ritzv, resid, residLast, be, converged := 0 }

end Locking

section Filter
variable [Add R] [Sub R] [Mul R] [Div R] [Neg R] [Zero R] [One R] [NatCast R]

/-- Local variables of `filter` after a multiplication. -/
structure FilterSt (R S : Type*) where
  /-- position of the pointer `degrees` in the array `degrees_` -/
  p : ℕ
  unprocessed : ℕ
  offset : ℕ
  numMult : ℕ
  av : ℕ
  sigma : R
  be : S

/-- The first skipping loop of `filter`, whose guard `unprocessed >= 0` is always true:
algorithm.inc 150-155.  `dsize` is the length of `degrees_`; arguments after `numMult`: position of
the pointer `degrees`, `unprocessed`, `offset`.  Decrementing `unprocessed = 0` wraps. -/
def walkFirst (degrees : ℕ → ℕ) (dsize n numMult : ℕ) : ℕ → ℕ → ℕ → Except Err (ℕ × ℕ × ℕ)
  | p, 0, offset =>
    if p < dsize then
      if degrees p ≤ numMult then .error .wrap else .ok (p, 0, offset)
    else .error .oob
  | p, u + 1, offset =>
    if p < dsize then
      if degrees p ≤ numMult then walkFirst degrees dsize n numMult (p + 1) u (offset + n)
      else .ok (p, u + 1, offset)
    else .error .oob

/-- The skipping loop inside the main loop of `filter`: algorithm.inc 171-176. -/
def walk (degrees : ℕ → ℕ) (dsize n numMult : ℕ) : ℕ → ℕ → ℕ → Except Err (ℕ × ℕ × ℕ)
  | p, 0, offset => .ok (p, 0, offset)
  | p, u + 1, offset =>
    if p < dsize then
      if degrees p ≤ numMult then walk degrees dsize n numMult (p + 1) u (offset + n)
      else .ok (p, u + 1, offset)
    else .error .oob

/-- Body of the main loop of `filter`: algorithm.inc 159-176. -/
def filterStep (ops : Chase R S) (degrees : ℕ → ℕ) (dsize n : ℕ) (e sigma1 : R)
    (st : FilterSt R S) : Except Err (FilterSt R S) :=
  if n = 0 then .error .divZero else
    let sigmaNew := 1 / (2 / sigma1 - st.sigma)
    let alpha := 2 * sigmaNew / e
    let beta := -st.sigma * sigmaNew
    let be := ops.hemm st.unprocessed alpha beta (st.offset / n) st.be
    let numMult := st.numMult + 1
    match walk degrees dsize n numMult st.p st.unprocessed st.offset with
    | .error err => .error err
    | .ok (p, u, off) =>
      .ok { p, unprocessed := u, offset := off, numMult, av := st.av + st.unprocessed,
            sigma := sigmaNew, be }

/-- `Algorithm<T>::filter`: algorithm.inc 120-184.  `p0` is the position of the pointer `degrees`
in the array of length `dsize`.  Returns the number of products and the backend. -/
def filter (ops : Chase R S) (n unprocessed deg : ℕ) (degrees : ℕ → ℕ) (dsize p0 : ℕ)
    (lambda1 lower upper : R) (be : S) : Except Err (ℕ × S) :=
  if n = 0 then .error .divZero else
    let c := (upper + lower) / 2
    let e := (upper - lower) / 2
    let sigma1 := e / (lambda1 - c)
    let be := ops.shift (-c) false be
    let be := ops.hemm unprocessed (sigma1 / e) 0 (0 / n) be
    match walkFirst degrees dsize n 1 p0 unprocessed 0 with
    | .error err => .error err
    | .ok (p, u, off) =>
      match forRangeM 2 (deg + 1) (fun _ st => filterStep ops degrees dsize n e sigma1 st)
        { p, unprocessed := u, offset := off, numMult := 1, av := unprocessed,
          sigma := sigma1, be } with
      | .error err => .error err
      | .ok st => .ok (st.av, ops.shift c true st.be)

end Filter

section Lanczos
variable [Add R] [Sub R] [Mul R] [Div R] [Neg R] [Zero R] [One R] [NatCast R] [LT R] [DecidableLT R]

/-- The cumulative density at `ThetaSorted[i]`: algorithm.inc 243-253.  `total = numvec*m`. -/
def dosCurr (P : Plat R) (theta tau : ℕ → R) (total numvec : ℕ) (x : R) : R :=
  let threshold := 2 * (1 / 4) * (1 / 4) / 10
  (forRange 0 total (fun j acc =>
    if x < theta j - threshold then acc + 0
    else if x > theta j + threshold then acc + tau j * 1
    else acc + tau j * P.gauss (x - theta j)) 0) / (numvec : R)

/-- The search for the lower bound: algorithm.inc 241-264.  Arguments after `total`: remaining
iterations, `i`, `prev`.  Reading `ThetaSorted[-1]` is `oob`; leaving the loop without assigning
`lowerb` makes its later use `uninit`. -/
def dosSearch (P : Plat R) (theta tau sorted : ℕ → R) (total numvec : ℕ) (search : R) :
    ℕ → ℕ → R → Except Err R
  | 0, _, _ => .error .uninit
  | n + 1, i, prev =>
    let curr := dosCurr P theta tau total numvec (sorted i)
    if curr > search then
      if stdAbs (curr - search) < stdAbs (prev - search) then .ok (sorted i)
      else if i = 0 then .error .oob else .ok (sorted (i - 1))
    else dosSearch P theta tau sorted total numvec search n (i + 1) curr

/-- The first index whose Ritz value (of the last run) exceeds `lowerb`, minus one; `0` if there is
none: algorithm.inc 267-275.  The result is an `int`, `-1` is possible. -/
def dosIdx (theta : ℕ → R) (base m : ℕ) (lowerb : R) : ℤ :=
  match (List.range m).find? (fun i => decide (theta (base + i) > lowerb)) with
  | some i => (i : ℤ) - 1
  | none => 0

/-- Interspersing: algorithm.inc 307-313 for `idx ≥ 0`.  Index `j` beyond `nevex` would be outside
of the array. -/
def intersperse (ops : Chase R S) (idx nevex : ℕ) (ritzv : ℕ → R) (be : S) :
    Except Err ((ℕ → R) × S) :=
  forRangeM 1 idx (fun i st =>
    let j := i * (nevex / idx)
    if j < nevex ∧ i < nevex then .ok (swapAt st.1 i j, ops.swap i j st.2) else .error .oob)
    (ritzv, be)

/-- The start values: algorithm.inc 297-305 for `idx ≥ 0`; writes `ritzv_[0..nevex)`. -/
def dosValues (theta : ℕ → R) (base idx nevex : ℕ) (lambda lowerb : R) (ritzv : ℕ → R) : ℕ → R :=
  let r := forRange 0 idx (fun i r => Function.update r i (theta (base + i))) ritzv
  let r := forRange idx (nevex - 1) (fun i r => Function.update r i lambda) r
  Function.update r (nevex - 1) lowerb

/-- Result of the `lanczos` step. -/
structure LanczosRes (R S : Type*) where
  upperb : R
  ritzv : ℕ → R
  idx : ℕ
  be : S

/-- `Algorithm<T>::lanczos`: algorithm.inc 186-322.  `sorted` stands for the sorted copy of `Theta`
(parameter `P.sortIdx`).  A negative `idx` makes the fill loop write `ritzv_[-1]` (line 301-303).
Writing `ritzv_[i]` for `i ≥ nevex` cannot happen for `idx ≤ nevex`, which is checked.  A zero sized
`Theta` is read at position 0 (line 230), an error. -/
def lanczos (P : Plat R) (ops : Chase R S) (N numvec m nevex : ℕ) (random : Bool)
    (ritzv : ℕ → R) (be : S) : Except Err (LanczosRes R S) :=
  if m = 0 then .error .wrap else   -- assert(m >= 1)
  if random = false then
    let (ub, be) := ops.lanczos1 m be
    .ok { upperb := ub, ritzv, idx := 0, be }
  else
    let (o, be) := ops.lanczosN m numvec be
    let total := numvec * m
    if total = 0 then .error .oob else
    let sorted := fun i => o.theta (P.sortIdx total o.theta i)
    let lambda := sorted 0
    let search := (nevex : R) / (N : R)
    match dosSearch P o.theta o.tau sorted total numvec search total 0 0 with
    | .error e => .error e
    | .ok lowerb =>
      match dosIdx o.theta ((numvec - 1) * m) m lowerb with
      | .negSucc _ => .error .oob
      | .ofNat idx =>
        let be := if idx > 0 then ops.lanczosDos idx m o.ritzV be else be
        if nevex = 0 ∨ nevex < idx then .error .oob else
        let r := dosValues o.theta ((numvec - 1) * m) idx nevex lambda lowerb ritzv
        match intersperse ops idx nevex r be with
        | .error e => .error e
        | .ok (r, be) => .ok { upperb := o.upperb, ritzv := r, idx, be }

end Lanczos

section Solve
variable [Add R] [Sub R] [Mul R] [Div R] [Neg R] [Zero R] [One R] [NatCast R] [LT R] [DecidableLT R]

/-- Local variables of `solve`. -/
structure St (R S : Type*) where
  ritzv : ℕ → R
  resid : ℕ → R
  residLast : ℕ → R
  degrees : ℕ → ℕ
  deg : ℕ
  lowerb : R
  upperb : R
  lambda : R
  locked : ℕ
  unconverged : ℕ
  iteration : ℕ
  be : S

/-- Update of the bounds at the start of an iteration: algorithm.inc 426-462 (the counting loop
`cnt` is the test that no unconverged residual exceeds one half). -/
def updateBounds (nevex : ℕ) (st : St R S) : St R S :=
  let lambda := if st.unconverged < nevex then minElem st.ritzv 0 nevex else st.lambda
  let lowerb :=
    if st.unconverged < nevex ∧
        (List.range st.unconverged).all (fun i => !decide (st.resid (st.locked + i) > 1 / 2)) then
      st.ritzv (st.locked + (st.unconverged - 1))
    else st.lowerb
  let lowerb := if lowerb > st.upperb then st.upperb else lowerb
  { st with lambda, lowerb }

/-- Degree optimisation step of an iteration: algorithm.inc 466-470. -/
def optimise (P : Plat R) (ops : Chase R S) (cfg : Config R) (st : St R S) :
    Except Err (St R S) :=
  if cfg.optimization ∧ st.iteration ≠ 0 then
    match calcDegrees P ops cfg st.unconverged cfg.nex st.upperb st.lowerb cfg.tol st.locked
      { degrees := st.degrees, ritzv := st.ritzv, resid := st.resid, residLast := st.residLast,
        be := st.be } with
    | .error e => .error e
    | .ok (deg, p) => .ok { st with deg, degrees := p.degrees, ritzv := p.ritzv, resid := p.resid,
                                    residLast := p.residLast, be := p.be }
  else .ok st

/-- QR, Rayleigh-Ritz and residuals of an iteration: algorithm.inc 494-531. -/
def project (P : Plat R) (ops : Chase R S) (cfg : Config R) (st : St R S) : St R S :=
  let cond := P.condEst st.upperb st.lowerb (st.ritzv 0) (st.ritzv st.locked)
    (st.degrees st.locked) (maxElem st.degrees st.locked (cfg.nev + cfg.nex - st.locked))
  let be := ops.qr st.locked cond st.be
  let (vals, be) := ops.rr st.unconverged be
  let ritzv := writeAt st.ritzv st.locked st.unconverged vals
  let residLast := forRange 0 st.unconverged
    (fun i rl => Function.update rl (st.locked + i)
      (stdMin (rl (st.locked + i)) (st.resid (st.locked + i)))) st.residLast
  let (res, be) := ops.resd (fun i => ritzv (st.locked + i)) st.locked be
  let resid := writeAt st.resid st.locked (cfg.nev + cfg.nex - st.locked) res
  { st with ritzv, resid, residLast, be }

/-- Locking step of an iteration: algorithm.inc 535-552. -/
def lockStep (P : Plat R) (ops : Chase R S) (cfg : Config R) (st : St R S) : St R S :=
  let l := locking P ops (st.unconverged - cfg.nex) cfg.tol st.locked st.ritzv st.resid
    st.residLast st.be
  { st with
    ritzv := l.ritzv, resid := l.resid, residLast := l.residLast
    be := ops.lock l.converged l.be
    locked := st.locked + l.converged
    unconverged := st.unconverged - l.converged
    iteration := st.iteration + 1 }

/-- One outer iteration of `solve`: algorithm.inc 426-552. -/
def iter (P : Plat R) (ops : Chase R S) (cfg : Config R) (st : St R S) : Except Err (St R S) :=
  match optimise P ops cfg (updateBounds (cfg.nev + cfg.nex) st) with
  | .error e => .error e
  | .ok st =>
    match filter ops cfg.N st.unconverged st.deg st.degrees (cfg.nev + cfg.nex) st.locked
      st.lambda st.lowerb st.upperb st.be with
    | .error e => .error e
    | .ok (_, be) => .ok (lockStep P ops cfg (project P ops cfg { st with be }))

theorem iter_iteration (P : Plat R) (ops : Chase R S) (cfg : Config R) (st st' : St R S)
    (h : iter P ops cfg st = .ok st') : st'.iteration = st.iteration + 1 := by
  unfold iter at h
  split at h
  · cases h
  · rename_i st1 h1
    have e1 : st1.iteration = st.iteration := by
      unfold optimise at h1
      split_ifs at h1
      · split at h1
        · cases h1
        · cases h1; rfl
      · cases h1; rfl
    split at h
    · cases h
    · cases h
      simp only [lockStep, project]
      omega

/-- The loop condition of `solve`: algorithm.inc 424. -/
def running (cfg : Config R) (st : St R S) : Prop :=
  st.unconverged > cfg.nex ∧ st.iteration < cfg.maxIter

instance (cfg : Config R) (st : St R S) : Decidable (running cfg st) := by
  unfold running; infer_instance

/-- The outer loop of `solve`: algorithm.inc 424-553.  Lean accepts this definition because
`maxIter - iteration` decreases, which is the termination argument. -/
def solveLoop (P : Plat R) (ops : Chase R S) (cfg : Config R) (st : St R S) :
    Except Err (St R S) :=
  if _hr : running cfg st then
    match _h : iter P ops cfg st with
    | .error e => .error e
    | .ok st' => solveLoop P ops cfg st'
  else .ok st
termination_by cfg.maxIter - st.iteration
decreasing_by
  have := iter_iteration P ops cfg st st' _h
  have := _hr.2
  omega

/-- The final exchange sort: algorithm.inc 559-567 for `nev ≥ 1`. -/
def finalSort (ops : Chase R S) (nev : ℕ) (ritzv : ℕ → R) (be : S) : (ℕ → R) × S :=
  forRange 0 (nev - 1) (fun i st =>
    forRange (i + 1) nev (fun j st =>
      if st.1 i > st.1 j then (swapAt st.1 i j, ops.swap i j st.2) else st) st) (ritzv, be)

/-- Initialisation of `solve`: algorithm.inc 357-422.  `ritzv0` is the content of the array
`GetRitzv()` on entry (only relevant in approximation mode), `resid0` that of `GetResid()`. -/
def initState (P : Plat R) (ops : Chase R S) (cfg : Config R) (ritzv0 resid0 : ℕ → R) (be : S) :
    Except Err (St R S) :=
  let be := ops.start be
  let nevex := cfg.nev + cfg.nex
  let residLast : ℕ → R := fun _ => P.maxVal
  let resid := writeAt resid0 0 nevex (fun _ => P.maxVal)
  let deg := min (cfg.deg + cfg.deg % 2) cfg.maxDeg
  let degrees : ℕ → ℕ := fun _ => deg
  let random := !cfg.approx
  let be := ops.initVecs random be
  let be := if random then ops.qr 0 1 be else be
  match lanczos P ops cfg.N cfg.numLanczos (min nevex (min (cfg.N / 2) cfg.lanczosIter)) nevex
    random ritzv0 be with
  | .error e => .error e
  | .ok l =>
    if nevex = 0 then .error .oob else
    .ok { ritzv := l.ritzv, resid, residLast, degrees, deg
          lowerb := maxElem l.ritzv 0 nevex, upperb := l.upperb
          lambda := minElem l.ritzv 0 nevex
          locked := 0, unconverged := nevex, iteration := 0, be := l.be }

/-- What the caller of `Solve` observes. -/
structure Outcome (R S : Type*) where
  ritzv : ℕ → R
  resid : ℕ → R
  iterations : ℕ
  locked : ℕ
  be : S

/-- `Algorithm<T>::solve`: algorithm.inc 324-572.  With `nev = 0` the bound `nev - 1` of the final
sort wraps around (the `int` loop variable then overflows), an error outcome. -/
def solve (P : Plat R) (ops : Chase R S) (cfg : Config R) (ritzv0 resid0 : ℕ → R) (be : S) :
    Except Err (Outcome R S) :=
  let (ok, be) := if cfg.symCheck then ops.checkSymmetryEasy be else (true, be)
  if ok = false then
    .ok { ritzv := ritzv0, resid := resid0, iterations := 0, locked := 0, be }
  else
    match initState P ops cfg ritzv0 resid0 be with
    | .error e => .error e
    | .ok st =>
      match solveLoop P ops cfg st with
      | .error e => .error e
      | .ok st =>
        if cfg.nev = 0 then .error .wrap else
        let (ritzv, be) := finalSort ops cfg.nev st.ritzv st.be
        .ok { ritzv, resid := st.resid, iterations := st.iteration, locked := st.locked,
              be := ops.finish be }

end Solve
end Verif
