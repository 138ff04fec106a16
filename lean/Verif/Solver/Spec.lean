/-
Vocabulary used in the statements about the solver.  Independent of the helpers of the model.
-/
import Verif.Solver.Model
import Mathlib.Logic.Equiv.Basic
import Mathlib.Algebra.Group.End
import Mathlib.Algebra.Group.Nat.Even

namespace Verif

variable {R S V : Type*}

/-- `σ` rearranges only the positions `[lo, hi)`. -/
def PermOn (lo hi : ℕ) (σ : Equiv.Perm ℕ) : Prop := ∀ i, i < lo ∨ hi ≤ i → σ i = i

/-- `f` is ascending on `[lo, hi)`. -/
def SortedOn {α : Type*} [LE α] (lo hi : ℕ) (f : ℕ → α) : Prop :=
  ∀ a b, lo ≤ a → a ≤ b → b < hi → f a ≤ f b

/-- Contract of `Swap(i, j)` for a backend whose search space is seen through `cols`: it exchanges
columns `i` and `j` of the search space (both below `n`) and nothing else. -/
def SwapsColumns (ops : Chase R S) (cols : S → ℕ → V) (n : ℕ) : Prop :=
  ∀ i j s, i < n → j < n → cols (ops.swap i j s) = swapAt (cols s) i j

/-- Specification of `std::sort` on indices: the first `u` results enumerate `[0, u)` and the keys
are ascending along them.  (Ties may come in any order.) -/
def SortsIndices [LE R] (P : Plat R) : Prop :=
  ∀ u (key : ℕ → R),
    (∀ k, k < u → P.sortIdx u key k < u) ∧
    (∀ k l, k < u → l < u → P.sortIdx u key k = P.sortIdx u key l → k = l) ∧
    (∀ k l, k ≤ l → l < u → key (P.sortIdx u key k) ≤ key (P.sortIdx u key l))

/-- The part of the specification of `std::sort` that does not mention the order: the first `u` results
enumerate `[0, u)`. -/
def PermutesIndices (P : Plat R) : Prop :=
  ∀ u (key : ℕ → R),
    (∀ k, k < u → P.sortIdx u key k < u) ∧
    (∀ k l, k < u → l < u → P.sortIdx u key k = P.sortIdx u key l → k = l)

theorem SortsIndices.permutes [LE R] {P : Plat R} (h : SortsIndices P) : PermutesIndices P :=
  fun u key => ⟨(h u key).1, (h u key).2.1⟩

instance [LE R] {P : Plat R} : CoeOut (SortsIndices P) (PermutesIndices P) := ⟨SortsIndices.permutes⟩

/-- `std::sort` leaves an index list alone whose keys are already ascending.  True for every sorting
routine when the keys are pairwise different, and for a stable one in general. -/
def SortKeepsSorted [LE R] (P : Plat R) : Prop :=
  ∀ u (key : ℕ → R), SortedOn 0 u key → ∀ k, k < u → P.sortIdx u key k = k

section
variable [Add R] [Sub R] [Mul R] [Div R] [Neg R] [Zero R] [One R] [NatCast R] [LT R] [DecidableLT R]

/-- One round of the iteration loop of `Solve`, taken only while the loop condition holds. -/
def Step (P : Plat R) (ops : Chase R S) (cfg : Config R) (st st' : St R S) : Prop :=
  running cfg st ∧ iter P ops cfg st = .ok st'

/-- States at the head of the iteration loop of `Solve`: the state after initialisation and every
state after a round. -/
inductive Reach (P : Plat R) (ops : Chase R S) (cfg : Config R) (ritzv0 resid0 : ℕ → R) (be : S) :
    St R S → Prop
  | init {st} : initState P ops cfg ritzv0 resid0 be = .ok st → Reach P ops cfg ritzv0 resid0 be st
  | step {st st'} : Reach P ops cfg ritzv0 resid0 be st → Step P ops cfg st st' →
      Reach P ops cfg ritzv0 resid0 be st'

/-- Any number of rounds. -/
inductive Steps (P : Plat R) (ops : Chase R S) (cfg : Config R) : St R S → St R S → Prop
  | refl (st) : Steps P ops cfg st st
  | tail {st st' st''} : Steps P ops cfg st st' → Step P ops cfg st' st'' → Steps P ops cfg st st''

/-- Conditions on the backend state at the different points of a solve: before it (`pre`), at the head
of a round and inside it up to the orthogonalisation (`inv`), after the orthogonalisation (`ready`),
after Rayleigh-Ritz (`synced`).  Backends hold several copies of the search space that agree only at
certain points. -/
structure Phases (S : Type*) where
  pre : S → Prop
  inv : S → Prop
  ready : S → Prop
  synced : S → Prop

/-- What the solver expects of its backend with respect to bookkeeping.  `cols s` are the columns of
the search space, `nl s` is the number of columns the backend was told to lock.

The columns below `nl s` are never changed by a filter call (the whole call; the degrees handed to
it are even, ascending and bounded by `deg`), by QR, Rayleigh-Ritz, the residual computation or
`Lock`; `Swap` exchanges two columns; `Lock k` adds `k` to the locked count and nothing else changes
it.  Each call may rely on the condition established by the calls before it. -/
structure Bookkeeping (ops : Chase R S) (cols : S → ℕ → V) (nl : S → ℕ) (ph : Phases S)
    (N nevex : ℕ) : Prop where
  swap : SwapsColumns ops cols nevex
  swap_nl : ∀ i j s, nl (ops.swap i j s) = nl s
  swap_inv : ∀ i j s, nl s ≤ i → nl s ≤ j → i < nevex → j < nevex → ph.inv s →
    ph.inv (ops.swap i j s)
  swap_synced : ∀ i j s, nl s ≤ i → nl s ≤ j → i < nevex → j < nevex → ph.synced s →
    ph.synced (ops.swap i j s)
  filter : ∀ (deg av : ℕ) (degrees : ℕ → ℕ) (lambda lower upper : R) (s s' : S),
    ph.inv s → Even deg → SortedOn (nl s) nevex degrees →
    (∀ i, nl s ≤ i → i < nevex → Even (degrees i) ∧ degrees i ≤ deg) →
    Verif.filter ops N (nevex - nl s) deg degrees nevex (nl s) lambda lower upper s
      = .ok (av, s') →
    nl s' = nl s ∧ ph.inv s' ∧ ∀ i, i < nl s → cols s' i = cols s i
  qr : ∀ k c s, ph.inv s → nl (ops.qr k c s) = nl s ∧ ph.inv (ops.qr k c s) ∧
    ph.ready (ops.qr k c s) ∧ ∀ i, i < nl s → cols (ops.qr k c s) i = cols s i
  rr : ∀ s, ph.ready s → nl s ≤ nevex → nl (ops.rr (nevex - nl s) s).2 = nl s ∧
    ph.synced (ops.rr (nevex - nl s) s).2 ∧
    ∀ i, i < nl s → cols (ops.rr (nevex - nl s) s).2 i = cols s i
  resd : ∀ f k s, ph.synced s → nl (ops.resd f k s).2 = nl s ∧ ph.synced (ops.resd f k s).2 ∧
    cols (ops.resd f k s).2 = cols s
  lock : ∀ k s, ph.synced s → nl s + k ≤ nevex → nl (ops.lock k s) = nl s + k ∧
    ph.inv (ops.lock k s) ∧ cols (ops.lock k s) = cols s
  start : ∀ s, ph.pre s → nl (ops.start s) = 0 ∧ ph.pre (ops.start s)
  check : ∀ s, ph.pre s → ph.pre (ops.checkSymmetryEasy s).2
  initVecs : ∀ b s, ph.pre s → nl s = 0 → nl (ops.initVecs b s) = 0 ∧ ph.inv (ops.initVecs b s)
  lanczos1 : ∀ m s, ph.inv s → nl s = 0 → nl (ops.lanczos1 m s).2 = 0 ∧ ph.inv (ops.lanczos1 m s).2
  lanczosN : ∀ m k s, ph.inv s → nl s = 0 →
    nl (ops.lanczosN m k s).2 = 0 ∧ ph.inv (ops.lanczosN m k s).2
  lanczosDos : ∀ i m z s, ph.inv s → nl s = 0 →
    nl (ops.lanczosDos i m z s) = 0 ∧ ph.inv (ops.lanczosDos i m z s)
  finish : ∀ s, cols (ops.finish s) = cols s

/-- The part of the contract `Bookkeeping` that does not say what `Swap` does to unlocked columns; for
`Swap` only that it leaves the columns alone that are below both of its arguments and locked. -/
structure Frame (ops : Chase R S) (cols : S → ℕ → V) (nl : S → ℕ) (ph : Phases S)
    (N nevex : ℕ) : Prop where
  swap_low : ∀ i j s, nl s ≤ i → nl s ≤ j → i < nevex → j < nevex →
    ∀ k, k < nl s → cols (ops.swap i j s) k = cols s k
  swap_nl : ∀ i j s, nl (ops.swap i j s) = nl s
  swap_inv : ∀ i j s, nl s ≤ i → nl s ≤ j → i < nevex → j < nevex → ph.inv s →
    ph.inv (ops.swap i j s)
  swap_synced : ∀ i j s, nl s ≤ i → nl s ≤ j → i < nevex → j < nevex → ph.synced s →
    ph.synced (ops.swap i j s)
  filter : ∀ (deg av : ℕ) (degrees : ℕ → ℕ) (lambda lower upper : R) (s s' : S),
    ph.inv s → Even deg → SortedOn (nl s) nevex degrees →
    (∀ i, nl s ≤ i → i < nevex → Even (degrees i) ∧ degrees i ≤ deg) →
    Verif.filter ops N (nevex - nl s) deg degrees nevex (nl s) lambda lower upper s
      = .ok (av, s') →
    nl s' = nl s ∧ ph.inv s' ∧ ∀ i, i < nl s → cols s' i = cols s i
  qr : ∀ k c s, ph.inv s → nl (ops.qr k c s) = nl s ∧ ph.inv (ops.qr k c s) ∧
    ph.ready (ops.qr k c s) ∧ ∀ i, i < nl s → cols (ops.qr k c s) i = cols s i
  rr : ∀ s, ph.ready s → nl s ≤ nevex → nl (ops.rr (nevex - nl s) s).2 = nl s ∧
    ph.synced (ops.rr (nevex - nl s) s).2 ∧
    ∀ i, i < nl s → cols (ops.rr (nevex - nl s) s).2 i = cols s i
  resd : ∀ f k s, ph.synced s → nl (ops.resd f k s).2 = nl s ∧ ph.synced (ops.resd f k s).2 ∧
    cols (ops.resd f k s).2 = cols s
  lock : ∀ k s, ph.synced s → nl s + k ≤ nevex → nl (ops.lock k s) = nl s + k ∧
    ph.inv (ops.lock k s) ∧ cols (ops.lock k s) = cols s
  start : ∀ s, ph.pre s → nl (ops.start s) = 0 ∧ ph.pre (ops.start s)
  check : ∀ s, ph.pre s → ph.pre (ops.checkSymmetryEasy s).2
  initVecs : ∀ b s, ph.pre s → nl s = 0 → nl (ops.initVecs b s) = 0 ∧ ph.inv (ops.initVecs b s)
  lanczos1 : ∀ m s, ph.inv s → nl s = 0 → nl (ops.lanczos1 m s).2 = 0 ∧ ph.inv (ops.lanczos1 m s).2
  lanczosN : ∀ m k s, ph.inv s → nl s = 0 →
    nl (ops.lanczosN m k s).2 = 0 ∧ ph.inv (ops.lanczosN m k s).2
  lanczosDos : ∀ i m z s, ph.inv s → nl s = 0 →
    nl (ops.lanczosDos i m z s) = 0 ∧ ph.inv (ops.lanczosDos i m z s)
  finish : ∀ s, cols (ops.finish s) = cols s

end
end Verif
