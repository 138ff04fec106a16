/-
Simulation along the phases of a solve.

`Sim` asks that every call keeps a relation between two backends, in whatever order the calls come.  A
backend with copies of its data in two memories does not do that: a copy may be out of date, and it is the
order of the calls that brings it up to date before it is used.  Here the relation depends on the phase:

  `pre`      before and after a solve
  `begun`    after `start`
  `inv k`    between the steps, with `k` vectors locked
  `filt k x` after the shift by `-x` at the start of a filter call
  `nest k x a m` after `m` products of the filter; the next ones leave the first `a` columns alone
  `ready k`  after QR
  `synced k v` after Rayleigh-Ritz with the values `v`, until locking

The relation `inv` only has to be restored after `m` products for the `m` with `par m`; with an even maximal
degree all filter calls make an even number of products.
-/
import Verif.Solver.Sim
import Verif.Solver.LockProof
import Verif.Solver.LoopProof
import Verif.Solver.Protocol

set_option linter.unusedSectionVars false

namespace Verif

variable {R S S' : Type*}

/-- Relations for the phases. -/
structure PhaseRel (R S S' : Type*) where
  pre : S → S' → Prop
  begun : S → S' → Prop
  inv : ℕ → S → S' → Prop
  filt : ℕ → R → S → S' → Prop
  nest : ℕ → R → ℕ → ℕ → S → S' → Prop
  ready : ℕ → S → S' → Prop
  synced : ℕ → (ℕ → R) → S → S' → Prop

/-- Calls made in the order of `solve` return the same values and keep the relations. -/
structure SimP [Add R] [Sub R] [Mul R] [Div R] [Neg R] [Zero R] [One R] [NatCast R] (ops : Chase R S) (ops' : Chase R S') (nevex : ℕ) (par : ℕ → Prop)
    (ph : PhaseRel R S S') : Prop where
  checkSymmetryEasy : ∀ s s', ph.pre s s' →
    (ops.checkSymmetryEasy s).1 = (ops'.checkSymmetryEasy s').1 ∧
    ph.pre (ops.checkSymmetryEasy s).2 (ops'.checkSymmetryEasy s').2
  start : ∀ s s', ph.pre s s' → ph.begun (ops.start s) (ops'.start s')
  initVecs : ∀ b s s', ph.begun s s' → ph.inv 0 (ops.initVecs b s) (ops'.initVecs b s')
  qr : ∀ l k c s s', ph.inv l s s' → ph.ready l (ops.qr k c s) (ops'.qr k c s')
  ready_inv : ∀ l s s', ph.ready l s s' → ph.inv l s s'
  lanczos1 : ∀ m s s', ph.inv 0 s s' → (ops.lanczos1 m s).1 = (ops'.lanczos1 m s').1 ∧
    ph.inv 0 (ops.lanczos1 m s).2 (ops'.lanczos1 m s').2
  lanczosN : ∀ m k s s', ph.inv 0 s s' → (ops.lanczosN m k s).1 = (ops'.lanczosN m k s').1 ∧
    ph.inv 0 (ops.lanczosN m k s).2 (ops'.lanczosN m k s').2
  lanczosDos : ∀ i m z s s', ph.inv 0 s s' → ph.inv 0 (ops.lanczosDos i m z s) (ops'.lanczosDos i m z s')
  shiftIn : ∀ l x s s', l ≤ nevex → ph.inv l s s' →
    ph.filt l x (ops.shift (-x) false s) (ops'.shift (-x) false s')
  first : ∀ l x y s s', l ≤ nevex → ph.filt l x s s' →
    ph.nest l x 0 1 (ops.hemm (nevex - l) y 0 0 s) (ops'.hemm (nevex - l) y 0 0 s')
  prod : ∀ l x a m y z s s', l ≤ nevex → a ≤ nevex - l → ph.nest l x a m s s' →
    ph.nest l x a (m + 1) (ops.hemm (nevex - l - a) y z a s) (ops'.hemm (nevex - l - a) y z a s')
  nest_mono : ∀ l x a b m s s', l ≤ nevex → a ≤ b → b ≤ nevex - l → ph.nest l x a m s s' →
    ph.nest l x b m s s'
  shiftOut : ∀ l x a m s s', l ≤ nevex → a ≤ nevex - l → par m → ph.nest l x a m s s' →
    ph.inv l (ops.shift x true s) (ops'.shift x true s')
  rr : ∀ l s s', l ≤ nevex → ph.ready l s s' → (ops.rr (nevex - l) s).1 = (ops'.rr (nevex - l) s').1 ∧
    ph.synced l (ops.rr (nevex - l) s).1 (ops.rr (nevex - l) s).2 (ops'.rr (nevex - l) s').2
  resd : ∀ f v l s s', l ≤ nevex → (∀ i < nevex - l, f i = v i) → ph.synced l v s s' →
    (ops.resd f l s).1 = (ops'.resd f l s').1 ∧ ph.synced l v (ops.resd f l s).2 (ops'.resd f l s').2
  lock : ∀ l v k s s', ph.synced l v s s' → ph.inv (l + k) (ops.lock k s) (ops'.lock k s')
  swap_inv : ∀ l i j s s', ph.inv l s s' → ph.inv l (ops.swap i j s) (ops'.swap i j s')
  swap_synced : ∀ l v i j s s', ph.synced l v s s' → ph.synced l v (ops.swap i j s) (ops'.swap i j s')
  finish : ∀ l s s', ph.inv l s s' → ph.pre (ops.finish s) (ops'.finish s')

/-- `ops` reduced to the calls that Lanczos, sorting and locking make. -/
def Chase.basic [Zero R] (ops : Chase R S) : Chase R S where
  checkSymmetryEasy := fun s => (true, s)
  start := id
  finish := id
  initVecs := fun _ s => s
  qr := fun _ _ s => s
  lanczos1 := ops.lanczos1
  lanczosN := ops.lanczosN
  lanczosDos := ops.lanczosDos
  shift := fun _ _ s => s
  hemm := fun _ _ _ _ s => s
  rr := fun _ s => (fun _ => 0, s)
  resd := fun _ _ s => (fun _ => 0, s)
  lock := fun _ s => s
  swap := ops.swap

/-- `ops` reduced to exchanging columns. -/
def Chase.swaps [Zero R] (ops : Chase R S) : Chase R S :=
  { ops.basic with
    lanczos1 := fun _ s => (0, s)
    lanczosN := fun _ _ s => (⟨0, fun _ => 0, fun _ => 0, fun _ => 0⟩, s)
    lanczosDos := fun _ _ _ s => s }

theorem swaps_sim [Zero R] {ops : Chase R S} {ops' : Chase R S'} {r : S → S' → Prop}
    (h : ∀ i j s s', r s s' → r (ops.swap i j s) (ops'.swap i j s')) : Sim ops.swaps ops'.swaps r := by
  constructor
  case swap => exact h
  all_goals
    intros
    first | assumption | exact ⟨rfl, by assumption⟩

section
variable [Add R] [Sub R] [Mul R] [Div R] [Neg R] [Zero R] [One R] [NatCast R] [LT R] [DecidableLT R] {ops : Chase R S} {ops' : Chase R S'} {ph : PhaseRel R S S'} {nevex : ℕ}
  {par : ℕ → Prop}

theorem SimP.basic (hs : SimP ops ops' nevex par ph) : Sim ops.basic ops'.basic (ph.inv 0) := by
  constructor
  case swap => exact hs.swap_inv 0
  case lanczos1 => exact hs.lanczos1
  case lanczosN => exact hs.lanczosN
  case lanczosDos => exact hs.lanczosDos
  all_goals
    intros
    first | assumption | exact ⟨rfl, by assumption⟩

theorem lockLoop_swaps (ops : Chase R S) (tol : R) (index : ℕ → ℕ) (locked n k : ℕ) (p : LockSt R S) :
    lockLoop ops.swaps tol index locked n k p = lockLoop ops tol index locked n k p := by
  induction n generalizing k p with
  | zero => rfl
  | succ n ih => unfold lockLoop; simp only [ih]; rfl

/-- The number of products in a filter call that completes: `deg`, or one if `deg = 0`. -/
def Products (n tot deg : ℕ) (degrees : ℕ → ℕ) (dsize p0 m : ℕ) : Prop :=
  m = deg ∨ (deg = 0 ∧ m = 1 ∧ ∃ w, walkFirst degrees dsize n 1 p0 tot 0 = .ok w)

theorem filterStep_numMult {degrees : ℕ → ℕ} {dsize n : ℕ} {e sigma1 : R} {st st' : FilterSt R S}
    (h : filterStep ops degrees dsize n e sigma1 st = .ok st') : st'.numMult = st.numMult + 1 := by
  unfold filterStep at h
  split_ifs at h
  dsimp only at h
  split at h
  · cases h
  · cases h; rfl

/-- The products of a filter call work on nested ranges of columns `[a, tot)`, the first one on all of
them with `beta = 0`: a relation `F a` between the backends that each of them establishes or keeps. -/
theorem filter_nested {n tot deg dsize p0 : ℕ} {degrees : ℕ → ℕ} {lambda1 lower upper : R}
    {s : S} {s' : S'} (F0 : S → S' → Prop) (F : ℕ → ℕ → S → S' → Prop) (post : S → S' → Prop)
    (h0 : F0 (ops.shift (-((upper + lower) / 2)) false s) (ops'.shift (-((upper + lower) / 2)) false s'))
    (hfirst : ∀ x s s', F0 s s' → F 0 1 (ops.hemm tot x 0 0 s) (ops'.hemm tot x 0 0 s'))
    (hstep : ∀ a m x y s s', a ≤ tot → F a m s s' →
      F a (m + 1) (ops.hemm (tot - a) x y a s) (ops'.hemm (tot - a) x y a s'))
    (hmono : ∀ a b m s s', a ≤ b → b ≤ tot → F a m s s' → F b m s s')
    (hend : ∀ a m s s', a ≤ tot → Products n tot deg degrees dsize p0 m → F a m s s' →
      post (ops.shift ((upper + lower) / 2) true s) (ops'.shift ((upper + lower) / 2) true s')) :
    RelE (fun a b => a.1 = b.1 ∧ post a.2 b.2)
      (filter ops n tot deg degrees dsize p0 lambda1 lower upper s)
      (filter ops' n tot deg degrees dsize p0 lambda1 lower upper s') := by
  unfold filter
  split_ifs with hn
  · exact RelE.error _
  dsimp only
  cases hwf : walkFirst degrees dsize n 1 p0 tot 0 with
  | error e => exact RelE.error e
  | ok w =>
    obtain ⟨k, hk, rfl⟩ := walkFirst_sum degrees tot p0 0 w (by simpa using hwf)
    dsimp only
    rw [Nat.zero_add]
    have := forRangeM_rel (lo := 2) (hi := deg + 1)
      (fun (f : FilterSt R S) (f' : FilterSt R S') => FilterSt.Rel (fun _ _ => True) f f' ∧
        ∃ a, a ≤ tot ∧ f.offset = a * n ∧ f.unprocessed = tot - a ∧ F a f.numMult f.be f'.be)
      (fun _ st => filterStep ops degrees dsize n ((upper - lower) / 2)
        ((upper - lower) / 2 / (lambda1 - (upper + lower) / 2)) st)
      (fun _ st => filterStep ops' degrees dsize n ((upper - lower) / 2)
        ((upper - lower) / 2 / (lambda1 - (upper + lower) / 2)) st)
      ?_
      (s := { p := p0 + k, unprocessed := tot - k, offset := k * n, numMult := 1, av := tot,
              sigma := (upper - lower) / 2 / (lambda1 - (upper + lower) / 2),
              be := ops.hemm tot ((upper - lower) / 2 / (lambda1 - (upper + lower) / 2) /
                ((upper - lower) / 2)) 0 (0 / n) (ops.shift (-((upper + lower) / 2)) false s) })
      (s' := { p := p0 + k, unprocessed := tot - k, offset := k * n, numMult := 1, av := tot,
               sigma := (upper - lower) / 2 / (lambda1 - (upper + lower) / 2),
               be := ops'.hemm tot ((upper - lower) / 2 / (lambda1 - (upper + lower) / 2) /
                ((upper - lower) / 2)) 0 (0 / n) (ops'.shift (-((upper + lower) / 2)) false s') })
      ⟨⟨rfl, rfl, rfl, rfl, rfl, rfl, trivial⟩, k, hk, rfl, rfl, by
        rw [Nat.zero_div]
        exact hmono 0 k _ _ _ (Nat.zero_le _) hk (hfirst _ _ _ h0)⟩
    · have hcount : ∀ st, forRangeM 2 (deg + 1) (fun _ st => filterStep ops degrees dsize n
          ((upper - lower) / 2) ((upper - lower) / 2 / (lambda1 - (upper + lower) / 2)) st)
          { p := p0 + k, unprocessed := tot - k, offset := k * n, numMult := 1, av := tot,
              sigma := (upper - lower) / 2 / (lambda1 - (upper + lower) / 2),
              be := ops.hemm tot ((upper - lower) / 2 / (lambda1 - (upper + lower) / 2) /
                ((upper - lower) / 2)) 0 (0 / n) (ops.shift (-((upper + lower) / 2)) false s) } = .ok st →
          Products n tot deg degrees dsize p0 st.numMult := by
        intro st hst
        rcases Nat.eq_zero_or_pos deg with hz | hz
        · subst hz
          rw [forRangeM_of_le (by omega)] at hst
          cases hst
          exact Or.inr ⟨rfl, rfl, _, hwf⟩
        · have := forRangeM_inv_partial (lo := 2) (hi := deg + 1) (by omega) _
            (fun i (f : FilterSt R S) => f.numMult = i - 1) (s := _) rfl
            (fun i f f' h1 _ h2 h3 => by
              rw [filterStep_numMult h3, h2]; omega) hst
          exact Or.inl (by simpa using this)
      generalize forRangeM 2 (deg + 1) (fun _ st => filterStep ops degrees dsize n
        ((upper - lower) / 2) ((upper - lower) / 2 / (lambda1 - (upper + lower) / 2)) st) _ = x at this hcount ⊢
      generalize forRangeM 2 (deg + 1) (fun _ st => filterStep ops' degrees dsize n
        ((upper - lower) / 2) ((upper - lower) / 2 / (lambda1 - (upper + lower) / 2)) st) _ = y at this ⊢
      cases this with
      | error e => exact RelE.error e
      | ok hh =>
        obtain ⟨h1, a, ha, -, -, h2⟩ := hh
        exact RelE.ok ⟨h1.av, hend a _ _ _ ha (hcount _ rfl) h2⟩
    · rintro i ⟨q1, q2, q3, q4, q5, q6, be⟩ ⟨t1, t2, t3, t4, t5, t6, be'⟩ _ _
        ⟨⟨h1, h2, h3, h4, h5, h6, -⟩, a, ha, e1, e2, hF⟩
      dsimp only at h1 h2 h3 h4 h5 h6 e1 e2 hF
      subst h1 h2 h3 h4 h5 h6 e1 e2
      unfold filterStep
      rw [if_neg hn, if_neg hn]
      dsimp only
      cases hwk : walk degrees dsize n (q4 + 1) q1 (tot - a) (a * n) with
      | error e => exact RelE.error e
      | ok w =>
        obtain ⟨k, hk, rfl⟩ := walk_sum degrees _ _ _ _ hwk
        dsimp only
        rw [Nat.mul_div_cancel _ (Nat.pos_of_ne_zero hn)]
        refine RelE.ok ⟨⟨rfl, rfl, rfl, rfl, rfl, rfl, trivial⟩, a + k, by omega, rfl, by dsimp only; omega, ?_⟩
        exact hmono a (a + k) _ _ _ (by omega) (by omega) (hstep a _ _ _ _ _ ha hF)

/-- A call of the filter. -/
theorem SimP.filter (hs : SimP ops ops' nevex par ph) (l n deg : ℕ) (degrees : ℕ → ℕ) (dsize p0 : ℕ)
    (lambda1 lower upper : R) (s : S) (s' : S') (hl : l ≤ nevex)
    (hp : ∀ m, Products n (nevex - l) deg degrees dsize p0 m → par m) (h : ph.inv l s s') :
    RelE (fun a b => a.1 = b.1 ∧ ph.inv l a.2 b.2)
      (Verif.filter ops n (nevex - l) deg degrees dsize p0 lambda1 lower upper s)
      (Verif.filter ops' n (nevex - l) deg degrees dsize p0 lambda1 lower upper s') :=
  filter_nested (ph.filt l ((upper + lower) / 2)) (ph.nest l ((upper + lower) / 2)) (ph.inv l)
    (hs.shiftIn l _ _ _ hl h) (fun y s s' h => hs.first l _ y s s' hl h)
    (fun a m y z s s' ha h => hs.prod l _ a m y z s s' hl ha h)
    (fun a b m s s' hab hb h => hs.nest_mono l _ a b m s s' hl hab hb h)
    (fun a m s s' ha hm h => hs.shiftOut l _ a m s s' hl ha (hp m hm) h)

theorem walkFirst_fails {degrees : ℕ → ℕ} {dsize n k : ℕ} :
    ∀ {u p off : ℕ}, p + u = dsize → (∀ i, p ≤ i → i < dsize → degrees i ≤ k) →
      ∀ w, walkFirst degrees dsize n k p u off ≠ .ok w
  | 0, p, off, hp, _, w => by
    unfold walkFirst
    rw [if_neg (by omega)]
    exact fun h => by cases h
  | u + 1, p, off, hp, hd, w => by
    unfold walkFirst
    rw [if_pos (by omega), if_pos (hd p le_rfl (by omega))]
    exact walkFirst_fails (by omega) (fun i h1 h2 => hd i (by omega) h2) w

/-- Relation between the local variables of two solves at the start of a round. -/
def RoundRel (ph : PhaseRel R S S') (nevex : ℕ) (even : Prop) (p : St R S) (p' : St R S') : Prop :=
  St.Rel (ph.inv p.locked) p p' ∧ p.locked + p.unconverged = nevex ∧ (even → DegInv nevex p)

theorem project_simP (hs : SimP ops ops' nevex par ph) (P : Plat R) (cfg : Config R)
    (hn : nevex = cfg.nev + cfg.nex) {p : St R S} {p' : St R S'} (h : RoundRel ph nevex (Even cfg.maxDeg) p p') :
    ∃ v, St.Rel (ph.synced p.locked v) (project P ops cfg p) (project P ops' cfg p') := by
  obtain ⟨a1, a2, a3, a4, a5, a6, a7, a8, a9, a10, a11, b⟩ := p
  obtain ⟨b1, b2, b3, b4, b5, b6, b7, b8, b9, b10, b11, b'⟩ := p'
  obtain ⟨⟨h1, h2, h3, h4, h5, h6, h7, h8, h9, h10, h11, hb⟩, hsum, -⟩ := h
  dsimp only at h1 h2 h3 h4 h5 h6 h7 h8 h9 h10 h11 hb hsum
  subst h1 h2 h3 h4 h5 h6 h7 h8 h9 h10 h11
  unfold project
  dsimp only
  have hu : a10 = nevex - a9 := by omega
  have hl : a9 ≤ nevex := by omega
  subst hu
  have hq := hs.qr a9 a9 (P.condEst a7 a6 (a1 0) (a1 a9)
    (a4 a9) (maxElem a4 a9 (cfg.nev + cfg.nex - a9))) _ _ hb
  obtain ⟨hr1, hr2⟩ := hs.rr a9 _ _ hl hq
  rw [hr1] at hr2 ⊢
  obtain ⟨hd1, hd2⟩ := hs.resd (fun i => writeAt a1 a9 (nevex - a9)
    (ops'.rr (nevex - a9) (ops'.qr a9 (P.condEst a7 a6 (a1 0) (a1 a9) (a4 a9)
    (maxElem a4 a9 (cfg.nev + cfg.nex - a9))) b')).1 (a9 + i)) _ a9 _ _ hl (by
      intro i hi
      unfold writeAt
      rw [if_pos ⟨by omega, by omega⟩, Nat.add_sub_cancel_left]) hr2
  rw [hd1]
  exact ⟨_, rfl, rfl, rfl, rfl, rfl, rfl, rfl, rfl, rfl, rfl, rfl, hd2⟩

theorem lockStep_simP (hs : SimP ops ops' nevex par ph) (P : Plat R) (cfg : Config R) {p : St R S}
    {p' : St R S'} {v : ℕ → R} (h : St.Rel (ph.synced p.locked v) p p') (hsum : p.locked + p.unconverged = nevex)
    (hd : Even cfg.maxDeg → DegInv nevex p) :
    RoundRel ph nevex (Even cfg.maxDeg) (lockStep P ops cfg p) (lockStep P ops' cfg p') := by
  obtain ⟨a1, a2, a3, a4, a5, a6, a7, a8, a9, a10, a11, b⟩ := p
  obtain ⟨b1, b2, b3, b4, b5, b6, b7, b8, b9, b10, b11, b'⟩ := p'
  obtain ⟨h1, h2, h3, h4, h5, h6, h7, h8, h9, h10, h11, hb⟩ := h
  dsimp only at h1 h2 h3 h4 h5 h6 h7 h8 h9 h10 h11 hb hsum
  subst h1 h2 h3 h4 h5 h6 h7 h8 h9 h10 h11
  unfold lockStep locking
  dsimp only
  have hc := (lockLoop_converged_le ops cfg.tol (P.sortIdx (a10 - cfg.nex)
    (fun i => a1 (a9 + i))) a9 (a10 - cfg.nex) 0
    { ritzv := a1, resid := a2, residLast := a3, be := b, converged := 0 }).2
  have := lockLoop_sim (swaps_sim (hs.swap_synced a9 v)) cfg.tol (P.sortIdx (a10 - cfg.nex)
    (fun i => a1 (a9 + i))) a9 (a10 - cfg.nex) 0
    (p := { ritzv := a1, resid := a2, residLast := a3, be := b, converged := 0 })
    (p' := { ritzv := a1, resid := a2, residLast := a3, be := b', converged := 0 })
    ⟨rfl, rfl, rfl, rfl, hb⟩
  rw [lockLoop_swaps, lockLoop_swaps] at this
  refine ⟨⟨this.ritzv, this.resid, this.residLast, rfl, rfl, rfl, rfl, rfl, ?_, ?_, rfl, ?_⟩, ?_, ?_⟩
  · dsimp only; rw [this.converged]
  · dsimp only; rw [this.converged]
  · dsimp only; rw [this.converged]; exact hs.lock _ _ _ _ _ this.be
  · dsimp only at hc ⊢
    omega
  · intro hm
    obtain ⟨d1, d2, d3, d4⟩ := hd hm
    refine ⟨d1, fun a b ha hab hb => d2 a b ?_ hab hb, fun a ha hb => d3 a ?_ hb, fun hl => d4 ?_⟩
    · exact le_trans (Nat.le_add_right _ _) ha
    · exact le_trans (Nat.le_add_right _ _) ha
    · exact lt_of_le_of_lt (Nat.le_add_right _ _) hl

theorem iter_simP (hs : SimP ops ops' nevex par ph) (P : Plat R) (cfg : Config R)
    (hn : nevex = cfg.nev + cfg.nex)
    (hpar : (∀ m, par m) ∨ (Even cfg.maxDeg ∧ ∀ m, Even m → par m)) {p : St R S} {p' : St R S'} (h : RoundRel ph nevex (Even cfg.maxDeg) p p') :
    RelE (RoundRel ph nevex (Even cfg.maxDeg)) (iter P ops cfg p) (iter P ops' cfg p') := by
  unfold iter
  obtain ⟨h, hsum, hd⟩ := h
  have h1 : RelE (St.Rel (ph.inv p.locked)) (optimise P ops cfg (updateBounds (cfg.nev + cfg.nex) p))
      (optimise P ops' cfg (updateBounds (cfg.nev + cfg.nex) p')) :=
    optimise_sim (swaps_sim (hs.swap_inv p.locked)) P cfg (updateBounds_sim (cfg.nev + cfg.nex) h)
  have hl : ∀ q, optimise P ops cfg (updateBounds (cfg.nev + cfg.nex) p) = .ok q →
      q.locked = p.locked ∧ q.unconverged = p.unconverged := by
    intro q hq
    unfold optimise at hq
    split_ifs at hq
    · split at hq
      · cases hq
      · cases hq; exact ⟨rfl, rfl⟩
    · cases hq; exact ⟨rfl, rfl⟩
  have hdq : ∀ q, optimise P ops cfg (updateBounds (cfg.nev + cfg.nex) p) = .ok q →
      Even cfg.maxDeg → DegInv nevex q := by
    intro q hq hm
    obtain ⟨d1, d2, d3, d4⟩ := hd hm
    exact optimise_degInv hm (st := updateBounds (cfg.nev + cfg.nex) p) hsum ⟨d1, d2, d3, d4⟩ hq
  generalize optimise P ops cfg _ = x at h1 hl hdq ⊢
  generalize optimise P ops' cfg _ = y at h1 ⊢
  cases h1 with
  | error e => exact RelE.error e
  | @ok q q' hq =>
    obtain ⟨l1, l2⟩ := hl q rfl
    have hd := hdq q rfl
    rw [← l1, ← l2] at hsum
    rw [← l1] at hq
    clear h l1 l2 hl hdq
    obtain ⟨a1, a2, a3, a4, a5, a6, a7, a8, a9, a10, a11, b⟩ := q
    obtain ⟨b1, b2, b3, b4, b5, b6, b7, b8, b9, b10, b11, b'⟩ := q'
    obtain ⟨h1, h2, h3, h4, h5, h6, h7, h8, h9, h10, h11, hb⟩ := hq
    dsimp only at h1 h2 h3 h4 h5 h6 h7 h8 h9 h10 h11 hb hsum
    subst h1 h2 h3 h4 h5 h6 h7 h8 h9 h10 h11
    dsimp only
    have hu : a10 = nevex - a9 := by omega
    have hl : a9 ≤ nevex := by omega
    subst hu
    have hp : ∀ m, Products cfg.N (nevex - a9) a5 a4 (cfg.nev + cfg.nex) a9 m → par m := by
      rcases hpar with hp | ⟨hm, hp⟩
      · exact fun m _ => hp m
      · obtain ⟨d1, -, d3, -⟩ := hd hm
        rintro m (rfl | ⟨h0, rfl, w, hw⟩)
        · exact hp _ d1
        · dsimp only at h0 d3
          subst h0
          refine absurd hw (walkFirst_fails (by omega) (fun i h1 h2 => ?_) w)
          have := (d3 i h1 (by omega)).2
          omega
    have h2 := hs.filter a9 cfg.N a5 a4 (cfg.nev + cfg.nex) a9 a8 a6 a7 _ _ hl hp hb
    generalize filter ops cfg.N _ _ _ _ _ _ _ _ _ = x at h2 ⊢
    generalize filter ops' cfg.N _ _ _ _ _ _ _ _ _ = y at h2 ⊢
    cases h2 with
    | error e => exact RelE.error e
    | ok hf =>
      refine RelE.ok ?_
      obtain ⟨v, hp⟩ := project_simP hs P cfg hn (p := ⟨a1, a2, a3, a4, a5, a6, a7, a8, a9, nevex - a9, a11, _⟩)
        (p' := ⟨a1, a2, a3, a4, a5, a6, a7, a8, a9, nevex - a9, a11, _⟩)
        ⟨⟨rfl, rfl, rfl, rfl, rfl, rfl, rfl, rfl, rfl, rfl, rfl, hf.2⟩, hsum, fun hm => ⟨(hd hm).1, (hd hm).2, (hd hm).3, (hd hm).4⟩⟩
      exact lockStep_simP hs P cfg hp hsum fun hm => ⟨(hd hm).1, (hd hm).2, (hd hm).3, (hd hm).4⟩

theorem solveLoop_simP (hs : SimP ops ops' nevex par ph) (P : Plat R) (cfg : Config R)
    (hn : nevex = cfg.nev + cfg.nex)
    (hpar : (∀ m, par m) ∨ (Even cfg.maxDeg ∧ ∀ m, Even m → par m)) {p : St R S} {p' : St R S'} (h : RoundRel ph nevex (Even cfg.maxDeg) p p') :
    RelE (RoundRel ph nevex (Even cfg.maxDeg)) (solveLoop P ops cfg p) (solveLoop P ops' cfg p') := by
  induction hm : cfg.maxIter - p.iteration using Nat.strong_induction_on generalizing p p' with
  | _ n ih =>
    subst hm
    have e1 : running cfg p ↔ running cfg p' := by
      unfold running; rw [h.1.unconverged, h.1.iteration]
    by_cases hr : running cfg p
    · have hit := iter_simP hs P cfg hn hpar h
      cases hx : iter P ops cfg p with
      | error e =>
        rw [hx] at hit
        cases hy : iter P ops' cfg p' with
        | error e' =>
          rw [hy] at hit
          unfold solveLoop
          rw [dif_pos hr, dif_pos (e1.mp hr)]
          split
          · rename_i e1 h1
            split
            · rename_i e2 h2
              rw [hx] at h1; rw [hy] at h2
              cases h1; cases h2; cases hit
              exact RelE.error _
            · rename_i s h2; rw [hy] at h2; cases h2
          · rename_i s h1; rw [hx] at h1; cases h1
        | ok s => rw [hy] at hit; cases hit
      | ok q =>
        rw [hx] at hit
        cases hy : iter P ops' cfg p' with
        | error e' => rw [hy] at hit; cases hit
        | ok q' =>
          rw [hy] at hit
          cases hit with
          | ok hq =>
            have := ih (cfg.maxIter - q.iteration)
              (by have := iter_iteration P ops cfg p q hx; have := hr.2; omega) hq rfl
            unfold solveLoop
            rw [dif_pos hr, dif_pos (e1.mp hr)]
            split
            · rename_i e1 h1; rw [hx] at h1; cases h1
            · rename_i s h1
              rw [hx] at h1; cases h1
              split
              · rename_i e2 h2; rw [hy] at h2; cases h2
              · rename_i s h2
                rw [hy] at h2; cases h2
                exact this
    · unfold solveLoop
      rw [dif_neg hr, dif_neg (fun hc => hr (e1.mpr hc))]
      exact RelE.ok h

theorem initState_simP (hs : SimP ops ops' nevex par ph) (P : Plat R) (cfg : Config R)
    (hn : nevex = cfg.nev + cfg.nex) (ritzv0 resid0 : ℕ → R) {be : S} {be' : S'} (h : ph.pre be be') :
    RelE (RoundRel ph nevex (Even cfg.maxDeg)) (initState P ops cfg ritzv0 resid0 be)
      (initState P ops' cfg ritzv0 resid0 be') := by
  unfold initState
  dsimp only
  have hb : ph.inv 0 (if (!cfg.approx) = true then ops.qr 0 1 (ops.initVecs (!cfg.approx) (ops.start be))
      else ops.initVecs (!cfg.approx) (ops.start be))
      (if (!cfg.approx) = true then ops'.qr 0 1 (ops'.initVecs (!cfg.approx) (ops'.start be'))
      else ops'.initVecs (!cfg.approx) (ops'.start be')) := by
    split_ifs
    · exact hs.ready_inv _ _ _ (hs.qr _ _ _ _ _ (hs.initVecs _ _ _ (hs.start _ _ h)))
    · exact hs.initVecs _ _ _ (hs.start _ _ h)
  have : RelE (LanczosRes.Rel (ph.inv 0)) (lanczos P ops cfg.N cfg.numLanczos
      (min (cfg.nev + cfg.nex) (min (cfg.N / 2) cfg.lanczosIter)) (cfg.nev + cfg.nex) (!cfg.approx)
      ritzv0 _) (lanczos P ops' cfg.N cfg.numLanczos
      (min (cfg.nev + cfg.nex) (min (cfg.N / 2) cfg.lanczosIter)) (cfg.nev + cfg.nex) (!cfg.approx)
      ritzv0 _) := lanczos_sim hs.basic P cfg.N cfg.numLanczos
    (min (cfg.nev + cfg.nex) (min (cfg.N / 2) cfg.lanczosIter)) (cfg.nev + cfg.nex) (!cfg.approx)
    ritzv0 hb
  generalize lanczos P ops _ _ _ _ _ _ _ = x at this ⊢
  generalize lanczos P ops' _ _ _ _ _ _ _ = y at this ⊢
  cases this with
  | error e => exact RelE.error e
  | ok hl =>
    dsimp only
    split_ifs
    · exact RelE.error _
    · rw [hl.ritzv, hl.upperb]
      refine RelE.ok ⟨⟨rfl, rfl, rfl, rfl, rfl, rfl, rfl, rfl, rfl, rfl, rfl, hl.be⟩,
        by dsimp only; omega, fun hm => ?_⟩
      have hE : Even (min (cfg.deg + cfg.deg % 2) cfg.maxDeg) := by
        rw [Nat.even_iff] at *
        omega
      exact ⟨hE, fun _ _ _ _ _ => le_rfl, fun _ _ _ => ⟨hE, le_rfl⟩, fun _ => rfl⟩

/-- The states at the end of two solves that made a round: `finish` after related states. -/
def EndRel (ops : Chase R S) (ops' : Chase R S') (ph : PhaseRel R S S') (s : S) (s' : S') : Prop :=
  ∃ l t t', ph.inv l t t' ∧ s = ops.finish t ∧ s' = ops'.finish t'

/-- Two solves on corresponding backends have the same results.  They end in states that correspond as at
the start (the symmetry check failed) or as after a call. -/
theorem solve_simP_end (hs : SimP ops ops' nevex par ph) (P : Plat R) (cfg : Config R)
    (hn : nevex = cfg.nev + cfg.nex)
    (hpar : (∀ m, par m) ∨ (Even cfg.maxDeg ∧ ∀ m, Even m → par m)) (ritzv0 resid0 : ℕ → R)
    {be : S} {be' : S'} (h : ph.pre be be') :
    RelE (fun a b => Outcome.Rel (fun s s' => ph.pre s s' ∨ EndRel ops ops' ph s s') a b ∧
        (0 < a.iterations → EndRel ops ops' ph a.be b.be)) (solve P ops cfg ritzv0 resid0 be)
      (solve P ops' cfg ritzv0 resid0 be') := by
  unfold solve
  have hb : (if cfg.symCheck = true then ops.checkSymmetryEasy be else (true, be)).1 =
      (if cfg.symCheck = true then ops'.checkSymmetryEasy be' else (true, be')).1 ∧
      ph.pre (if cfg.symCheck = true then ops.checkSymmetryEasy be else (true, be)).2
      (if cfg.symCheck = true then ops'.checkSymmetryEasy be' else (true, be')).2 := by
    split_ifs
    · exact hs.checkSymmetryEasy _ _ h
    · exact ⟨rfl, h⟩
  generalize (if cfg.symCheck = true then ops.checkSymmetryEasy be else (true, be)) = x at hb ⊢
  generalize (if cfg.symCheck = true then ops'.checkSymmetryEasy be' else (true, be')) = y at hb ⊢
  obtain ⟨b1, s1⟩ := x
  obtain ⟨b2, s2⟩ := y
  obtain ⟨h1, h2⟩ := hb
  dsimp only at h1 h2 ⊢
  subst h1
  by_cases hb1 : b1 = false
  · rw [if_pos hb1, if_pos hb1]
    exact RelE.ok ⟨⟨rfl, rfl, rfl, rfl, Or.inl h2⟩, fun h => absurd h (lt_irrefl _)⟩
  rw [if_neg hb1, if_neg hb1]
  have hi := initState_simP hs P cfg hn ritzv0 resid0 h2
  generalize initState P ops cfg ritzv0 resid0 s1 = x at hi ⊢
  generalize initState P ops' cfg ritzv0 resid0 s2 = y at hi ⊢
  cases hi with
  | error e => exact RelE.error e
  | ok hst =>
    dsimp only
    have hl := solveLoop_simP hs P cfg hn hpar hst
    generalize solveLoop P ops cfg _ = x at hl ⊢
    generalize solveLoop P ops' cfg _ = y at hl ⊢
    cases hl with
    | error e => exact RelE.error e
    | @ok q q' hq =>
      dsimp only
      split_ifs
      · exact RelE.error _
      have hf : (finalSort ops cfg.nev q'.ritzv q.be).1 = (finalSort ops' cfg.nev q'.ritzv q'.be).1 ∧
          ph.inv q.locked (finalSort ops cfg.nev q'.ritzv q.be).2
            (finalSort ops' cfg.nev q'.ritzv q'.be).2 :=
        finalSort_sim (swaps_sim (hs.swap_inv q.locked)) cfg.nev q'.ritzv hq.1.be
      rw [hq.1.ritzv]
      have he : EndRel ops ops' ph (ops.finish (finalSort ops cfg.nev q'.ritzv q.be).2)
          (ops'.finish (finalSort ops' cfg.nev q'.ritzv q'.be).2) := ⟨_, _, _, hf.2, rfl, rfl⟩
      exact RelE.ok ⟨⟨hf.1, hq.1.resid, hq.1.iteration, hq.1.locked, Or.inr he⟩, fun _ => he⟩

/-- Two backends that answer alike in the order of calls of a solve: `solve` returns the same values,
residuals, iteration count and locked count (or the same error), and related backends. -/
theorem solve_simP (hs : SimP ops ops' nevex par ph) (P : Plat R) (cfg : Config R)
    (hn : nevex = cfg.nev + cfg.nex)
    (hpar : (∀ m, par m) ∨ (Even cfg.maxDeg ∧ ∀ m, Even m → par m)) (ritzv0 resid0 : ℕ → R)
    {be : S} {be' : S'} (h : ph.pre be be') :
    RelE (Outcome.Rel ph.pre) (solve P ops cfg ritzv0 resid0 be)
      (solve P ops' cfg ritzv0 resid0 be') := by
  have h0 := solve_simP_end hs P cfg hn hpar ritzv0 resid0 h
  generalize solve P ops cfg ritzv0 resid0 be = x at h0 ⊢
  generalize solve P ops' cfg ritzv0 resid0 be' = y at h0 ⊢
  cases h0 with
  | error e => exact RelE.error e
  | ok h0 =>
    refine RelE.ok ⟨h0.1.ritzv, h0.1.resid, h0.1.iterations, h0.1.locked, ?_⟩
    rcases h0.1.be with h1 | ⟨l, t, t', h1, h2, h3⟩
    · exact h1
    · rw [h2, h3]; exact hs.finish l t t' h1

end
/-! ### Recording the calls -/

/-- The same relations, with the same calls made so far. -/
def PhaseRel.traced (ph : PhaseRel R S S') : PhaseRel R (S × List (Call R)) (S' × List (Call R)) where
  pre := fun p p' => ph.pre p.1 p'.1 ∧ p.2 = p'.2
  begun := fun p p' => ph.begun p.1 p'.1 ∧ p.2 = p'.2
  inv := fun l p p' => ph.inv l p.1 p'.1 ∧ p.2 = p'.2
  filt := fun l x p p' => ph.filt l x p.1 p'.1 ∧ p.2 = p'.2
  nest := fun l x a m p p' => ph.nest l x a m p.1 p'.1 ∧ p.2 = p'.2
  ready := fun l p p' => ph.ready l p.1 p'.1 ∧ p.2 = p'.2
  synced := fun l v p p' => ph.synced l v p.1 p'.1 ∧ p.2 = p'.2

/-- Recording the calls of two corresponding backends gives corresponding backends. -/
theorem SimP.traced [Add R] [Sub R] [Mul R] [Div R] [Neg R] [Zero R] [One R] [NatCast R] {ops : Chase R S} {ops' : Chase R S'} {ph : PhaseRel R S S'} {nevex : ℕ}
    {par : ℕ → Prop} (hs : SimP ops ops' nevex par ph) :
    SimP (Verif.traced ops) (Verif.traced ops') nevex par ph.traced where
  checkSymmetryEasy := fun _ _ h => ⟨(hs.checkSymmetryEasy _ _ h.1).1,
    (hs.checkSymmetryEasy _ _ h.1).2, congrArg (· ++ _) h.2⟩
  start := fun _ _ h => ⟨hs.start _ _ h.1, congrArg (· ++ _) h.2⟩
  initVecs := fun _ _ _ h => ⟨hs.initVecs _ _ _ h.1, congrArg (· ++ _) h.2⟩
  qr := fun _ _ _ _ _ h => ⟨hs.qr _ _ _ _ _ h.1, congrArg (· ++ _) h.2⟩
  ready_inv := fun _ _ _ h => ⟨hs.ready_inv _ _ _ h.1, h.2⟩
  lanczos1 := fun _ _ _ h => ⟨(hs.lanczos1 _ _ _ h.1).1, (hs.lanczos1 _ _ _ h.1).2,
    congrArg (· ++ _) h.2⟩
  lanczosN := fun _ _ _ _ h => ⟨(hs.lanczosN _ _ _ _ h.1).1, (hs.lanczosN _ _ _ _ h.1).2,
    congrArg (· ++ _) h.2⟩
  lanczosDos := fun _ _ _ _ _ h => ⟨hs.lanczosDos _ _ _ _ _ h.1, congrArg (· ++ _) h.2⟩
  shiftIn := fun _ _ _ _ hl h => ⟨hs.shiftIn _ _ _ _ hl h.1, congrArg (· ++ _) h.2⟩
  first := fun _ _ _ _ _ hl h => ⟨hs.first _ _ _ _ _ hl h.1, congrArg (· ++ _) h.2⟩
  prod := fun _ _ _ _ _ _ _ _ hl ha h => ⟨hs.prod _ _ _ _ _ _ _ _ hl ha h.1, congrArg (· ++ _) h.2⟩
  nest_mono := fun _ _ _ _ _ _ _ hl ha hb h => ⟨hs.nest_mono _ _ _ _ _ _ _ hl ha hb h.1, h.2⟩
  shiftOut := fun _ _ _ _ _ _ hl ha hp h => ⟨hs.shiftOut _ _ _ _ _ _ hl ha hp h.1, congrArg (· ++ _) h.2⟩
  rr := fun _ _ _ hl h => ⟨(hs.rr _ _ _ hl h.1).1, (hs.rr _ _ _ hl h.1).2, congrArg (· ++ _) h.2⟩
  resd := fun _ _ _ _ _ hl hf h => ⟨(hs.resd _ _ _ _ _ hl hf h.1).1, (hs.resd _ _ _ _ _ hl hf h.1).2,
    congrArg (· ++ _) h.2⟩
  lock := fun _ _ _ _ _ h => ⟨hs.lock _ _ _ _ _ h.1, congrArg (· ++ _) h.2⟩
  swap_inv := fun _ _ _ _ _ h => ⟨hs.swap_inv _ _ _ _ _ h.1, congrArg (· ++ _) h.2⟩
  swap_synced := fun _ _ _ _ _ _ h => ⟨hs.swap_synced _ _ _ _ _ _ h.1, congrArg (· ++ _) h.2⟩
  finish := fun _ _ _ h => ⟨hs.finish _ _ _ h.1, congrArg (· ++ _) h.2⟩

end Verif
