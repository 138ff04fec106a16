/-
Simulation: two backends that answer alike lead to the same run of `solve`.
Used for tracing, for the performance decorator, for relating backends to each other and for
processes that run the same program.
-/
import Verif.Solver.Spec

set_option linter.unusedSectionVars false

namespace Verif

variable {R S S' : Type*}

/-- `r` relates states of two backends such that corresponding calls return the same values and keep
the relation. -/
structure Sim (ops : Chase R S) (ops' : Chase R S') (r : S → S' → Prop) : Prop where
  checkSymmetryEasy : ∀ s s', r s s' → (ops.checkSymmetryEasy s).1 = (ops'.checkSymmetryEasy s').1 ∧
    r (ops.checkSymmetryEasy s).2 (ops'.checkSymmetryEasy s').2
  start : ∀ s s', r s s' → r (ops.start s) (ops'.start s')
  finish : ∀ s s', r s s' → r (ops.finish s) (ops'.finish s')
  initVecs : ∀ b s s', r s s' → r (ops.initVecs b s) (ops'.initVecs b s')
  qr : ∀ k c s s', r s s' → r (ops.qr k c s) (ops'.qr k c s')
  lanczos1 : ∀ m s s', r s s' → (ops.lanczos1 m s).1 = (ops'.lanczos1 m s').1 ∧
    r (ops.lanczos1 m s).2 (ops'.lanczos1 m s').2
  lanczosN : ∀ m k s s', r s s' → (ops.lanczosN m k s).1 = (ops'.lanczosN m k s').1 ∧
    r (ops.lanczosN m k s).2 (ops'.lanczosN m k s').2
  lanczosDos : ∀ i m z s s', r s s' → r (ops.lanczosDos i m z s) (ops'.lanczosDos i m z s')
  shift : ∀ c b s s', r s s' → r (ops.shift c b s) (ops'.shift c b s')
  hemm : ∀ n a b o s s', r s s' → r (ops.hemm n a b o s) (ops'.hemm n a b o s')
  rr : ∀ b s s', r s s' → (ops.rr b s).1 = (ops'.rr b s').1 ∧ r (ops.rr b s).2 (ops'.rr b s').2
  resd : ∀ f k s s', r s s' → (ops.resd f k s).1 = (ops'.resd f k s').1 ∧
    r (ops.resd f k s).2 (ops'.resd f k s').2
  lock : ∀ k s s', r s s' → r (ops.lock k s) (ops'.lock k s')
  swap : ∀ i j s s', r s s' → r (ops.swap i j s) (ops'.swap i j s')

variable {ops : Chase R S} {ops' : Chase R S'} {r : S → S' → Prop}

/-- Arrays equal, backends related. -/
structure Pairs.Rel (r : S → S' → Prop) (p : Pairs R S) (p' : Pairs R S') : Prop where
  degrees : p.degrees = p'.degrees
  ritzv : p.ritzv = p'.ritzv
  resid : p.resid = p'.resid
  residLast : p.residLast = p'.residLast
  be : r p.be p'.be

structure LockSt.Rel (r : S → S' → Prop) (p : LockSt R S) (p' : LockSt R S') : Prop where
  ritzv : p.ritzv = p'.ritzv
  resid : p.resid = p'.resid
  residLast : p.residLast = p'.residLast
  converged : p.converged = p'.converged
  be : r p.be p'.be

structure FilterSt.Rel (r : S → S' → Prop) (f : FilterSt R S) (f' : FilterSt R S') : Prop where
  p : f.p = f'.p
  unprocessed : f.unprocessed = f'.unprocessed
  offset : f.offset = f'.offset
  numMult : f.numMult = f'.numMult
  av : f.av = f'.av
  sigma : f.sigma = f'.sigma
  be : r f.be f'.be

structure LanczosRes.Rel (r : S → S' → Prop) (p : LanczosRes R S) (p' : LanczosRes R S') :
    Prop where
  upperb : p.upperb = p'.upperb
  ritzv : p.ritzv = p'.ritzv
  idx : p.idx = p'.idx
  be : r p.be p'.be

structure St.Rel (r : S → S' → Prop) (p : St R S) (p' : St R S') : Prop where
  ritzv : p.ritzv = p'.ritzv
  resid : p.resid = p'.resid
  residLast : p.residLast = p'.residLast
  degrees : p.degrees = p'.degrees
  deg : p.deg = p'.deg
  lowerb : p.lowerb = p'.lowerb
  upperb : p.upperb = p'.upperb
  lambda : p.lambda = p'.lambda
  locked : p.locked = p'.locked
  unconverged : p.unconverged = p'.unconverged
  iteration : p.iteration = p'.iteration
  be : r p.be p'.be

structure Outcome.Rel (r : S → S' → Prop) (p : Outcome R S) (p' : Outcome R S') : Prop where
  ritzv : p.ritzv = p'.ritzv
  resid : p.resid = p'.resid
  iterations : p.iterations = p'.iterations
  locked : p.locked = p'.locked
  be : r p.be p'.be

section
variable [Add R] [Sub R] [Mul R] [Div R] [Neg R] [Zero R] [One R] [NatCast R] [LT R] [DecidableLT R]

theorem sortDegrees_sim (hs : Sim ops ops' r) (u locked : ℕ) {p : Pairs R S} {p' : Pairs R S'}
    (h : Pairs.Rel r p p') :
    Pairs.Rel r (sortDegrees ops u locked p) (sortDegrees ops' u locked p') := by
  unfold sortDegrees
  refine forRange_rel (Pairs.Rel r) _ _ ?_ h
  intro j p p' _ _ h
  refine forRange_rel (Pairs.Rel r) _ _ ?_ h
  intro k p p' _ _ h
  rw [h.degrees]
  split_ifs
  · exact ⟨by simp only [Pairs.exchange, h.degrees], by simp only [Pairs.exchange, h.ritzv],
      by simp only [Pairs.exchange, h.resid], by simp only [Pairs.exchange, h.residLast],
      hs.swap _ _ _ _ h.be⟩
  · exact h

theorem calcDegrees_sim (hs : Sim ops ops' r) (P : Plat R) (cfg : Config R) (u nex : ℕ)
    (upperb lowerb tol : R) (locked : ℕ) {p : Pairs R S} {p' : Pairs R S'}
    (h : Pairs.Rel r p p') :
    RelE (fun a b => a.1 = b.1 ∧ Pairs.Rel r a.2 b.2)
      (calcDegrees P ops cfg u nex upperb lowerb tol locked p)
      (calcDegrees P ops' cfg u nex upperb lowerb tol locked p') := by
  unfold calcDegrees
  obtain ⟨d0, rv, rs, rl, b⟩ := p
  obtain ⟨d0', rv', rs', rl', b'⟩ := p'
  obtain ⟨h1, h2, h3, h4, hb⟩ := h
  dsimp only at h1 h2 h3 h4 hb
  subst h1 h2 h3 h4
  split_ifs
  · exact RelE.error _
  dsimp only
  split
  · exact RelE.error _
  · rename_i d _
    have := sortDegrees_sim hs u locked
      (p := { degrees := fillDegrees u nex locked d, ritzv := rv, resid := rs, residLast := rl,
              be := b })
      (p' := { degrees := fillDegrees u nex locked d, ritzv := rv, resid := rs, residLast := rl,
               be := b' })
      ⟨rfl, rfl, rfl, rfl, hb⟩
    exact RelE.ok ⟨congrFun this.degrees _, this⟩

theorem lockLoop_sim (hs : Sim ops ops' r) (tol : R) (index : ℕ → ℕ) (locked n k : ℕ)
    {p : LockSt R S} {p' : LockSt R S'} (h : LockSt.Rel r p p') :
    LockSt.Rel r (lockLoop ops tol index locked n k p) (lockLoop ops' tol index locked n k p') := by
  induction n generalizing k p p' with
  | zero => exact h
  | succ n ih =>
    unfold lockLoop
    dsimp only
    rw [h.resid, h.residLast]
    split_ifs
    · exact h
    · refine ih (k + 1) ?_
      unfold LockSt.exchange
      rw [h.converged]
      split_ifs
      · exact ⟨by simp only [h.ritzv], by simp only [h.resid], by simp only [h.residLast],
          by simp only [h.converged], hs.swap _ _ _ _ h.be⟩
      · exact ⟨h.ritzv, h.resid, h.residLast, by simp only [h.converged], h.be⟩

theorem filterStep_sim (hs : Sim ops ops' r) (degrees : ℕ → ℕ) (dsize n : ℕ) (e sigma1 : R)
    {p : FilterSt R S} {p' : FilterSt R S'} (h : FilterSt.Rel r p p') :
    RelE (FilterSt.Rel r) (filterStep ops degrees dsize n e sigma1 p)
      (filterStep ops' degrees dsize n e sigma1 p') := by
  unfold filterStep
  split_ifs
  · exact RelE.error _
  dsimp only
  rw [h.numMult, h.p, h.unprocessed, h.offset, h.sigma]
  split
  · exact RelE.error _
  · exact RelE.ok ⟨rfl, rfl, rfl, rfl, by simp only [h.av], rfl, hs.hemm _ _ _ _ _ _ h.be⟩

theorem filter_sim (hs : Sim ops ops' r) (n unprocessed deg : ℕ) (degrees : ℕ → ℕ)
    (dsize p0 : ℕ) (lambda1 lower upper : R) {be : S} {be' : S'} (h : r be be') :
    RelE (fun a b => a.1 = b.1 ∧ r a.2 b.2)
      (filter ops n unprocessed deg degrees dsize p0 lambda1 lower upper be)
      (filter ops' n unprocessed deg degrees dsize p0 lambda1 lower upper be') := by
  unfold filter
  split_ifs
  · exact RelE.error _
  dsimp only
  split
  · exact RelE.error _
  · rename_i p u off _
    have := forRangeM_rel (lo := 2) (hi := deg + 1) (FilterSt.Rel r)
      (fun _ st => filterStep ops degrees dsize n ((upper - lower) / 2)
        ((upper - lower) / 2 / (lambda1 - (upper + lower) / 2)) st)
      (fun _ st => filterStep ops' degrees dsize n ((upper - lower) / 2)
        ((upper - lower) / 2 / (lambda1 - (upper + lower) / 2)) st)
      (fun i s s' _ _ hh => filterStep_sim hs degrees dsize n _ _ hh)
      (s := { p, unprocessed := u, offset := off, numMult := 1, av := unprocessed,
              sigma := (upper - lower) / 2 / (lambda1 - (upper + lower) / 2),
              be := ops.hemm unprocessed ((upper - lower) / 2 / (lambda1 - (upper + lower) / 2) /
                ((upper - lower) / 2)) 0 (0 / n) (ops.shift (-((upper + lower) / 2)) false be) })
      (s' := { p, unprocessed := u, offset := off, numMult := 1, av := unprocessed,
               sigma := (upper - lower) / 2 / (lambda1 - (upper + lower) / 2),
               be := ops'.hemm unprocessed ((upper - lower) / 2 / (lambda1 - (upper + lower) / 2) /
                ((upper - lower) / 2)) 0 (0 / n) (ops'.shift (-((upper + lower) / 2)) false be') })
      ⟨rfl, rfl, rfl, rfl, rfl, rfl, hs.hemm _ _ _ _ _ _ (hs.shift _ _ _ _ h)⟩
    generalize forRangeM 2 (deg + 1) (fun _ st => filterStep ops degrees dsize n
      ((upper - lower) / 2) ((upper - lower) / 2 / (lambda1 - (upper + lower) / 2)) st) _ = x at this ⊢
    generalize forRangeM 2 (deg + 1) (fun _ st => filterStep ops' degrees dsize n
      ((upper - lower) / 2) ((upper - lower) / 2 / (lambda1 - (upper + lower) / 2)) st) _ = y at this ⊢
    cases this with
    | error e => exact RelE.error e
    | ok hh => exact RelE.ok ⟨hh.av, hs.shift _ _ _ _ hh.be⟩

theorem intersperse_sim (hs : Sim ops ops' r) (idx nevex : ℕ) (ritzv : ℕ → R) {be : S} {be' : S'}
    (h : r be be') :
    RelE (fun a b => a.1 = b.1 ∧ r a.2 b.2) (intersperse ops idx nevex ritzv be)
      (intersperse ops' idx nevex ritzv be') := by
  refine forRangeM_rel (S := (ℕ → R) × S) (S' := (ℕ → R) × S')
    (fun a b => a.1 = b.1 ∧ r a.2 b.2) _ _ ?_ ⟨rfl, h⟩
  rintro i s s' _ _ ⟨h1, h2⟩
  dsimp only
  split_ifs
  · exact RelE.ok ⟨by simp only [h1], hs.swap _ _ _ _ h2⟩
  · exact RelE.error _

theorem lanczos_sim (hs : Sim ops ops' r) (P : Plat R) (N numvec m nevex : ℕ) (random : Bool)
    (ritzv : ℕ → R) {be : S} {be' : S'} (h : r be be') :
    RelE (LanczosRes.Rel r) (lanczos P ops N numvec m nevex random ritzv be)
      (lanczos P ops' N numvec m nevex random ritzv be') := by
  unfold lanczos
  split_ifs
  · exact RelE.error _
  · exact RelE.ok ⟨(hs.lanczos1 _ _ _ h).1, rfl, rfl, (hs.lanczos1 _ _ _ h).2⟩
  have hg := hs.lanczosN m numvec _ _ h
  generalize ops.lanczosN m numvec be = x at hg ⊢
  generalize ops'.lanczosN m numvec be' = y at hg ⊢
  obtain ⟨o, be1⟩ := x
  obtain ⟨o', be1'⟩ := y
  obtain ⟨g1, g2⟩ := hg
  dsimp only at g1 g2
  subst g1
  dsimp only
  split_ifs
  · exact RelE.error _
  split
  · exact RelE.error _
  · split
    · exact RelE.error _
    · rename_i lowerb _ _ idx _
      have hd : r (if idx > 0 then ops.lanczosDos idx m o.ritzV be1 else be1)
          (if idx > 0 then ops'.lanczosDos idx m o.ritzV be1' else be1') := by
        split_ifs
        · exact hs.lanczosDos _ _ _ _ _ g2
        · exact g2
      by_cases hn : nevex = 0 ∨ nevex < idx
      · rw [if_pos hn, if_pos hn]; exact RelE.error _
      · rw [if_neg hn, if_neg hn]
        have := intersperse_sim hs idx nevex (dosValues o.theta ((numvec - 1) * m) idx nevex
          (o.theta (P.sortIdx (numvec * m) o.theta 0)) lowerb ritzv) hd
        generalize intersperse ops idx nevex _ _ = x at this ⊢
        generalize intersperse ops' idx nevex _ _ = y at this ⊢
        cases this with
        | error e => exact RelE.error e
        | ok hh => exact RelE.ok ⟨rfl, hh.1, rfl, hh.2⟩

theorem updateBounds_sim (nevex : ℕ) {p : St R S} {p' : St R S'} (h : St.Rel r p p') :
    St.Rel r (updateBounds nevex p) (updateBounds nevex p') := by
  obtain ⟨a1, a2, a3, a4, a5, a6, a7, a8, a9, a10, a11, b⟩ := p
  obtain ⟨b1, b2, b3, b4, b5, b6, b7, b8, b9, b10, b11, b'⟩ := p'
  obtain ⟨h1, h2, h3, h4, h5, h6, h7, h8, h9, h10, h11, hb⟩ := h
  dsimp only at h1 h2 h3 h4 h5 h6 h7 h8 h9 h10 h11 hb
  subst h1 h2 h3 h4 h5 h6 h7 h8 h9 h10 h11
  exact ⟨rfl, rfl, rfl, rfl, rfl, rfl, rfl, rfl, rfl, rfl, rfl, hb⟩

theorem optimise_sim (hs : Sim ops ops' r) (P : Plat R) (cfg : Config R) {p : St R S}
    {p' : St R S'} (h : St.Rel r p p') :
    RelE (St.Rel r) (optimise P ops cfg p) (optimise P ops' cfg p') := by
  obtain ⟨a1, a2, a3, a4, a5, a6, a7, a8, a9, a10, a11, b⟩ := p
  obtain ⟨b1, b2, b3, b4, b5, b6, b7, b8, b9, b10, b11, b'⟩ := p'
  obtain ⟨h1, h2, h3, h4, h5, h6, h7, h8, h9, h10, h11, hb⟩ := h
  dsimp only at h1 h2 h3 h4 h5 h6 h7 h8 h9 h10 h11 hb
  subst h1 h2 h3 h4 h5 h6 h7 h8 h9 h10 h11
  unfold optimise
  dsimp only
  split_ifs
  · have := calcDegrees_sim hs P cfg a10 cfg.nex a7 a6 cfg.tol a9
      (p := { degrees := a4, ritzv := a1, resid := a2, residLast := a3, be := b })
      (p' := { degrees := a4, ritzv := a1, resid := a2, residLast := a3, be := b' })
      ⟨rfl, rfl, rfl, rfl, hb⟩
    generalize calcDegrees P ops cfg _ _ _ _ _ _ _ = x at this ⊢
    generalize calcDegrees P ops' cfg _ _ _ _ _ _ _ = y at this ⊢
    cases this with
    | error e => exact RelE.error e
    | ok hh =>
      exact RelE.ok ⟨hh.2.ritzv, hh.2.resid, hh.2.residLast, hh.2.degrees, hh.1, rfl, rfl,
        rfl, rfl, rfl, rfl, hh.2.be⟩
  · exact RelE.ok ⟨rfl, rfl, rfl, rfl, rfl, rfl, rfl, rfl, rfl, rfl, rfl, hb⟩

theorem project_sim (hs : Sim ops ops' r) (P : Plat R) (cfg : Config R) {p : St R S}
    {p' : St R S'} (h : St.Rel r p p') :
    St.Rel r (project P ops cfg p) (project P ops' cfg p') := by
  obtain ⟨a1, a2, a3, a4, a5, a6, a7, a8, a9, a10, a11, b⟩ := p
  obtain ⟨b1, b2, b3, b4, b5, b6, b7, b8, b9, b10, b11, b'⟩ := p'
  obtain ⟨h1, h2, h3, h4, h5, h6, h7, h8, h9, h10, h11, hb⟩ := h
  dsimp only at h1 h2 h3 h4 h5 h6 h7 h8 h9 h10 h11 hb
  subst h1 h2 h3 h4 h5 h6 h7 h8 h9 h10 h11
  unfold project
  dsimp only
  have hq := hs.qr a9 (P.condEst a7 a6 (a1 0) (a1 a9)
    (a4 a9) (maxElem a4 a9 (cfg.nev + cfg.nex - a9))) _ _ hb
  obtain ⟨hr1, hr2⟩ := hs.rr a10 _ _ hq
  rw [hr1]
  obtain ⟨hd1, hd2⟩ := hs.resd (fun i => writeAt a1 a9 a10
    (ops'.rr a10 (ops'.qr a9 (P.condEst a7 a6 (a1 0) (a1 a9) (a4 a9)
    (maxElem a4 a9 (cfg.nev + cfg.nex - a9))) b')).1 (a9 + i)) a9 _ _ hr2
  rw [hd1]
  exact ⟨rfl, rfl, rfl, rfl, rfl, rfl, rfl, rfl, rfl, rfl, rfl, hd2⟩

theorem lockStep_sim (hs : Sim ops ops' r) (P : Plat R) (cfg : Config R) {p : St R S}
    {p' : St R S'} (h : St.Rel r p p') :
    St.Rel r (lockStep P ops cfg p) (lockStep P ops' cfg p') := by
  obtain ⟨a1, a2, a3, a4, a5, a6, a7, a8, a9, a10, a11, b⟩ := p
  obtain ⟨b1, b2, b3, b4, b5, b6, b7, b8, b9, b10, b11, b'⟩ := p'
  obtain ⟨h1, h2, h3, h4, h5, h6, h7, h8, h9, h10, h11, hb⟩ := h
  dsimp only at h1 h2 h3 h4 h5 h6 h7 h8 h9 h10 h11 hb
  subst h1 h2 h3 h4 h5 h6 h7 h8 h9 h10 h11
  unfold lockStep locking
  dsimp only
  have := lockLoop_sim hs cfg.tol (P.sortIdx (a10 - cfg.nex)
    (fun i => a1 (a9 + i))) a9 (a10 - cfg.nex) 0
    (p := { ritzv := a1, resid := a2, residLast := a3, be := b, converged := 0 })
    (p' := { ritzv := a1, resid := a2, residLast := a3, be := b', converged := 0 })
    ⟨rfl, rfl, rfl, rfl, hb⟩
  refine ⟨this.ritzv, this.resid, this.residLast, rfl, rfl, rfl, rfl, rfl, ?_, ?_, rfl, ?_⟩
  · dsimp only; rw [this.converged]
  · dsimp only; rw [this.converged]
  · dsimp only; rw [this.converged]; exact hs.lock _ _ _ this.be

theorem iter_sim (hs : Sim ops ops' r) (P : Plat R) (cfg : Config R) {p : St R S}
    {p' : St R S'} (h : St.Rel r p p') :
    RelE (St.Rel r) (iter P ops cfg p) (iter P ops' cfg p') := by
  unfold iter
  have h1 := optimise_sim hs P cfg (updateBounds_sim (cfg.nev + cfg.nex) h)
  generalize optimise P ops cfg _ = x at h1 ⊢
  generalize optimise P ops' cfg _ = y at h1 ⊢
  cases h1 with
  | error e => exact RelE.error e
  | @ok q q' hq =>
    obtain ⟨a1, a2, a3, a4, a5, a6, a7, a8, a9, a10, a11, b⟩ := q
    obtain ⟨b1, b2, b3, b4, b5, b6, b7, b8, b9, b10, b11, b'⟩ := q'
    obtain ⟨h1, h2, h3, h4, h5, h6, h7, h8, h9, h10, h11, hb⟩ := hq
    dsimp only at h1 h2 h3 h4 h5 h6 h7 h8 h9 h10 h11 hb
    subst h1 h2 h3 h4 h5 h6 h7 h8 h9 h10 h11
    dsimp only
    have h2 := filter_sim hs cfg.N a10 a5 a4 (cfg.nev + cfg.nex) a9 a8 a6 a7 hb
    generalize filter ops cfg.N _ _ _ _ _ _ _ _ _ = x at h2 ⊢
    generalize filter ops' cfg.N _ _ _ _ _ _ _ _ _ = y at h2 ⊢
    cases h2 with
    | error e => exact RelE.error e
    | ok hf =>
      refine RelE.ok (lockStep_sim hs P cfg (project_sim hs P cfg ?_))
      exact ⟨rfl, rfl, rfl, rfl, rfl, rfl, rfl, rfl, rfl, rfl, rfl, hf.2⟩

theorem solveLoop_sim (hs : Sim ops ops' r) (P : Plat R) (cfg : Config R) {p : St R S}
    {p' : St R S'} (h : St.Rel r p p') :
    RelE (St.Rel r) (solveLoop P ops cfg p) (solveLoop P ops' cfg p') := by
  induction hn : cfg.maxIter - p.iteration using Nat.strong_induction_on generalizing p p' with
  | _ n ih =>
    subst hn
    have e1 : running cfg p ↔ running cfg p' := by
      unfold running; rw [h.unconverged, h.iteration]
    by_cases hr : running cfg p
    · have hit := iter_sim hs P cfg h
      cases hx : iter P ops cfg p with
      | error e =>
        rw [hx] at hit
        cases hy : iter P ops' cfg p' with
        | error e' =>
          rw [hy] at hit
          unfold solveLoop
          rw [dif_pos hr, dif_pos (e1.mp hr)]
          split
          · rename_i e1 h1
            split
            · rename_i e2 h2
              rw [hx] at h1; rw [hy] at h2
              cases h1; cases h2; cases hit
              exact RelE.error _
            · rename_i s h2; rw [hy] at h2; cases h2
          · rename_i s h1; rw [hx] at h1; cases h1
        | ok s => rw [hy] at hit; cases hit
      | ok q =>
        rw [hx] at hit
        cases hy : iter P ops' cfg p' with
        | error e' => rw [hy] at hit; cases hit
        | ok q' =>
          rw [hy] at hit
          cases hit with
          | ok hq =>
            have := ih (cfg.maxIter - q.iteration)
              (by have := iter_iteration P ops cfg p q hx; have := hr.2; omega) hq rfl
            unfold solveLoop
            rw [dif_pos hr, dif_pos (e1.mp hr)]
            split
            · rename_i e1 h1; rw [hx] at h1; cases h1
            · rename_i s h1
              rw [hx] at h1; cases h1
              split
              · rename_i e2 h2; rw [hy] at h2; cases h2
              · rename_i s h2
                rw [hy] at h2; cases h2
                exact this
    · unfold solveLoop
      rw [dif_neg hr, dif_neg (fun hc => hr (e1.mpr hc))]
      exact RelE.ok h

theorem finalSort_sim (hs : Sim ops ops' r) (nev : ℕ) (ritzv : ℕ → R) {be : S} {be' : S'}
    (h : r be be') :
    (finalSort ops nev ritzv be).1 = (finalSort ops' nev ritzv be').1 ∧
    r (finalSort ops nev ritzv be).2 (finalSort ops' nev ritzv be').2 := by
  unfold finalSort
  refine forRange_rel (S := (ℕ → R) × S) (S' := (ℕ → R) × S')
    (fun a b => a.1 = b.1 ∧ r a.2 b.2) _ _ ?_ ⟨rfl, h⟩
  intro i s s' _ _ hh
  refine forRange_rel (S := (ℕ → R) × S) (S' := (ℕ → R) × S')
    (fun a b => a.1 = b.1 ∧ r a.2 b.2) _ _ ?_ hh
  rintro j s s' _ _ ⟨h1, h2⟩
  rw [h1]
  split_ifs
  · exact ⟨rfl, hs.swap _ _ _ _ h2⟩
  · exact ⟨h1, h2⟩

theorem initState_sim (hs : Sim ops ops' r) (P : Plat R) (cfg : Config R) (ritzv0 resid0 : ℕ → R)
    {be : S} {be' : S'} (h : r be be') :
    RelE (St.Rel r) (initState P ops cfg ritzv0 resid0 be)
      (initState P ops' cfg ritzv0 resid0 be') := by
  unfold initState
  dsimp only
  have hb : r (if (!cfg.approx) = true then ops.qr 0 1 (ops.initVecs (!cfg.approx) (ops.start be))
      else ops.initVecs (!cfg.approx) (ops.start be))
      (if (!cfg.approx) = true then ops'.qr 0 1 (ops'.initVecs (!cfg.approx) (ops'.start be'))
      else ops'.initVecs (!cfg.approx) (ops'.start be')) := by
    split_ifs
    · exact hs.qr _ _ _ _ (hs.initVecs _ _ _ (hs.start _ _ h))
    · exact hs.initVecs _ _ _ (hs.start _ _ h)
  have := lanczos_sim hs P cfg.N cfg.numLanczos
    (min (cfg.nev + cfg.nex) (min (cfg.N / 2) cfg.lanczosIter)) (cfg.nev + cfg.nex) (!cfg.approx)
    ritzv0 hb
  generalize lanczos P ops _ _ _ _ _ _ _ = x at this ⊢
  generalize lanczos P ops' _ _ _ _ _ _ _ = y at this ⊢
  cases this with
  | error e => exact RelE.error e
  | ok hl =>
    dsimp only
    split_ifs
    · exact RelE.error _
    · rw [hl.ritzv, hl.upperb]
      exact RelE.ok ⟨rfl, rfl, rfl, rfl, rfl, rfl, rfl, rfl, rfl, rfl, rfl, hl.be⟩

/-- Two backends that answer alike: `solve` returns the same values, residuals, iteration count and
locked count (or the same error), and related backends. -/
theorem solve_sim (hs : Sim ops ops' r) (P : Plat R) (cfg : Config R) (ritzv0 resid0 : ℕ → R)
    {be : S} {be' : S'} (h : r be be') :
    RelE (Outcome.Rel r) (solve P ops cfg ritzv0 resid0 be)
      (solve P ops' cfg ritzv0 resid0 be') := by
  unfold solve
  have hb : (if cfg.symCheck = true then ops.checkSymmetryEasy be else (true, be)).1 =
      (if cfg.symCheck = true then ops'.checkSymmetryEasy be' else (true, be')).1 ∧
      r (if cfg.symCheck = true then ops.checkSymmetryEasy be else (true, be)).2
      (if cfg.symCheck = true then ops'.checkSymmetryEasy be' else (true, be')).2 := by
    split_ifs
    · exact hs.checkSymmetryEasy _ _ h
    · exact ⟨rfl, h⟩
  generalize (if cfg.symCheck = true then ops.checkSymmetryEasy be else (true, be)) = x at hb ⊢
  generalize (if cfg.symCheck = true then ops'.checkSymmetryEasy be' else (true, be')) = y at hb ⊢
  obtain ⟨b1, s1⟩ := x
  obtain ⟨b2, s2⟩ := y
  obtain ⟨h1, h2⟩ := hb
  dsimp only at h1 h2 ⊢
  subst h1
  by_cases hb1 : b1 = false
  · rw [if_pos hb1, if_pos hb1]
    exact RelE.ok ⟨rfl, rfl, rfl, rfl, h2⟩
  · rw [if_neg hb1, if_neg hb1]
    have h3 := initState_sim hs P cfg ritzv0 resid0 h2
    generalize initState P ops cfg ritzv0 resid0 s1 = x at h3 ⊢
    generalize initState P ops' cfg ritzv0 resid0 s2 = y at h3 ⊢
    cases h3 with
    | error e => exact RelE.error e
    | @ok q q' hq =>
      dsimp only
      have h4 := solveLoop_sim hs P cfg hq
      generalize solveLoop P ops cfg q = x at h4 ⊢
      generalize solveLoop P ops' cfg q' = y at h4 ⊢
      cases h4 with
      | error e => exact RelE.error e
      | @ok z z' hz =>
        dsimp only
        split_ifs
        · exact RelE.error _
        · have := finalSort_sim hs cfg.nev z'.ritzv hz.be
          rw [hz.ritzv]
          exact RelE.ok ⟨this.1, hz.resid, hz.iteration, hz.locked, hs.finish _ _ this.2⟩

end
end Verif
