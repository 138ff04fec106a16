/-
Watching the QR calls of a run: a run in which no QR call happens in a "bad" situation is also a run of
every backend whose QR agrees outside the bad situations.
-/
import Verif.Solver.Sim

set_option linter.unusedSectionVars false

namespace Verif

variable {R S : Type*}

/-- The backend `ops`, with a mark that is set by the first QR call in a situation described by `bad`
(arguments of the call and state of the backend) and never removed. -/
def watch (bad : ℕ → R → S → Prop) (ops : Chase R S) : Chase R (S × Prop) where
  checkSymmetryEasy := fun s => ((ops.checkSymmetryEasy s.1).1, ((ops.checkSymmetryEasy s.1).2, s.2))
  start := fun s => (ops.start s.1, s.2)
  finish := fun s => (ops.finish s.1, s.2)
  initVecs := fun b s => (ops.initVecs b s.1, s.2)
  qr := fun k c s => (ops.qr k c s.1, s.2 ∨ bad k c s.1)
  lanczos1 := fun m s => ((ops.lanczos1 m s.1).1, ((ops.lanczos1 m s.1).2, s.2))
  lanczosN := fun m k s => ((ops.lanczosN m k s.1).1, ((ops.lanczosN m k s.1).2, s.2))
  lanczosDos := fun i m z s => (ops.lanczosDos i m z s.1, s.2)
  shift := fun c b s => (ops.shift c b s.1, s.2)
  hemm := fun n a b o s => (ops.hemm n a b o s.1, s.2)
  rr := fun b s => ((ops.rr b s.1).1, ((ops.rr b s.1).2, s.2))
  resd := fun f k s => ((ops.resd f k s.1).1, ((ops.resd f k s.1).2, s.2))
  lock := fun k s => (ops.lock k s.1, s.2)
  swap := fun i j s => (ops.swap i j s.1, s.2)

/-- `ops` with another QR. -/
def Chase.withQr (ops : Chase R S) (q : ℕ → R → S → S) : Chase R S := { ops with qr := q }

/-- Watching does not influence the run. -/
theorem watch_sim (bad : ℕ → R → S → Prop) (ops : Chase R S) :
    Sim (watch bad ops) ops (fun p s => p.1 = s) := by
  constructor <;> intros <;> subst_vars <;> simp [watch]

/-- The mark is never removed. -/
theorem watch_mark (bad : ℕ → R → S → Prop) (ops : Chase R S) :
    Sim (watch bad ops) (watch bad ops) (fun p p' => p = p' ∧ p.2) := by
  constructor <;> intros <;> rename_i h <;> obtain ⟨rfl, h⟩ := h <;> simp [watch, h]

section
variable [Add R] [Sub R] [Mul R] [Div R] [Neg R] [Zero R] [One R] [NatCast R] [LT R] [DecidableLT R] {bad : ℕ → R → S → Prop} {ops : Chase R S} {q : ℕ → R → S → S}

theorem RelE.self_ok {ε α : Type*} {r : α → α → Prop} {x : Except ε α} (h : RelE r x x) {a : α}
    (e : x = .ok a) : r a a := by
  subst e
  cases h with
  | ok h => exact h

/-- Without a mark at the end there was none at the start. -/
theorem watch_init {P : Plat R} {cfg : Config R} {r0 s0 : ℕ → R} {be : S × Prop}
    {st : St R (S × Prop)} (h : initState P (watch bad ops) cfg r0 s0 be = .ok st) (hn : ¬ st.be.2) :
    ¬ be.2 := fun hb =>
  hn ((RelE.self_ok (initState_sim (watch_mark bad ops) P cfg r0 s0 (be := be) (be' := be) ⟨rfl, hb⟩)
    h).be.2)

theorem St.Rel.refl_of {r : S → S → Prop} {p : St R S} (h : r p.be p.be) : St.Rel r p p :=
  ⟨rfl, rfl, rfl, rfl, rfl, rfl, rfl, rfl, rfl, rfl, rfl, h⟩

theorem lockStep_withQr (P : Plat R) (ops : Chase R S) (q : ℕ → R → S → S) (cfg : Config R)
    (st : St R S) : lockStep P (ops.withQr q) cfg st = lockStep P ops cfg st := by
  have e : ∀ (tol : R) (index : ℕ → ℕ) (locked n k : ℕ) (p : LockSt R S),
      lockLoop (ops.withQr q) tol index locked n k p = lockLoop ops tol index locked n k p := by
    intro tol index locked n
    induction n with
    | zero => intro k p; rfl
    | succ n ih => intro k p; unfold lockLoop; simp only [ih]; rfl
  unfold lockStep locking
  simp only [e]
  rfl

theorem filter_withQr (ops : Chase R S) (q : ℕ → R → S → S) (n u deg : ℕ) (degrees : ℕ → ℕ)
    (dsize p0 : ℕ) (l a b : R) (be : S) :
    filter (ops.withQr q) n u deg degrees dsize p0 l a b be =
      filter ops n u deg degrees dsize p0 l a b be := rfl

theorem optimise_withQr (P : Plat R) (ops : Chase R S) (q : ℕ → R → S → S) (cfg : Config R)
    (st : St R S) : optimise P (ops.withQr q) cfg st = optimise P ops cfg st := rfl

theorem lanczos_withQr (P : Plat R) (ops : Chase R S) (q : ℕ → R → S → S) (N numvec m nevex : ℕ)
    (random : Bool) (ritzv : ℕ → R) (be : S) :
    lanczos P (ops.withQr q) N numvec m nevex random ritzv be =
      lanczos P ops N numvec m nevex random ritzv be := rfl

theorem finalSort_withQr (ops : Chase R S) (q : ℕ → R → S → S) (nev : ℕ) (ritzv : ℕ → R) (be : S) :
    finalSort (ops.withQr q) nev ritzv be = finalSort ops nev ritzv be := rfl

/-- The QR of the watched backend with `q` for QR. -/
def watchQr (bad : ℕ → R → S → Prop) (q : ℕ → R → S → S) : ℕ → R → S × Prop → S × Prop :=
  fun k c s => (q k c s.1, s.2 ∨ bad k c s.1)

theorem watch_withQr (bad : ℕ → R → S → Prop) (ops : Chase R S) (q : ℕ → R → S → S) :
    watch bad (ops.withQr q) = (watch bad ops).withQr (watchQr bad q) := rfl

theorem iter_watch (hq : ∀ k c s, ¬ bad k c s → q k c s = ops.qr k c s) {P : Plat R} {cfg : Config R}
    {st st' : St R (S × Prop)} (h : iter P (watch bad ops) cfg st = .ok st') (hn : ¬ st'.be.2) :
    iter P (watch bad (ops.withQr q)) cfg st = .ok st' ∧ ¬ st.be.2 := by
  refine ⟨?_, fun hb => hn ((RelE.self_ok (iter_sim (watch_mark bad ops) P cfg (p := st) (p' := st)
    (St.Rel.refl_of ⟨rfl, hb⟩)) h).be.2)⟩
  rw [watch_withQr]
  unfold iter at h ⊢
  rw [optimise_withQr]
  cases ho : optimise P (watch bad ops) cfg (updateBounds (cfg.nev + cfg.nex) st) with
  | error e => rw [ho] at h; cases h
  | ok s1 =>
    rw [ho] at h
    dsimp only at h ⊢
    rw [filter_withQr]
    cases hf : filter (watch bad ops) cfg.N s1.unconverged s1.deg s1.degrees (cfg.nev + cfg.nex)
      s1.locked s1.lambda s1.lowerb s1.upperb s1.be with
    | error e => rw [hf] at h; cases h
    | ok w =>
      obtain ⟨av, be⟩ := w
      rw [hf] at h
      dsimp only at h ⊢
      rw [lockStep_withQr]
      injection h with h
      rw [← h]
      have hm := fun (hb : (project P (watch bad ops) cfg { s1 with be := be }).be.2) =>
        hn (h ▸ (lockStep_sim (watch_mark bad ops) P cfg (p := project P (watch bad ops) cfg
          { s1 with be := be }) (p' := project P (watch bad ops) cfg { s1 with be := be })
          (St.Rel.refl_of ⟨rfl, hb⟩)).be.2)
      congr 2
      have hnb : ¬ (be.2 ∨ bad s1.locked (P.condEst s1.upperb s1.lowerb (s1.ritzv 0)
          (s1.ritzv s1.locked) (s1.degrees s1.locked)
          (maxElem s1.degrees s1.locked (cfg.nev + cfg.nex - s1.locked))) be.1) := hm
      push Not at hnb
      unfold project
      dsimp only
      have e : ((watch bad ops).withQr (watchQr bad q)).qr s1.locked (P.condEst s1.upperb s1.lowerb
          (s1.ritzv 0) (s1.ritzv s1.locked) (s1.degrees s1.locked)
          (maxElem s1.degrees s1.locked (cfg.nev + cfg.nex - s1.locked))) be =
          (watch bad ops).qr s1.locked (P.condEst s1.upperb s1.lowerb
          (s1.ritzv 0) (s1.ritzv s1.locked) (s1.degrees s1.locked)
          (maxElem s1.degrees s1.locked (cfg.nev + cfg.nex - s1.locked))) be := by
        show (q _ _ _, _) = (ops.qr _ _ _, _)
        rw [hq _ _ _ hnb.2]
      rw [e]
      rfl

theorem solveLoop_watch (hq : ∀ k c s, ¬ bad k c s → q k c s = ops.qr k c s) {P : Plat R}
    {cfg : Config R} {st st' : St R (S × Prop)}
    (h : solveLoop P (watch bad ops) cfg st = .ok st') (hn : ¬ st'.be.2) :
    solveLoop P (watch bad (ops.withQr q)) cfg st = .ok st' ∧ ¬ st.be.2 := by
  refine ⟨?_, fun hb => hn ((RelE.self_ok (solveLoop_sim (watch_mark bad ops) P cfg (p := st)
    (p' := st) (St.Rel.refl_of ⟨rfl, hb⟩)) h).be.2)⟩
  induction hm : cfg.maxIter - st.iteration using Nat.strong_induction_on generalizing st with
  | _ n ih =>
    subst hm
    by_cases hr : running cfg st
    · cases hx : iter P (watch bad ops) cfg st with
      | error e =>
        exfalso
        unfold solveLoop at h
        rw [dif_pos hr] at h
        split at h
        · cases h
        · rename_i s h1; rw [hx] at h1; cases h1
      | ok s1 =>
        have h' : solveLoop P (watch bad ops) cfg s1 = .ok st' := by
          unfold solveLoop at h
          rw [dif_pos hr] at h
          split at h
          · cases h
          · rename_i s h1; rw [hx] at h1; cases h1; exact h
        have hn1 : ¬ s1.be.2 := fun hb => hn ((RelE.self_ok (solveLoop_sim (watch_mark bad ops) P cfg
          (p := s1) (p' := s1) (St.Rel.refl_of ⟨rfl, hb⟩)) h').be.2)
        have h2 := (iter_watch (q := q) hq hx hn1).1
        have h3 := ih _ (by have := iter_iteration P _ cfg st s1 hx; have := hr.2; omega) h' rfl
        unfold solveLoop
        rw [dif_pos hr]
        split
        · rename_i e h4; rw [h2] at h4; cases h4
        · rename_i s h4; rw [h2] at h4; cases h4; exact h3
    · unfold solveLoop at h ⊢
      rw [dif_neg hr] at h ⊢
      exact h

theorem initState_watch (hq : ∀ k c s, ¬ bad k c s → q k c s = ops.qr k c s) {P : Plat R}
    {cfg : Config R} {r0 s0 : ℕ → R} {be : S × Prop} {st : St R (S × Prop)}
    (h : initState P (watch bad ops) cfg r0 s0 be = .ok st) (hn : ¬ st.be.2) :
    initState P (watch bad (ops.withQr q)) cfg r0 s0 be = .ok st := by
  rw [watch_withQr]
  unfold initState at h ⊢
  dsimp only at h ⊢
  rw [lanczos_withQr]
  by_cases ha : (!cfg.approx) = true
  · rw [if_pos ha] at h ⊢
    by_cases hb : bad 0 1 (ops.initVecs (!cfg.approx) (ops.start be.1))
    · exfalso
      cases hl : lanczos P (watch bad ops) cfg.N cfg.numLanczos
          (min (cfg.nev + cfg.nex) (min (cfg.N / 2) cfg.lanczosIter)) (cfg.nev + cfg.nex) (!cfg.approx)
          r0 ((watch bad ops).qr 0 1 ((watch bad ops).initVecs (!cfg.approx)
            ((watch bad ops).start be))) with
      | error e => rw [hl] at h; cases h
      | ok l =>
        have := (RelE.self_ok (lanczos_sim (watch_mark bad ops) P cfg.N cfg.numLanczos
          (min (cfg.nev + cfg.nex) (min (cfg.N / 2) cfg.lanczosIter)) (cfg.nev + cfg.nex) (!cfg.approx)
          r0 (be := (watch bad ops).qr 0 1 ((watch bad ops).initVecs (!cfg.approx)
            ((watch bad ops).start be))) (be' := (watch bad ops).qr 0 1 ((watch bad ops).initVecs
            (!cfg.approx) ((watch bad ops).start be))) ⟨rfl, Or.inr hb⟩) hl).be.2
        rw [hl] at h
        dsimp only at h
        split_ifs at h
        injection h with h
        rw [← h] at hn
        exact hn this
    · have e : ((watch bad ops).withQr (watchQr bad q)).qr 0 1 ((watch bad ops).initVecs (!cfg.approx)
            ((watch bad ops).start be)) = (watch bad ops).qr 0 1 ((watch bad ops).initVecs (!cfg.approx)
            ((watch bad ops).start be)) := by
        exact Prod.ext (hq _ _ _ hb) rfl
      have e' : ((watch bad ops).withQr (watchQr bad q)).qr 0 1
          (((watch bad ops).withQr (watchQr bad q)).initVecs (!cfg.approx)
            (((watch bad ops).withQr (watchQr bad q)).start be)) = _ := e
      rw [e']
      exact h
  · rw [if_neg ha] at h ⊢
    exact h

/-- A run without a bad QR call is a run of every backend that agrees outside the bad situations. -/
theorem solve_watch (hq : ∀ k c s, ¬ bad k c s → q k c s = ops.qr k c s) {P : Plat R}
    {cfg : Config R} {r0 s0 : ℕ → R} {be : S × Prop} {o : Outcome R (S × Prop)}
    (h : solve P (watch bad ops) cfg r0 s0 be = .ok o) (hn : ¬ o.be.2) :
    solve P (watch bad (ops.withQr q)) cfg r0 s0 be = .ok o := by
  unfold solve at h ⊢
  have e : ((watch bad (ops.withQr q)).checkSymmetryEasy be) = (watch bad ops).checkSymmetryEasy be := rfl
  rw [e]
  generalize (if cfg.symCheck = true then (watch bad ops).checkSymmetryEasy be else (true, be)) = x at h ⊢
  obtain ⟨b, s⟩ := x
  dsimp only at h ⊢
  by_cases hb : b = false
  · rw [if_pos hb] at h ⊢; exact h
  · rw [if_neg hb] at h ⊢
    cases hi : initState P (watch bad ops) cfg r0 s0 s with
    | error e => rw [hi] at h; cases h
    | ok s1 =>
      rw [hi] at h
      dsimp only at h
      cases hl : solveLoop P (watch bad ops) cfg s1 with
      | error e => rw [hl] at h; cases h
      | ok s2 =>
        rw [hl] at h
        dsimp only at h
        have hv : cfg.nev ≠ 0 := by intro hc; rw [if_pos hc] at h; cases h
        have h0 := h
        rw [if_neg hv] at h
        injection h with h
        have hn2 : ¬ s2.be.2 := fun hb => hn (by
          rw [← h]
          exact (finalSort_sim (watch_mark bad ops) cfg.nev s2.ritzv (be := s2.be) (be' := s2.be)
            ⟨rfl, hb⟩).2.2)
        obtain ⟨h3, h4⟩ := solveLoop_watch (q := q) hq hl hn2
        rw [initState_watch (q := q) hq hi h4]
        dsimp only
        rw [h3]
        exact h0

/-- The run from `be` makes no QR call in a situation described by `bad`. -/
def QrAvoids (P : Plat R) (ops : Chase R S) (cfg : Config R) (r0 s0 : ℕ → R) (be : S)
    (bad : ℕ → R → S → Prop) : Prop :=
  ∀ o, solve P (watch bad ops) cfg r0 s0 (be, False) = .ok o → ¬ o.be.2

/-- A run that avoids the bad situations is also a run with any QR that agrees outside of them. -/
theorem solve_withQr {P : Plat R} {cfg : Config R} {r0 s0 : ℕ → R} {be : S} {out : Outcome R S}
    (h : solve P ops cfg r0 s0 be = .ok out) (ha : QrAvoids P ops cfg r0 s0 be bad)
    (hq : ∀ k c s, ¬ bad k c s → q k c s = ops.qr k c s) :
    solve P (ops.withQr q) cfg r0 s0 be = .ok out := by
  have h1 := solve_sim (watch_sim bad ops) P cfg r0 s0 (be := (be, False)) (be' := be) rfl
  cases hw : solve P (watch bad ops) cfg r0 s0 (be, False) with
  | error e => rw [hw, h] at h1; cases h1
  | ok o =>
    rw [hw, h] at h1
    cases h1 with
    | ok h1 =>
      have h2 := solve_watch (q := q) hq hw (ha o hw)
      have h3 := solve_sim (watch_sim bad (ops.withQr q)) P cfg r0 s0 (be := (be, False)) (be' := be) rfl
      rw [h2] at h3
      cases hf : solve P (ops.withQr q) cfg r0 s0 be with
      | error e => rw [hf] at h3; cases h3
      | ok o' =>
        rw [hf] at h3
        cases h3 with
        | ok h3 =>
          obtain ⟨a1, a2, a3, a4, a5⟩ := h1
          obtain ⟨b1, b2, b3, b4, b5⟩ := h3
          congr 1
          cases out; cases o'
          dsimp only at *
          subst a1 a2 a3 a4 a5 b1 b2 b3 b4 b5
          rfl

/-- With nothing to watch for, the mark stays away. -/
theorem watch_clean (ops : Chase R S) :
    Sim (watch (fun _ _ _ => False) ops) (watch (fun _ _ _ => False) ops) (fun p p' => p = p' ∧ ¬ p.2) := by
  constructor <;> intros <;> rename_i h <;> obtain ⟨rfl, h⟩ := h <;> simp [watch, h]

theorem watch_eq (bad : ℕ → R → S → Prop) (ops : Chase R S) :
    watch bad ops = (watch (fun _ _ _ => False) ops).withQr (watchQr bad ops.qr) := rfl

theorem iter_clean {P : Plat R} (hc : ∀ a b c d m n k s, ¬ bad k (P.condEst a b c d m n) s)
    {cfg : Config R} {st st' : St R (S × Prop)} (h : iter P (watch bad ops) cfg st = .ok st')
    (hn : ¬ st.be.2) : ¬ st'.be.2 := by
  rw [watch_eq] at h
  unfold iter at h
  rw [optimise_withQr] at h
  have h1 := optimise_sim (watch_clean ops) P cfg (updateBounds_sim (cfg.nev + cfg.nex)
    (p := st) (p' := st) (r := fun p p' => p = p' ∧ ¬ p.2) (St.Rel.refl_of ⟨rfl, hn⟩))
  cases ho : optimise P (watch (fun _ _ _ => False) ops) cfg (updateBounds (cfg.nev + cfg.nex) st) with
  | error e => rw [ho] at h; cases h
  | ok s1 =>
    rw [ho] at h
    have n1 := (RelE.self_ok h1 ho).be.2
    dsimp only at h
    rw [filter_withQr] at h
    have h2 := filter_sim (watch_clean ops) cfg.N s1.unconverged s1.deg s1.degrees (cfg.nev + cfg.nex)
      s1.locked s1.lambda s1.lowerb s1.upperb (be := s1.be) (be' := s1.be) ⟨rfl, n1⟩
    cases hf : filter (watch (fun _ _ _ => False) ops) cfg.N s1.unconverged s1.deg s1.degrees
      (cfg.nev + cfg.nex) s1.locked s1.lambda s1.lowerb s1.upperb s1.be with
    | error e => rw [hf] at h; cases h
    | ok w =>
      obtain ⟨av, be⟩ := w
      have n2 : ¬ be.2 := (RelE.self_ok h2 hf).2.2
      rw [hf] at h
      dsimp only at h
      rw [lockStep_withQr] at h
      injection h with h
      rw [← h]
      refine (lockStep_sim (watch_clean ops) P cfg (St.Rel.refl_of ⟨rfl, ?_⟩)).be.2
      exact not_or.mpr ⟨n2, hc _ _ _ _ _ _ _ _⟩

/-- A run avoids what neither the initial call nor a call with a computed condition estimate can meet. -/
theorem QrAvoids.of_est {P : Plat R} (h1 : ∀ s, ¬ bad 0 1 s)
    (hc : ∀ a b c d m n k s, ¬ bad k (P.condEst a b c d m n) s) (ops : Chase R S) (cfg : Config R)
    (r0 s0 : ℕ → R) (be : S) : QrAvoids P ops cfg r0 s0 be bad := by
  have loop : ∀ (n : ℕ) (st st' : St R (S × Prop)), cfg.maxIter - st.iteration = n →
      solveLoop P (watch bad ops) cfg st = .ok st' → ¬ st.be.2 → ¬ st'.be.2 := by
    intro n
    induction n using Nat.strong_induction_on with
    | _ n ih =>
      intro st st' hm h hn
      unfold solveLoop at h
      by_cases hr : running cfg st
      · rw [dif_pos hr] at h
        split at h
        · cases h
        · rename_i s hx
          exact ih _ (by have := iter_iteration P _ cfg st s hx; have := hr.2; omega) s st' rfl h
            (iter_clean hc hx hn)
      · rw [dif_neg hr] at h
        cases h
        exact hn
  intro o h
  unfold solve at h
  have hx : ¬ (if cfg.symCheck = true then (watch bad ops).checkSymmetryEasy (be, False)
      else (true, (be, False))).2.2 := by
    split_ifs <;> exact not_false
  generalize (if cfg.symCheck = true then (watch bad ops).checkSymmetryEasy (be, False)
      else (true, (be, False))) = x at h hx
  obtain ⟨b, s⟩ := x
  dsimp only at h hx
  by_cases hb : b = false
  · rw [if_pos hb] at h
    cases h
    exact hx
  rw [if_neg hb] at h
  cases hi : initState P (watch bad ops) cfg r0 s0 s with
  | error e => rw [hi] at h; cases h
  | ok s1 =>
    rw [hi] at h
    dsimp only at h
    cases hl : solveLoop P (watch bad ops) cfg s1 with
    | error e => rw [hl] at h; cases h
    | ok s2 =>
      rw [hl] at h
      dsimp only at h
      split_ifs at h
      injection h with h
      rw [← h]
      have n1 : ¬ s1.be.2 := by
        unfold initState at hi
        dsimp only at hi
        rw [watch_eq, lanczos_withQr] at hi
        have hq : ∀ x : Bool, ¬ (if x = true then ((watch (fun _ _ _ => False) ops).withQr
            (watchQr bad ops.qr)).qr 0 1 (((watch (fun _ _ _ => False) ops).withQr
            (watchQr bad ops.qr)).initVecs (!cfg.approx) (((watch (fun _ _ _ => False) ops).withQr
            (watchQr bad ops.qr)).start s)) else ((watch (fun _ _ _ => False) ops).withQr
            (watchQr bad ops.qr)).initVecs (!cfg.approx) (((watch (fun _ _ _ => False) ops).withQr
            (watchQr bad ops.qr)).start s)).2 := by
          intro x
          split_ifs
          · exact not_or.mpr ⟨hx, h1 _⟩
          · exact hx
        have hlz := lanczos_sim (watch_clean ops) P cfg.N cfg.numLanczos
          (min (cfg.nev + cfg.nex) (min (cfg.N / 2) cfg.lanczosIter)) (cfg.nev + cfg.nex) (!cfg.approx)
          r0 (be := _) (be' := _) ⟨rfl, hq (!cfg.approx)⟩
        split at hi
        · cases hi
        · rename_i l hl2
          split_ifs at hi
          cases hi
          exact (RelE.self_ok hlz hl2).be.2
      have n2 := loop _ s1 s2 rfl hl n1
      exact (finalSort_sim (watch_clean ops) cfg.nev s2.ritzv (be := s2.be) (be' := s2.be)
        ⟨rfl, n2⟩).2.2

end
end Verif
