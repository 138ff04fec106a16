/-
C43 and C44: life cycle of the solvers behind the C interface, and decoding of its arguments.
-/
import Verif.Interface.Leak
import Mathlib.Algebra.Field.Rat

namespace Verif
namespace Iface

variable {R β : Type} [Div R] [One R] [NatCast R]

/-! ### Auxiliary facts about outputs -/

theorem outs_at (W : World R β) (h₁ h₂ : List (Call R)) (c : Call R)
    (hl : Legal (h₁ ++ c :: h₂)) :
    ∃ vo, (absOf W h₁ c.slot).step W c = some vo ∧
      (outs W [] (h₁ ++ c :: h₂))[h₁.length]? = some vo.2 := by
  have hlen : ∀ (g : List (Call R)) (e : List (Call R)), Legal (e ++ g) → (outs W e g).length = g.length := by
    intro g
    induction g with
    | nil => intro e _; rfl
    | cons d g ih =>
      intro e he
      have h1 : ((absOf W e d.slot).step W d).isSome = true :=
        (step_isSome W e d).2 (he e d g rfl)
      obtain ⟨vo, hvo⟩ := Option.isSome_iff_exists.1 h1
      have := ih (e ++ [d]) (by simpa using he)
      simp [outs, hvo, this]
  have hs : ((absOf W h₁ c.slot).step W c).isSome = true := (step_isSome W h₁ c).2 (hl h₁ c h₂ rfl)
  obtain ⟨vo, hvo⟩ := Option.isSome_iff_exists.1 hs
  refine ⟨vo, hvo, ?_⟩
  have happ : ∀ (g e : List (Call R)) (d : List (Call R)),
      outs W e (g ++ d) = outs W e g ++ outs W (e ++ g) d := by
    intro g
    induction g with
    | nil => intro e d; simp [outs]
    | cons b g ih => intro e d; simp [outs, ih]
  have hl1 : Legal ([] ++ h₁) := by
    intro a d b e
    exact hl a d (b ++ c :: h₂) (by simp at e; rw [e]; simp)
  have h1 := hlen h₁ [] hl1
  rw [happ]
  rw [List.getElem?_append_right (by rw [h1])]
  simp [h1, outs, hvo]

theorem configure_configure (cfg : Config R) (x y : SolveArgs R) :
    configure (configure cfg x) y = configure cfg y := by
  simp [configure, Config.setTol, Config.setDeg, Config.setOpt, Config.setApprox, Config.setCholQR]

theorem configure_mk (sc : Scalar) (p : Problem) (x : SolveArgs R) :
    configure (Config.mk' sc p.N p.nev p.nex) x = documented sc p x := by
  have hd : toSize x.deg + toSize x.deg % 2 = 2 * ((toSize x.deg + 1) / 2) := by omega
  have hb : ∀ a b : Char, (a == b) = decide (a = b) := fun a b => rfl
  cases sc <;>
    simp [configure, Config.mk', documented, Config.setTol, Config.setDeg, Config.setOpt, Config.setApprox,
      Config.setCholQR, Config.setMaxDeg, Config.initMaxDeg, Config.initDeg, Config.initLanczosIter, hd, hb]

/-- What a live slot holds: the problem of its initialisation, a configuration that a solve turns into the documented
one, and the state left by the solves since. -/
theorem absOf_after (W : World R β) (h₁ h₂ : List (Call R)) (c : Call R) (p : Problem)
    (hc : c.problem = some p) (hu : ∀ d ∈ h₂, d.slot = c.slot → d.isUse = true) :
    ∃ cfg, absOf W (h₁ ++ c :: h₂) c.slot = .live p cfg
        (((h₂.filter fun d => decide (d.slot = c.slot)).filterMap Call.solveArgs).foldl
          (fun b y => W.run c.slot.sc p (documented c.slot.sc p y) b) (W.fresh c.slot.sc p)) ∧
      ∀ x, configure cfg x = documented c.slot.sc p x := by
  induction h₂ using List.reverseRecOn with
  | nil =>
    refine ⟨Config.mk' c.slot.sc p.N p.nev p.nex, ?_, configure_mk _ _⟩
    rw [absOf_snoc, if_pos rfl]
    simp [next, Abs.step, hc]
  | append_singleton h₂ d ih =>
    obtain ⟨cfg, h1, h2⟩ := ih fun e he => hu e (by simp [he])
    have e : h₁ ++ c :: (h₂ ++ [d]) = (h₁ ++ c :: h₂) ++ [d] := by simp
    have hg := good_absOf W (h₁ ++ c :: h₂) c.slot
    rw [e, absOf_snoc, h1, List.filter_append, List.filterMap_append, List.foldl_append]
    by_cases hd : d.slot = c.slot
    · have hud := hu d (by simp) hd
      rw [if_pos hd]
      cases d with
      | seqSolve sc x =>
        refine ⟨configure cfg x, ?_, fun y => by rw [configure_configure]; exact h2 y⟩
        simp [next, Abs.step, Call.problem, Call.solveArgs, hd, h2]
      | distSolve sc x =>
        refine ⟨configure cfg x, ?_, fun y => by rw [configure_configure]; exact h2 y⟩
        simp [next, Abs.step, Call.problem, Call.solveArgs, hd, h2]
      | distIO sc w f H =>
        refine ⟨cfg, ?_, h2⟩
        rw [h1] at hg
        obtain ⟨q, hq⟩ := hg (by rw [← hd]; rfl)
        simp [next, Abs.step, Call.problem, Call.solveArgs, hd, hq]
        rfl
      | _ => simp [Call.isUse] at hud
    · refine ⟨cfg, ?_, h2⟩
      rw [if_neg hd]
      simp [hd]

/-! ### C43 -/

/-- C43 (which histories are safe). A program's calls run without touching a dead or missing solver and without
releasing anything twice exactly if it uses solvers only between their initialisation and their finalisation and
finalises each at most once per initialisation. -/
theorem C43_safe_iff (W : World R β) (h : List (Call R)) : (∃ r, run W h = .ok r) ↔ Legal h := by
  constructor
  · rintro ⟨r, hr⟩
    by_contra hl
    obtain ⟨e, he⟩ := (run_spec W h).2 hl
    rw [he] at hr; cases hr
  · intro hl
    obtain ⟨σ, own, h1, _⟩ := (run_spec W h).1 hl
    exact ⟨_, h1⟩

/-- C43 (nothing is lost). If in addition no solver is initialised again before it was finalised, then after a history
that leaves no solver live every object ever created has been released. -/
theorem C43_all_released_partial (W : World R β) (h : List (Call R)) (σ : State R β) (os : List (Out R β))
    (hr : run W h = .ok (σ, os)) (hb : Bracketed h) (hend : ∀ s, ¬ Live h s) :
    ∀ a, (∀ s, σ.heap a ≠ .solver s) ∧ (∀ p, σ.heap a ≠ .props p) := by
  have hl : Legal h := (C43_safe_iff W h).1 ⟨_, hr⟩
  have t := tight_run W h hl hb hr
  intro a
  have hna : ¬ (σ.heap a).alive := by
    intro ha
    obtain ⟨s, p, cfg, st, h1, _⟩ := t a ha
    exact hend s ((live_iff W h s).2 ⟨p, cfg, st, h1⟩)
  constructor
  · intro s e; rw [e] at hna; exact hna trivial
  · intro p e; rw [e] at hna; exact hna trivial

/-- C43 (solve acts on the right solver; C44 in every history). A solve call runs on the problem given to the last
initialisation of the same kind and scalar type, with the documented configuration whatever was configured before,
and on the state that the solves since that initialisation have left; calls on other types and kinds do not
matter. -/
theorem C43_solve_on_own_solver (W : World R β) (h₁ h₂ h₃ : List (Call R)) (c d : Call R) (p : Problem)
    (x : SolveArgs R) (σ : State R β) (os : List (Out R β))
    (hr : run W (h₁ ++ c :: h₂ ++ d :: h₃) = .ok (σ, os))
    (hc : c.problem = some p) (hu : ∀ e ∈ h₂, e.slot = c.slot → e.isUse = true)
    (hd : d.slot = c.slot) (hx : d.solveArgs = some x) :
    os[(h₁ ++ c :: h₂).length]? = some (.ran p (documented c.slot.sc p x)
      (((h₂.filter fun e => decide (e.slot = c.slot)).filterMap Call.solveArgs).foldl
        (fun b y => W.run c.slot.sc p (documented c.slot.sc p y) b) (W.fresh c.slot.sc p))) := by
  have hl : Legal (h₁ ++ c :: h₂ ++ d :: h₃) := (C43_safe_iff W _).1 ⟨_, hr⟩
  obtain ⟨τ, own, h1, _⟩ := (run_spec W _).1 hl
  rw [h1] at hr
  simp only [Except.ok.injEq, Prod.mk.injEq] at hr
  obtain ⟨_, rfl⟩ := hr
  obtain ⟨vo, h2, h3⟩ := outs_at W (h₁ ++ c :: h₂) h₃ d hl
  rw [h3]
  obtain ⟨cfg, h4, h5⟩ := absOf_after W h₁ h₂ c p hc hu
  rw [hd, h4] at h2
  cases d with
  | seqSolve sc y =>
    simp only [Call.solveArgs, Option.some.injEq] at hx
    subst hx
    simp only [Abs.step, Call.problem, Call.solveArgs, Option.some.injEq] at h2
    subst h2
    simp [h5]
  | distSolve sc y =>
    simp only [Call.solveArgs, Option.some.injEq] at hx
    subst hx
    simp only [Abs.step, Call.problem, Call.solveArgs, Option.some.injEq] at h2
    subst h2
    simp [h5]
  | _ => simp [Call.solveArgs] at hx

/-- C43 (scalar types do not interfere). What a program sees from the calls on one solver is what it would see had it
made only those calls. -/
theorem C43_types_independent (W : World R β) (h : List (Call R)) (s : Slot) (σ : State R β)
    (os : List (Out R β)) (hr : run W h = .ok (σ, os)) :
    ∃ σ', run W (h.filter fun c => decide (c.slot = s)) =
      .ok (σ', ((h.zip os).filter fun r => decide (r.1.slot = s)).map Prod.snd) := by
  have hl : Legal h := (C43_safe_iff W h).1 ⟨_, hr⟩
  obtain ⟨τ, own, h1, hrel⟩ := (run_spec W h).1 hl
  rw [h1] at hr
  simp only [Except.ok.injEq, Prod.mk.injEq] at hr
  obtain ⟨_, rfl⟩ := hr
  have key : Legal (h.filter fun c => decide (c.slot = s)) ∧
      outs W [] (h.filter fun c => decide (c.slot = s)) =
        ((h.zip (outs W [] h)).filter fun r => decide (r.1.slot = s)).map Prod.snd ∧
      (outs W [] h).length = h.length := by
    clear h1 hrel
    induction h using List.reverseRecOn with
    | nil => exact ⟨hl, rfl, rfl⟩
    | append_singleton h c ih =>
      have hl' := (legal_snoc h c).1 hl
      obtain ⟨i1, i2, i3⟩ := ih hl'.1
      have hs := (step_isSome W h c).2 hl'.2
      obtain ⟨vo, hvo⟩ := Option.isSome_iff_exists.1 hs
      have hz : (h ++ [c]).zip (outs W [] (h ++ [c])) = h.zip (outs W [] h) ++ [(c, vo.2)] := by
        rw [outs_snoc, List.nil_append, hvo, List.zip_append i3.symm]; rfl
      have habs : absOf W (h.filter fun c => decide (c.slot = s)) s = absOf W h s := by
        unfold absOf; rw [List.filter_filter]; simp
      have hlen : (outs W [] (h ++ [c])).length = (h ++ [c]).length := by
        rw [outs_snoc, List.nil_append, hvo]; simp [i3]
      rw [hz, List.filter_append, List.filter_append]
      by_cases e : c.slot = s
      · subst e
        have hf : List.filter (fun d : Call R => decide (d.slot = c.slot)) [c] = [c] := by simp
        rw [hf]
        refine ⟨?_, ?_, hlen⟩
        · rw [legal_snoc]
          refine ⟨i1, ?_⟩
          rw [← step_isSome W, habs, hvo]; rfl
        · rw [outs_snoc, i2, List.nil_append, habs, hvo]; simp
      · have hf : List.filter (fun d : Call R => decide (d.slot = s)) [c] = [] := by simp [e]
        rw [hf, List.append_nil]
        refine ⟨i1, ?_, hlen⟩
        rw [i2]; simp [e]
  obtain ⟨τ', own', h2, _⟩ := (run_spec W _).1 key.1
  exact ⟨τ', by rw [h2, key.2.1]⟩

/-- The statement C43 makes for every history, refuted below. -/
def C43_full (W : World R β) : Prop :=
  ∀ h : List (Call R), ∃ σ os, run W h = .ok (σ, os) ∧
    ((∀ s, ¬ Live h s) → ∀ a, (∀ s, σ.heap a ≠ .solver s) ∧ (∀ p, σ.heap a ≠ .props p))

/-- C43 fails: a second finalisation releases the same solver again. -/
theorem C43_double_finalize (W : World R β) (sc : Scalar) (x : SeqArgs) :
    run W [.seqInit sc x, .seqFinalize sc, .seqFinalize sc] = .error .doubleFree := by
  simp [run, runFrom, call, seqInit, seqFinalize, State.alloc, State.deleteSolver, State.deleteProps, newSeq,
    State.start, bind, Except.bind]

/-- C43 fails: a solve after the finalisation works on released memory. -/
theorem C43_solve_after_finalize (W : World R β) (sc : Scalar) (x : SeqArgs) (y : SolveArgs R) :
    run W [.seqInit sc x, .seqFinalize sc, .seqSolve sc y] = .error .useAfterFree := by
  simp [run, runFrom, call, seqInit, seqFinalize, seqSolve, solveAt, State.alloc, State.deleteSolver,
    State.deleteProps, State.derefSolver, newSeq, State.start, bind, Except.bind]

/-- C43 fails: a solve before any initialisation dereferences a null pointer. -/
theorem C43_solve_before_init (W : World R β) (sc : Scalar) (y : SolveArgs R) :
    run W [.seqSolve sc y] = .error .nullDeref := by
  simp [run, runFrom, call, seqSolve, solveAt, State.derefSolver, State.start, bind, Except.bind]

/-- C43 fails: the file calls of the distributed interface use the properties object that the finalisation released
together with the solver. -/
theorem C43_io_after_finalize (W : World R β) (sc : Scalar) (x : DistArgs) (w : Bool) (f : String) (H : ℕ) :
    run W [.distInit sc x, .distFinalize sc, .distIO sc w f H] = .error .useAfterFree := by
  simp [run, runFrom, call, distInit, distNew, distFinalize, distIO, State.alloc, State.deleteSolver,
    State.deleteProps, State.derefProps, newDist, State.start, bind, Except.bind]

/-- C43 fails: initialising twice loses the first solver for ever, although the program finalises. -/
theorem C43_reinit_leaks (W : World R β) (sc : Scalar) (x : SeqArgs) :
    ∃ σ os, run W [.seqInit sc x, .seqInit sc x, .seqFinalize sc] = .ok (σ, os) ∧
      (∀ s, ¬ Live ([.seqInit sc x, .seqInit sc x, .seqFinalize sc] : List (Call R)) s) ∧
      ∃ a s, σ.heap a = .solver s := by
  refine ⟨_, _, by
    simp [run, runFrom, call, seqInit, seqFinalize, State.alloc, State.deleteSolver, State.deleteProps,
      State.start, newSeq, bind, Except.bind]
    exact ⟨rfl, rfl⟩, ?_, 0, ?_⟩
  · rintro ⟨k, t⟩ ⟨c, h1, h2⟩
    by_cases e : (⟨Kind.seq, sc⟩ : Slot) = ⟨k, t⟩
    · simp [lastLife, Call.slot, Call.isUse, e] at h1
      subst h1; simp [Call.isInit] at h2
    · simp [lastLife, Call.slot, Call.isUse, e] at h1
  · exact ⟨_, by simp; rfl⟩

theorem C43_refuted (W : World R β) : ¬ C43_full W := by
  intro H
  obtain ⟨σ, os, h1, _⟩ := H [.seqSolve .d ⟨20, 1, 'R', 'S', 'C'⟩]
  rw [C43_solve_before_init] at h1
  cases h1

/-! ### C44 -/

/-- What an `int` of the caller becomes as a `std::size_t` of the library: the number itself, or, if it is negative,
a number beyond any size. -/
theorem toSize_spec {x : ℤ} (hx : -2 ^ 31 ≤ x ∧ x < 2 ^ 31) :
    (0 ≤ x → (toSize x : ℤ) = x) ∧ (x < 0 → (toSize x : ℤ) = 2 ^ 64 + x) := by
  unfold toSize
  rw [Int.toNat_of_nonneg (Int.emod_nonneg _ (by norm_num))]
  constructor <;> intro h <;> omega

example : toSize (-1) = 18446744073709551615 := by decide

/-- C44 (one call). Whatever the configuration was, the solve call sets the tolerance and the letters as documented and
the degree to the smallest even number that is not below the one given; nothing else changes. -/
theorem C44_decode (cfg : Config R) (x : SolveArgs R) (hx : 0 ≤ x.deg ∧ x.deg < 2 ^ 31) :
    let cfg' := configure cfg x
    cfg'.tol = x.tol ∧
    (cfg'.approx = true ↔ x.mode = 'A') ∧ (cfg'.optimization = true ↔ x.opt = 'S') ∧
    (cfg'.cholqr = true ↔ x.qr = 'C') ∧
    (Even cfg'.deg ∧ x.deg ≤ cfg'.deg ∧ (cfg'.deg : ℤ) ≤ x.deg + 1) ∧
    cfg'.N = cfg.N ∧ cfg'.nev = cfg.nev ∧ cfg'.nex = cfg.nex ∧ cfg'.maxIter = cfg.maxIter ∧
    cfg'.maxDeg = cfg.maxDeg ∧ cfg'.degExtra = cfg.degExtra ∧ cfg'.lanczosIter = cfg.lanczosIter ∧
    cfg'.numLanczos = cfg.numLanczos ∧ cfg'.symCheck = cfg.symCheck := by
  have e : (toSize x.deg : ℤ) = x.deg := by
    unfold toSize
    rw [Int.toNat_of_nonneg (Int.emod_nonneg _ (by norm_num)), Int.emod_eq_of_lt hx.1 (by omega)]
  refine ⟨rfl, ?_, ?_, ?_, ⟨?_, ?_, ?_⟩, rfl, rfl, rfl, rfl, rfl, rfl, rfl, rfl, rfl⟩
  · simp [configure, Config.setTol, Config.setDeg, Config.setOpt, Config.setApprox, Config.setCholQR]
  · simp [configure, Config.setTol, Config.setDeg, Config.setOpt, Config.setApprox, Config.setCholQR]
  · simp [configure, Config.setTol, Config.setDeg, Config.setOpt, Config.setApprox, Config.setCholQR]
  · show Even (toSize x.deg + toSize x.deg % 2)
    rw [Nat.even_iff]; omega
  · show x.deg ≤ ((toSize x.deg + toSize x.deg % 2 : ℕ) : ℤ)
    push_cast; omega
  · show ((toSize x.deg + toSize x.deg % 2 : ℕ) : ℤ) ≤ x.deg + 1
    push_cast; omega

/-- C44 (independence of the past). Two solve calls with the same arguments on solvers that were initialised with the
same sizes and type run with the same configuration, whatever happened before. -/
theorem C44_history_independent (W : World R β) (h₁ h₂ h₃ g₁ g₂ g₃ : List (Call R)) (c d c' d' : Call R)
    (p : Problem) (x : SolveArgs R) (σ σ' : State R β) (os os' : List (Out R β))
    (hr : run W (h₁ ++ c :: h₂ ++ d :: h₃) = .ok (σ, os))
    (hr' : run W (g₁ ++ c' :: g₂ ++ d' :: g₃) = .ok (σ', os'))
    (hc : c.problem = some p) (hc' : c'.problem = some p) (hsc : c.slot = c'.slot)
    (hu : ∀ e ∈ h₂, e.slot = c.slot → e.isUse = true) (hu' : ∀ e ∈ g₂, e.slot = c'.slot → e.isUse = true)
    (hd : d.slot = c.slot) (hd' : d'.slot = c'.slot)
    (hx : d.solveArgs = some x) (hx' : d'.solveArgs = some x) :
    ∃ cfg st st', os[(h₁ ++ c :: h₂).length]? = some (.ran p cfg st) ∧
      os'[(g₁ ++ c' :: g₂).length]? = some (.ran p cfg st') := by
  have h := C43_solve_on_own_solver W h₁ h₂ h₃ c d p x σ os hr hc hu hd hx
  have h' := C43_solve_on_own_solver W g₁ g₂ g₃ c' d' p x σ' os' hr' hc' hu' hd' hx'
  rw [← hsc] at h'
  exact ⟨_, _, _, h, h'⟩

/-! ### Non-vacuity -/

/-- A world in which a solver counts its solves. -/
def counting : World ℚ ℕ := ⟨fun _ _ => 0, fun _ _ _ n => n + 1⟩

/-- A program that works with two sequential and one distributed solver at a time. -/
def program : List (Call ℚ) :=
  [.seqInit .d ⟨100, 10, 5, 1, 100, 2, 3⟩,
   .distInitCyclic .z ⟨200, 20, 6, 32, 16, 4, 64, 5, 6, 2, 3, 'C', 1, 0, 7⟩,
   .seqSolve .d ⟨21, 1 / 100, 'R', 'S', 'C'⟩,
   .seqInit .s ⟨50, 4, 2, 8, 50, 9, 10⟩,
   .distIO .z false "file" 4,
   .seqFinalize .d,
   .distSolve .z ⟨10, 1 / 1000, 'A', 'x', 'C'⟩,
   .seqSolve .s ⟨8, 1 / 10, 'A', 'S', 'n'⟩,
   .seqInit .d ⟨100, 10, 5, 1, 100, 2, 3⟩,
   .seqSolve .d ⟨7, 1 / 10, 'A', 'S', 'C'⟩,
   .seqFinalize .d, .seqFinalize .s, .distFinalize .z]

/-- The program runs. -/
theorem program_ok : ∃ r, run counting program = .ok r := ⟨_, rfl⟩

example : Legal program := (C43_safe_iff counting program).1 program_ok

/-- The configuration of the second solve, on the distributed solver: degree 10, no optimisation, default maximal
degree. -/
example : ∃ σ os, run counting program = .ok (σ, os) ∧ os.length = 13 ∧
    (match os[6]? with
      | some (Out.ran p cfg st) => p.N = 200 ∧ p.props.map (·.layout) = some (.cyclic 32 16 1 0) ∧ cfg.deg = 10 ∧
          cfg.approx = true ∧ cfg.optimization = false ∧ cfg.cholqr = true ∧ cfg.maxDeg = 36 ∧ st = 0
      | _ => False) := by
  refine ⟨_, _, rfl, rfl, ?_⟩
  simp [configure, Config.setTol, Config.setDeg, Config.setOpt, Config.setApprox, Config.setCholQR, Config.mk',
    Config.setMaxDeg, Config.initMaxDeg, newDist, Props.newCyclic, toSize]
  decide

end Iface
end Verif
