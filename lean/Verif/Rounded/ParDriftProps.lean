/-
Property C74 (the matrix after a solve in floating-point arithmetic), the negation for the distributed CPU backend.
-/
import Verif.Rounded.ParResidualProps
import Verif.Solver.Props

set_option linter.unusedSectionVars false

namespace Verif
namespace Rounded
namespace Par

open Matrix
open Verif.Spmd
open Mpi (Layout GSt RunsOk scatter)
open Mpi.Spmd (Pos Own EndsWith)

/-- A program of calls only adds to the record. -/
theorem record_grows {R α : Type} {S : Type*} [Add R] [Sub R] [Mul R] [Div R] [Neg R] [Zero R] [One R] [NatCast R]
    (ops : Chase R S) (t : Script R α) (s : S × List (Call R)) : s.2 <+: (t.run (traced ops) s).2.2 := by
  induction t generalizing s with
  | ret a => exact List.prefix_rfl
  | ask q k ih =>
    refine List.IsPrefix.trans ?_ (ih _ _)
    cases q <;> exact List.prefix_append _ _

namespace Four
open Stuck (rowL colL plat val0 tol e1)

/-- The configuration of `Stuck` with one round only. -/
def cfgOne : Config (Fp 53) := { Stuck.cfg1 tol with maxIter := 1 }

/-- The diagonal matrix `2^-60, 2, 3, 4`. -/
def diag : Matrix (Fin 4) (Fin 4) (Fp 53) := fun i j =>
  if i = j then (if i.val = 0 then ⟨1 / 2 ^ 60⟩ else ⟨(i.val + 1 : ℕ)⟩) else 0

/-- The state before the solve: the start vector is the first unit vector. -/
def start : GSt (Fp 53) 4 := { Stuck.glob with H := diag }

/-- The first calls of a solve of one round. -/
theorem head_eq (r0 s0 : ℕ → Fp 53) : ∃ k : Fp 53 → Unit → Script (Fp 53) (Except Err (Outcome (Fp 53) Unit)),
    solveT plat cfgOne r0 s0 = .ask .start fun _ => .ask (.initVecs false) fun _ => .ask (.lanczos1 1) fun (ub : Fp 53) =>
      .ask (.shift (-Stuck.ctr ub r0) false) (k ub) := by
  have h0 : solveT plat cfgOne r0 s0 =
      .ask .start fun _ => .ask (.initVecs false) fun _ => .ask (.lanczos1 1) fun (ub : Fp 53) =>
      (solveLoopT plat cfgOne 1 (Stuck.st0 plat r0 s0 ub)).bindE (Stuck.endT cfgOne) := by with_unfolding_all rfl
  have h1 : ∀ ub, solveLoopT plat cfgOne 1 (Stuck.st0 plat r0 s0 ub) =
      (iterT plat cfgOne (Stuck.st0 plat r0 s0 ub)).bindE (solveLoopT plat cfgOne 0) := by
    intro ub
    rw [solveLoopT, if_pos]
    exact ⟨Nat.one_pos, Nat.one_pos⟩
  have h2 : ∀ ub, iterT plat cfgOne (Stuck.st0 plat r0 s0 ub) = iterT plat (Stuck.cfg1 tol) (Stuck.st0 plat r0 s0 ub) :=
    fun ub => by with_unfolding_all rfl
  rw [h0]
  simp only [h1, h2, Stuck.iter_eq]
  exact ⟨_, rfl⟩

/-- The only shift is the centre of the interval from `1` to `8`. -/
theorem shifts (out : Outcome (Fp 53) (GSt (Fp 53) 4 × List (Call (Fp 53))))
    (h : solve plat (traced (gOps red env)) cfgOne val0 (fun _ => 0) (start, []) = .ok out) :
    out.iterations = 1 ∧ out.be.1.H = afterShifts (distArith red env) diag (pairsOf [⟨9 / 2⟩]) := by
  have hi := (C01_stops_within_maxIter plat _ cfgOne val0 _ _ out (fun h => by cases h) h).1
  obtain ⟨out', h', hpos⟩ := C51_approx_solve_defined plat (traced (gOps red env)) cfgOne rfl (by decide) (by decide)
    (by decide) (by decide) (by decide) (by decide) (by decide) (by intro h; cases h) val0 (fun _ => 0) (start, [])
  rw [h] at h'
  cases h'
  have hpos := hpos (by intro h; cases h) (by decide)
  have h1 : out.iterations = 1 := le_antisymm hi hpos
  obtain ⟨xs, hx, hs, hH⟩ := matrix_at_end red env plat Stuck.plat_permutes cfgOne val0 (fun _ => 0) start out h
    (fun h => by cases h)
  rw [h1] at hx
  obtain ⟨x, rfl⟩ := List.length_eq_one_iff.mp hx
  refine ⟨h1, ?_⟩
  obtain ⟨k, hk⟩ := head_eq val0 fun _ => 0
  have hrun := solveT_run plat (traced (gOps red env)) cfgOne val0 (fun _ => 0) (start, [])
  rw [h, hk] at hrun
  have hpre : [Call.start, .initVecs false, .lanczos1 1, .shift (-Stuck.ctr ⟨8⟩ val0) false] <+: out.be.2 := by
    have hg := record_grows (gOps red env) (k ⟨8⟩ ()) (((gOps red env).shift (-Stuck.ctr ⟨8⟩ val0) false
      ((gOps red env).lanczos1 1 ((gOps red env).initVecs false ((gOps red env).start start))).2),
      [Call.start, .initVecs false, .lanczos1 1, .shift (-Stuck.ctr ⟨8⟩ val0) false])
    change Script.joinE Outcome.with ((k ⟨8⟩ ()).run (traced (gOps red env)) (((gOps red env).shift (-Stuck.ctr ⟨8⟩ val0) false
      ((gOps red env).lanczos1 1 ((gOps red env).initVecs false ((gOps red env).start start))).2),
      [Call.start, .initVecs false, .lanczos1 1, .shift (-Stuck.ctr ⟨8⟩ val0) false])) = .ok out at hrun
    rcases hz : (k ⟨8⟩ ()).run (traced (gOps red env)) (((gOps red env).shift (-Stuck.ctr ⟨8⟩ val0) false
      ((gOps red env).lanczos1 1 ((gOps red env).initVecs false ((gOps red env).start start))).2),
      [Call.start, .initVecs false, .lanczos1 1, .shift (-Stuck.ctr ⟨8⟩ val0) false]) with ⟨e | o, s'⟩
    · rw [hz] at hrun; cases hrun
    · rw [hz] at hrun hg; cases hrun; exact hg
  obtain ⟨t, ht⟩ := hpre
  rw [← ht, shiftsOf_append] at hs
  have hhead : -Stuck.ctr ⟨8⟩ val0 = -x := by
    have := congrArg List.head? hs
    exact Option.some.inj this
  have hc : -Stuck.ctr ⟨8⟩ val0 = (⟨-(9 / 2)⟩ : Fp 53) := by decide +kernel
  have : x = ⟨9 / 2⟩ := by
    rw [hc] at hhead
    have h3 : (-(9 / 2) : ℚ) = -x.val := congrArg Fp.val hhead
    cases x
    exact congrArg Fp.mk (neg_injective h3).symm
  rw [hH, this]
  rfl

theorem lost : afterShifts (distArith red env) diag (pairsOf [⟨9 / 2⟩]) 0 0 = 0 := by
  show ((⟨1 / 2 ^ 60⟩ : Fp 53) + -⟨9 / 2⟩) + ⟨9 / 2⟩ = 0
  decide +kernel

theorem diag_hermitian : (valM (Fp.fl 53) start.H).IsHermitian := by
  have h : ∀ i j : Fin 4, diag i j = diag j i := by
    intro i j
    by_cases hij : i = j
    · rw [hij]
    · unfold diag
      rw [if_neg hij, if_neg (Ne.symm hij)]
  ext i j
  show star ((Fp.fl 53).val (diag j i)) = (Fp.fl 53).val (diag i j)
  rw [h j i]
  simp

end Four

open Four in
/-- **C74** is false for the distributed CPU backend: double precision (unbounded exponents) on a grid of two times
three processes, with accurate kernels and reductions.  The processes return after one round, however they are
scheduled, and the one that holds the first diagonal entry has `0` where `2^-60` was.
(`T.const`: every process gets the same sums.) -/
theorem C74_mpi_refuted : ∃ (r c : Layout 4) (T : Red1 (Fp 53) (Fp 53) r c) (E : DEnv (Fp 53) (Fp 53))
    (P : Plat (Fp 53)) (cfg : Config (Fp 53)) (ritzv0 resid0 : ℕ → Fp 53) (g : GSt (Fp 53) 4) (p : Pos r c)
    (a : Fin (r.size p.1)) (b : Fin (c.size p.2)),
    AccuratePar (Fp.fl 53) (Fp.fl 53) T E 3 3 ((1 / 2) ^ 53) ∧ RunsOk r c E.cRuns ∧ RunsOk c r E.bRuns ∧
    SortsIndices P ∧ cfg.N = 4 ∧ cfg.nev + cfg.nex = E.nevex ∧ (valM (Fp.fl 53) g.H).IsHermitian ∧
    ((scatter r c g p.1 p.2).H a b).toReal = (1 / 2) ^ 60 ∧
    (∃ n u, Runs (fun p : Pos r c => solveProg T.const E P cfg ritzv0 resid0 p (scatter r c g p.1 p.2)) n u ∧ Final u) ∧
    ∀ n u, Runs (fun p : Pos r c => solveProg T.const E P cfg ritzv0 resid0 p (scatter r c g p.1 p.2)) n u → Final u →
      ∃ o own, u p = .ret (.ok o, own) ∧ o.iterations = 1 ∧ (own.H a b).toReal = 0 := by
  refine ⟨Stuck.rowL, Stuck.colL, red, env, Stuck.plat, cfgOne, Stuck.val0, fun _ => 0, Four.start,
    ((0 : Fin 2), (0 : Fin 3)), (0 : Fin 2), (0 : Fin 2), accuratePar, Stuck.envRuns.1, Stuck.envRuns.2, plat_sorts, rfl,
    rfl, diag_hermitian, ?_, ?_, ?_⟩
  · show ((1 / 2 ^ 60 : ℚ) : ℝ) = _
    push_cast
    norm_num
  · obtain ⟨n, hn⟩ := prog_gives red env Stuck.envRuns.1 Stuck.envRuns.2
      (solveT Stuck.plat cfgOne Stuck.val0 fun _ => 0) Four.start
    exact ⟨n, _, hn, fun p => ⟨_, rfl⟩⟩
  · intro n u hr hu
    have he := C77_outcome_partial (E := env) Stuck.plat cfgOne Stuck.val0 (fun _ => 0) Stuck.envRuns.1
      Stuck.envRuns.2 red Four.start hr hu ((0 : Fin 2), (0 : Fin 3))
    obtain ⟨out, h, -⟩ := C51_approx_solve_defined Stuck.plat (traced (gOps red env)) cfgOne rfl (by decide) (by decide)
      (by decide) (by decide) (by decide) (by decide) (by decide) (by intro h; cases h) Stuck.val0 (fun _ => 0)
      (Four.start, [])
    obtain ⟨h1, h2⟩ := shifts out h
    have hsim := solve_sim (traced_sim (gOps red env)) Stuck.plat cfgOne Stuck.val0 (fun _ => 0)
      (be := (Four.start, [])) (be' := Four.start) rfl
    rw [h] at hsim
    generalize hx : solve Stuck.plat (gOps red env) cfgOne Stuck.val0 (fun _ => 0) Four.start = x at hsim he
    cases hsim with
    | ok hrel =>
      refine ⟨_, _, he, ?_, ?_⟩
      · exact hrel.iterations.symm.trans h1
      · have hbe := hrel.be
        show ((_ : Outcome (Fp 53) (GSt (Fp 53) 4)).be.H 0 0).toReal = 0
        rw [← hbe, h2, lost]
        exact Rat.cast_zero

end Par
end Rounded
end Verif
