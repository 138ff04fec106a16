/-
Properties C73 (reported residuals in floating-point arithmetic) and C74 (the matrix after a solve in floating-point
arithmetic), for the distributed CPU backend.
-/
import Verif.Rounded.ParError
import Verif.Rounded.ParStuck
import Verif.Rounded.Props
import Verif.Solver.Succeeds

set_option linter.unusedSectionVars false

namespace Verif
namespace Rounded
namespace Par

open Matrix
open Verif.Spmd
open Mpi (Layout GSt RunsOk scatter)
open Mpi.Spmd (Pos Own EndsWith)

section
variable {K R 𝕜 : Type} [RCLike 𝕜] {N : ℕ} {r c : Layout N} {F : Fl K 𝕜} {FR : Fl R ℝ} {T : Red1 K R r c}
  {E : DEnv K R} {d e : ℕ} {μ : ℝ}
variable [Add R] [Sub R] [Mul R] [Div R] [Neg R] [Zero R] [One R] [NatCast R]

/-- **C74**, distributed CPU backend (partial).  The bound of `C74_drift_partial` for the matrix put together from the
parts of all processes. -/
theorem C74_drift_mpi_partial [LT R] [DecidableLT R] (hA : AccuratePar F FR T E d e μ) (hμ : 0 ≤ μ) (P : Plat R)
    (hP : PermutesIndices P) (cfg : Config R) (ritzv0 resid0 : ℕ → R) (g : GSt K N)
    (out : Outcome R (GSt K N × List (Call R)))
    (h : solve P (traced (gOps T E)) cfg ritzv0 resid0 (g, []) = .ok out)
    (hsym : cfg.symCheck = true → symCheckG T E g.H = true) {C : ℝ} (hC : ∀ x ∈ shiftsOf out.be.2, |FR.val x| ≤ C) :
    (∀ i j, i ≠ j → out.be.1.H i j = g.H i j) ∧
    ∀ i, ‖F.val (out.be.1.H i i) - F.val (g.H i i)‖ ≤
      ((1 + F.u) ^ (2 * out.iterations) - 1) * (‖F.val (g.H i i)‖ + C) := by
  obtain ⟨xs, h1, h2, h3⟩ := matrix_at_end T E P hP cfg ritzv0 resid0 g out h hsym
  rw [h2] at hC
  obtain ⟨a, b⟩ := drift (accurate hA hμ) g.H xs hC
  rw [h3, ← h1]
  exact ⟨a, b⟩

variable [LinearOrder R]

/-- The error of a residual measured with the matrix the shifts `xs` have left. -/
theorem residual_of_measured (hA : AccuratePar F FR T E d e μ) (hμ : 0 ≤ μ) {H0 : Matrix (Fin N) (Fin N) K}
    (hH : (valM F H0).IsHermitian) {xs : List R} {n : ℕ} (hlen : xs.length ≤ n) {C : ℝ} (hC0 : 0 ≤ C)
    (hC : ∀ x ∈ pairsOf xs, |FR.val x| ≤ C) {x : R} {v : Fin N → K} {res : R}
    (hm : Measured T E (afterShifts (distArith T E) H0 (pairsOf xs)) x v res) :
    let ρ := Verif.nrm2 ((valM F H0).mulVec (valV F v) - (FR.val x : 𝕜) • valV F v)
    |FR.val res - ρ| ≤ nu FR.u μ e * ρ +
      (1 + nu FR.u μ e) * (slack F.u (d + e) n (frob (valM F H0)) C (FR.val x) * Verif.nrm2 (valV F v)) := by
  have hu := F.u_nonneg
  have hν : 0 ≤ nu FR.u μ e := by
    have := FR.u_nonneg
    have h1 : 1 ≤ (1 + FR.u) ^ (e + 1) := one_le_pow₀ (by linarith)
    unfold nu
    nlinarith
  have hA' := accurate hA hμ
  obtain ⟨b, X, Y, j, w, hv, hw, hρ⟩ := hm
  obtain ⟨hoff, hdiag⟩ := drift hA' H0 xs hC
  set D := gam F.u (2 * n) * (frob (valM F H0) + C) with hD
  have hD0 : 0 ≤ D := mul_nonneg (gam_nonneg hu _) (add_nonneg (frob_nonneg _) hC0)
  have hdiag' : ∀ i, ‖F.val (afterShifts (distArith T E) H0 (pairsOf xs) i i) - F.val (H0 i i)‖ ≤ D := by
    intro i
    refine (hdiag i).trans (mul_le_mul (gam_mono hu (by omega)) ?_ ?_ (gam_nonneg hu _))
    · have : ‖F.val (H0 i i)‖ ≤ frob (valM F H0) := norm_le_frob (valM F H0) i i
      linarith
    · have := norm_nonneg (F.val (H0 i i))
      linarith
  have hnorm := norms_error hA hμ w j
  rw [← hρ, hw] at hnorm
  have key := computed_error hA' hν hD0 (fun i j hij => by rw [hoff i j hij]) hdiag' X Y j hv hnorm
  rw [hH.eq] at key
  exact key

/-- **C73**, distributed CPU backend (partial).  Floating-point arithmetic with unit roundoff `u`, products of the parts
of depth `d`, reductions of depth `e`, sums of squares of relative error `μ`, in whatever order of the additions on each
process and in each reduction.  After a solve with at least one round, with a sort that keeps ascending lists, the
residual that belongs to a pair (value `x`, vector `v`) differs from the exact norm `‖H v - x v‖` for the matrix handed
in by at most `ν ‖H v - x v‖ + (1 + ν) slack ‖v‖`.  The vector and the residual stand at the position the value had
before the final sort, as this backend does not move vectors in the sort (`C05_noop_swap_refuted`). -/
theorem C73_residual_mpi_partial (hA : AccuratePar F FR T E d e μ) (hμ : 0 ≤ μ) (hE : Ascends E) (P : Plat R)
    (hP : SortsIndices P) (hkeep : SortKeepsSorted P)
    (cfg : Config R) (hN : cfg.N = N) (hsz : cfg.nev + cfg.nex = E.nevex) (hmax : Even cfg.maxDeg)
    (ritzv0 resid0 : ℕ → R) (g : GSt K N) (hH : (valM F g.H).IsHermitian)
    (out : Outcome R (GSt K N × List (Call R)))
    (h : solve P (traced (gOps T E)) cfg ritzv0 resid0 (g, []) = .ok out)
    (hsym : cfg.symCheck = true → symCheckG T E g.H = true) (hit : 0 < out.iterations)
    {C : ℝ} (hC : ∀ x ∈ shiftsOf out.be.2, |FR.val x| ≤ C) :
    ∃ σ : Equiv.Perm ℕ, PermOn 0 cfg.nev σ ∧ (out.iterations = 1 → σ = 1) ∧ ∀ i, i < cfg.nev + cfg.nex →
      let x := FR.val (out.ritzv i)
      let v := valV F (out.be.1.C (σ i))
      let ν := nu FR.u μ e
      let ρ := Verif.nrm2 ((valM F g.H).mulVec v - (x : 𝕜) • v)
      |FR.val (out.resid (σ i)) - ρ| ≤
        ν * ρ + (1 + ν) * (slack F.u (d + e) out.iterations (frob (valM F g.H)) C x * Verif.nrm2 v) := by
  obtain ⟨σ, hσ, hσ1, hm⟩ := measured_at_end T E hE P hP hkeep cfg hN hsz hmax ritzv0 resid0 g out h hsym hit
  obtain ⟨ys, hy1, hy2, -⟩ := matrix_at_end T E P hP.permutes cfg ritzv0 resid0 g out h hsym
  have hC0 : 0 ≤ C := by
    cases ys with
    | nil => simp at hy1; omega
    | cons y ys => exact (abs_nonneg _).trans (hC (-y) (by rw [hy2]; simp [pairsOf]))
  refine ⟨σ, hσ, hσ1, fun i hi => ?_⟩
  obtain ⟨xs, hlen, hxs, hmes⟩ := hm i hi
  exact residual_of_measured hA hμ hH hlen hC0 (fun x hx => hC x (hxs x hx)) hmes

/-- **C73**, consequence for eigenvalues: every pair whose vector is not zero certifies an eigenvalue of the matrix
handed in. -/
theorem C73_eigenvalue_mpi_partial (hA : AccuratePar F FR T E d e μ) (hμ : 0 ≤ μ) (hν1 : nu FR.u μ e ≤ 1)
    (hE : Ascends E) (P : Plat R) (hP : SortsIndices P) (hkeep : SortKeepsSorted P)
    (cfg : Config R) (hN : cfg.N = N) (hsz : cfg.nev + cfg.nex = E.nevex) (hmax : Even cfg.maxDeg)
    (ritzv0 resid0 : ℕ → R) (g : GSt K N) (hH : (valM F g.H).IsHermitian)
    (out : Outcome R (GSt K N × List (Call R)))
    (h : solve P (traced (gOps T E)) cfg ritzv0 resid0 (g, []) = .ok out)
    (hsym : cfg.symCheck = true → symCheckG T E g.H = true) (hit : 0 < out.iterations)
    {C : ℝ} (hC : ∀ x ∈ shiftsOf out.be.2, |FR.val x| ≤ C) :
    ∃ σ : Equiv.Perm ℕ, PermOn 0 cfg.nev σ ∧ ∀ i, i < cfg.nev + cfg.nex →
      let x := FR.val (out.ritzv i)
      let v := valV F (out.be.1.C (σ i))
      let ν := nu FR.u μ e
      v ≠ 0 → ∃ lam, IsEigenvalue (valM F g.H) lam ∧
        (1 - ν) * (|lam - x| * Verif.nrm2 v) ≤ FR.val (out.resid (σ i)) +
          (1 + ν) * (slack F.u (d + e) out.iterations (frob (valM F g.H)) C x * Verif.nrm2 v) := by
  obtain ⟨σ, hσ, -, hm⟩ := C73_residual_mpi_partial hA hμ hE P hP hkeep cfg hN hsz hmax ritzv0 resid0 g hH out h hsym
    hit hC
  refine ⟨σ, hσ, fun i hi => ?_⟩
  have key := hm i hi
  dsimp only at key ⊢
  intro hv
  obtain ⟨lam, h1, h2⟩ := eigenvalue_of_residual hH hv (FR.val (out.ritzv i))
  refine ⟨lam, h1, ?_⟩
  have h3 := mul_le_mul_of_nonneg_left h2 (show 0 ≤ 1 - nu FR.u μ e by linarith)
  linarith [(abs_le.mp key).1]

/-- **C73 and C74 as seen by the processes** (partial).  Reductions that give the same bits on every communicator.  In
every complete schedule in which some process returns successfully after at least one round, all processes return the
same values and residuals, their vectors are the parts of a block `V` and their matrices the parts of a matrix `H'`;
some list of shifts is such that with any bound `C` on them the bounds of `C73_residual_mpi_partial` hold for the
values, the residuals and the columns of `V`, and those of `C74_drift_mpi_partial` for `H'`. -/
theorem C73_processes_partial (hc : RunsOk r c E.cRuns) (hb : RunsOk c r E.bRuns) (hA : AccuratePar F FR T E d e μ)
    (hμ : 0 ≤ μ) (hE : Ascends E) (P : Plat R) (hP : SortsIndices P) (hkeep : SortKeepsSorted P)
    (cfg : Config R) (hN : cfg.N = N) (hsz : cfg.nev + cfg.nex = E.nevex) (hmax : Even cfg.maxDeg)
    (ritzv0 resid0 : ℕ → R) (g : GSt K N) (hH : (valM F g.H).IsHermitian)
    (hsym : cfg.symCheck = true → symCheckG T E g.H = true)
    {n : ℕ} {u : Conf fun p => Except Err (Outcome R Unit) × Own K r c p}
    (hr : Runs (fun p : Pos r c => solveProg T.const E P cfg ritzv0 resid0 p (scatter r c g p.1 p.2)) n u)
    (hu : Final u) {p : Pos r c} {o : Outcome R Unit} {own : Own K r c p} (ho : u p = .ret (.ok o, own))
    (hit : 0 < o.iterations) :
    ∃ (V : ℕ → Fin N → K) (H' : Matrix (Fin N) (Fin N) K) (shifts : List R),
      (∀ q, ∃ own, u q = .ret (.ok o, own) ∧ (∀ j a, own.C j a = V j (r.glob q.1 a)) ∧
        ∀ a b, own.H a b = H' (r.glob q.1 a) (c.glob q.2 b)) ∧
      ∀ C : ℝ, (∀ x ∈ shifts, |FR.val x| ≤ C) →
        (∃ σ : Equiv.Perm ℕ, PermOn 0 cfg.nev σ ∧ (o.iterations = 1 → σ = 1) ∧ ∀ i, i < cfg.nev + cfg.nex →
          let x := FR.val (o.ritzv i)
          let v := valV F (V (σ i))
          let ν := nu FR.u μ e
          let ρ := Verif.nrm2 ((valM F g.H).mulVec v - (x : 𝕜) • v)
          |FR.val (o.resid (σ i)) - ρ| ≤
            ν * ρ + (1 + ν) * (slack F.u (d + e) o.iterations (frob (valM F g.H)) C x * Verif.nrm2 v)) ∧
        (∀ i j, i ≠ j → H' i j = g.H i j) ∧
        ∀ i, ‖F.val (H' i i) - F.val (g.H i i)‖ ≤ ((1 + F.u) ^ (2 * o.iterations) - 1) * (‖F.val (g.H i i)‖ + C) := by
  have hends := C77_outcome_partial P cfg ritzv0 resid0 hc hb T g hr hu
  have hsim := solve_sim (traced_sim (gOps T E)) P cfg ritzv0 resid0 (be := (g, [])) (be' := g) rfl
  generalize hx : solve P (gOps T E) cfg ritzv0 resid0 g = x at hends hsim
  generalize hy : solve P (traced (gOps T E)) cfg ritzv0 resid0 (g, []) = y at hsim
  cases hsim with
  | error => obtain ⟨d, hd⟩ := hends p; rw [ho] at hd; cases hd
  | @ok out out' hrel =>
    have hp : u p = _ := hends p
    rw [ho] at hp
    have e1 : o = ⟨out'.ritzv, out'.resid, out'.iterations, out'.locked, ()⟩ := by
      injection hp with hp; injection hp with hp; injection hp
    subst e1
    have hbe : out.be.1 = out'.be := hrel.be
    refine ⟨out.be.1.C, out.be.1.H, shiftsOf out.be.2, fun q => ⟨_, hends q, ?_, ?_⟩, fun C hC => ⟨?_, ?_⟩⟩
    · intro j a; rw [hbe]; rfl
    · intro a b; rw [hbe]; rfl
    · have key := C73_residual_mpi_partial hA hμ hE P hP hkeep cfg hN hsz hmax ritzv0 resid0 g hH out hy hsym
        (by rw [hrel.iterations]; exact hit) hC
      rw [hrel.iterations, hrel.ritzv, hrel.resid] at key
      exact key
    · have key := C74_drift_mpi_partial hA hμ P hP.permutes cfg ritzv0 resid0 g out hy hsym hC
      rw [hrel.iterations] at key
      exact key

end
/-! ### A run -/

namespace Four
open Stuck (rowL colL sum)

/-- The order of the numbers the floating-point numbers stand for. -/
noncomputable instance {p : ℕ} : LinearOrder (Fp p) where
  le := fun a b => a.val ≤ b.val
  lt := fun a b => a.val < b.val
  lt_iff_le_not_ge := fun a b => lt_iff_le_not_ge (a := a.val) (b := b.val)
  le_refl := fun a => le_refl a.val
  le_trans := fun _ _ _ h1 h2 => le_trans (α := ℚ) h1 h2
  le_antisymm := fun a b h1 h2 => by
    cases a; cases b
    exact congrArg Fp.mk (le_antisymm h1 h2)
  le_total := fun a b => le_total a.val b.val
  toDecidableLE := fun a b => inferInstanceAs (Decidable (a.val ≤ b.val))
  toDecidableLT := inferInstance
  toDecidableEq := inferInstance

theorem exists_sqrt (p : ℕ) (x : Fp p) :
    ∃ y : Fp p, 0 ≤ x.toReal → |y.toReal - Real.sqrt x.toReal| ≤ (1 / 2) ^ p * Real.sqrt x.toReal := by
  rcases lt_or_ge 0 x.toReal with h | h
  · have hs := Real.sqrt_pos.mpr h
    have hu : (0 : ℝ) < (1 / 2) ^ p * Real.sqrt x.toReal := by positivity
    obtain ⟨q, h1, h2⟩ := exists_rat_btwn (show Real.sqrt x.toReal < Real.sqrt x.toReal + (1 / 2) ^ p * Real.sqrt x.toReal
      by linarith)
    refine ⟨⟨q⟩, fun _ => ?_⟩
    show |(q : ℝ) - _| ≤ _
    rw [abs_of_pos (by linarith)]
    linarith
  · refine ⟨⟨0⟩, fun h' => ?_⟩
    have : x.toReal = 0 := le_antisymm h h'
    rw [this]
    simp [Fp.toReal]

/-- A square root with small relative error. -/
noncomputable def sqrt {p : ℕ} (x : Fp p) : Fp p := (exists_sqrt p x).choose

/-- The kernels of `Stuck`, with sums of squares and square roots of small relative error; the dense eigensolver is for
matrices of dimension one. -/
noncomputable def kern : Kern (Fp 53) (Fp 53) :=
  { Stuck.kern 53 ⟨8⟩ with
    gemmAdj := fun H α β X Y a k =>
      let s := sum fun j => H j a * X j k
      if α = 1 ∧ β = 0 then s else α * s + β * Y a k
    heevd := fun {b} M => (fun i => if b = 1 then M i i else 0, fun i j => if i = j then 1 else 0)
    normp2 := fun x => ⟨rnd 53 (∑ i, (x i).val ^ 2)⟩
    sqrt := sqrt }

noncomputable def env : DEnv (Fp 53) (Fp 53) := { Stuck.env with kern := kern }

/-- All reductions from left to right, starting from zero. -/
def red : Red1 (Fp 53) (Fp 53) rowL colL where
  colK := fun x i => sum fun q => x q i
  rowK := fun x i => sum fun q => x q i
  colR := fun x i => sum fun q => x q i
  rowR := fun x i => sum fun q => x q i

theorem foldl_sum {p : ℕ} {ι : Type*} (y : ι → Fp p) (l : List ι) {s : Multiset ι} {e : ℕ} {a : Fp p}
    (h : Sum (Fp.fl p) y s e a) :
    Sum (Fp.fl p) y (s + l) (e + l.length) (l.foldl (fun a k => a + y k) a) := by
  induction l generalizing s e a with
  | nil => simpa using h
  | cons i l ih =>
    have := ih (h.add (.value i))
    have e1 : s + ((i :: l : List ι) : Multiset ι) = s + {i} + l := by
      rw [← Multiset.cons_coe, ← Multiset.singleton_add, add_assoc]
    have e2 : e + (i :: l).length = max e 0 + 1 + l.length := by simp; omega
    rw [e1, e2]
    exact this

theorem sum_sum {p n : ℕ} (y : Fin n → Fp p) : Sum (Fp.fl p) y Finset.univ.val n (sum y) := by
  have := foldl_sum y (List.finRange n) .zero
  have e1 : (0 : Multiset (Fin n)) + (List.finRange n : Multiset (Fin n)) = Finset.univ.val := by
    rw [zero_add]; rfl
  have e2 : 0 + (List.finRange n).length = n := by simp
  rw [e1, e2] at this
  exact this

theorem sum_dot {p n : ℕ} (y z : Fin n → Fp p) :
    ∃ d' ≤ 1 + n, Dot (Fp.fl p) (Finset.univ.val.map fun k => (y k, z k)) d' (sum fun k => y k * z k) := by
  obtain ⟨d', h1, h2⟩ := (sum_sum fun k => y k * z k).dot (F := Fp.fl p) (m := fun k => {(y k, z k)}) (d := 1)
    fun k => ⟨1, le_rfl, .prod _ _⟩
  refine ⟨d', h1, ?_⟩
  have hm := Multiset.sum_map_singleton ((Finset.univ.val : Multiset (Fin n)).map fun k => (y k, z k))
  rw [Multiset.map_map] at hm
  rw [← hm]
  exact h2

theorem size_row (i : Fin rowL.procs) : rowL.size i ≤ 2 := by
  revert i; decide
theorem size_col (i : Fin colL.procs) : colL.size i ≤ 2 := by
  revert i; decide

/-- The kernels and reductions are accurate in the sense of the specification. -/
theorem accuratePar : AccuratePar (Fp.fl 53) (Fp.fl 53) red env 3 3 ((1 / 2) ^ 53) where
  ofBase := fun x => rfl
  neg := fun x => by show ((-x.val : ℚ) : ℝ) = -(x.val : ℝ); push_cast; rfl
  add := fun _ _ => rfl
  gemmAdj := by
    intro b i j H X Y a k
    obtain ⟨d', h1, h2⟩ := sum_dot (fun q => H q a) fun q => X q k
    have := size_row i
    exact ⟨d', by omega, h2⟩
  axpy := fun a x y i => ⟨2, le_rfl, Dot.add (F := Fp.fl 53) (.prod a (x i)) (.value (y i))⟩
  colK := fun x t => ⟨2, by omega, sum_sum fun q => x q t⟩
  rowR := fun x t => ⟨3, le_rfl, sum_sum fun q => x q t⟩
  normp2 := by
    intro q w
    have h := Fp.err_real (p := 53) (∑ i, (w i).val ^ 2)
    have e1 : ((∑ i, (w i).val ^ 2 : ℚ) : ℝ) = ∑ i, ‖(Fp.fl 53).val (w i)‖ ^ 2 := by
      push_cast
      refine Finset.sum_congr rfl fun i _ => ?_
      rw [Real.norm_eq_abs, sq_abs]
      rfl
    rw [e1] at h
    rw [abs_of_nonneg (a := ∑ i, ‖(Fp.fl 53).val (w i)‖ ^ 2) (Finset.sum_nonneg fun _ _ => sq_nonneg _)] at h
    exact h
  sqrt := fun x hx => (exists_sqrt 53 x).choose_spec hx
  small := ⟨by norm_num, by show (1 / 2 : ℝ) ^ 53 ≤ 1; norm_num⟩

theorem ascends : Ascends env := by
  intro b M i j hij
  show (if b = 1 then M i i else 0) ≤ (if b = 1 then M j j else 0)
  split_ifs with h
  · subst h
    rw [Subsingleton.elim i j]
  · exact le_rfl

theorem plat_sorts : SortsIndices Stuck.plat := fun u key => Toy.plat_sorts u fun i => (key i).val
theorem plat_keeps : SortKeepsSorted Stuck.plat := fun u key h => Toy.plat_keeps u (fun i => (key i).val) h

theorem hermitian : (valM (Fp.fl 53) Stuck.glob.H).IsHermitian := by
  have h : ∀ i j : Fin 4, Stuck.mat i j = Stuck.mat j i := by
    intro i j
    by_cases hij : i = j
    · rw [hij]
    · unfold Stuck.mat
      rw [if_neg hij, if_neg (Ne.symm hij)]
      simp only [or_comm, add_comm]
  ext i j
  show star ((Fp.fl 53).val (Stuck.mat j i)) = (Fp.fl 53).val (Stuck.mat i j)
  rw [h j i]
  simp

/-- Non-vacuity of `C73_residual_mpi_partial`, `C73_eigenvalue_mpi_partial`, `C74_drift_mpi_partial` and
`C73_processes_partial`: double precision on a grid of two times three processes.  The numbers of the last line are
small enough for `C73_eigenvalue_mpi_partial`, and a bound of the shifts always exists. -/
example : AccuratePar (Fp.fl 53) (Fp.fl 53) red env 3 3 ((1 / 2) ^ 53) ∧ Ascends env ∧ SortsIndices Stuck.plat ∧
    SortKeepsSorted Stuck.plat ∧ (Stuck.cfg1 Stuck.tol).N = 4 ∧
    (Stuck.cfg1 Stuck.tol).nev + (Stuck.cfg1 Stuck.tol).nex = env.nevex ∧ Even (Stuck.cfg1 Stuck.tol).maxDeg ∧
    (valM (Fp.fl 53) Stuck.glob.H).IsHermitian ∧ (Stuck.cfg1 Stuck.tol).symCheck = false ∧
    (∃ out, solve Stuck.plat (traced (gOps red env)) (Stuck.cfg1 Stuck.tol) Stuck.val0 (fun _ => 0) (Stuck.glob, [])
      = .ok out ∧ 0 < out.iterations ∧ ∃ C : ℝ, ∀ x ∈ shiftsOf out.be.2, |(Fp.fl 53).val x| ≤ C) ∧
    RunsOk rowL colL env.cRuns ∧ RunsOk colL rowL env.bRuns ∧
    (∃ n u p o own, Runs (fun p : Pos rowL colL => solveProg red.const env Stuck.plat (Stuck.cfg1 Stuck.tol) Stuck.val0
      (fun _ => 0) p (scatter rowL colL Stuck.glob p.1 p.2)) n u ∧ Final u ∧ u p = .ret (.ok o, own) ∧ 0 < o.iterations) ∧
    nu (Fp.fl 53).u ((1 / 2) ^ 53) 3 ≤ 1 := by
  have hbound : ∀ l : List (Fp 53), ∃ C : ℝ, ∀ x ∈ l, |(Fp.fl 53).val x| ≤ C := by
    intro l
    induction l with
    | nil => exact ⟨0, by simp⟩
    | cons a l ih =>
      obtain ⟨C, hC⟩ := ih
      refine ⟨max C |(Fp.fl 53).val a|, fun x hx => ?_⟩
      rcases List.mem_cons.mp hx with rfl | hx
      · exact le_max_right _ _
      · exact (hC x hx).trans (le_max_left _ _)
  have hdef : ∀ {S : Type} (ops : Chase (Fp 53) S) (be : S), ∃ out, solve Stuck.plat ops (Stuck.cfg1 Stuck.tol) Stuck.val0
      (fun _ => 0) be = .ok out ∧ 0 < out.iterations := by
    intro S ops be
    obtain ⟨out, h1, h2⟩ := C51_approx_solve_defined Stuck.plat ops (Stuck.cfg1 Stuck.tol) rfl (by decide) (by decide)
      (by decide) (by decide) (by decide) (by decide) (by decide) (by intro h; cases h) Stuck.val0 (fun _ => 0) be
    exact ⟨out, h1, h2 (by intro h; cases h) (by decide)⟩
  refine ⟨accuratePar, ascends, plat_sorts, plat_keeps, rfl, rfl, by decide, hermitian, rfl, ?_, Stuck.envRuns.1,
    Stuck.envRuns.2, ?_, ?_⟩
  · obtain ⟨out, h1, h2⟩ := hdef (traced (gOps red env)) (Stuck.glob, [])
    exact ⟨out, h1, h2, hbound _⟩
  · obtain ⟨out, h1, h2⟩ := hdef (gOps red env) Stuck.glob
    obtain ⟨n, hn⟩ := prog_gives red env Stuck.envRuns.1 Stuck.envRuns.2
      (solveT Stuck.plat (Stuck.cfg1 Stuck.tol) Stuck.val0 fun _ => 0) Stuck.glob
    have hfin : Final (fun p : Pos rowL colL => (.ret (((solveT Stuck.plat (Stuck.cfg1 Stuck.tol) Stuck.val0 fun _ => 0).run
        (gOps red env) Stuck.glob).1, scatter rowL colL ((solveT Stuck.plat (Stuck.cfg1 Stuck.tol) Stuck.val0 fun _ => 0).run
        (gOps red env) Stuck.glob).2 p.1 p.2) : Prog (fun p => Except Err (Outcome (Fp 53) Unit) × Own (Fp 53) rowL colL p)
        p)) := fun p => ⟨_, rfl⟩
    have he := C77_outcome_partial (E := env) Stuck.plat (Stuck.cfg1 Stuck.tol) Stuck.val0 (fun _ => 0) Stuck.envRuns.1
      Stuck.envRuns.2 red Stuck.glob hn hfin ((0 : Fin 2), (0 : Fin 3))
    rw [h1] at he
    exact ⟨n, _, _, _, _, hn, hfin, he, h2⟩
  · show (1 + (1 / 2 : ℝ) ^ 53) * (1 + (1 / 2) ^ 53) ^ 4 - 1 ≤ 1
    norm_num

end Four
end Par
end Rounded
end Verif
