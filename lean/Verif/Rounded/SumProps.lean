/-
C90 in floating-point arithmetic: sums of returned values are not below the sums of the lowest eigenvalues of the matrix
handed in by more than the returned residuals and rounding errors explain.
-/
import Verif.Rounded.DistinctProps
import Verif.Backend.VariationalProps

set_option linter.unusedSectionVars false

namespace Verif
namespace Rounded

open Matrix Finset

/-- C90 up to `B` for each value: with the eigenvalues `w` in ascending order, the sum of any `m` of the `n` values lies
between the sum of the `m` smallest minus `m B` and the sum of the `m` largest eigenvalues plus `m B`. -/
def VariationalUpTo {𝕜 : Type*} [RCLike 𝕜] {N : ℕ} (H : Matrix (Fin N) (Fin N) 𝕜) (n : ℕ) (vals : ℕ → ℝ) (B : ℝ) : Prop :=
  ∀ w, EigenvaluesOf H w → Monotone w → ∀ T ⊆ range n,
    ∑ k with k.val < T.card, w k - T.card * B ≤ ∑ i ∈ T, vals i ∧
      ∑ i ∈ T, vals i ≤ ∑ k with N ≤ k.val + T.card, w k + T.card * B

/-- `VariationalUpTo` without an error is the outcome promised by C90. -/
theorem variationalUpTo_zero {𝕜 : Type*} [RCLike 𝕜] {N : ℕ} (H : Matrix (Fin N) (Fin N) 𝕜) (n : ℕ) (vals : ℕ → ℝ) :
    VariationalUpTo H n vals 0 ↔ Variational H n vals := by
  simp [VariationalUpTo, Variational]

/-- Values that stand for different eigenvalues. -/
theorem variational_of_standFor {𝕜 : Type*} [RCLike 𝕜] {N : ℕ} {H : Matrix (Fin N) (Fin N) 𝕜} {n : ℕ} {vals : ℕ → ℝ}
    {B : ℝ} (h : StandForDifferent H (range n) vals B) : VariationalUpTo H n vals B := by
  classical
  intro w hw hm T hT
  obtain ⟨f, hf, hd⟩ := h w hw
  let g : T → Fin N := fun i => f ⟨i, hT i.2⟩
  have hg : Function.Injective g := fun i j e => by
    have := hf e
    exact Subtype.ext (Subtype.mk.inj this)
  let c : Fin N → ℝ := fun k => if k ∈ univ.image g then 1 else 0
  have hc0 : ∀ k, 0 ≤ c k := fun k => by simp only [c]; split_ifs <;> norm_num
  have hc1 : ∀ k, c k ≤ 1 := fun k => by simp only [c]; split_ifs <;> norm_num
  have hsum : ∀ v : Fin N → ℝ, ∑ k, c k * v k = ∑ i : T, v (g i) := fun v => by
    simp only [c, ite_mul, one_mul, zero_mul]
    rw [Finset.sum_ite_mem, Finset.univ_inter, Finset.sum_image fun i _ j _ e => hg e]
  have hcard : ∑ k, c k = (T.card : ℕ) := by
    have := hsum fun _ => 1
    simpa using this
  have h1 := sum_smallest_le hm hc0 hc1 hcard
  have h2 := le_sum_largest hm hc0 hc1 hcard
  rw [hsum] at h1 h2
  have hT' : ∑ i ∈ T, vals i = ∑ i : T, vals i := by rw [← Finset.sum_attach T, Finset.univ_eq_attach]
  have hlow : ∑ i : T, w (g i) - T.card * B ≤ ∑ i : T, vals i := by
    have : ∑ i : T, (w (g i) - B) ≤ ∑ i : T, vals i :=
      Finset.sum_le_sum fun i _ => by linarith [(abs_le.mp (hd ⟨i, hT i.2⟩)).2]
    simpa [Finset.sum_sub_distrib] using this
  have hhigh : ∑ i : T, vals i ≤ ∑ i : T, w (g i) + T.card * B := by
    have : ∑ i : T, vals i ≤ ∑ i : T, (w (g i) + B) :=
      Finset.sum_le_sum fun i _ => by linarith [(abs_le.mp (hd ⟨i, hT i.2⟩)).1]
    simpa [Finset.sum_add_distrib] using this
  rw [hT']
  exact ⟨by linarith, by linarith⟩

section
variable {K 𝕜 R : Type*} [RCLike 𝕜] {N : ℕ} {F : Fl K 𝕜} {valR : R → ℝ} {A : Arith K R N} {E : Params} {d d' : ℕ}
  {ε δ ν : ℝ}
variable [Add R] [Sub R] [Mul R] [Div R] [Neg R] [Zero R] [One R] [NatCast R] [LT R] [DecidableLT R]

/-- **C90 in floating-point arithmetic**, single-process CPU backend (partial: up to the bound of `C85_rounded_partial`,
which contains the returned residuals; up to rounding errors alone: `C90_ritz_partial`).  For the wanted values (`m = nev`) and for all (`m = nev + nex`). -/
theorem C90_rounded_partial (hA : OrthoKernels F A E.nevex d δ) (hε : 0 ≤ ε) (hδ : 0 ≤ δ)
    (hacc : Accurate F valR A d' ν) (hν : 0 ≤ ν) (hν1 : ν < 1) (P : Plat R)
    (hP : PermutesIndices P) (cfg : Config R) (hN : cfg.N = N) (hsz : cfg.nev + cfg.nex = E.nevex)
    (hmax : Even cfg.maxDeg) (ritzv0 resid0 : ℕ → R) (s : Seq.St K N) (hH : (valM F s.H).IsHermitian)
    (out : Outcome R (Seq.St K N × List (Call R)))
    (h : solve P (traced (ops A E)) cfg ritzv0 resid0 (s, []) = .ok out)
    (hsym : cfg.symCheck = true → A.symCheck s.H = true) (hit : 0 < out.iterations)
    (hq : QrAvoids P (ops A E) cfg ritzv0 resid0 s fun k c t => Inaccurate F A E ε k c t.C)
    {C V D : ℝ} (hC : ∀ c ∈ shiftsOf out.be.2, |valR c| ≤ C)
    (hV : ∀ i, i < cfg.nev + cfg.nex → |valR (out.ritzv i)| ≤ V)
    (hD : ∀ i j, i < cfg.nev + cfg.nex → j < cfg.nev + cfg.nex → |valR (out.ritzv i) - valR (out.ritzv j)| ≤ 2 * D)
    (m : ℕ) (hm : m = cfg.nev ∨ m = cfg.nev + cfg.nex) :
    let n := cfg.nev + cfg.nex
    let τ := tau n ε δ (gam F.u d)
    let ρ := (Real.sqrt (∑ i ∈ range m, valR (out.resid i) ^ 2) +
      Real.sqrt m * ((1 + ν) * (1 + τ) * slack F.u d' out.iterations (frob (valM F s.H)) C V)) / (1 - ν)
    2 * τ + 2 * τ * (1 + τ) * n < 1 →
    VariationalUpTo (valM F s.H) m (fun i => valR (out.ritzv i)) (distB τ m ρ D) := fun hpos =>
  variational_of_standFor (C85_rounded_partial hA hε hδ hacc hν hν1 P hP cfg hN hsz hmax ritzv0 resid0 s hH out h hsym hit
    hq hC hV hD m hm hpos)

end

namespace Par
open Verif.Spmd
open Mpi (Layout GSt RunsOk scatter)
open Mpi.Spmd (Pos Own EndsWith)

section
variable {K R 𝕜 : Type} [RCLike 𝕜] [LinearOrder R] [Add R] [Sub R] [Mul R] [Div R] [Neg R] [Zero R] [One R] [NatCast R]
  {N : ℕ} {r c : Layout N} {T : Red1 K R r c} {E : DEnv K R} {F : Fl K 𝕜} {FR : Fl R ℝ} {d e d' : ℕ} {ε δ μ : ℝ}

/-- **C90 in floating-point arithmetic**, distributed CPU backend (partial), reductions that give the same bits on
every communicator: as `C90_rounded_partial`. -/
theorem C90_rounded_mpi_partial (hA : OrthoPar F r E E.nevex d' δ) (hε : 0 ≤ ε) (hδ : 0 ≤ δ)
    (hacc : AccuratePar F FR T E d e μ) (hμ : 0 ≤ μ) (hν1 : nu FR.u μ e < 1)
    (hE : Ascends E) (P : Plat R) (hP : SortsIndices P) (hkeep : SortKeepsSorted P)
    (cfg : Config R) (hN : cfg.N = N) (hsz : cfg.nev + cfg.nex = E.nevex) (hmax : Even cfg.maxDeg)
    (ritzv0 resid0 : ℕ → R) (g : GSt K N) (hH : (valM F g.H).IsHermitian)
    (out : Outcome R (GSt K N × List (Call R)))
    (h : solve P (traced (gOps T E)) cfg ritzv0 resid0 (g, []) = .ok out)
    (hsym : cfg.symCheck = true → symCheckG T E g.H = true) (hit : 0 < out.iterations)
    (hq : QrAvoids P (gOps T E) cfg ritzv0 resid0 g fun k x t => Inaccurate F (distArith T E) E.toParams ε k x t.C)
    {C V D : ℝ} (hC : ∀ x ∈ shiftsOf out.be.2, |FR.val x| ≤ C)
    (hV : ∀ i, i < cfg.nev + cfg.nex → |FR.val (out.ritzv i)| ≤ V)
    (hD : ∀ i j, i < cfg.nev + cfg.nex → j < cfg.nev + cfg.nex → |FR.val (out.ritzv i) - FR.val (out.ritzv j)| ≤ 2 * D)
    (m : ℕ) (hm : m = cfg.nev ∨ m = cfg.nev + cfg.nex) :
    let n := cfg.nev + cfg.nex
    let τ := tau n ε δ (gam F.u d')
    let ν := nu FR.u μ e
    let ρ := (Real.sqrt (∑ i ∈ range m, FR.val (out.resid i) ^ 2) +
      Real.sqrt m * ((1 + ν) * (1 + τ) * slack F.u (d + e) out.iterations (frob (valM F g.H)) C V)) / (1 - ν)
    2 * τ + 2 * τ * (1 + τ) * n < 1 →
    VariationalUpTo (valM F g.H) m (fun i => FR.val (out.ritzv i)) (distB τ m ρ D) := fun hpos =>
  variational_of_standFor (C85_rounded_mpi_partial hA hε hδ hacc hμ hν1 hE P hP hkeep cfg hN hsz hmax ritzv0 resid0 g hH
    out h hsym hit hq hC hV hD m hm hpos)

end
end Par

/-! ### Runs that meet the hypotheses -/

/-- Non-vacuity of `C90_rounded_partial`: double precision, a Householder QR with error `2^-40`. -/
example : ∃ (out : Outcome (Fp 53) (Seq.St (Fp 53) 2 × List (Call (Fp 53)))) (C V D : ℝ),
    solve (Two.plat 53) (traced (ops Two.arithQ Two.params)) (Two.cfg 53) (Two.ritzv0 53) (fun _ => 0)
      (Two.start 53, []) = .ok out ∧ 0 < out.iterations ∧
    (∀ c ∈ shiftsOf out.be.2, |c.toReal| ≤ C) ∧ (∀ i, i < 2 → |(out.ritzv i).toReal| ≤ V) ∧
    (let τ := tau 2 ((1 / 2) ^ 40) 0 (gam (Fp.fl 53).u 3)
     let ρ := (Real.sqrt (∑ i ∈ range 2, (out.resid i).toReal ^ 2) + Real.sqrt (2 : ℕ) *
       ((1 + 1 / 2) * (1 + τ) * slack (Fp.fl 53).u 2 out.iterations (frob (valM (Fp.fl 53) (Two.start 53).H)) C V)) / (1 - 1 / 2)
     VariationalUpTo (valM (Fp.fl 53) (Two.start 53).H) 2 (fun i => (out.ritzv i).toReal) (distB τ 2 ρ D)) := by
  have hq : ∀ X, QrOf ((1 / 2) ^ 40) Two.params.nevex (fun j => valV (Fp.fl 53) (X j))
      fun j => valV (Fp.fl 53) (Two.arithQ.hhQR X j) := fun X => hhqr_ok le_rfl X
  obtain ⟨out, h1, h2⟩ := C51_approx_solve_defined (Two.plat 53) (traced (ops Two.arithQ Two.params)) (Two.cfg 53) rfl
    (by decide) (by decide) (by decide) (by decide) (by decide) (by decide) (by decide) (by intro h; cases h)
    (Two.ritzv0 53) (fun _ => 0) (Two.start 53, [])
  have hit := h2 (fun _ => rfl) (by decide)
  obtain ⟨C, V, D, hC, hV, hD⟩ := exists_bounds ((shiftsOf out.be.2).map Fp.toReal) (fun i => (out.ritzv i).toReal) 2
  have hC' : ∀ c ∈ shiftsOf out.be.2, |c.toReal| ≤ C := fun c hc => hC _ (List.mem_map_of_mem hc)
  have ht := tau_tiny
  have h0 : 0 ≤ tau 2 ((1 / 2) ^ 40) 0 (gam ((1 / 2) ^ 53) 3) := tau_nonneg (by positivity) le_rfl (by positivity)
  refine ⟨out, C, V, D, h1, hit, hC', hV, C90_rounded_partial Two.orthoKernels (by positivity) le_rfl Two.accurateQ
    (by norm_num) (by norm_num) (Two.plat 53) (Two.plat_permutes 53) (Two.cfg 53) rfl rfl (by decide) _ _ _
    (Two.start_hermitian 53) out h1 (fun _ => rfl) hit
    (householder_avoids rfl hq (fun s : Seq.St (Fp 53) 2 => s.C) _ _ _ _ _ _) hC' hV hD 2 (Or.inr rfl) ?_⟩
  show 2 * tau 2 ((1 / 2) ^ 40) 0 (gam ((1 / 2) ^ 53) 3) + 2 * tau 2 ((1 / 2) ^ 40) 0 (gam ((1 / 2) ^ 53) 3) *
    (1 + tau 2 ((1 / 2) ^ 40) 0 (gam ((1 / 2) ^ 53) 3)) * ((2 : ℕ) : ℝ) < 1
  generalize tau 2 ((1 / 2) ^ 40) 0 (gam ((1 / 2) ^ 53) 3) = x at *
  push_cast
  nlinarith

namespace Par
namespace Four
open Verif.Spmd
open Mpi (Layout GSt RunsOk scatter)
open Stuck (rowL colL sum)

/-- Non-vacuity of `C90_rounded_mpi_partial`: double precision on a grid of two times three processes. -/
example : ∃ (out : Outcome (Fp 53) (GSt (Fp 53) 4 × List (Call (Fp 53)))) (C V D : ℝ),
    solve Stuck.plat (traced (gOps red envQ)) cfg2 Stuck.val0 (fun _ => 0) (Stuck.glob, []) = .ok out ∧
    0 < out.iterations ∧ (∀ x ∈ shiftsOf out.be.2, |(Fp.fl 53).val x| ≤ C) ∧
    (∀ i, i < 2 → |(Fp.fl 53).val (out.ritzv i)| ≤ V) ∧
    (let τ := tau 2 ((1 / 2) ^ 40) 0 (gam (Fp.fl 53).u 3)
     let ν := nu (Fp.fl 53).u ((1 / 2) ^ 53) 3
     let ρ := (Real.sqrt (∑ i ∈ range 2, (Fp.fl 53).val (out.resid i) ^ 2) + Real.sqrt (2 : ℕ) *
       ((1 + ν) * (1 + τ) * slack (Fp.fl 53).u (3 + 3) out.iterations (frob (valM (Fp.fl 53) Stuck.glob.H)) C V)) / (1 - ν)
     VariationalUpTo (valM (Fp.fl 53) Stuck.glob.H) 2 (fun i => (Fp.fl 53).val (out.ritzv i)) (distB τ 2 ρ D)) := by
  obtain ⟨out, h1, h2⟩ := C51_approx_solve_defined Stuck.plat (traced (gOps red envQ)) cfg2 rfl (by decide) (by decide)
    (by decide) (by decide) (by decide) (by decide) (by decide) (by intro h; cases h) Stuck.val0 (fun _ => 0) (Stuck.glob, [])
  have hit := h2 (by intro h; cases h) (by decide)
  obtain ⟨C, V, D, hC, hV, hD⟩ := exists_bounds ((shiftsOf out.be.2).map (Fp.fl 53).val) (fun i => (Fp.fl 53).val (out.ritzv i)) 2
  have hC' : ∀ c ∈ shiftsOf out.be.2, |(Fp.fl 53).val c| ≤ C := fun c hc => hC _ (List.mem_map_of_mem hc)
  have ht := tau_tiny
  have h0 : 0 ≤ tau 2 ((1 / 2) ^ 40) 0 (gam ((1 / 2) ^ 53) 3) := tau_nonneg (by positivity) le_rfl (by positivity)
  have hν1 : nu (Fp.fl 53).u ((1 / 2) ^ 53) 3 < 1 := by
    show (1 + (1 / 2 : ℝ) ^ 53) * (1 + (1 / 2) ^ 53) ^ 4 - 1 < 1
    norm_num
  refine ⟨out, C, V, D, h1, hit, hC', hV, C90_rounded_mpi_partial orthoPar (by positivity) le_rfl accurateParQ (by positivity)
    hν1 (fun b M i j h => ascends b M i j h) Stuck.plat plat_sorts plat_keeps cfg2 rfl rfl (by decide) _ _ _ hermitian out h1
    (by intro h; cases h) hit
    (householder_avoids (E := envQ.toParams) rfl qr_ok (fun g : GSt (Fp 53) 4 => g.C) _ _ _ _ _ _) hC' hV hD 2 (Or.inr rfl) ?_⟩
  show 2 * tau 2 ((1 / 2) ^ 40) 0 (gam ((1 / 2) ^ 53) 3) + 2 * tau 2 ((1 / 2) ^ 40) 0 (gam ((1 / 2) ^ 53) 3) *
    (1 + tau 2 ((1 / 2) ^ 40) 0 (gam ((1 / 2) ^ 53) 3)) * ((2 : ℕ) : ℝ) < 1
  generalize tau 2 ((1 / 2) ^ 40) 0 (gam ((1 / 2) ^ 53) 3) = x at *
  push_cast
  nlinarith

end Four
end Par
end Rounded
end Verif
