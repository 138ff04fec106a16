/-
C87: C84 with Cholesky QR, the default of the library: the condition on the calls of `QR` becomes one on the kernels and on
the condition of the blocks which they are called with.
-/
import Verif.Solver.WatchMore
import Verif.Rounded.Chol
import Verif.Rounded.OrthoProps

set_option linter.unusedSectionVars false

namespace Verif
namespace Rounded

open Matrix Finset

/-! ### Specification -/

/-- The arithmetic's Cholesky variants are the three routines, made of the kernels `k`. -/
structure UsesChol {K R : Type*} {N n : ℕ} (A : Arith K R N) (k : CholKern K N n) (v : CholVariant) : Prop where
  qr1 : ∀ X, A.cholQR1 X = k.qr1 X
  qr2 : ∀ X, A.cholQR2 X = k.qr2 X
  shifted : ∀ X, A.shiftedcholQR2 X = k.shifted v X

/-- **The block suits the routine that `QR` chooses** for the estimate `cond`: with `σ` the smallest singular value of the
block after scaling its columns to norm one, `n sqrt(n) e` must be small against `σ²`.  For `cholQR1` the error in the
result grows with `σ⁻²`.  With a shift `s`, at most half of the square of every column, it suffices that
`n sqrt(n) e (σ² + ω)` is small against `σ²`, where `ω` is twice the ratio of `s` to the smallest square of a column;
but `σ²` and the shift together must be large against `n e`. -/
def Suited {K 𝕜 R : Type*} [RCLike 𝕜] {N : ℕ} (F : Fl K 𝕜) (A : Arith K R N) (n : ℕ) (eps e ε : ℝ) (cond : R)
    (X : ℕ → Fin N → K) : Prop :=
  ∃ σ, Conditioned F σ n X ∧
    if A.above cond then
      ∃ ω ≤ 1, (∀ j, j < n → 2 * shiftOf F eps n X ≤ ω * Verif.nrm2 (valV F (X j)) ^ 2) ∧
        (∀ j, j < n → 14 * n * e * Verif.nrm2 (valV F (X j)) ^ 2 ≤
          σ ^ 2 * Verif.nrm2 (valV F (X j)) ^ 2 + shiftOf F eps n X) ∧
        14080 * (n * Real.sqrt n * e) * (σ ^ 2 + ω + 7 * n * e) ≤ σ ^ 2
    else if A.below cond then 176 * (n * Real.sqrt n * e) ≤ σ ^ 2 ∧ 132 * (n * Real.sqrt n * e) ≤ ε * σ ^ 2
    else 704 * (n * Real.sqrt n * e) ≤ σ ^ 2

/-- A call of `QR` which uses Cholesky QR on a block that does not suit the chosen routine. -/
def IllConditioned {K 𝕜 R : Type*} [RCLike 𝕜] {N : ℕ} (F : Fl K 𝕜) (A : Arith K R N) (E : Params) (eps e ε : ℝ) (_ : ℕ)
    (cond : R) (X : ℕ → Fin N → K) : Prop :=
  cholDisable E.doCholQR E.envDisable ≠ 1 ∧ ¬ Suited F A E.nevex eps e ε cond X

/-! ### Inner products -/

/-- Error of a computed inner product, for every order of the operations. -/
theorem dotc_error {K 𝕜 : Type*} [RCLike 𝕜] {N : ℕ} {F : Fl K 𝕜} {x y : Fin N → K} {z : K} {d' n : ℕ}
    (h : Dot F (univ.val.map fun a => (F.conj (x a), y a)) d' z) (hd : d' ≤ n) :
    ‖F.val z - dotc (valV F x) (valV F y)‖ ≤ gam F.u n * (Verif.nrm2 (valV F x) * Verif.nrm2 (valV F y)) := by
  have h1 := h.error_le hd
  have e1 : F.sum (univ.val.map fun a => (F.conj (x a), y a)) = dotc (valV F x) (valV F y) := by
    unfold Fl.sum
    rw [Multiset.map_map]
    show ∑ n, F.val (F.conj (x n)) * F.val (y n) = _
    simp only [F.val_conj]
    rfl
  have e2 : F.abs (univ.val.map fun a => (F.conj (x a), y a)) ≤ Verif.nrm2 (valV F x) * Verif.nrm2 (valV F y) := by
    have e3 : F.abs (univ.val.map fun a => (F.conj (x a), y a)) = ∑ n, ‖F.val (x n)‖ * ‖F.val (y n)‖ := by
      unfold Fl.abs
      rw [Multiset.map_map]
      show ∑ n, ‖F.val (F.conj (x n))‖ * ‖F.val (y n)‖ = _
      simp only [F.val_conj, norm_star]
    rw [e3]
    exact Real.sum_mul_le_sqrt_mul_sqrt _ _ _
  rw [e1] at h1
  exact h1.trans (mul_le_mul_of_nonneg_left e2 (gam_nonneg F.u_nonneg n))

/-! ### Calls -/

section
variable {K 𝕜 R : Type*} [RCLike 𝕜] {N : ℕ} {F : Fl K 𝕜} {valR : R → ℝ} {A : Arith K R N} {E : Params} {d d' : ℕ}
  {eps e ε δ ν : ℝ} {k : CholKern K N E.nevex} {v : CholVariant}

/-- **A call of `QR` on a block that suits the chosen routine is accurate**, whether Cholesky QR succeeds or `QR` falls
back to Householder QR. -/
theorem accurate_of_suited (hk : CholAcc F k eps e) (hA : UsesChol A k v) (hn : 0 < E.nevex) (he : 0 ≤ e) (heps : 0 ≤ eps)
    (hε : 528 * (E.nevex * Real.sqrt E.nevex * e) ≤ ε)
    (hq : ∀ X, QrOf ε E.nevex (fun j => valV F (X j)) fun j => valV F (A.hhQR X j)) (l : ℕ) (cond : R)
    (X : ℕ → Fin N → K) (h : ¬ IllConditioned F A E eps e ε l cond X) : ¬ Inaccurate F A E ε l cond X := by
  intro hi
  apply hi
  unfold qrCols
  by_cases hd : cholDisable E.doCholQR E.envDisable = 1
  · rw [if_pos hd]; exact hq X
  rw [if_neg hd]
  have hs : Suited F A E.nevex eps e ε cond X := by
    by_contra hc
    exact h ⟨hd, hc⟩
  obtain ⟨σ, hc, hs⟩ := hs
  have main : ∀ y : ℤ × (ℕ → Fin N → K), (y.1 = 0 ∧ QrOf ε E.nevex (fun j => valV F (X j)) fun j => valV F (y.2 j)) ∨
      (y.1 ≠ 0 ∧ y.2 = X) → QrOf ε E.nevex (fun j => valV F (X j))
        fun j => valV F ((if y.1 ≠ 0 then A.hhQR y.2 else y.2) j) := by
    rintro y (⟨h1, h2⟩ | ⟨h1, h2⟩)
    · rw [if_neg (by simp [h1])]; exact h2
    · rw [if_pos h1, h2]; exact hq X
  refine main _ ?_
  by_cases ha : A.above cond = true
  · rw [if_pos ha] at hs ⊢
    obtain ⟨ω, h1, h2, h3, h4⟩ := hs
    rw [hA.shifted]
    exact hk.shifted hn he heps v hc h1 h2 h3 h4 hε
  · rw [if_neg ha] at hs ⊢
    by_cases hb : A.below cond = true
    · rw [if_pos hb] at hs ⊢
      rw [hA.qr1]
      by_cases h0 : (k.qr1 X).1 = 0
      · exact Or.inl ⟨h0, hk.qr1 hn he hc hs.1 hs.2 h0⟩
      · refine Or.inr ⟨h0, ?_⟩
        unfold CholKern.qr1 at h0 ⊢
        dsimp only at h0 ⊢
        split_ifs at h0 ⊢ with hp
        · rfl
        · exact absurd (not_not.mp hp) h0
    · rw [if_neg hb] at hs ⊢
      rw [hA.qr2]
      exact hk.qr2 hn he hc hs hε

end

/-! ### The theorems -/

section
variable {K 𝕜 R : Type*} [RCLike 𝕜] {N : ℕ} {F : Fl K 𝕜} {valR : R → ℝ} {A : Arith K R N} {E : Params} {d d' : ℕ}
  {eps e ε δ ν : ℝ} {k : CholKern K N E.nevex} {v : CholVariant}
variable [Add R] [Sub R] [Mul R] [Div R] [Neg R] [Zero R] [One R] [NatCast R] [LT R] [DecidableLT R]

/-- **C87**, single-process CPU backend.  The kernels of Cholesky QR have relative error at most `e`,
Householder QR (used where Cholesky QR fails, or throughout) has error at most `ε`, and no call of `QR` in the run had
Cholesky QR work on a block too ill-conditioned for the routine chosen.  Then the vectors are orthonormal up to `τ` after
every solve with at least one round. -/
theorem C87_cholesky (hA : OrthoKernels F A E.nevex d δ) (hδ : 0 ≤ δ) (hk : CholAcc F k eps e) (hu : UsesChol A k v)
    (he : 0 ≤ e) (heps : 0 ≤ eps) (hε : 528 * (E.nevex * Real.sqrt E.nevex * e) ≤ ε)
    (hq : ∀ X, QrOf ε E.nevex (fun j => valV F (X j)) fun j => valV F (A.hhQR X j)) (P : Plat R)
    (hP : PermutesIndices P) (cfg : Config R) (hN : cfg.N = N) (hsz : cfg.nev + cfg.nex = E.nevex)
    (hmax : Even cfg.maxDeg) (ritzv0 resid0 : ℕ → R) (s : Seq.St K N) (out : Outcome R (Seq.St K N))
    (h : solve P (ops A E) cfg ritzv0 resid0 s = .ok out)
    (hsym : cfg.symCheck = true → A.symCheck s.H = true) (hit : 0 < out.iterations)
    (hc : QrAvoids P (ops A E) cfg ritzv0 resid0 s fun l c t => IllConditioned F A E eps e ε l c t.C) :
    NearOrtho (tau (cfg.nev + cfg.nex) ε δ (gam F.u d)) (cfg.nev + cfg.nex) fun j => valV F (out.be.C j) := by
  rcases Nat.eq_zero_or_pos E.nevex with h0 | hn
  · rw [hsz, h0]
    exact ⟨fun i hi => absurd hi (by omega), fun i j hi => absurd hi (by omega)⟩
  have hε0 : 0 ≤ ε := le_trans (by positivity) hε
  exact C84_orthonormal_partial hA hε0 hδ P hP cfg hN hsz hmax ritzv0 resid0 s out h hsym hit
    (hc.mono fun l c t ht => not_imp_not.mp (accurate_of_suited hk hu hn he heps hε hq l c t.C) ht)

end

/-! ### The distributed backend -/

namespace Par
open Verif.Spmd
open Mpi (Layout GSt RunsOk scatter assemble)
open Mpi.Spmd (Pos Own EndsWith)

section
variable {K R 𝕜 : Type} [RCLike 𝕜] {N : ℕ} {r c : Layout N} {T : Red1 K R r c} {E : DEnv K R} {F : Fl K 𝕜} {d g : ℕ}
  {eps e : ℝ}

/-- **Contract of the kernels on every process**: the local Gram matrix has entries computed in any order of operations of
depth at most `d`, the reduction in the columns of the grid adds in any order of depth at most `g`, and together they have
relative error at most `e`; the factorisation, the triangular solve and the shift are as in `CholAcc`.  (Every process
factors the same matrix: `C77_outcome_partial`.) -/
structure CholPar (F : Fl K 𝕜) (T : Red1 K R r c) (E : DEnv K R) (d g : ℕ) (eps e : ℝ) : Prop where
  syherk : ∀ (p : Fin r.procs) (X : Matrix (Fin (r.size p)) (Fin E.nevex) K) (i j : Fin E.nevex), i ≤ j →
    ∃ d' ≤ d, Dot F (univ.val.map fun a => (F.conj (X a i), X a j)) d' (E.kern.syherk X i j)
  colK : ∀ {ι : Type} (x : Fin r.procs → ι → K) (t : ι), ∃ g' ≤ g, Sum F (fun i => x i t) univ.val g' (T.colK x t)
  depth : gam F.u (d + g) ≤ e
  potrf : ∀ G : Matrix (Fin E.nevex) (Fin E.nevex) K, (E.kern.potrf G).1 = 0 →
    (∀ j, F.val ((E.kern.potrf G).2 j j) ≠ 0) ∧ ∀ i j : Fin E.nevex, i ≤ j →
    ‖((upper F (E.kern.potrf G).2)ᴴ * upper F (E.kern.potrf G).2) i j - hpart F G i j‖ ≤
      e * ∑ l, ‖upper F (E.kern.potrf G).2 l i‖ * ‖upper F (E.kern.potrf G).2 l j‖
  succeeds : ∀ G : Matrix (Fin E.nevex) (Fin E.nevex) K, PosAbove F (2 * E.nevex * e) G → (E.kern.potrf G).1 = 0
  trsm : ∀ (p : Fin r.procs) (U : Matrix (Fin E.nevex) (Fin E.nevex) K) (X : ℕ → Fin (r.size p) → K),
    (∀ j, F.val (U j j) ≠ 0) → ∀ (j : Fin E.nevex) (a : Fin (r.size p)),
    ‖∑ l : Fin E.nevex, upper F U l j * F.val (E.kern.trsm U X l a) - F.val (X j a)‖ ≤
      e * ∑ l : Fin E.nevex, ‖upper F U l j‖ * ‖F.val (E.kern.trsm U X l a)‖
  shift : ∀ G : Matrix (Fin E.nevex) (Fin E.nevex) K, ∃ s : ℝ,
    |s - Real.sqrt N * eps * ∑ j, ‖F.val (G j j)‖| ≤ e * (Real.sqrt N * eps * ∑ j, ‖F.val (G j j)‖) ∧
    (∀ i j, i ≠ j → E.kern.shiftGram N G i j = G i j) ∧
    ∀ j, |RCLike.re (F.val (E.kern.shiftGram N G j j)) - (RCLike.re (F.val (G j j)) + s)| ≤
      e * (|RCLike.re (F.val (G j j))| + |s|)

/-- The kernels which the processes make up together. -/
noncomputable def distChol (T : Red1 K R r c) (E : DEnv K R) : CholKern K N E.nevex where
  gram := gram T E
  potrf := E.kern.potrf
  trsm := solveTri E r
  shift := E.kern.shiftGram N

/-- The distributed routines are the three routines, on the kernels which the processes make up together. -/
theorem usesChol [Neg R] [Zero R] : UsesChol (distArith T E) (distChol T E) ⟨true, false⟩ where
  qr1 := fun _ => rfl
  qr2 := fun _ => rfl
  shifted := fun X => by
    show shiftedChol2 T E X = _
    unfold shiftedChol2 CholKern.shifted distChol
    simp

theorem CholPar.acc (h : CholPar F T E d g eps e) : CholAcc F (distChol T E) eps e where
  potrf := h.potrf
  succeeds := h.succeeds
  shift := h.shift
  trsm := by
    intro U X hU j a
    obtain ⟨p, a, rfl⟩ := r.exists_glob a
    have e1 : ∀ l, (distChol T E).trsm U X l (r.glob p a) = E.kern.trsm U (cut r p X) l a := by
      intro l
      show assemble r (fun i => E.kern.trsm U (cut r i X) l) (r.glob p a) = _
      rw [Mpi.assemble_apply]
    simp only [e1]
    exact h.trsm p U (cut r p X) hU j a
  gram := by
    intro X i j hij
    obtain ⟨g', hg, hs⟩ := h.colK (fun p => flat (E.kern.syherk (getBlk 0 E.nevex (cut r p X)))) (i, j)
    obtain ⟨d', hd, hdot⟩ := hs.dot (m := fun p => univ.val.map fun a => (F.conj (X i (r.glob p a)), X j (r.glob p a)))
      (d := d) fun p => by
        obtain ⟨d', h1, h2⟩ := h.syherk p (getBlk 0 E.nevex (cut r p X)) i j hij
        have e0 : getBlk 0 E.nevex (cut r p X) = fun a (l : Fin E.nevex) => X l (r.glob p a) := by
          funext a l; simp [getBlk, cut, cutV]
        rw [e0] at h2
        exact ⟨d', h1, by rw [e0]; exact h2⟩
    rw [parts_map r fun n => (F.conj (X i n), X j n)] at hdot
    refine (dotc_error hdot (n := d + g) (by omega)).trans (mul_le_mul_of_nonneg_right h.depth ?_)
    exact mul_nonneg (nrm2_nonneg _) (nrm2_nonneg _)

variable [LinearOrder R] [Add R] [Sub R] [Mul R] [Div R] [Neg R] [Zero R] [One R] [NatCast R] {dk : ℕ} {ε δ : ℝ}

/-- **C87**, distributed CPU backend, reductions that give the same bits on every communicator: as
`C87_cholesky`, for the blocks and vectors held by the processes together. -/
theorem C87_cholesky_mpi (hA : OrthoPar F r E E.nevex dk δ) (hδ : 0 ≤ δ) (hk : CholPar F T E d g eps e) (heps : 0 ≤ eps)
    (hε : 528 * (E.nevex * Real.sqrt E.nevex * e) ≤ ε) (hE : Ascends E)
    (hq : ∀ X, QrOf ε E.nevex (fun j => valV F (X j)) fun j => valV F ((distArith T E).hhQR X j))
    (P : Plat R) (hP : SortsIndices P) (cfg : Config R) (hN : cfg.N = N) (hsz : cfg.nev + cfg.nex = E.nevex)
    (hmax : Even cfg.maxDeg) (ritzv0 resid0 : ℕ → R) (s : GSt K N) (out : Outcome R (GSt K N))
    (h : solve P (gOps T E) cfg ritzv0 resid0 s = .ok out)
    (hsym : cfg.symCheck = true → symCheckG T E s.H = true) (hit : 0 < out.iterations)
    (hc : QrAvoids P (gOps T E) cfg ritzv0 resid0 s
      fun l x t => IllConditioned F (distArith T E) E.toParams eps e ε l x t.C) :
    NearOrtho (tau (cfg.nev + cfg.nex) ε δ (gam F.u dk)) (cfg.nev + cfg.nex) fun j => valV F (out.be.C j) := by
  have he : 0 ≤ e := (gam_nonneg F.u_nonneg _).trans hk.depth
  rcases Nat.eq_zero_or_pos E.nevex with h0 | hn
  · rw [hsz, h0]
    exact ⟨fun i hi => absurd hi (by omega), fun i j hi => absurd hi (by omega)⟩
  have hε0 : 0 ≤ ε := le_trans (by positivity) hε
  exact C84_orthonormal_mpi_partial hA hε0 hδ hE P hP cfg hN hsz hmax ritzv0 resid0 s out h hsym hit
    (hc.mono fun l x t ht =>
      not_imp_not.mp (accurate_of_suited (E := E.toParams) hk.acc usesChol hn he heps hε hq l x t.C) ht)

/-- **C87, as seen by the processes**: in every complete schedule in which some process returns
successfully after at least one round, all processes do, with the same values, and their vectors are the parts of a
block that is orthonormal up to `τ`. -/
theorem C87_cholesky_processes (hcr : RunsOk r c E.cRuns) (hbr : RunsOk c r E.bRuns)
    (hA : OrthoPar F r E E.nevex dk δ) (hδ : 0 ≤ δ) (hk : CholPar F T E d g eps e) (heps : 0 ≤ eps)
    (hε : 528 * (E.nevex * Real.sqrt E.nevex * e) ≤ ε) (hE : Ascends E)
    (hq : ∀ X, QrOf ε E.nevex (fun j => valV F (X j)) fun j => valV F ((distArith T E).hhQR X j))
    (P : Plat R) (hP : SortsIndices P) (cfg : Config R) (hN : cfg.N = N) (hsz : cfg.nev + cfg.nex = E.nevex)
    (hmax : Even cfg.maxDeg) (ritzv0 resid0 : ℕ → R) (s : GSt K N)
    (hsym : cfg.symCheck = true → symCheckG T E s.H = true)
    (hc : QrAvoids P (gOps T E) cfg ritzv0 resid0 s
      fun l x t => IllConditioned F (distArith T E) E.toParams eps e ε l x t.C)
    {n : ℕ} {u : Conf fun p => Except Err (Outcome R Unit) × Own K r c p}
    (hr : Runs (fun p : Pos r c => solveProg T.const E P cfg ritzv0 resid0 p (scatter r c s p.1 p.2)) n u)
    (hu : Final u) {p : Pos r c} {o : Outcome R Unit} {own : Own K r c p} (ho : u p = .ret (.ok o, own))
    (hit : 0 < o.iterations) :
    ∃ V : ℕ → Fin N → K,
      (∀ q, ∃ own, u q = .ret (.ok o, own) ∧ ∀ j a, own.C j a = V j (r.glob q.1 a)) ∧
      NearOrtho (tau (cfg.nev + cfg.nex) ε δ (gam F.u dk)) (cfg.nev + cfg.nex) fun j => valV F (V j) := by
  have hends := C77_outcome_partial P cfg ritzv0 resid0 hcr hbr T s hr hu
  generalize hx : solve P (gOps T E) cfg ritzv0 resid0 s = x at hends
  cases x with
  | error => obtain ⟨d, hd⟩ := hends p; rw [ho] at hd; cases hd
  | ok out =>
    have hp : u p = _ := hends p
    rw [ho] at hp
    have e1 : o = ⟨out.ritzv, out.resid, out.iterations, out.locked, ()⟩ := by
      injection hp with hp; injection hp with hp; injection hp
    subst e1
    exact ⟨out.be.C, fun q => ⟨_, hends q, fun j a => rfl⟩,
      C87_cholesky_mpi hA hδ hk heps hε hE hq P hP cfg hN hsz hmax ritzv0 resid0 s out hx hsym hit hc⟩

end
end Par

end Rounded
end Verif
