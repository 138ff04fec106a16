/-
C89 for the in-place CPU backend and the single-process GPU backend: what the filter call of a round computes in
floating-point arithmetic.
-/
import Verif.Rounded.FilterErrorProps
import Verif.Rounded.InPlaceProps

set_option linter.unusedSectionVars false

namespace Verif
namespace Rounded
namespace InPlace

open Verif.InPlace (Kind)

/-! ### The backend seen as one with two fixed buffers -/

section
variable {K R : Type*} {N : ℕ} {A : Arith K R N} {E : Params} {k : Kind}

/-- Every product of the filter is with the matrix itself. -/
def plain (A : Arith K R N) : Arith K R N := { A with gemm := fun _ => A.gemm false }

/-- The two buffers under fixed names: `C` is the one the first pointer pointed to when the bit was `b`. -/
def view (A : Arith K R N) (b : Bool) (s : St K R N) : Seq.St K N :=
  if s.flipped = b then ⟨s.H, s.V1, s.V2, fun _ _ => A.zero, fun _ _ => A.zero, .bAc, s.locked, s.isSym⟩
  else ⟨s.H, s.V2, s.V1, fun _ _ => A.zero, fun _ _ => A.zero, .cAb, s.locked, s.isSym⟩

theorem view_H (b : Bool) (s : St K R N) : (view A b s).H = s.H := by
  unfold view
  split_ifs <;> rfl

theorem view_locked (b : Bool) (s : St K R N) : (view A b s).locked = s.locked := by
  unfold view
  split_ifs <;> rfl

theorem view_next {b : Bool} {s : St K R N} (h : (view A b s).next = .bAc) : s.flipped = b := by
  unfold view at h
  split_ifs at h with hb
  exact hb

theorem view_C {b : Bool} {s : St K R N} (h : s.flipped = b) : (view A b s).C = s.V1 := by
  unfold view
  rw [if_pos h]

theorem usesKernels [Neg R] [Zero R] (b : Bool) :
    UsesKernels (plain A) (ops A E k) (view A b) (fun _ => True) where
  shift := fun x d s _ => by
    rcases s with ⟨H, G, V, W, U, fl, dr, l, sy⟩
    cases fl <;> cases b <;> rfl
  shiftC := fun x d s => by
    rcases s with ⟨H, G, V, W, U, fl, dr, l, sy⟩
    cases fl <;> cases b <;> rfl
  hemm := fun n α β off s => by
    rcases s with ⟨H, G, V, W, U, fl, dr, l, sy⟩
    cases fl <;> cases b <;> rfl

/-- Only the number of locked columns is followed. -/
def countPhases (E : Params) : Phases (St K R N) where
  pre := fun _ => True
  inv := fun s => s.locked ≤ E.nevex
  ready := fun s => s.locked ≤ E.nevex
  synced := fun s => s.locked ≤ E.nevex

variable [Add R] [Sub R] [Mul R] [Div R] [Neg R] [Zero R] [One R] [NatCast R] [LT R] [DecidableLT R]

/-- The bookkeeping contract without the contents of the columns; nothing is asked of Cholesky QR. -/
theorem count : Bookkeeping (ops A E k) (fun _ _ => ()) St.locked (countPhases E) N E.nevex where
  swap := fun i j s _ _ => rfl
  swap_nl := fun i j s => rfl
  swap_inv := fun i j s _ _ _ _ h => h
  swap_synced := fun i j s _ _ _ _ h => h
  filter := by
    rintro deg av degrees lambda lower upper s s' h3 hdeg hs hd h
    have hf := filter_frame (ops := ops A E k) (P := fun t : St K R N => t.locked = s.locked) (fun _ _ _ h => h)
      (fun n α β off t h => h) hs (fun j h1 h2 => (hd j h1 h2).2) h rfl
    exact ⟨hf, by show s'.locked ≤ _; rw [hf]; exact h3, fun _ _ => rfl⟩
  qr := by
    rintro m c s h3
    have e := (qr_frame (A := A) (E := E) (k := k) m c s).2.2.2
    exact ⟨e, e.le.trans h3, e.le.trans h3, fun _ _ => rfl⟩
  rr := fun s h _ => ⟨rfl, h, fun _ _ => rfl⟩
  resd := by
    rintro f m s h3
    obtain ⟨-, -, -, -, a5⟩ := resd_frame (A := A) (k := k) 0 f s.locked (E.nevex - m) s
    exact ⟨a5, a5.le.trans h3, rfl⟩
  lock := fun m s h3 hk => ⟨rfl, hk, rfl⟩
  start := fun s h => ⟨rfl, h⟩
  check := fun s h => h
  initVecs := by
    intro b s h hl
    have hl' : ((ops A E k).initVecs b s).locked = 0 := by
      cases k <;> cases b <;> exact hl
    exact ⟨hl', by show ((ops A E k).initVecs b s).locked ≤ _; rw [hl']; omega⟩
  lanczos1 := fun m s h hl => ⟨hl, h⟩
  lanczosN := fun m j s h hl => ⟨hl, h⟩
  lanczosDos := fun i m z s h hl => ⟨hl, h⟩
  finish := fun s => rfl

/-- From `initVecs` on the matrix used in products is the user's matrix after the shifts made so far. -/
theorem device_keep (H0 : Matrix (Fin N) (Fin N) K) :
    KeepsAfter (traced (ops A E k)) (fun p => p.1.userH k = H0 ∧ shiftsOf p.2 = [])
      (fun p => p.1.H = afterShifts (plain A) H0 (shiftsOf p.2)) := by
  have app : ∀ {s : St K R N} {H : Matrix (Fin N) (Fin N) K} {tr : List (Call R)} {c : Call R}, s.H = H →
      shiftsOf [c] = [] → H = afterShifts (plain A) H0 (shiftsOf tr) →
      s.H = afterShifts (plain A) H0 (shiftsOf (tr ++ [c])) := by
    intro s H tr c h1 h2 h3
    rw [shiftsOf_append, h2, List.append_nil, h1, h3]
  exact {
    checkSymmetryEasy := fun p h => ⟨by cases k <;> exact h.1, by
      show shiftsOf (p.2 ++ [_]) = []
      rw [shiftsOf_append, h.2]; rfl⟩
    start := fun p h => ⟨by cases k <;> exact h.1, by
      show shiftsOf (p.2 ++ [_]) = []
      rw [shiftsOf_append, h.2]; rfl⟩
    initVecs := fun b p h => by
      have e : (ops A E k).initVecs b p.1 = initVecs E k (if b then initRndVecs A E p.1 else p.1) := rfl
      show ((ops A E k).initVecs b p.1).H = afterShifts (plain A) H0 (shiftsOf (p.2 ++ [_]))
      rw [shiftsOf_append, h.2, e]
      show _ = H0
      rw [← h.1]
      cases k <;> cases b <;> rfl
    qr := fun m c p h => app (qr_frame (A := A) (E := E) (k := k) m c p.1).1 rfl h
    lanczos1 := fun _ _ h => app rfl rfl h
    lanczosN := fun _ _ _ h => app rfl rfl h
    lanczosDos := fun _ _ _ _ h => app rfl rfl h
    shift := fun c b p h => by
      show shiftH A (A.ofBase c) p.1.H = afterShifts (plain A) H0 (shiftsOf (p.2 ++ [.shift c b]))
      rw [shiftsOf_append, h]
      exact (afterShifts_append (plain A) H0 _ c).symm
    hemm := fun n a b o p h => app rfl rfl h
    rr := fun _ _ h => app rfl rfl h
    resd := fun f j p h => app (resd_frame (A := A) (k := k) 0 f p.1.locked (E.nevex - j) p.1).1 rfl h
    lock := fun _ _ h => app rfl rfl h
    swap := fun _ _ _ h => app rfl rfl h }

theorem plain_kernels {𝕜 : Type*} [RCLike 𝕜] {F : Fl K 𝕜} {valR : R → ℝ} {g : ℝ} (h : FilterAccurate F valR A g) :
    FilterKernels F valR (plain A) g where
  real := h.real
  ofBase := h.ofBase
  add := h.add
  g_nonneg := h.g_nonneg
  gemm := fun _ H α β X Y => ⟨false, fun i j => h.gemm false H α β X Y i j⟩

end

/-! ### In every round of a solve -/

section
variable {K 𝕜 R : Type*} [RCLike 𝕜] {F : Fl K 𝕜} {N : ℕ} {valR : R → ℝ} {A : Arith K R N} {g : ℝ}
variable [Add R] [Sub R] [Mul R] [Div R] [Neg R] [Zero R] [One R] [NatCast R] [LT R] [DecidableLT R]

/-- **C89**, in-place CPU backend and single-process GPU backend (partial).  The filter call of every round turns the
current vectors (`V1`, in whichever of the two buffers they are) into filtered ones, up to an error relative to their
norms; the polynomial is that of the user's matrix.  On these two backends every product of the filter is with the
matrix itself, never with its adjoint, and nothing is asked of the orthogonalisation. -/
theorem C89_round_inplace_partial (hA : FilterAccurate F valR A g) (hu1 : F.u ≤ 1 / 8) (E : Params) (k : Kind)
    (P : Plat R) (hP : PermutesIndices P) (cfg : Config R) (hN : cfg.N = N) (hN0 : N ≠ 0)
    (hsz : cfg.nev + cfg.nex = E.nevex) (hmax : Even cfg.maxDeg) (ritzv0 resid0 : ℕ → R) (s : St K R N)
    (hH : (valM F (s.userH k)).IsHermitian) (x x1 x' : Verif.St R (St K R N × List (Call R)))
    (h : Reach P (traced (ops A E k)) cfg ritzv0 resid0 (s, []) x) (hs : Step P (traced (ops A E k)) cfg x x')
    (h1 : FilterStarts P (traced (ops A E k)) cfg x x1)
    (hdeg : ∀ j, x1.locked ≤ j → j < cfg.nev + cfg.nex → 2 ≤ x1.degrees j)
    {C : ℝ} (hC0 : 0 ≤ C) (hC : ∀ c ∈ shiftsOf x1.be.2, |valR c| ≤ C)
    (hlt : valR x1.lowerb < valR x1.upperb) (hne : valR x1.lambda ≠ valR ((x1.upperb + x1.lowerb) / 2)) :
    ∃ c e t, NearInterval F.u (valR x1.lambda) (valR x1.lowerb) (valR x1.upperb) c e t ∧
    ∃ av be2, filter (traced (ops A E k)) cfg.N x1.unconverged x1.deg x1.degrees (cfg.nev + cfg.nex) x1.locked
        x1.lambda x1.lowerb x1.upperb x1.be = .ok (av, be2) ∧
      (1 ≤ |t| → Filtered F.u g (((1 + F.u) ^ (2 * x.iteration) - 1) * (frob (valM F (s.userH k)) + C))
        (valM F (s.userH k)) c e t x1.locked (cfg.nev + cfg.nex) x1.degrees (fun j => valV F (x1.be.1.V1 j))
        (fun j => valV F (be2.1.V1 j))) := by
  have key := round_filter (st := view A) (mat := St.H) (ph := countPhases E) (nl := St.locked)
    (usesKernels (A := A) (E := E) (k := k)) (plain_kernels hA) hu1 (by rw [hsz, hN]; exact count)
    (fun b s => (view_locked b s).symm)
    (fun s _ => ⟨trivial, s.flipped, by unfold view; rw [if_pos rfl]⟩) view_H (device_keep (s.userH k)) ⟨rfl, rfl⟩ trivial
    (by omega) hmax hP hH h hs h1 hdeg hC0 hC hlt hne
  obtain ⟨hgd, hun, b, hb, c, e, t, hn, av, be2, hf, hres⟩ := key
  have hb1 := view_next hb
  have hb2 : be2.1.flipped = b := by
    rw [← hun] at hf
    exact (filter_toggle (ops := traced (ops A E k)) (p := fun p : St K R N × List (Call R) => p.1.flipped)
      (fun _ _ _ => rfl) (fun _ _ _ _ _ => rfl) hgd.sorted (fun j h1 h2 => (hgd.each j h1 h2).2.2) hgd.even hf).trans hb1
  rw [view_C hb1, view_C hb2] at hres
  exact ⟨c, e, t, hn, av, be2, hf, hres⟩

end

/-! ### Runs that meet the hypotheses -/

namespace Two
open Rounded.Two (arith plat cfg params ritzv0 plat_permutes fl_u filterAccurate start_near)

/-- Non-vacuity of `C89_round_inplace_partial`, both backends: the first round of a run in double precision meets all
hypotheses, and so are those of `Filtered`, for every interval and scaling point next to those handed in. -/
example (k : Kind) : FilterAccurate (Fp.fl 53) Fp.toReal (arith 53 ⟨8⟩) (gam (1 / 2 ^ 53) 4) ∧ (Fp.fl 53).u ≤ 1 / 8 ∧
    PermutesIndices (plat 53) ∧ (cfg 53).N = 2 ∧ (cfg 53).nev + (cfg 53).nex = params.nevex ∧ Even (cfg 53).maxDeg ∧
    (valM (Fp.fl 53) (start.userH k)).IsHermitian ∧
    ∃ x x1 x', Reach (plat 53) (traced (ops (arith 53 ⟨8⟩) params k)) (cfg 53) (ritzv0 53) (fun _ => 0) (start, []) x ∧
      Step (plat 53) (traced (ops (arith 53 ⟨8⟩) params k)) (cfg 53) x x' ∧
      FilterStarts (plat 53) (traced (ops (arith 53 ⟨8⟩) params k)) (cfg 53) x x1 ∧ x1.locked = 0 ∧
      (∀ j, x1.locked ≤ j → j < (cfg 53).nev + (cfg 53).nex → 2 ≤ x1.degrees j) ∧
      (∀ c ∈ shiftsOf x1.be.2, |Fp.toReal c| ≤ 0) ∧ Fp.toReal x1.lowerb < Fp.toReal x1.upperb ∧
      Fp.toReal x1.lambda ≠ Fp.toReal ((x1.upperb + x1.lowerb) / 2) ∧ x.iteration = 0 ∧
      valV (Fp.fl 53) (x1.be.1.V1 0) ≠ 0 ∧
      ∀ c e t, NearInterval (1 / 2 ^ 53) (Fp.toReal x1.lambda) (Fp.toReal x1.lowerb) (Fp.toReal x1.upperb) c e t →
        1 ≤ |t| ∧ (∀ μ, IsEigenvalue (valM (Fp.fl 53) (start.userH k)) μ → |μ - c| ≤ 4 * e) ∧
        ∀ j, j < 2 → x1.degrees j * (x1.degrees j + 1) *
            filterEta (1 / 2 ^ 53) (gam (1 / 2 ^ 53) 4) (frob (valM (Fp.fl 53) (start.userH k) - (c : ℝ) • 1)) 0 e 4 ≤ 1 ∧
          64 * (x1.degrees j * (x1.degrees j + 1)) * (1 / 2 ^ 53 : ℝ) ≤ 1 := by
  have hs : start.userH k = (Rounded.Two.start 53).H := by cases k <;> rfl
  refine ⟨filterAccurate _, by rw [fl_u]; norm_num, plat_permutes 53, rfl, rfl, by decide, hermitian k, ?_⟩
  have key : Toy.okAnd (fun x => decide (running (cfg 53) x ∧ x.iteration = 0) &&
      Toy.okAnd (fun x1 => decide (x1.locked = 0 ∧ x1.degrees 0 = 2 ∧ x1.degrees 1 = 2 ∧ shiftsOf x1.be.2 = [] ∧
          x1.lambda = ⟨1 / 2 ^ 60⟩ ∧ x1.lowerb = ⟨4⟩ ∧ x1.upperb = ⟨8⟩ ∧ (x1.upperb + x1.lowerb) / 2 = ⟨6⟩ ∧
          x1.be.1.V1 0 0 = ⟨1⟩) &&
        Toy.okAnd (fun _ => true) (iter (plat 53) (traced (ops (arith 53 ⟨8⟩) params k)) (cfg 53) x))
        (optimise (plat 53) (traced (ops (arith 53 ⟨8⟩) params k)) (cfg 53)
          (updateBounds ((cfg 53).nev + (cfg 53).nex) x)))
      (initState (plat 53) (traced (ops (arith 53 ⟨8⟩) params k)) (cfg 53) (ritzv0 53) (fun _ => 0) (start, []))
      = true := by cases k <;> decide +kernel
  obtain ⟨x, h0, k0⟩ := Toy.okAnd_elim key
  obtain ⟨r0, k0⟩ := Bool.and_eq_true_iff.mp k0
  obtain ⟨x1, h1, k1⟩ := Toy.okAnd_elim k0
  obtain ⟨r1, k1⟩ := Bool.and_eq_true_iff.mp k1
  obtain ⟨x', h2, -⟩ := Toy.okAnd_elim k1
  obtain ⟨r0, hit⟩ := of_decide_eq_true r0
  obtain ⟨a1, a2, a3, a4, a5, a6, a7, a8, a9⟩ := of_decide_eq_true r1
  have hdeg : ∀ j, j < 2 → x1.degrees j = 2 := by
    intro j hj
    have : j = 0 ∨ j = 1 := by omega
    rcases this with rfl | rfl
    · exact a2
    · exact a3
  refine ⟨x, x1, x', .init h0, ⟨r0, h2⟩, ⟨r0, h1⟩, a1, fun j _ hj => (hdeg j hj).ge, by rw [a4]; simp, ?_, ?_, hit, ?_, ?_⟩
  · rw [a6, a7]; simp only [Fp.toReal]; norm_num
  · rw [a5, a8]; simp only [Fp.toReal]; norm_num
  · intro h
    have := congrFun h 0
    unfold valV at this
    rw [a9] at this
    simp [Fp.fl, Fp.toReal] at this
  · rw [a5, a6, a7, hs]
    intro c e t h
    obtain ⟨b1, b2, b3⟩ := start_near h
    exact ⟨b1, b2, fun j hj => b3 _ (hdeg j hj)⟩

end Two
end InPlace
end Rounded
end Verif
