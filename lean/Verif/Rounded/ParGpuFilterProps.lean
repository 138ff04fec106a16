/-
C89 for the multi-GPU backend: the filter in floating-point arithmetic.  In the staged variant `beta` multiplies what
the device holds; these are the current vectors, because the product before has copied them there.
-/
import Verif.Rounded.ParGpuRun
import Verif.Rounded.FilterErrorProps
import Verif.Solver.SimPhase

set_option linter.unusedSectionVars false

namespace Verif
namespace Rounded
namespace ParGpu

open Matrix
open Seq (NextOp)
open Mpi (Layout GSt)
open Mpi.Spmd (Pos)
open Par (Red1 distArith cutM cutV cutH joinM square flat)

section
variable {K R : Type} {N : ℕ} {r c : Layout N} (T : Red1 K R r c) (E : GEnv K R)
variable [Add R] [Sub R] [Mul R] [Div R] [Neg R] [Zero R] [One R] [NatCast R]

/-- A product with `beta = 0` does not read the target, for every `alpha`. -/
def FilterIgnoresTarget (E : GEnv K R) : Prop :=
  ∀ (β : K), β = E.kern.zero ∨ β = E.kern.ofBase 0 → ∀ {m n b : ℕ} (H : Matrix (Fin m) (Fin n) K) (α : K)
    (X : Matrix (Fin m) (Fin b) K) (Y Y' : Matrix (Fin n) (Fin b) K),
    E.kern.gemmAdj H α β X Y = E.kern.gemmAdj H α β X Y'

/-- The columns `[lo, hi)` of the vectors to be multiplied with `beta` next are on the device. -/
def Current (lo hi : ℕ) (s : GG K R r c) : Prop :=
  E.aware = false → ∀ (p : Pos r c) (j : ℕ), lo ≤ j → j < hi →
    match s.g.next with
    | .bAc => (s.oth p).B j = cutV c p.2 (s.g.B j)
    | .cAb => (s.oth p).C j = cutV r p.1 (s.g.C j)

theorem getBlk_eq {m : ℕ} {off n : ℕ} {X Y : ℕ → Fin m → K} (h : ∀ j, off ≤ j → j < off + n → X j = Y j) :
    getBlk off n X = getBlk off n Y := by
  funext a k
  show X (off + k) a = Y (off + k) a
  rw [h _ (by omega) (by omega)]

/-- The local products of a staged product `B := H* C`. -/
theorem prodB_eq (o : ∀ p : Pos r c, Bufs K (r.size p.1) (c.size p.2)) (dH : Matrix (Fin N) (Fin N) K) (α β : K)
    (off block : ℕ) (C B : ℕ → Fin N → K)
    (hC : ∀ p j, off ≤ j → j < off + block → (o p).C j = cutV r p.1 (C j))
    (hB : (∀ p j, off ≤ j → j < off + block → (o p).B j = cutV c p.2 (B j)) ∨
      (FilterIgnoresTarget E ∧ (β = E.kern.zero ∨ β = E.kern.ofBase 0))) :
    (joinM c fun j => square (T.colK fun i => flat (prodB E (i, j) (cutH r c i j dH) α β off block (o (i, j))))) =
      Par.mulAdj T E.toDEnv dH α β (getBlk off block C) (getBlk off block B) := by
  unfold Par.mulAdj
  congr 1
  funext j
  congr 2
  funext i
  congr 1
  unfold prodB
  have e1 : getBlk off block (o (i, j)).C = cutM r i (getBlk off block C) :=
    getBlk_eq (Y := Par.cut r i C) fun k h1 h2 => hC (i, j) k h1 h2
  rw [e1]
  rcases hB with hB | ⟨hi, hβ⟩
  · have e2 : getBlk off block (o (i, j)).B = cutM c j (getBlk off block B) :=
      getBlk_eq (Y := Par.cut c j B) fun k h1 h2 => hB (i, j) k h1 h2
    rw [e2]
  · refine hi _ ?_ _ _ _ _ _
    split_ifs
    · exact .inl rfl
    · exact hβ

/-- The local products of a staged product `C := H B`. -/
theorem prodC_eq (o : ∀ p : Pos r c, Bufs K (r.size p.1) (c.size p.2)) (dH : Matrix (Fin N) (Fin N) K) (α β : K)
    (off block : ℕ) (C B : ℕ → Fin N → K)
    (hB : ∀ p j, off ≤ j → j < off + block → (o p).B j = cutV c p.2 (B j))
    (hC : ∀ p j, off ≤ j → j < off + block → (o p).C j = cutV r p.1 (C j)) :
    (joinM r fun i => square (T.rowK fun j => flat (prodC E (i, j) (cutH r c i j dH) α β off block (o (i, j))))) =
      Par.mul T E.toDEnv dH α β (getBlk off block B) (getBlk off block C) := by
  unfold Par.mul
  congr 1
  funext i
  congr 2
  funext j
  congr 1
  unfold prodC
  have e1 : getBlk off block (o (i, j)).C = cutM r i (getBlk off block C) :=
    getBlk_eq (Y := Par.cut r i C) fun k h1 h2 => hC (i, j) k h1 h2
  have e2 : getBlk off block (o (i, j)).B = cutM c j (getBlk off block B) :=
    getBlk_eq (Y := Par.cut c j B) fun k h1 h2 => hB (i, j) k h1 h2
  rw [e1, e2]

/-- A product whose target is on the device, or is not read. -/
theorem hemm_view (block : ℕ) (α β : K) (a : ℕ) (s : GG K R r c)
    (h : Current E (s.g.locked + a) (s.g.locked + a + block) s ∨
      (s.g.next = .bAc ∧ FilterIgnoresTarget E ∧ (β = E.kern.zero ∨ β = E.kern.ofBase 0))) :
    (gHemm T E block α β a s).view =
        { s.view with toSt := apply (distArith T E.toDEnv) α β a block s.g.locked s.view.toSt } ∧
      Current E (s.g.locked + a) (s.g.locked + a + block) (gHemm T E block α β a s) := by
  obtain ⟨⟨⟨H, C, B, C2, B2, next, l, isSym⟩, fresh⟩, dH, oth, ritz, hh⟩ := s
  cases hE : E.aware with
  | true =>
    unfold gHemm
    rw [hE]
    refine ⟨?_, fun h' => absurd (hE.symm.trans h') (by decide)⟩
    cases next <;> rfl
  | false =>
    cases next with
    | bAc =>
      have up : ∀ (p : Pos r c) j, l + a ≤ j → j < l + a + block →
          copyCols (l + a) block (Par.cut r p.1 C) (oth p).C j = cutV r p.1 (C j) := by
        intro p j h1 h2
        rw [copyCols_apply, if_pos ⟨h1, h2⟩]
        rfl
      have key := prodB_eq T E (fun p => (⟨copyCols (l + a) block (Par.cut r p.1 C) (oth p).C, (oth p).C2, (oth p).B,
        (oth p).B2⟩ : Bufs K _ _)) dH α β (l + a) block C B up (h.imp (fun h p j h1 h2 => h hE p j h1 h2) fun h => h.2)
      unfold gHemm
      rw [hE]
      refine ⟨?_, fun _ p j h1 h2 => ?_⟩
      · exact congrArg (fun X => GSt.mk (Seq.St.mk dH C (setBlk (l + a) X B) C2 B2 .cAb l isSym) fresh) key
      · exact up p j h1 h2
    | cAb =>
      have up : ∀ (p : Pos r c) j, l + a ≤ j → j < l + a + block →
          copyCols (l + a) block (Par.cut c p.2 B) (oth p).B j = cutV c p.2 (B j) := by
        intro p j h1 h2
        rw [copyCols_apply, if_pos ⟨h1, h2⟩]
        rfl
      have h := h.resolve_right fun h => by cases h.1
      have key := prodC_eq T E (fun p => (⟨(oth p).C, (oth p).C2, copyCols (l + a) block (Par.cut c p.2 B) (oth p).B,
        (oth p).B2⟩ : Bufs K _ _)) dH α β (l + a) block C B up (fun p j h1 h2 => h hE p j h1 h2)
      unfold gHemm
      rw [hE]
      refine ⟨?_, fun _ p j h1 h2 => ?_⟩
      · exact congrArg (fun X => GSt.mk (Seq.St.mk dH (setBlk (l + a) X C) B C2 B2 .bAc l isSym) fresh) key
      · exact up p j h1 h2

variable [LT R] [DecidableLT R]

/-- **A filter call of the multi-GPU backend does what one of the distributed backend does** with the vectors behind the
pointers and the matrix on the device, staged and CUDA-aware. -/
theorem filter_view (hY : FilterIgnoresTarget E) {n tot deg dsize p0 : ℕ} {degrees : ℕ → ℕ} {lambda1 lower upper : R}
    (p : GG K R r c × List (Call R)) (hn : p.1.g.next = .bAc) :
    RelE (fun a b => a.1 = b.1 ∧ a.2.1.g.C = b.2.C)
      (filter (traced (ggOps T E)) n tot deg degrees dsize p0 lambda1 lower upper p)
      (filter (Par.gOps T E.toDEnv) n tot deg degrees dsize p0 lambda1 lower upper p.1.view) := by
  refine filter_nested
    (fun (p : GG K R r c × List (Call R)) (g : GSt K N) => p.1.view = g ∧ p.1.g.next = .bAc)
    (fun a _ p g => p.1.view = g ∧ Current E (p.1.g.locked + a) (p.1.g.locked + tot) p.1)
    (fun p g => p.1.g.C = g.C) ⟨rfl, ?_⟩ ?_ ?_ ?_ ?_
  · show (if _ then NextOp.bAc else p.1.g.next) = _
    rw [hn, ite_self]
  · rintro x p g ⟨rfl, h⟩
    have := hemm_view T E tot (E.kern.ofBase x) (E.kern.ofBase 0) 0 p.1 (.inr ⟨h, hY, .inr rfl⟩)
    refine ⟨this.1, ?_⟩
    have hl := (hemm_frame T E tot (E.kern.ofBase x) (E.kern.ofBase 0) 0 p.1).1
    show Current E ((gHemm T E tot (E.kern.ofBase x) (E.kern.ofBase 0) 0 p.1).g.locked + 0)
      ((gHemm T E tot (E.kern.ofBase x) (E.kern.ofBase 0) 0 p.1).g.locked + tot) _
    rw [hl]
    exact this.2
  · rintro a m x y p g ha ⟨rfl, h⟩
    have e : p.1.g.locked + a + (tot - a) = p.1.g.locked + tot := by omega
    have := hemm_view T E (tot - a) (E.kern.ofBase x) (E.kern.ofBase y) a p.1 (.inl (by rw [e]; exact h))
    refine ⟨this.1, ?_⟩
    have hl := (hemm_frame T E (tot - a) (E.kern.ofBase x) (E.kern.ofBase y) a p.1).1
    show Current E ((gHemm T E (tot - a) (E.kern.ofBase x) (E.kern.ofBase y) a p.1).g.locked + a)
      ((gHemm T E (tot - a) (E.kern.ofBase x) (E.kern.ofBase y) a p.1).g.locked + tot) _
    rw [hl]
    rw [e] at this
    exact this.2
  · rintro a b m p g hab - ⟨h1, h2⟩
    exact ⟨h1, fun hE q j h3 h4 => h2 hE q j (by omega) h4⟩
  · rintro a m p g - - ⟨rfl, -⟩
    rfl

/-- `device_keep` for the record of the calls alone. -/
theorem device_traced (H0 : Matrix (Fin N) (Fin N) K) :
    KeepsAfter (traced (ggOps T E)) (fun p => p.1.g.H = H0 ∧ shiftsOf p.2 = [])
      (fun p => p.1.dH = afterShifts (distArith T E.toDEnv) H0 (shiftsOf p.2)) := by
  have app : ∀ {s : GG K R r c} {H : Matrix (Fin N) (Fin N) K} {tr : List (Call R)} {x : Call R}, s.dH = H →
      shiftsOf [x] = [] → H = afterShifts (distArith T E.toDEnv) H0 (shiftsOf tr) →
      s.dH = afterShifts (distArith T E.toDEnv) H0 (shiftsOf (tr ++ [x])) := by
    intro s H tr x h1 h2 h3
    rw [shiftsOf_append, h2, List.append_nil, h1, h3]
  exact {
    checkSymmetryEasy := fun p h => ⟨h.1, by
      show shiftsOf (p.2 ++ [_]) = []
      rw [shiftsOf_append, h.2]; rfl⟩
    start := fun p h => ⟨h.1, by
      show shiftsOf (p.2 ++ [_]) = []
      rw [shiftsOf_append, h.2]; rfl⟩
    initVecs := fun b p h => by
      show p.1.g.H = afterShifts (distArith T E.toDEnv) H0 (shiftsOf (p.2 ++ [_]))
      rw [shiftsOf_append, h.2]
      exact h.1
    qr := fun k x p h => app (by
      obtain ⟨b, t, ht, e⟩ := qr_form T E k x p.1
      show ((ggOps T E).qr k x p.1).dH = p.1.dH
      rw [e]
      exact ht.2.2.2.1) rfl h
    lanczos1 := fun _ _ h => app rfl rfl h
    lanczosN := fun _ _ _ h => app rfl rfl h
    lanczosDos := fun _ _ _ _ h => app rfl rfl h
    shift := fun x b p h => by
      show shiftH (distArith T E.toDEnv) (E.kern.ofBase x) p.1.dH =
        afterShifts (distArith T E.toDEnv) H0 (shiftsOf (p.2 ++ [.shift x b]))
      rw [shiftsOf_append, h]
      exact (afterShifts_append (distArith T E.toDEnv) H0 _ x).symm
    hemm := fun n a b o p h => app (hemm_frame T E n _ _ o p.1).2.2.2.2.2.1 rfl h
    rr := fun n p h => app (rr_frame T E n p.1).2.2.1 rfl h
    resd := fun f k p h => app (resd_frame T E f k p.1).2.2.2.2.1 rfl h
    lock := fun _ _ h => app rfl rfl h
    swap := fun _ _ _ h => app rfl rfl h }

variable {T E} {𝕜 : Type} [RCLike 𝕜] {F : Fl K 𝕜} {valR : R → ℝ} {g : ℝ} {e : ℕ}

/-- **C89**, multi-GPU backend (partial), staged and CUDA-aware, with and without ScaLAPACK, for every process grid and
distribution and every order of the additions on each device and in each reduction: every filter call of a solve,
relative to the matrix handed in. -/
theorem C89_round_mgpu_partial (hA : Par.FilterAccuratePar F valR T E.toDEnv g e) (hY : FilterIgnoresTarget E)
    (hu1 : F.u ≤ 1 / 8) (P : Plat R)
    (hP : PermutesIndices P) (cfg : Config R) (hN : cfg.N = N) (hN0 : N ≠ 0) (hsz : cfg.nev + cfg.nex = E.nevex)
    (hmax : Even cfg.maxDeg) (ritzv0 resid0 : ℕ → R) (s : GG K R r c) (hH : (valM F s.g.H).IsHermitian)
    (x x1 x' : St R (GG K R r c × List (Call R)))
    (h : Reach P (traced (ggOps T E)) cfg ritzv0 resid0 (s, []) x) (hs : Step P (traced (ggOps T E)) cfg x x')
    (h1 : FilterStarts P (traced (ggOps T E)) cfg x x1)
    (hdeg : ∀ j, x1.locked ≤ j → j < cfg.nev + cfg.nex → 2 ≤ x1.degrees j)
    {C : ℝ} (hC0 : 0 ≤ C) (hC : ∀ c ∈ shiftsOf x1.be.2, |valR c| ≤ C)
    (hlt : valR x1.lowerb < valR x1.upperb) (hne : valR x1.lambda ≠ valR ((x1.upperb + x1.lowerb) / 2)) :
    ∃ c e' t, NearInterval F.u (valR x1.lambda) (valR x1.lowerb) (valR x1.upperb) c e' t ∧
    ∃ av be2, filter (traced (ggOps T E)) cfg.N x1.unconverged x1.deg x1.degrees (cfg.nev + cfg.nex) x1.locked
        x1.lambda x1.lowerb x1.upperb x1.be = .ok (av, be2) ∧
      (1 ≤ |t| → Filtered F.u ((1 + g) * (1 + F.u) ^ e - 1)
        (((1 + F.u) ^ (2 * x.iteration) - 1) * (frob (valM F s.g.H) + C)) (valM F s.g.H) c e' t
        x1.locked (cfg.nev + cfg.nex) x1.degrees (fun j => valV F (x1.be.1.g.C j)) (fun j => valV F (be2.1.g.C j))) := by
  have hK := (Par.filterAccurate hA).kernels
  obtain ⟨hgd, hrun, -, -, hnext, hlocked, hoff, hD⟩ := round_data (st := fun (_ : Unit) (s : GG K R r c) => s.view.toSt)
    (good := fun _ => True) (mat := GG.dH) (ph := phases E) (nl := nl) hK
    (by rw [hsz, hN]; exact (frame T E).forget) (fun _ _ => rfl) (fun s hi => ⟨trivial, (), hi.1⟩) (fun _ _ => rfl)
    (device_traced T E s.g.H) ⟨rfl, rfl⟩ trivial hmax hP h hs h1 hdeg hC
  obtain ⟨c', e', t, hnear, av, g2, hf, hfil⟩ := filter_call (Par.gUsesKernels T E.toDEnv) hK hu1
    (mul_nonneg (gam_nonneg F.u_nonneg (2 * x.iteration)) (add_nonneg (frob_nonneg _) hC0)) hH (s := x1.be.1.view)
    (.inr hnext) hnext hoff hD x1.lambda x1.lowerb x1.upperb (by omega : cfg.N ≠ 0) (by rw [hlocked]; exact hgd) hlt hne
  rw [hlocked, hrun] at hf
  rw [hlocked] at hfil
  have hrel := filter_view T E hY (n := cfg.N) (tot := x1.unconverged) (deg := x1.deg) (dsize := cfg.nev + cfg.nex)
    (p0 := x1.locked) (degrees := x1.degrees) (lambda1 := x1.lambda) (lower := x1.lowerb) (upper := x1.upperb) x1.be hnext
  rw [hf] at hrel
  generalize hy : filter (traced (ggOps T E)) cfg.N x1.unconverged x1.deg x1.degrees (cfg.nev + cfg.nex) x1.locked
        x1.lambda x1.lowerb x1.upperb x1.be = y at hrel
  cases hrel with
  | @ok a _ hr =>
    obtain ⟨a1, a2⟩ := a
    refine ⟨c', e', t, hnear, a1, a2, rfl, fun ht => ?_⟩
    have e2 : a2.1.g.C = g2.C := hr.2
    rw [e2]
    exact hfil ht

end

/-! ### A run -/

namespace Four
open Par.Stuck (rowL colL)
open Par.Four (red cfgF valF globF globF_val globF_near)

/-- The environment of `Par.Four.envF` on devices, in all setups. -/
def envF (aware scalapack copyDone : Bool) : GEnv (Fp 53) (Fp 53) :=
  { Par.Four.envF with
    scalapack := scalapack
    aware := aware
    copyDone := copyDone
    residual := fun x b b2 => Par.Four.envF.kern.normp2 (Par.Four.envF.kern.axpy (Par.Four.envF.kern.ofBase (-x)) b2 b) }

/-- The data of `Par.Four.globF` on devices, with different numbers in the other buffers of the processes. -/
def startF : GG (Fp 53) (Fp 53) rowL colL :=
  ⟨globF, 0, fun p => ⟨fun _ _ => if p.2.val = 0 then 0 else 1, fun _ _ => 1, fun _ _ => if p.1.val = 0 then 1 else 0,
    fun _ _ => 0⟩, fun _ => 0, fun _ => false⟩

theorem runF (aware scalapack copyDone : Bool) : Toy.okAnd (fun x => decide (running cfgF x ∧ x.iteration = 0) &&
      Toy.okAnd (fun x1 => decide (x1.locked = 0 ∧ x1.degrees 0 = 2 ∧ x1.degrees 1 = 2 ∧ shiftsOf x1.be.2 = [] ∧
          x1.lambda = 1 ∧ x1.lowerb = ⟨4⟩ ∧ x1.upperb = ⟨8⟩ ∧ (x1.upperb + x1.lowerb) / 2 = ⟨6⟩ ∧
          x1.be.1.g.C 0 0 = 1) &&
        Toy.okAnd (fun _ => true) (iter Par.Stuck.plat (traced (ggOps red (envF aware scalapack copyDone))) cfgF x))
        (optimise Par.Stuck.plat (traced (ggOps red (envF aware scalapack copyDone))) cfgF
          (updateBounds (cfgF.nev + cfgF.nex) x)))
      (initState Par.Stuck.plat (traced (ggOps red (envF aware scalapack copyDone))) cfgF valF (fun _ => 0) (startF, []))
      = true := by
  revert aware scalapack copyDone
  decide +kernel

/-- Non-vacuity of `C89_round_mgpu_partial`: in the first round of a run on a grid of two times three processes in double
precision, in all setups, all hypotheses are met, and so are those of `Filtered`, for every interval and scaling point
next to those handed in. -/
example (aware scalapack copyDone : Bool) :
    Par.FilterAccuratePar (Fp.fl 53) Fp.toReal red (envF aware scalapack copyDone).toDEnv (gam (1 / 2 ^ 53) 5) 3 ∧
    FilterIgnoresTarget (envF aware scalapack copyDone) ∧ (Fp.fl 53).u ≤ 1 / 8 ∧
    PermutesIndices Par.Stuck.plat ∧ cfgF.N = 4 ∧ cfgF.nev + cfgF.nex = (envF aware scalapack copyDone).nevex ∧
    Even cfgF.maxDeg ∧ (valM (Fp.fl 53) startF.g.H).IsHermitian ∧
    ∃ x x1 x', Reach Par.Stuck.plat (traced (ggOps red (envF aware scalapack copyDone))) cfgF valF (fun _ => 0)
        (startF, []) x ∧
      Step Par.Stuck.plat (traced (ggOps red (envF aware scalapack copyDone))) cfgF x x' ∧
      FilterStarts Par.Stuck.plat (traced (ggOps red (envF aware scalapack copyDone))) cfgF x x1 ∧ x1.locked = 0 ∧
      (∀ j, x1.locked ≤ j → j < cfgF.nev + cfgF.nex → 2 ≤ x1.degrees j) ∧
      (∀ c ∈ shiftsOf x1.be.2, |Fp.toReal c| ≤ 0) ∧ Fp.toReal x1.lowerb < Fp.toReal x1.upperb ∧
      Fp.toReal x1.lambda ≠ Fp.toReal ((x1.upperb + x1.lowerb) / 2) ∧ x.iteration = 0 ∧
      valV (Fp.fl 53) (x1.be.1.g.C 0) ≠ 0 ∧
      ∀ c e t, NearInterval (1 / 2 ^ 53) (Fp.toReal x1.lambda) (Fp.toReal x1.lowerb) (Fp.toReal x1.upperb) c e t →
        1 ≤ |t| ∧ (∀ μ, IsEigenvalue (valM (Fp.fl 53) startF.g.H) μ → |μ - c| ≤ 4 * e) ∧
        ∀ j, j < 2 → x1.degrees j * (x1.degrees j + 1) *
            filterEta (1 / 2 ^ 53) ((1 + gam (1 / 2 ^ 53) 5) * (1 + 1 / 2 ^ 53) ^ 3 - 1)
              (frob (valM (Fp.fl 53) startF.g.H - (c : ℝ) • 1)) 0 e 4 ≤ 1 ∧
          64 * (x1.degrees j * (x1.degrees j + 1)) * (1 / 2 ^ 53 : ℝ) ≤ 1 := by
  have hF := Par.Four.filterAccuratePar
  refine ⟨⟨hF.real, hF.ofBase, hF.zero, hF.add, hF.g_nonneg, hF.gemm, hF.gemmAdj, hF.colK, hF.rowK⟩, ?_,
    by rw [Two.fl_u]; norm_num, Par.Stuck.plat_permutes, rfl, rfl, by decide, ?_, ?_⟩
  · rintro β hβ m n b H α X Y Y'
    have : β = 0 := hβ.elim id id
    subst this
    rfl
  · show (valM (Fp.fl 53) globF.H).IsHermitian
    rw [globF_val]
    exact Matrix.isHermitian_diagonal_of_self_adjoint _ (by ext; simp)
  obtain ⟨x, h0, k0⟩ := Toy.okAnd_elim (runF aware scalapack copyDone)
  obtain ⟨r0, k0⟩ := Bool.and_eq_true_iff.mp k0
  obtain ⟨x1, h1, k1⟩ := Toy.okAnd_elim k0
  obtain ⟨r1, k1⟩ := Bool.and_eq_true_iff.mp k1
  obtain ⟨x', h2, -⟩ := Toy.okAnd_elim k1
  obtain ⟨r0, hit⟩ := of_decide_eq_true r0
  obtain ⟨a1, a2, a3, a4, a5, a6, a7, a8, a9⟩ := of_decide_eq_true r1
  have hdeg : ∀ j, j < 2 → x1.degrees j = 2 := by
    intro j hj
    have : j = 0 ∨ j = 1 := by omega
    rcases this with rfl | rfl
    · exact a2
    · exact a3
  have f3 : Fp.toReal (1 : Fp 53) = 1 := by show ((1 : ℚ) : ℝ) = 1; norm_num
  refine ⟨x, x1, x', .init h0, ⟨r0, h2⟩, ⟨r0, h1⟩, a1, fun j _ hj => (hdeg j hj).ge, by rw [a4]; simp, ?_, ?_, hit, ?_, ?_⟩
  · rw [a6, a7]; simp only [Fp.toReal]; norm_num
  · rw [a5, a8, f3]; simp only [Fp.toReal]; norm_num
  · intro h
    have := congrFun h 0
    unfold valV at this
    rw [a9] at this
    have e1 : (Fp.fl 53).val 1 = 1 := (Fp.fl 53).val_one
    rw [e1] at this
    simp at this
  · rw [a5, a6, a7, f3]
    intro c e t h
    obtain ⟨b1, b2, b3⟩ := globF_near h
    exact ⟨b1, b2, fun j hj => b3 _ (hdeg j hj)⟩

end Four

end ParGpu
end Rounded
end Verif
