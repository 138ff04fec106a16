/-
C87 for the multi-GPU backend: its vectors are orthonormal up to rounding errors with Cholesky QR, the default.
-/
import Verif.Rounded.InPlaceCholProps
import Verif.Rounded.CholFour
import Verif.Rounded.ParGpuOrthoProps

set_option linter.unusedSectionVars false

namespace Verif
namespace Rounded
namespace ParGpu

open Matrix Finset
open Verif.Spmd
open Mpi (Layout GSt RunsOk scatter assemble)
open Mpi.Spmd (Pos Own)
open Par (Red1 distArith OrthoPar chol1 shiftedChol2 withC Ascends symCheckG CholPar distChol)

section
variable {K R 𝕜 : Type} [RCLike 𝕜] {N : ℕ} {r c : Layout N} {T : Red1 K R r c} {E : GEnv K R} {F : Fl K 𝕜} {d g dk : ℕ}
  {eps e ε δ : ℝ}

theorem chol2Dev_eq (T : Red1 K R r c) (E : GEnv K R) (X : ℕ → Fin N → K) :
    chol2Dev T E X = InPlace.qr2Of (distChol T E.toDEnv) .cuda X := by
  unfold chol2Dev InPlace.qr2Of distChol
  dsimp only
  by_cases hp : (E.kern.potrf (Par.gram T E.toDEnv X)).1 = 0
  · rw [if_neg (by simpa using hp), if_neg (by simpa using hp)]
    exact Prod.ext hp.symm rfl
  · rw [if_pos hp, if_pos hp]

variable [Add R] [Sub R] [Mul R] [Div R] [Neg R] [Zero R] [One R] [NatCast R] [LT R] [DecidableLT R]

/-- **A call of `QR` on a block that suits the chosen routine is accurate**, whether Cholesky QR succeeds or `QR` falls
back to Householder QR. -/
theorem accurateDev_of_suited (hk : CholPar F T E.toDEnv d g eps e) (hs : E.aware = true → E.scalapack = true)
    (hn : 0 < E.nevex) (he : 0 ≤ e) (heps : 0 ≤ eps) (hε : 528 * (E.nevex * Real.sqrt E.nevex * e) ≤ ε)
    (hq : ∀ X, QrOf ε E.nevex (fun j => valV F (X j)) fun j => valV F ((distArith T E.toDEnv).hhQR X j)) (l : ℕ) (cond : R)
    (X : ℕ → Fin N → K) (h : ¬ IllConditioned F (distArith T E.toDEnv) E.toParams eps e ε l cond X) :
    ¬ InaccurateDev T E F ε l cond X := by
  intro hi
  apply hi
  have hh : ∀ Y, hhCols T E Y = (distArith T E.toDEnv).hhQR Y := by
    intro Y
    unfold hhCols
    rw [if_neg]
    cases ha : E.aware with
    | false => simp
    | true => simp [hs ha]
  unfold qrColsDev
  by_cases hd : cholDisable E.doCholQR E.envDisable = 1
  · rw [if_pos hd, hh]; exact hq X
  rw [if_neg hd]
  obtain ⟨σ, hc, hs⟩ : Suited F (distArith T E.toDEnv) E.nevex eps e ε cond X := by
    by_contra hc
    exact h ⟨hd, hc⟩
  have main : ∀ y : ℤ × (ℕ → Fin N → K), (y.1 = 0 ∧ QrOf ε E.nevex (fun j => valV F (X j)) fun j => valV F (y.2 j)) ∨
      (y.1 ≠ 0 ∧ y.2 = X) → QrOf ε E.nevex (fun j => valV F (X j))
        fun j => valV F ((if y.1 ≠ 0 then hhCols T E (if E.aware then y.2 else X) else y.2) j) := by
    rintro y (⟨h1, h2⟩ | ⟨h1, h2⟩)
    · rw [if_neg (by simp [h1])]; exact h2
    · rw [if_pos h1, h2, ite_self, hh]; exact hq X
  refine main _ ?_
  by_cases ha : E.kern.above cond = true
  · rw [if_pos (show (distArith T E.toDEnv).above cond = true from ha)] at hs
    rw [if_pos ha]
    obtain ⟨ω, h1, h2, h3, h4⟩ := hs
    rw [show shiftedChol2 T E.toDEnv X = _ from (Par.usesChol (T := T) (E := E.toDEnv)).shifted X]
    exact hk.acc.shifted hn he heps ⟨true, false⟩ hc h1 h2 h3 h4 hε
  · rw [if_neg (show ¬ (distArith T E.toDEnv).above cond = true from ha)] at hs
    rw [if_neg ha]
    by_cases hb : E.kern.below cond = true
    · rw [if_pos (show (distArith T E.toDEnv).below cond = true from hb)] at hs
      rw [if_pos hb]
      rw [show chol1 T E.toDEnv X = _ from (Par.usesChol (T := T) (E := E.toDEnv)).qr1 X]
      by_cases h0 : ((distChol T E.toDEnv).qr1 X).1 = 0
      · exact Or.inl ⟨h0, hk.acc.qr1 hn he hc hs.1 hs.2 h0⟩
      · refine Or.inr ⟨h0, ?_⟩
        unfold CholKern.qr1 at h0 ⊢
        dsimp only at h0 ⊢
        split_ifs at h0 ⊢ with hp
        · rfl
        · exact absurd (not_not.mp hp) h0
    · rw [if_neg (show ¬ (distArith T E.toDEnv).below cond = true from hb)] at hs
      rw [if_neg hb, chol2Dev_eq]
      exact InPlace.qr2_ok (E := E.toParams) (k := .cuda) hk.acc hn he hc hs hε

end

section
variable {K R 𝕜 : Type} [RCLike 𝕜] {N : ℕ} {r c : Layout N} {T : Red1 K R r c} {E : GEnv K R} {F : Fl K 𝕜} {d g dk : ℕ}
  {eps e ε δ : ℝ}
variable [LinearOrder R] [Add R] [Sub R] [Mul R] [Div R] [Neg R] [Zero R] [One R] [NatCast R]

/-- **C87**, multi-GPU backend, staged or with ScaLAPACK, in a setup in which the orthogonalisation leaves a copy of its
result (`Copies`), reductions that give the same bits on every communicator: as `C87_cholesky`, for the blocks and
vectors held by the processes together. -/
theorem C87_cholesky_mgpu (hcop : Copies E) (hs : E.aware = true → E.scalapack = true)
    (hA : OrthoPar F r E.toDEnv E.nevex dk δ) (hδ : 0 ≤ δ) (hk : CholPar F T E.toDEnv d g eps e) (heps : 0 ≤ eps)
    (hε : 528 * (E.nevex * Real.sqrt E.nevex * e) ≤ ε) (hE : Ascends E.toDEnv)
    (hq : ∀ X, QrOf ε E.nevex (fun j => valV F (X j)) fun j => valV F ((distArith T E.toDEnv).hhQR X j))
    (P : Plat R) (hP : SortsIndices P) (cfg : Config R) (hN : cfg.N = N) (hsz : cfg.nev + cfg.nex = E.nevex)
    (hmax : Even cfg.maxDeg) (ritzv0 resid0 : ℕ → R) (s : GG K R r c) (out : Outcome R (GG K R r c))
    (h : solve P (ggOps T E) cfg ritzv0 resid0 s = .ok out)
    (hsym : cfg.symCheck = true → symCheckG T E.toDEnv s.g.H = true) (hit : 0 < out.iterations)
    (hc : QrAvoids P (ggOps T E) cfg ritzv0 resid0 s
      fun l x t => IllConditioned F (distArith T E.toDEnv) E.toParams eps e ε l x t.g.C) :
    NearOrtho (tau (cfg.nev + cfg.nex) ε δ (gam F.u dk)) (cfg.nev + cfg.nex) fun j => valV F (out.be.g.C j) := by
  have he : 0 ≤ e := (gam_nonneg F.u_nonneg _).trans hk.depth
  rcases Nat.eq_zero_or_pos E.nevex with h0 | hn
  · rw [hsz, h0]
    exact ⟨fun i hi => absurd hi (by omega), fun i j hi => absurd hi (by omega)⟩
  have hε0 : 0 ≤ ε := le_trans (by positivity) hε
  exact C84_orthonormal_mgpu_partial hcop hA hε0 hδ hE P hP cfg hN hsz hmax ritzv0 resid0 s out h hsym hit
    (hc.mono fun l x t ht =>
      not_imp_not.mp (accurateDev_of_suited (T := T) hk hs hn he heps hε hq l x t.g.C) ht)

/-- **C87 as seen by the processes**, multi-GPU backend: in every complete schedule in which some process returns
successfully after at least one round, all processes do, with the same values, and the first `nev` vectors in their host
memory are the parts of a block that is orthonormal up to `τ`. -/
theorem C87_cholesky_processes_mgpu (hcr : RunsOk r c E.cRuns) (hbr : RunsOk c r E.bRuns)
    (hcop : Copies E) (hs : E.aware = true → E.scalapack = true)
    (hA : OrthoPar F r E.toDEnv E.nevex dk δ) (hδ : 0 ≤ δ) (hk : CholPar F T E.toDEnv d g eps e) (heps : 0 ≤ eps)
    (hε : 528 * (E.nevex * Real.sqrt E.nevex * e) ≤ ε) (hE : Ascends E.toDEnv)
    (hq : ∀ X, QrOf ε E.nevex (fun j => valV F (X j)) fun j => valV F ((distArith T E.toDEnv).hhQR X j))
    (P : Plat R) (hP : SortsIndices P) (cfg : Config R) (hN : cfg.N = N) (hnev : cfg.nev = E.nev)
    (hsz : cfg.nev + cfg.nex = E.nevex)
    (hmax : Even cfg.maxDeg) (ritzv0 resid0 : ℕ → R) (s : GG K R r c)
    (hsym : cfg.symCheck = true → symCheckG T E.toDEnv s.g.H = true)
    (hc : QrAvoids P (ggOps T E) cfg ritzv0 resid0 s
      fun l x t => IllConditioned F (distArith T E.toDEnv) E.toParams eps e ε l x t.g.C)
    {n : ℕ} {u : Conf fun p => Except Err (Outcome R Unit) × GOwn K R r c p}
    (hr : Runs (fun p : Pos r c => solveProg T.const E P cfg ritzv0 resid0 p (s.part p)) n u)
    (hu : Final u) {p : Pos r c} {o : Outcome R Unit} {own : GOwn K R r c p} (ho : u p = .ret (.ok o, own))
    (hit : 0 < o.iterations) :
    ∃ V : ℕ → Fin N → K,
      (∀ q, ∃ own, u q = .ret (.ok o, own) ∧
        ∀ j, j < cfg.nev → ∀ a, (if E.aware then own.oth.C else own.own.C) j a = V j (r.glob q.1 a)) ∧
      NearOrtho (tau (cfg.nev + cfg.nex) ε δ (gam F.u dk)) cfg.nev fun j => valV F (V j) := by
  have hends := C77_mgpu_outcome_partial P cfg ritzv0 resid0 hcr hbr T s hr hu
  generalize hx : solve P (ggOps T E) cfg ritzv0 resid0 s = x at hends
  cases x with
  | error => obtain ⟨d, hd⟩ := hends p; rw [ho] at hd; cases hd
  | ok out =>
    have hp : u p = _ := hends p
    rw [ho] at hp
    have e1 : o = ⟨out.ritzv, out.resid, out.iterations, out.locked, ()⟩ := by
      injection hp with hp; injection hp with hp; injection hp
    subst e1
    obtain ⟨t, ht⟩ := solve_finish hx hit
    refine ⟨out.be.g.C, fun q => ⟨_, hends q, fun j hj a => ?_⟩,
      (C87_cholesky_mgpu hcop hs hA hδ hk heps hε hE hq P hP cfg hN hsz hmax ritzv0 resid0 s out hx hsym hit hc).mono
        (by omega)⟩
    rw [ht]
    show (if E.aware then ((ggOps T E).finish t).oth q |>.C else Par.cut r q.1 ((ggOps T E).finish t).g.C) j a =
      ((ggOps T E).finish t).g.C j (r.glob q.1 a)
    have e2 : (ggOps T E).finish t = if E.aware then { t with oth := fun p => { t.oth p with
      C := copyCols 0 E.nev (Par.cut r p.1 t.g.C) (t.oth p).C } } else t := rfl
    rw [e2]
    cases E.aware with
    | true =>
      show copyCols 0 E.nev (Par.cut r q.1 t.g.C) (t.oth q).C j a = _
      rw [copyCols_apply, if_pos ⟨by omega, by omega⟩]
      rfl
    | false => rfl

end

/-! ### A run -/

section
variable {K R : Type} [Neg R] [Zero R] {N : ℕ} {r c : Layout N}

/-- The backend `ggOps` in the CUDA-aware setup, with the arithmetic `A` in place of that of the processes. -/
def awareOps (T : Red1 K R r c) (E : GEnv K R) (A : Arith K R N) : Chase R (GG K R r c) :=
  let G := Par.Four.gOpsA T E.toDEnv A
  let gather := fun (block : ℕ) (s : GG K R r c) =>
    s.store { s.view with toSt := asynCxHGatherC A s.g.locked block s.view.toSt }
  let chol := fun (x : ℤ × (ℕ → Fin N → K)) (s : GG K R r c) =>
    (x.1, { s with g := withC s.g x.2, hh := fun _ => false : GG K R r c })
  { checkSymmetryEasy := fun s => ((G.checkSymmetryEasy s.g).1, { s with g := (G.checkSymmetryEasy s.g).2 })
    start := fun s => { s with g := { s.g with locked := 0 } }
    finish := fun s => { s with oth := fun p => { s.oth p with
      C := copyCols 0 E.nev (Par.cut r p.1 s.g.C) (s.oth p).C } }
    initVecs := fun random s => { s with g := G.initVecs random s.g, dH := s.g.H }
    qr := fun _ cond s => qrSelect
      { hhQR := fun s =>
          let Q := E.kern.hhqr (getBlk 0 E.nevex s.g.C)
          { s with
            g := { s.g with
              C := if !E.scalapack then s.g.C else setBlk 0 Q s.g.C
              next := if E.scalapack then s.g.next else .bAc }
            oth := fun p => { s.oth p with C := setBlk 0 (Par.cutM r p.1 Q) (s.oth p).C }
            hh := if E.scalapack then s.hh else fun _ => true }
        cholQR1 := fun s => chol (A.cholQR1 s.g.C) s
        cholQR2 := fun s => chol (A.cholQR2 s.g.C) s
        shiftedcholQR2 := fun s => chol (A.shiftedcholQR2 s.g.C) s
        lockCopy := fun isHH s =>
          let C := copyCols 0 s.g.locked s.g.C2 s.g.C
          { s with g := { s.g with
            C := C
            C2 := if !isHH && !E.copyDone then s.g.C2
              else copyCols s.g.locked (E.nevex - s.g.locked) C s.g.C2 } } }
      E.doCholQR E.envDisable (E.kern.above cond) (E.kern.below cond) s
    lanczos1 := fun m s => ((G.lanczos1 m s.view).1, s.store (G.lanczos1 m s.view).2)
    lanczosN := fun m numvec s => ((G.lanczosN m numvec s.view).1, s.store (G.lanczosN m numvec s.view).2)
    lanczosDos := fun idx m z s => s.store (G.lanczosDos idx m z s.view)
    shift := fun x _ s => { s with
      g := { s.g with next := if s.g.fresh then .bAc else s.g.next, fresh := false }
      dH := shiftH A (E.kern.ofBase x) s.dH }
    hemm := fun block α β offset s =>
      s.store { s.view with toSt := apply A (E.kern.ofBase α) (E.kern.ofBase β) offset block s.g.locked s.view.toSt }
    rr := fun block s =>
      let s := gather block s
      let l := s.g.locked
      let M := A.gemmProj (getBlk l block s.g.B2) (getBlk l block s.g.B)
      let lk := E.nevex - block
      let X := A.gemmBack (getBlk lk block s.g.C2) (E.kern.heevd M).2
      let C := setBlk lk X s.g.C
      (Par.ext 0 (E.kern.heevd M).1, { s with
        g := { s.g with C := C, C2 := copyCols l block C s.g.C2 }
        ritz := writeAt s.ritz 0 block (Par.ext 0 (E.kern.heevd M).1) })
    resd := fun _ fixednev s =>
      let u := E.nevex - fixednev
      let s := gather u s
      let l := s.g.locked
      (Par.ext 0 fun t : Fin u => E.kern.sqrt (T.rowR (fun j (t : Fin u) => E.residual (s.ritz t)
        (Par.cutV c j (s.g.B (l + t))) (Par.cutV c j (s.g.B2 (l + t)))) t), s)
    lock := fun k s => { s with g := { s.g with locked := s.g.locked + k } }
    swap := fun _ _ s => s }

theorem aware_eq (T : Red1 K R r c) (E : GEnv K R) (ha : E.aware = true) :
    ggOps T E = awareOps T E { distArith T E.toDEnv with cholQR2 := InPlace.qr2Of (distChol T E.toDEnv) .cuda } := by
  have e2 : InPlace.qr2Of (distChol T E.toDEnv) .cuda = chol2Dev T E := funext fun X => (chol2Dev_eq T E X).symm
  rw [e2]
  obtain ⟨D, aware, copyDone, residual⟩ := E
  obtain rfl : aware = true := ha
  generalize hA : ({ distArith T _ with cholQR2 := chol2Dev T _ } : Arith K R N) = A
  have hi : (ggOps T ⟨D, true, copyDone, residual⟩).initVecs = (awareOps T ⟨D, true, copyDone, residual⟩ A).initVecs := by
    subst hA
    funext random s
    cases random <;> rfl
  have h1 : ggOps T ⟨D, true, copyDone, residual⟩ = { ggOps T ⟨D, true, copyDone, residual⟩ with
      initVecs := (awareOps T ⟨D, true, copyDone, residual⟩ A).initVecs } := by rw [← hi]
  refine h1.trans ?_
  subst hA
  rfl

end

namespace Four
open Par.Stuck (rowL colL)
open Par.Four (red arithC cholC cfgC platC globC valC)

/-- The environment of `Par.Four.envC` on devices, in all setups. -/
noncomputable def envC (aware scalapack copyDone : Bool) : GEnv (Fp 53) (Fp 53) :=
  { Par.Four.envC with
    scalapack := scalapack
    aware := aware
    copyDone := copyDone
    residual := fun x b b2 => Par.Four.kernC.normp2 (Par.Four.kernC.axpy (Par.Four.kernC.ofBase (-x)) b2 b) }

/-- The arithmetic of the processes together, computed. -/
noncomputable def arithG : Arith (Fp 53) (Fp 53) 4 := { arithC with cholQR2 := InPlace.qr2Of cholC .cuda }

theorem arithG_eq (aware scalapack copyDone : Bool) :
    ({ distArith red (envC aware scalapack copyDone).toDEnv with
      cholQR2 := InPlace.qr2Of (distChol red (envC aware scalapack copyDone).toDEnv) .cuda } : Arith _ _ _) = arithG := by
  have e1 : distArith red (envC aware scalapack copyDone).toDEnv = arithC := Par.Four.arith_eq
  have e2 : distChol red (envC aware scalapack copyDone).toDEnv = cholC := Par.Four.chol_eq
  rw [e1, e2]
  rfl

/-- The data of `Par.Four.globC` on devices; all other buffers are zero. -/
def startC : GG (Fp 53) (Fp 53) rowL colL :=
  ⟨globC, 0, fun _ => ⟨fun _ _ => 0, fun _ _ => 0, fun _ _ => 0, fun _ _ => 0⟩, fun _ => 0, fun _ => false⟩

theorem runG : ∃ out, solve platC (watchB (fun k x (s : GG (Fp 53) (Fp 53) rowL colL) => Par.Four.badB k x s.g)
      (awareOps red (envC true true true) arithG)) cfgC valC (fun _ => 0) (startC, false) = .ok out ∧ out.be.2 = false ∧
      0 < out.iterations := by
  obtain ⟨out, h, g⟩ := Toy.okAnd_elim (p := fun out : Outcome (Fp 53) (GG (Fp 53) (Fp 53) rowL colL × Bool) =>
      decide (out.be.2 = false ∧ 0 < out.iterations))
    (x := solve platC (watchB (fun k x (s : GG (Fp 53) (Fp 53) rowL colL) => Par.Four.badB k x s.g)
      (awareOps red (envC true true true) arithG)) cfgC valC (fun _ => 0) (startC, false))
    (by rw [Toy.solve_eq_solveE]; decide +kernel)
  exact ⟨out, h, of_decide_eq_true g⟩

theorem avoidsC : QrAvoids platC (ggOps red (envC true true true)) cfgC valC (fun _ => 0) startC
    fun l x t => IllConditioned (Fp.fl 53) (distArith red (envC true true true).toDEnv) (envC true true true).toParams
      (Two.epsQ : ℝ) ((1 / 2) ^ 50) ((1 / 2) ^ 39) l x t.g.C := by
  obtain ⟨out, h1, h2, -⟩ := runG
  rw [← arithG_eq true true true, ← aware_eq red (envC true true true) rfl] at h1
  exact QrAvoids.of_run (fun k x s hb => Par.Four.good_diag k x s.g hb) h1 h2

theorem definedC {S : Type} (ops : Chase (Fp 53) S) (be : S) : ∃ out, solve platC ops cfgC valC
    (fun _ => 0) be = .ok out ∧ 0 < out.iterations := by
  obtain ⟨out, h1, h2⟩ := C51_approx_solve_defined platC ops cfgC rfl (by decide) (by decide)
    (by decide) (by decide) (by decide) (by decide) (by decide) (by intro h; cases h) valC (fun _ => 0) be
  exact ⟨out, h1, h2 (by intro h; cases h) (by decide)⟩

/-- Non-vacuity of `C87_cholesky_mgpu` and `C87_cholesky_processes_mgpu`: double precision on a grid of two times three
processes, two vectors, the CUDA-aware setup with ScaLAPACK and a copy that has ended, Cholesky QR switched on with
kernels of relative error `2^-50`, and a run of one round in which `QR` uses `cholQR2`. -/
example : Copies (envC true true true) ∧ ((envC true true true).aware = true → (envC true true true).scalapack = true) ∧
    OrthoPar (Fp.fl 53) rowL (envC true true true).toDEnv (envC true true true).nevex 3 0 ∧
    CholPar (Fp.fl 53) red (envC true true true).toDEnv 3 2 (Two.epsQ : ℝ) ((1 / 2) ^ 50) ∧
    528 * (((envC true true true).nevex : ℝ) * Real.sqrt (envC true true true).nevex * (1 / 2) ^ 50) ≤ (1 / 2) ^ 39 ∧
    Ascends (envC true true true).toDEnv ∧
    cholDisable (envC true true true).doCholQR (envC true true true).envDisable ≠ 1 ∧
    (∀ X, QrOf ((1 / 2) ^ 39) (envC true true true).nevex (fun j => valV (Fp.fl 53) (X j))
      fun j => valV (Fp.fl 53) ((distArith red (envC true true true).toDEnv).hhQR X j)) ∧
    SortsIndices platC ∧ cfgC.N = 4 ∧ cfgC.nev = (envC true true true).nev ∧
    cfgC.nev + cfgC.nex = (envC true true true).nevex ∧ Even cfgC.maxDeg ∧ cfgC.symCheck = false ∧
    (∃ out, solve platC (ggOps red (envC true true true)) cfgC valC (fun _ => 0) startC = .ok out ∧ 0 < out.iterations) ∧
    RunsOk rowL colL (envC true true true).cRuns ∧ RunsOk colL rowL (envC true true true).bRuns :=
  ⟨fun _ => Or.inl rfl, fun _ => rfl, ⟨Par.Four.orthoC.back, Par.Four.orthoC.heevd⟩,
    let h := Par.Four.cholPar
    ⟨h.syherk, h.colK, h.depth, h.potrf, h.succeeds, h.trsm, h.shift⟩,
    Par.Four.unit_small, fun b M i j h => Par.Four.ascendsC b M i j h, by decide, Par.Four.qrC, Par.Four.plat_sorts, rfl,
    rfl, rfl, by decide, rfl, definedC _ _, Par.Stuck.envRuns.1, Par.Stuck.envRuns.2⟩

/-- The same run, of the processes. -/
example : ∃ n u p o own, Runs (fun p : Pos rowL colL => solveProg red.const (envC true true true) platC cfgC valC
      (fun _ => 0) p (startC.part p)) n u ∧ Final u ∧ u p = .ret (.ok o, own) ∧ 0 < o.iterations := by
  obtain ⟨out, h1, h2⟩ := definedC (ggOps red (envC true true true)) startC
  obtain ⟨n, hn⟩ := prog_gives red (envC true true true) Par.Stuck.envRuns.1 Par.Stuck.envRuns.2
    (solveT platC cfgC valC fun _ => 0) startC
  have he := C77_mgpu_outcome_partial (E := envC true true true) platC cfgC valC (fun _ => 0) Par.Stuck.envRuns.1
    Par.Stuck.envRuns.2 red startC hn (fun p => ⟨_, rfl⟩) ((0 : Fin 2), (0 : Fin 3))
  rw [h1] at he
  exact ⟨n, _, _, _, _, hn, fun p => ⟨_, rfl⟩, he, h2⟩

end Four

end ParGpu
end Rounded
end Verif
