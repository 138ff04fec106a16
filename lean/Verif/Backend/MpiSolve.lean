/-
The distributed backend under the solver: the contracts of the global backend `gOps`, and through the
refinement `Mpi.sim` what a whole solve leaves behind on every process.
-/
import Verif.Backend.MpiProof
import Verif.Backend.SolveProps
import Verif.Solver.NoSwap

namespace Verif
namespace Mpi

open Matrix
open Seq (NextOp)

variable {K : Type*} [RCLike K] {N : ℕ} {G : GEnv K N}

/-! ### The filter -/

/-- The two calls a filter makes, of the global backend. -/
noncomputable def gFilterOps (G : GEnv K N) : Chase ℝ (GSt K N) where
  checkSymmetryEasy := fun s => (true, s)
  start := id
  finish := id
  initVecs := fun _ s => s
  qr := fun _ _ s => s
  lanczos1 := fun _ s => (0, s)
  lanczosN := fun _ _ s => (⟨0, 0, 0, 0⟩, s)
  lanczosDos := fun _ _ _ s => s
  shift := (gOps G).shift
  hemm := (gOps G).hemm
  rr := fun _ s => (0, s)
  resd := fun _ _ s => (0, s)
  lock := fun _ s => s
  swap := fun _ _ s => s

/-- The same of the single-process backend. -/
noncomputable def sFilterOps (E : Env K) : Chase ℝ (Seq.St K N) where
  checkSymmetryEasy := fun s => (true, s)
  start := id
  finish := id
  initVecs := fun _ s => s
  qr := fun _ _ s => s
  lanczos1 := fun _ s => (0, s)
  lanczosN := fun _ _ s => (⟨0, 0, 0, 0⟩, s)
  lanczosDos := fun _ _ _ s => s
  shift := (Seq.ops E).shift
  hemm := (Seq.ops E).hemm
  rr := fun _ s => (0, s)
  resd := fun _ _ s => (0, s)
  lock := fun _ s => s
  swap := fun _ _ s => s

theorem filterOps_sim : Sim (gFilterOps G) (sFilterOps G.base)
    (fun g s => g.toSt = s ∧ g.fresh = false) := by
  constructor
  case shift =>
    rintro x b g s ⟨rfl, h⟩
    refine ⟨?_, rfl⟩
    show ({ g.toSt with H := shiftH (x : K) g.H, next := if g.fresh then .bAc else g.next } : Seq.St K N) = _
    rw [h]
    rfl
  case hemm =>
    rintro n a b o g s ⟨rfl, h⟩
    exact ⟨rfl, h⟩
  all_goals
    intros
    first | assumption | exact ⟨rfl, by assumption⟩

/-- A filter call of the global backend is one of the single-process backend. -/
theorem gFilter {lambda1 lower upper : ℝ} {n u deg : ℕ} {degrees : ℕ → ℕ} {dsize p0 : ℕ}
    {g g' : GSt K N} {av : ℕ} (hnext : g.next = .bAc)
    (h : filter (gOps G) n u deg degrees dsize p0 lambda1 lower upper g = .ok (av, g')) :
    filter (Seq.ops G.base) n u deg degrees dsize p0 lambda1 lower upper g.toSt = .ok (av, g'.toSt) := by
  have h1 : filter (gOps G) n u deg degrees dsize p0 lambda1 lower upper g =
      filter (gFilterOps G) n u deg degrees dsize p0 lambda1 lower upper { g with fresh := false } := by
    have e : ∀ x b, (gOps G).shift x b g = (gOps G).shift x b { g with fresh := false } := by
      intro x b
      show ({ g with H := _, next := _, fresh := false } : GSt K N) = { g with H := _, next := _, fresh := false }
      rw [hnext]
      simp
    unfold filter
    dsimp only
    rw [e]
    rfl
  have h2 := filter_sim (filterOps_sim (G := G)) n u deg degrees dsize p0 lambda1 lower upper
    (be := { g with fresh := false }) (be' := g.toSt) ⟨rfl, rfl⟩
  rw [← h1, h] at h2
  have h3 : filter (sFilterOps G.base) n u deg degrees dsize p0 lambda1 lower upper g.toSt =
    filter (Seq.ops G.base) n u deg degrees dsize p0 lambda1 lower upper g.toSt := rfl
  rw [h3] at h2
  generalize filter (Seq.ops G.base) n u deg degrees dsize p0 lambda1 lower upper g.toSt = y at h2 ⊢
  cases h2 with
  | ok hh =>
    rename_i b
    obtain ⟨a, b⟩ := b
    obtain ⟨e1, e2, -⟩ := hh
    dsimp only at e1 e2
    rw [e1, e2]

/-! ### QR -/

theorem gQr_form (hL : G.base.lapack.Ok) (hn : G.base.nevex ≤ N) (k : ℕ) (c : ℝ) (g : GSt K N)
    (hnext : g.next = .bAc) :
    ∃ Y, QrPost G.base.nevex g.C 0 Y ∧
      (gOps G).qr k c g = { g with
        toSt := Seq.lockVectorCopy G.base g.locked { g.toSt with C := Y } } := by
  show ∃ Y, _ ∧ qrSelect _ _ _ _ _ g = _
  unfold qrSelect
  have hh : ∀ X Y : ℕ → Fin N → K, ∀ i : ℤ, QrPost G.base.nevex X i Y →
      QrPost G.base.nevex X 0 (hhQRc G.base.lapack G.base.nevex Y) :=
    fun X Y i h => h.trans (hhQRc_post hL hn Y)
  have hhq : ∀ C, (gQrRoutines G g.locked).hhQR { g with C := C } =
      { g with C := hhQRc G.base.lapack G.base.nevex C } := by
    intro C
    show ({ g with C := _, next := if G.scalapack then g.next else .bAc } : GSt K N) = _
    rw [hnext]
    simp only [ite_self]
  by_cases hd : cholDisable G.base.doCholQR G.base.envDisable = 1
  · rw [if_pos hd]
    refine ⟨_, hhQRc_post hL hn g.C, ?_⟩
    show (gQrRoutines G g.locked).lockCopy true ((gQrRoutines G g.locked).hhQR { g with C := g.C }) = _
    rw [hhq]
    rfl
  · rw [if_neg hd]
    have main : ∀ (p : ℤ × (ℕ → Fin N → K)), QrPost G.base.nevex g.C p.1 p.2 →
        ∃ Y, QrPost G.base.nevex g.C 0 Y ∧
          (if p.1 ≠ 0 then (gQrRoutines G g.locked).lockCopy true
              ((gQrRoutines G g.locked).hhQR { g with C := p.2 })
            else (gQrRoutines G g.locked).lockCopy false { g with C := p.2 }) =
            { g with toSt := Seq.lockVectorCopy G.base g.locked { g.toSt with C := Y } } := by
      intro p hp
      by_cases h0 : p.1 ≠ 0
      · rw [if_pos h0, hhq]; exact ⟨_, hh _ _ _ hp, rfl⟩
      · rw [if_neg h0]
        push Not at h0
        exact ⟨p.2, h0 ▸ hp, rfl⟩
    split_ifs
    · exact main _ (shiftedcholQR2c_post hL ⟨true, false⟩ (by simp) g.C)
    · exact main _ (cholQR1c_post hL g.C)
    · exact main _ (cholQR2c_post hL ⟨true, true⟩ g.C)

/-! ### The contracts -/

/-- The phases of the global backend: those of the single-process one. -/
def gPhases (G : GEnv K N) (H0 : Matrix (Fin N) (Fin N) K) : Phases (GSt K N) where
  pre := fun g => (Seq.phases G.base H0).pre g.toSt
  inv := fun g => (Seq.phases G.base H0).inv g.toSt
  ready := fun g => (Seq.phases G.base H0).ready g.toSt
  synced := fun g => (Seq.phases G.base H0).synced g.toSt

/-- The columns of the search space and the locked count. -/
def GSt.cols (g : GSt K N) : ℕ → Fin N → K := g.C
def GSt.nl (g : GSt K N) : ℕ := g.locked

/-- What the results below use of QR. -/
def QrLike (G : GEnv K N) (q : ℕ → ℝ → GSt K N → GSt K N) : Prop :=
  ∀ k c g, g.next = .bAc → ∃ Y, QrPost G.base.nevex g.C 0 Y ∧
    q k c g = { g with toSt := Seq.lockVectorCopy G.base g.locked { g.toSt with C := Y } }

/-- What they use of the residuals: the values, and that no vector but `B` is changed in another way. -/
def ResdLike (G : GEnv K N) (d : (ℕ → ℝ) → ℕ → GSt K N → (ℕ → ℝ) × GSt K N) : Prop :=
  ∀ f k g, (d f k g).1 = ((gOps G).resd f k g).1 ∧
    ∃ B, (d f k g).2 = { ((gOps G).resd f k g).2 with B := B }

/-- The global backend with another QR and another computation of the residuals. -/
noncomputable def gOpsWith (G : GEnv K N) (q : ℕ → ℝ → GSt K N → GSt K N)
    (d : (ℕ → ℝ) → ℕ → GSt K N → (ℕ → ℝ) × GSt K N) : Chase ℝ (GSt K N) :=
  { gOps G with qr := q, resd := d }

theorem gResd_like : ResdLike G (gOps G).resd := fun _ _ _ => ⟨rfl, _, rfl⟩

theorem gQr_like (hL : G.base.lapack.Ok) (hn : G.base.nevex ≤ N) : QrLike G (gOps G).qr :=
  fun k c g h => gQr_form hL hn k c g h

section
variable {q : ℕ → ℝ → GSt K N → GSt K N} {d : (ℕ → ℝ) → ℕ → GSt K N → (ℕ → ℝ) × GSt K N}

/-- **The global backend keeps the frame contract of the solver.** -/
theorem gFrameWith (hq : QrLike G q) (hd : ResdLike G d) (hL : G.base.lapack.Ok) (hn : G.base.nevex ≤ N)
    {H0 : Matrix (Fin N) (Fin N) K} (hH : H0.IsHermitian) :
    Frame (gOpsWith G q d) GSt.cols GSt.nl (gPhases G H0) N G.base.nevex := by
  have hb := Seq.bookkeeping hL hn hH
  refine
    { swap_low := fun _ _ _ _ _ _ _ _ _ => rfl
      swap_nl := fun _ _ _ => rfl
      swap_inv := fun _ _ _ _ _ _ _ h => h
      swap_synced := fun _ _ _ _ _ _ _ h => h
      filter := ?_
      qr := ?_
      rr := fun g h hl => hb.rr g.toSt h hl
      resd := ?_
      lock := fun k g h hl => hb.lock k g.toSt h hl
      start := fun g h => hb.start g.toSt h
      check := fun g h => hb.check g.toSt h
      initVecs := ?_
      lanczos1 := fun _ _ h hl => ⟨hl, h⟩
      lanczosN := fun m k g h hl => hb.lanczosN m k g.toSt h hl
      lanczosDos := fun i m z g h hl => hb.lanczosDos i m z g.toSt h hl
      finish := fun _ => rfl }
  · intro deg av degrees lambda lower upper g g' h1 h2 h3 h4 h
    exact hb.filter deg av degrees lambda lower upper g.toSt g'.toSt h1 h2 h3 h4 (gFilter h1.2.1 h)
  · rintro k c g ⟨h1, h2, h3, h4, h5⟩
    obtain ⟨Y, hY, e⟩ := hq k c g h2
    obtain ⟨a1, a2, a3, a4, a5, a6, -, -⟩ := Seq.lockCopy_spec g.toSt hY h3 h5 h4 _ rfl
    show _ ∧ _ ∧ _ ∧ _
    have e' : (gOpsWith G q d).qr k c g = _ := e
    rw [e']
    refine ⟨a3, ⟨a1.trans h1, a2.trans h2, by rw [a3]; exact h3, ?_, ?_⟩,
      ⟨a1.trans h1, a2.trans h2, by rw [a3]; exact h3, a5, a6⟩, a4⟩
    · intro j hj
      rw [a3] at hj
      exact a5 j (by omega)
    · rw [a3]; exact a6.mono h3
  · intro f k g h
    obtain ⟨-, B, e⟩ := hd f k g
    have e' : ((gOpsWith G q d).resd f k g).2 = _ := e
    rw [e']
    exact hb.resd f k g.toSt h
  · intro b g h hl
    have := hb.initVecs false (if b then { g.toSt with C := writeAt g.C 0 G.base.nevex G.rnd } else g.toSt)
      (by cases b <;> exact h) (by cases b <;> exact hl)
    exact this

theorem gMakesPairsWith (hL : G.base.lapack.Ok) {H0 : Matrix (Fin N) (Fin N) K} (hH : H0.IsHermitian) :
    MakesPairs (gOpsWith G q d) GSt.cols GSt.nl (gPhases G H0) (IsRayleigh H0) G.base.nevex :=
  fun g h => Seq.makesPairs hL hH g.toSt h

theorem gMakesResidualsWith (hd : ResdLike G d) (hL : G.base.lapack.Ok) {H0 : Matrix (Fin N) (Fin N) K} (hH : H0.IsHermitian) :
    MakesResiduals (gOpsWith G q d) GSt.cols GSt.nl (gPhases G H0) (IsResidual H0) G.base.nevex :=
  fun f g h => by
    rw [show ((gOpsWith G q d).resd f g.nl ((gOpsWith G q d).rr (G.base.nevex - g.nl) g).2).1 = _ from
      (hd f g.nl _).1]
    exact Seq.makesResiduals hL hH f g.toSt h

theorem gMakesAscendingWith (hL : G.base.lapack.Ok) {H0 : Matrix (Fin N) (Fin N) K} (hH : H0.IsHermitian) :
    MakesAscending (gOpsWith G q d) GSt.nl (gPhases G H0) G.base.nevex := by
  rintro g ⟨h1, h2, h3, h4, h5⟩ i j hij hj
  have h3' : g.locked ≤ G.base.nevex := h3
  have e : g.locked + (G.base.nevex - g.locked) = G.base.nevex := by omega
  obtain ⟨-, -, -, -, -, -, -, -, a9⟩ := Seq.rr_spec hL g.toSt (by rw [h1]; exact hH)
    (l := g.locked) (b := G.base.nevex - g.locked) (by rw [e]; exact h5) (fun j _ hj => h4 j (by omega))
  exact a9 i j hij hj

end

theorem gFrame (hL : G.base.lapack.Ok) (hn : G.base.nevex ≤ N) {H0 : Matrix (Fin N) (Fin N) K}
    (hH : H0.IsHermitian) : Frame (gOps G) GSt.cols GSt.nl (gPhases G H0) N G.base.nevex :=
  gFrameWith (gQr_like hL hn) gResd_like hL hn hH

theorem gMakesPairs (hL : G.base.lapack.Ok) {H0 : Matrix (Fin N) (Fin N) K} (hH : H0.IsHermitian) :
    MakesPairs (gOps G) GSt.cols GSt.nl (gPhases G H0) (IsRayleigh H0) G.base.nevex :=
  gMakesPairsWith (q := (gOps G).qr) (d := (gOps G).resd) hL hH

theorem gMakesResiduals (hL : G.base.lapack.Ok) {H0 : Matrix (Fin N) (Fin N) K} (hH : H0.IsHermitian) :
    MakesResiduals (gOps G) GSt.cols GSt.nl (gPhases G H0) (IsResidual H0) G.base.nevex :=
  gMakesResidualsWith (q := (gOps G).qr) gResd_like hL hH

theorem gMakesAscending (hL : G.base.lapack.Ok) {H0 : Matrix (Fin N) (Fin N) K} (hH : H0.IsHermitian) :
    MakesAscending (gOps G) GSt.nl (gPhases G H0) G.base.nevex :=
  gMakesAscendingWith (q := (gOps G).qr) (d := (gOps G).resd) hL hH

/-! ### A whole solve -/

/-- A Hermitian matrix passes the check of the global backend. -/
theorem gSymCheck_hermitian (ht : 0 ≤ G.symTol) (g : GSt K N) (hH : g.H.IsHermitian) :
    gSymCheck G g = true := by
  unfold gSymCheck
  rw [decide_eq_true_eq]
  intro a
  rw [hH.eq, sub_self, norm_zero]
  exact ht

/-- What a solve on the global backend returns. -/
theorem gSolveWith {q : ℕ → ℝ → GSt K N → GSt K N}
    {d : (ℕ → ℝ) → ℕ → GSt K N → (ℕ → ℝ) × GSt K N} (hq : QrLike G q) (hd : ResdLike G d) (P : Plat ℝ) (hP : SortsIndices P) (hL : G.base.lapack.Ok) (ht : 0 ≤ G.symTol)
    (cfg : Config ℝ) (hnev : G.base.nev = cfg.nev) (hnex : G.base.nex = cfg.nex) (hN : cfg.N = N)
    (hle : cfg.nev + cfg.nex ≤ N) (hmax : Even cfg.maxDeg) (ritzv0 resid0 : ℕ → ℝ) (g : GSt K N)
    (hH : g.H.IsHermitian) (out : Outcome ℝ (GSt K N))
    (h : solve P (gOpsWith G q d) cfg ritzv0 resid0 g = .ok out) :
    out.be.H = g.H ∧ (0 < out.iterations →
      ∃ be0 st, be0 = (if cfg.symCheck then ((gOpsWith G q d).checkSymmetryEasy g).2 else g) ∧
      Reach P (gOpsWith G q d) cfg ritzv0 resid0 be0 st ∧ ¬ running cfg st ∧
      ∃ σ : Equiv.Perm ℕ, PermOn 0 cfg.nev σ ∧ out.ritzv = st.ritzv ∘ σ ∧
      (SortedOn 0 cfg.nev st.ritzv → σ = 1) ∧ (out.iterations = 1 → σ = 1) ∧
      OrthoOn (cfg.nev + cfg.nex) out.be.C ∧
      (∀ i, i < cfg.nev + cfg.nex → IsRayleigh g.H (out.ritzv i) (out.be.C (σ i))) ∧
      (SortKeepsSorted P →
        CertifiedPairs g.H cfg.nev (cfg.nev + cfg.nex) out.ritzv out.resid (out.be.C ∘ σ))) := by
  subst hN
  have hE : G.base.nevex = cfg.nev + cfg.nex := by unfold Env.nevex; rw [hnev, hnex]
  have hf := gFrameWith (G := G) hq hd hL (by rw [hE]; exact hle) hH
  have hp := gMakesPairsWith (G := G) (q := q) (d := d) hL hH
  have hr := gMakesResidualsWith (G := G) (q := q) hd hL hH
  have ha := gMakesAscendingWith (G := G) (q := q) (d := d) hL hH
  rw [hE] at hf hp hr ha
  have hsym : cfg.symCheck = true → ((gOpsWith G q d).checkSymmetryEasy g).1 = true :=
    fun _ => gSymCheck_hermitian ht g hH
  have hpre : (gPhases G g.H).pre g := rfl
  have hsw : SwapsNothing (gOpsWith G q d) := fun _ _ _ => rfl
  refine ⟨?_, fun hit => ?_⟩
  · exact noSwap_holds_at_end (Q := fun t : GSt K cfg.N => t.H = g.H) hP hf hsw hmax ha hp hr hpre hsym h
      (fun t ht => ht.1) (fun _ h => h)
  · obtain ⟨be0, st, h0, h1, h2, ⟨s, h3, h4⟩, σ, h5, h6, h7, h8, h8', h9⟩ :=
      C05_noSwap_partial P (gOpsWith G q d) GSt.cols GSt.nl (gPhases G g.H) (IsRayleigh g.H) (IsResidual g.H)
        cfg hP hf hsw hmax ha hp hr ritzv0 resid0 g hpre out hsym h hit
    have ho : OrthoOn (cfg.nev + cfg.nex) out.be.C := by
      have : out.be.C = s.C := h4
      rw [this, ← hE]; exact h3.2.2.2.2
    refine ⟨be0, st, h0, h1, h2, σ, h5, h6, h8, h8', ho, h7, fun hk => ?_⟩
    have hσ : PermOn 0 (cfg.nev + cfg.nex) σ := h5.mono (Nat.le_refl 0) (by omega)
    refine certified_of_facts hH (τ := σ) ?_ h7
      (C04_values_ascending P (gOpsWith G q d) cfg ritzv0 resid0 g out hsym h).1 h5 (h9 hk)
    intro i j hi hj
    rw [Function.comp, Function.comp, ho _ _ (hσ.mem (Nat.zero_le _) hi).2
      (hσ.mem (Nat.zero_le _) hj).2]
    simp

/-- What a solve on the global backend returns. -/
theorem gSolve (P : Plat ℝ) (hP : SortsIndices P) (hL : G.base.lapack.Ok) (ht : 0 ≤ G.symTol)
    (cfg : Config ℝ) (hnev : G.base.nev = cfg.nev) (hnex : G.base.nex = cfg.nex) (hN : cfg.N = N)
    (hle : cfg.nev + cfg.nex ≤ N) (hmax : Even cfg.maxDeg) (ritzv0 resid0 : ℕ → ℝ) (g : GSt K N)
    (hH : g.H.IsHermitian) (out : Outcome ℝ (GSt K N))
    (h : solve P (gOps G) cfg ritzv0 resid0 g = .ok out) :
    out.be.H = g.H ∧ (0 < out.iterations →
      ∃ be0 st, be0 = (if cfg.symCheck then ((gOps G).checkSymmetryEasy g).2 else g) ∧
      Reach P (gOps G) cfg ritzv0 resid0 be0 st ∧ ¬ running cfg st ∧
      ∃ σ : Equiv.Perm ℕ, PermOn 0 cfg.nev σ ∧ out.ritzv = st.ritzv ∘ σ ∧
      (SortedOn 0 cfg.nev st.ritzv → σ = 1) ∧ (out.iterations = 1 → σ = 1) ∧
      OrthoOn (cfg.nev + cfg.nex) out.be.C ∧
      (∀ i, i < cfg.nev + cfg.nex → IsRayleigh g.H (out.ritzv i) (out.be.C (σ i))) ∧
      (SortKeepsSorted P →
        CertifiedPairs g.H cfg.nev (cfg.nev + cfg.nex) out.ritzv out.resid (out.be.C ∘ σ))) :=
  gSolveWith (gQr_like hL (by unfold Env.nevex; rw [hnev, hnex]; exact hle)) gResd_like P hP hL ht cfg hnev
    hnex hN hle hmax ritzv0 resid0 g hH out h

end Mpi
end Verif
