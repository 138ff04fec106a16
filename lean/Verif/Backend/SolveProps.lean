/-
C13, C41, C50: what a whole solve leaves behind, for the single-process backends.
-/
import Verif.Backend.InPlaceProof
import Verif.Backend.Spectral
import Verif.Backend.SymProps
import Verif.Solver.Parity
import Verif.Solver.Succeeds

namespace Verif

open Matrix

variable {K : Type*} [RCLike K] {N : ℕ}

/-! ### The solver's contracts for the two families of backends -/

/-- `v` is the Rayleigh quotient of the column `x`. -/
def IsRayleigh (H : Matrix (Fin N) (Fin N) K) (v : ℝ) (x : Fin N → K) : Prop :=
  ∑ k, star (x k) * H.mulVec x k = (v : K)

/-- `r` is the residual norm of the pair `v`, `x`. -/
def IsResidual (H : Matrix (Fin N) (Fin N) K) (v : ℝ) (x : Fin N → K) (r : ℝ) : Prop :=
  r = Real.sqrt (∑ k, ‖H.mulVec x k - (v : K) * x k‖ ^ 2)

theorem Seq.makesPairs {E : Env K} (hL : E.lapack.Ok) {H0 : Matrix (Fin N) (Fin N) K}
    (hH : H0.IsHermitian) :
    MakesPairs (Seq.ops E) Seq.St.C Seq.St.locked (Seq.phases E H0) (IsRayleigh H0) E.nevex := by
  rintro s ⟨h1, h2, h3, h4, h5⟩ i hi
  have e : s.locked + (E.nevex - s.locked) = E.nevex := by omega
  obtain ⟨-, -, -, -, -, -, -, a8, -⟩ := Seq.rr_spec hL s (by rw [h1]; exact hH)
    (l := s.locked) (b := E.nevex - s.locked) (by rw [e]; exact h5) (fun j _ hj => h4 j (by omega))
  have := a8 i i hi hi
  rw [if_pos rfl, h1] at this
  exact this

theorem Seq.makesResiduals {E : Env K} (hL : E.lapack.Ok) {H0 : Matrix (Fin N) (Fin N) K}
    (hH : H0.IsHermitian) :
    MakesResiduals (Seq.ops E) Seq.St.C Seq.St.locked (Seq.phases E H0) (IsResidual H0) E.nevex := by
  rintro f s ⟨h1, h2, h3, h4, h5⟩ hl - i hi
  have e : s.locked + (E.nevex - s.locked) = E.nevex := by omega
  obtain ⟨a1, -, a3, -, a5, -⟩ := Seq.rr_spec hL s (by rw [h1]; exact hH)
    (l := s.locked) (b := E.nevex - s.locked) (by rw [e]; exact h5) (fun j _ hj => h4 j (by omega))
  have hl' : ((Seq.ops E).rr (E.nevex - s.locked) s).2.locked = s.locked := a3
  obtain ⟨-, -, -, -, -, b6⟩ := Seq.resd_spec f
    ((Seq.ops E).rr (E.nevex - s.locked) s).2.locked (E.nevex - s.locked)
    ((Seq.ops E).rr (E.nevex - s.locked) s).2 (by
      rw [show ((Seq.ops E).rr (E.nevex - s.locked) s).2.H = s.H from a1, h1]; exact hH)
    (fun j h1 h2 => a5 j (by omega) (by omega))
  have := b6 i hi
  rw [hl', show ((Seq.ops E).rr (E.nevex - s.locked) s).2.H = s.H from a1, h1] at this
  refine Eq.trans ?_ this
  show (Seq.resd f _ _ _).1 i = _
  rw [hl']

theorem InPlace.makesPairs {E : Env K} {k : InPlace.Kind} (hL : E.lapack.Ok)
    {H0 : Matrix (Fin N) (Fin N) K} (hH : H0.IsHermitian) :
    MakesPairs (InPlace.safeOps E k) InPlace.St.V1 InPlace.St.locked (InPlace.phases E k H0)
      (IsRayleigh H0) E.nevex := by
  rintro s ⟨h1, h2, h3, h4, h5⟩ i hi
  have e : s.locked + (E.nevex - s.locked) = E.nevex := by omega
  obtain ⟨-, -, -, -, -, -, -, a8, -, -⟩ := InPlace.rr_spec hL s (by rw [h1]; exact hH)
    (l := s.locked) (b := E.nevex - s.locked) (by rw [e]; exact h5) h4
  have := a8 i i hi hi
  rw [if_pos rfl, h1] at this
  exact this

theorem InPlace.makesResiduals {E : Env K} {k : InPlace.Kind} (hL : E.lapack.Ok)
    {H0 : Matrix (Fin N) (Fin N) K} (hH : H0.IsHermitian) :
    MakesResiduals (InPlace.safeOps E k) InPlace.St.V1 InPlace.St.locked (InPlace.phases E k H0)
      (IsResidual H0) E.nevex := by
  rintro f s ⟨h1, h2, h3, h4, h5⟩ hl hf i hi
  have e : s.locked + (E.nevex - s.locked) = E.nevex := by omega
  obtain ⟨a1, -, a3, -, -, -, -, -, -, a10⟩ := InPlace.rr_spec hL s (by rw [h1]; exact hH)
    (l := s.locked) (b := E.nevex - s.locked) (by rw [e]; exact h5) h4
  set t := ((InPlace.ops E k).rr (E.nevex - s.locked) s).2 with ht
  have hl' : t.locked = s.locked := a3
  have hH' : t.H = H0 := Eq.trans a1 h1
  obtain ⟨-, -, -, -, -, -, b6⟩ := InPlace.resd_spec (k := k) f t.locked (E.nevex - s.locked) t
    (by rw [hH']; exact hH)
  have := b6 i hi
  have hv : t.dRitz i = f i := (a10 i hi).trans (hf i hi).symm
  rw [hl', hH'] at this
  have h2 : (InPlace.resd k f s.locked (E.nevex - s.locked) t).1 i =
      nrm2 (H0.mulVec (t.V1 (s.locked + i)) - (f i : K) • t.V1 (s.locked + i)) := by
    rw [this]
    cases k
    · rfl
    · show nrm2 (_ - (t.dRitz i : K) • _) = _
      rw [hv]
  refine Eq.trans ?_ h2
  show (InPlace.resd k f t.locked (E.nevex - s.locked) t).1 i = _
  rw [hl']

/-! ### C50 -/

/-- The outcome promised by C50, for the columns `X` in the user's hands. -/
def CertifiedPairs (H : Matrix (Fin N) (Fin N) K) (nev n : ℕ) (vals resid : ℕ → ℝ)
    (X : ℕ → Fin N → K) : Prop :=
  (∀ i j, i < n → j < n → ∑ k, star (X i k) * X j k = if i = j then 1 else 0) ∧
  (∀ i, i < n → IsRayleigh H (vals i) (X i)) ∧
  (∀ i j, i ≤ j → j < nev → vals i ≤ vals j) ∧
  (∃ σ : Equiv.Perm ℕ, (∀ i, nev ≤ i → σ i = i) ∧ ∀ i, i < n →
    IsResidual H (vals i) (X i) (resid (σ i)) ∧
    ∃ μ, IsEigenvalue H μ ∧ |μ - vals i| ≤ resid (σ i)) ∧
  ∀ i, i < n → ∃ μ₁ μ₂, IsEigenvalue H μ₁ ∧ IsEigenvalue H μ₂ ∧ μ₁ ≤ vals i ∧ vals i ≤ μ₂

/-- Orthonormal columns with their Rayleigh quotients and residuals are certified pairs. -/
theorem certified_of_facts {H : Matrix (Fin N) (Fin N) K} (hH : H.IsHermitian) {nev n : ℕ}
    {vals resid : ℕ → ℝ} {X : ℕ → Fin N → K} (ho : OrthoOn n X)
    (hr : ∀ i, i < n → IsRayleigh H (vals i) (X i)) (hasc : SortedOn 0 nev vals) {τ : Equiv.Perm ℕ}
    (hτ : PermOn 0 nev τ) (hrs : ∀ i, i < n → IsResidual H (vals i) (X i) (resid (τ i))) :
    CertifiedPairs H nev n vals resid X := by
  have hunit : ∀ i, i < n → ∑ k, ‖X i k‖ ^ 2 = 1 := by
    intro i hi
    have := ho i i hi hi
    rw [dotc_self, if_pos rfl] at this
    exact_mod_cast this
  refine ⟨ho, hr, fun i j hij hj => hasc i j (Nat.zero_le _) hij hj,
    ⟨τ, fun i hi => hτ i (Or.inr hi), fun i hi => ⟨hrs i hi, ?_⟩⟩, fun i hi => ?_⟩
  · obtain ⟨μ, h1, h2⟩ := C28_residual_certifies_eigenvalue H hH (X i) (hunit i hi) (vals i)
    refine ⟨μ, h1, h2.trans (le_of_eq ?_)⟩
    have := hrs i hi
    unfold IsResidual at this
    rw [this]
    rfl
  · exact C28_rayleigh_within_spectrum H hH (X i) (hunit i hi) _ (hr i hi)

/-- From the contracts to certified pairs. -/
theorem certified_of_contracts {S : Type*} {P : Plat ℝ} {ops : Chase ℝ S} {cols : S → ℕ → Fin N → K}
    {nl : S → ℕ} {ph : Phases S} {cfg : Config ℝ} (hP : SortsIndices P)
    (hb : Bookkeeping ops cols nl ph cfg.N (cfg.nev + cfg.nex)) (hmax : Even cfg.maxDeg)
    {H : Matrix (Fin N) (Fin N) K} (hH : H.IsHermitian)
    (hpair : MakesPairs ops cols nl ph (IsRayleigh H) (cfg.nev + cfg.nex))
    (hres : MakesResiduals ops cols nl ph (IsResidual H) (cfg.nev + cfg.nex))
    (horth : ∀ s, ph.synced s → OrthoOn (cfg.nev + cfg.nex) (cols s))
    {ritzv0 resid0 : ℕ → ℝ} {be : S} (hpre : ph.pre be) {out : Outcome ℝ S}
    (hsym : cfg.symCheck = true → (ops.checkSymmetryEasy be).1 = true)
    (h : solve P ops cfg ritzv0 resid0 be = .ok out) (hit : 0 < out.iterations) :
    CertifiedPairs H cfg.nev (cfg.nev + cfg.nex) out.ritzv out.resid (cols out.be) := by
  obtain ⟨s, σ, hs, hσ, ec⟩ := columns_at_end hP hb hmax hpre hsym h hit
  have ho : OrthoOn (cfg.nev + cfg.nex) (cols out.be) := by
    rw [ec]
    intro i j hi hj
    have hi' := (hσ.mem (Nat.zero_le _) hi).2
    have hj' := (hσ.mem (Nat.zero_le _) hj).2
    rw [Function.comp, Function.comp, horth s hs _ _ hi' hj']
    simp
  have hr := C05_values_stay_with_vectors P ops cols nl ph (IsRayleigh H) cfg hP hb hmax hpair
    ritzv0 resid0 be hpre out hsym h hit
  have hasc := (C04_values_ascending P ops cfg ritzv0 resid0 be out hsym h).1
  obtain ⟨be0, st, -, -, -, τ, hτ, -, hrs, -⟩ := C06_residuals_partial P ops cols nl ph (IsResidual H) cfg
    hP hb hmax hres ritzv0 resid0 be hpre out hsym h hit
  exact certified_of_facts hH ho hr hasc hτ hrs

/-- **C50, C41, C13** (sequential backend) After a solve with at least one round, the user's array holds
orthonormal columns, each value is the Rayleigh quotient of its column, each residual (up to the order of
the residual array, see C06) is the residual norm of a returned pair and certifies an eigenvalue, and
the matrix is what it was. -/
theorem C50_seq (P : Plat ℝ) (hP : SortsIndices P) (E : Env K) (hL : E.lapack.Ok) (cfg : Config ℝ)
    (hnev : E.nev = cfg.nev) (hnex : E.nex = cfg.nex) (hN : cfg.N = N) (hle : cfg.nev + cfg.nex ≤ N)
    (hmax : Even cfg.maxDeg) (ritzv0 resid0 : ℕ → ℝ) (s : Seq.St K N) (hH : s.H.IsHermitian)
    (out : Outcome ℝ (Seq.St K N))
    (h : solve P (Seq.ops E) cfg ritzv0 resid0 s = .ok out) :
    out.be.H = s.H ∧
    (0 < out.iterations →
      CertifiedPairs s.H cfg.nev (cfg.nev + cfg.nex) out.ritzv out.resid out.be.C) := by
  subst hN
  have hE : E.nevex = cfg.nev + cfg.nex := by unfold Env.nevex; rw [hnev, hnex]
  have hb := Seq.bookkeeping (E := E) hL (by rw [hE]; exact hle) hH
  have hp := Seq.makesPairs (E := E) hL hH
  have hr := Seq.makesResiduals (E := E) hL hH
  rw [hE] at hb hp hr
  have hsym : cfg.symCheck = true → ((Seq.ops E).checkSymmetryEasy s).1 = true :=
    fun _ => C09_hermitian_accepted E.lapack s.H hH
  have hpre : (Seq.phases E s.H).pre s := rfl
  refine ⟨?_, fun hit => ?_⟩
  · exact holds_at_end (Q := fun t : Seq.St K cfg.N => t.H = s.H) hP hb hmax hpre hsym h
      (fun t ht => ht.1) (fun _ _ _ h => h) (fun _ h => h)
  · exact certified_of_contracts hP hb hmax hH hp hr (fun t ht => by rw [← hE]; exact ht.2.2.2.2)
      hpre hsym h hit

/-- The bit that tells in which buffer the current vectors are. -/
theorem InPlace.toggles (E : Env K) (k : InPlace.Kind) :
    Toggles (InPlace.ops (N := N) E k) InPlace.St.flipped where
  checkSymmetryEasy := fun _ => rfl
  start := fun _ => rfl
  finish := fun s => by cases k <;> rfl
  initVecs := fun b s => by cases k <;> cases b <;> rfl
  qr := fun m c s => by
    show InPlace.St.flipped (qrSelect _ _ _ _ _ s) = _
    unfold qrSelect
    dsimp only
    split_ifs <;> rfl
  lanczos1 := fun _ _ => rfl
  lanczosN := fun _ _ _ => rfl
  lanczosDos := fun _ _ _ _ => rfl
  shift := fun _ _ _ => rfl
  hemm := fun _ _ _ _ _ => rfl
  rr := fun _ _ => rfl
  resd := fun f j s => by
    show (InPlace.resd k f s.locked (E.nevex - j) s).2.flipped = _
    exact forRange_pres _ (fun p : (ℕ → ℝ) × InPlace.St K N => p.2.flipped = s.flipped) rfl
      (fun _ _ _ _ h => h)
  lock := fun _ _ => rfl
  swap := fun _ _ _ => rfl

/-- **C41, C50, C13** (partial, in-place CPU and single-GPU backend).  The certified
pairs are in the internal buffer `V1`; the user's array holds them on the GPU backend always, on the CPU
backend if the number of rounds is even.  For an odd number the claim is false, see
`C41_inplace_refuted`.  Hypothesis on the run: the shifted Cholesky QR is never applied to linearly
dependent columns (`InPlace.badQr`); otherwise the claim can fail, see `C26_locked_rescaled_refuted`. -/
theorem C41_inplace_partial (P : Plat ℝ) (hP : SortsIndices P) (E : Env K) (k : InPlace.Kind)
    (hL : E.lapack.Ok) (hε : 0 ≤ E.lapack.eps) (cfg : Config ℝ)
    (hnev : E.nev = cfg.nev) (hnex : E.nex = cfg.nex) (hN : cfg.N = N) (hle : cfg.nev + cfg.nex ≤ N)
    (hmax : Even cfg.maxDeg) (ritzv0 resid0 : ℕ → ℝ) (s : InPlace.St K N)
    (hq : QrAvoids P (InPlace.ops E k) cfg ritzv0 resid0 s (InPlace.badQr E))
    (hH : (s.userH k).IsHermitian) (hfl : s.flipped = false) (out : Outcome ℝ (InPlace.St K N))
    (h : solve P (InPlace.ops E k) cfg ritzv0 resid0 s = .ok out) :
    out.be.userH k = s.userH k ∧
    (0 < out.iterations →
      CertifiedPairs (s.userH k) cfg.nev (cfg.nev + cfg.nex) out.ritzv out.resid out.be.V1) ∧
    ((k = .cuda ∨ out.iterations % 2 = 0) →
      ∀ j, j < cfg.nev + cfg.nex → out.be.userV k j = out.be.V1 j) := by
  subst hN
  have hE : E.nevex = cfg.nev + cfg.nex := by unfold Env.nevex; rw [hnev, hnex]
  have hb := InPlace.bookkeeping (E := E) (k := k) hL hε (by rw [hE]; exact hle) hH
  have hp := InPlace.makesPairs (E := E) (k := k) hL hH
  have hr := InPlace.makesResiduals (E := E) (k := k) hL hH
  rw [hE] at hb hp hr
  have hsym : cfg.symCheck = true → ((InPlace.ops E k).checkSymmetryEasy s).1 = true :=
    fun _ => C09_hermitian_accepted E.lapack _ hH
  have hpre : (InPlace.phases E k (s.userH k)).pre s := rfl
  have h' : solve P (InPlace.safeOps E k) cfg ritzv0 resid0 s = .ok out :=
    solve_withQr h hq InPlace.safeQr_agree
  refine ⟨?_, fun hit => ?_, ?_⟩
  · exact holds_at_end (Q := fun t : InPlace.St K cfg.N => t.userH k = s.userH k) hP hb hmax hpre hsym h'
      (fun t ht => ht.2.1) (fun i j t h => (InPlace.userH_eq (s := t) rfl rfl).trans h)
      (fun t h => by
        refine (InPlace.userH_eq (s := t) ?_ ?_).trans h <;> cases k <;> rfl)
  · exact certified_of_contracts hP hb hmax hH hp hr (fun t ht => by rw [← hE]; exact ht.2.2.2)
      hpre hsym h' hit
  · intro hk j hj
    rcases hk with rfl | hk
    · obtain ⟨be0, st0, st, -, -, -, -, -, rfl⟩ := solve_ok h hsym
      show copyCols 0 E.nevex _ _ j = _
      rw [copyCols_apply, if_pos ⟨Nat.zero_le _, by rw [hE]; omega⟩]
      rfl
    · cases k
      · have := parity_at_end (InPlace.toggles E .cpu) hP hmax hsym h
        rw [hfl, hk] at this
        show (if out.be.flipped = true then out.be.V2 else out.be.V1) j = _
        rw [this]
        rfl
      · obtain ⟨be0, st0, st, -, -, -, -, -, rfl⟩ := solve_ok h hsym
        show copyCols 0 E.nevex _ _ j = _
        rw [copyCols_apply, if_pos ⟨Nat.zero_le _, by rw [hE]; omega⟩]
        rfl

end Verif
