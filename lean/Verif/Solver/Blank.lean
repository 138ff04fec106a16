/-
A solve whose Rayleigh-Ritz step destroys the vectors without anybody noticing.
-/
import Verif.Solver.Props
import Verif.Solver.Watch

set_option linter.unusedSectionVars false

namespace Verif

variable {R S : Type*} [Add R] [Sub R] [Mul R] [Div R] [Neg R] [Zero R] [One R] [NatCast R] [LT R] [DecidableLT R]

/-- A backend (`nl` is its count of locked columns) whose Rayleigh-Ritz step on all `n` columns leaves
zeros everywhere: the values are zero, and so are the residuals computed from what it leaves.  `blank` and
`done` describe the vectors before and after `End`. -/
structure Blanks (ops : Chase R S) (nl : S → ℕ) (n : ℕ) (blank done : S → Prop) : Prop where
  start : ∀ s, nl (ops.start s) = 0
  initVecs : ∀ b s, nl (ops.initVecs b s) = nl s
  qr : ∀ k c s, nl (ops.qr k c s) = nl s
  lanczos1 : ∀ m s, nl (ops.lanczos1 m s).2 = nl s
  lanczosN : ∀ m k s, nl (ops.lanczosN m k s).2 = nl s
  lanczosDos : ∀ i m z s, nl (ops.lanczosDos i m z s) = nl s
  shift : ∀ c b s, nl (ops.shift c b s) = nl s
  hemm : ∀ k a b o s, nl (ops.hemm k a b o s) = nl s
  swap : ∀ i j s, nl (ops.swap i j s) = nl s
  rr : ∀ s, nl s = 0 → ∀ i, i < n → (ops.rr n s).1 i = 0
  resd : ∀ f s, nl s = 0 → ∀ i, i < n → (ops.resd f 0 (ops.rr n s).2).1 i = 0
  blank_resd : ∀ f s, nl s = 0 → blank (ops.resd f 0 (ops.rr n s).2).2
  blank_swap : ∀ i j s, i < n → j < n → blank s → blank (ops.swap i j s)
  blank_lock : ∀ k s, blank s → blank (ops.lock k s)
  blank_finish : ∀ s, blank s → done (ops.finish s)

namespace Blanks

/-- The backend with the calls left out that change the count. -/
def early (ops : Chase R S) : Chase R S :=
  { ops with
    checkSymmetryEasy := fun s => (true, s), finish := fun s => s, start := fun s => s
    rr := fun _ s => (fun _ => 0, s), resd := fun _ _ s => (fun _ => 0, s), lock := fun _ s => s }

variable {ops : Chase R S} {nl : S → ℕ} {n : ℕ} {blank done : S → Prop} (hb : Blanks ops nl n blank done)
include hb

theorem sim : Sim (early ops) (early ops) (fun p p' => p = p' ∧ nl p = 0) where
  checkSymmetryEasy := fun s s' h => ⟨rfl, h⟩
  start := fun _ _ h => h
  finish := fun _ _ h => h
  initVecs := fun b s s' h => ⟨by rw [h.1], (hb.initVecs b s).trans h.2⟩
  qr := fun k c s s' h => ⟨by rw [h.1], (hb.qr k c s).trans h.2⟩
  lanczos1 := fun m s s' h => ⟨by rw [h.1], by rw [h.1], (hb.lanczos1 m s).trans h.2⟩
  lanczosN := fun m k s s' h => ⟨by rw [h.1], by rw [h.1], (hb.lanczosN m k s).trans h.2⟩
  lanczosDos := fun i m z s s' h => ⟨by rw [h.1], (hb.lanczosDos i m z s).trans h.2⟩
  shift := fun c b s s' h => ⟨by rw [h.1], (hb.shift c b s).trans h.2⟩
  hemm := fun k a b o s s' h => ⟨by rw [h.1], (hb.hemm k a b o s).trans h.2⟩
  rr := fun _ _ _ h => ⟨rfl, h⟩
  resd := fun _ _ _ _ h => ⟨rfl, h⟩
  lock := fun _ _ _ h => h
  swap := fun i j s s' h => ⟨by rw [h.1], (hb.swap i j s).trans h.2⟩

/-- After the initialisation no column is locked. -/
theorem init {P : Plat R} {cfg : Config R} {r0 s0 : ℕ → R} {be : S} {st : St R S}
    (h : initState P ops cfg r0 s0 be = .ok st) : nl st.be = 0 := by
  have e : initState P ops cfg r0 s0 be = initState P (early ops) cfg r0 s0 (ops.start be) := rfl
  rw [e] at h
  exact (RelE.self_ok (initState_sim hb.sim P cfg r0 s0 (be := ops.start be)
    (be' := ops.start be) ⟨rfl, hb.start be⟩) h).be.2

omit hb in
theorem lockLoop_all {tol : R} (ht : ¬ (0 : R) > tol) {index : ℕ → ℕ} {u : ℕ} {m k : ℕ}
    {n : ℕ} (hblank : ∀ i j s, i < n → j < n → blank s → blank (ops.swap i j s))
    (hidx : ∀ k, k < u → index k < u) (hmk : k + m = u) (hu : u ≤ n) {p : LockSt R S} (hc : p.converged = k) (hz : ∀ i, i < n → p.ritzv i = 0)
    (hr : ∀ i, i < n → p.resid i = 0) (hbl : blank p.be) :
    (lockLoop ops tol index 0 m k p).converged = u ∧
    (∀ i, i < n → (lockLoop ops tol index 0 m k p).ritzv i = 0) ∧
    (∀ i, i < n → (lockLoop ops tol index 0 m k p).resid i = 0) ∧
    blank (lockLoop ops tol index 0 m k p).be := by
  induction m generalizing k p with
  | zero => exact ⟨by rw [lockLoop, hc]; omega, hz, hr, hbl⟩
  | succ m ih =>
    rw [lockLoop]
    dsimp only
    have hj := hidx k (by omega)
    rw [if_neg (by rw [hr _ (by omega)]; exact fun h => ht h.1)]
    have hsw : ∀ (f : ℕ → R) (a b : ℕ), a < n → b < n → (∀ i, i < n → f i = 0) →
        ∀ i, i < n → swapAt f a b i = 0 := by
      intro f a b ha hb' hf i hi
      unfold swapAt
      by_cases h1 : i = a
      · by_cases h2 : i = b <;> simp [Function.update_apply, h1, h2, hf _ ha, hf _ hb']
      · by_cases h2 : i = b <;> simp [Function.update_apply, h1, h2, hf _ ha, hf _ hb', hf _ hi]
    refine ih (by omega) ?_ ?_ ?_ ?_
    · show (LockSt.exchange ops 0 (index k) p).converged + 1 = k + 1
      unfold LockSt.exchange
      split_ifs <;> simp [hc]
    · show ∀ i, i < n → (LockSt.exchange ops 0 (index k) p).ritzv i = 0
      unfold LockSt.exchange
      split_ifs
      · exact hsw _ _ _ (by omega) (by omega) hz
      · exact hz
    · show ∀ i, i < n → (LockSt.exchange ops 0 (index k) p).resid i = 0
      unfold LockSt.exchange
      split_ifs
      · exact hsw _ _ _ (by omega) (by omega) hr
      · exact hr
    · show blank (LockSt.exchange ops 0 (index k) p).be
      unfold LockSt.exchange
      split_ifs
      · exact hblank _ _ _ (by omega) (by omega) hbl
      · exact hbl

/-- The first round locks the wanted columns. -/
theorem first {P : Plat R} (hP : ∀ u key k, k < u → P.sortIdx u key k < u) {cfg : Config R}
    (hn : n = cfg.nev + cfg.nex) (ht : ¬ (0 : R) > cfg.tol) {st st' : St R S} (h0 : nl st.be = 0)
    (hl : st.locked = 0) (hu : st.unconverged = cfg.nev + cfg.nex)
    (h : iter P ops cfg st = .ok st') :
    st'.locked = cfg.nev ∧ st'.unconverged = cfg.nex ∧ (∀ i, i < n → st'.ritzv i = 0) ∧
    (∀ i, i < n → st'.resid i = 0) ∧ blank st'.be := by
  unfold iter at h
  cases ho : optimise P ops cfg (updateBounds (cfg.nev + cfg.nex) st) with
  | error e => rw [ho] at h; cases h
  | ok s1 =>
    have g1 := (RelE.self_ok (optimise_sim hb.sim P cfg (updateBounds_sim (cfg.nev + cfg.nex)
      (p := st) (p' := st) (r := fun p p' => p = p' ∧ nl p = 0)
      ⟨rfl, rfl, rfl, rfl, rfl, rfl, rfl, rfl, rfl, rfl, rfl, rfl, h0⟩)) (show optimise P (early ops) cfg
        (updateBounds (cfg.nev + cfg.nex) st) = .ok s1 from ho)).be.2
    have e1 : s1.locked = 0 ∧ s1.unconverged = cfg.nev + cfg.nex := by
      unfold optimise at ho
      split_ifs at ho
      · split at ho
        · cases ho
        · cases ho; exact ⟨hl, hu⟩
      · cases ho; exact ⟨hl, hu⟩
    rw [ho] at h
    dsimp only at h
    cases hf : filter ops cfg.N s1.unconverged s1.deg s1.degrees (cfg.nev + cfg.nex) s1.locked
        s1.lambda s1.lowerb s1.upperb s1.be with
    | error e => rw [hf] at h; cases h
    | ok w =>
      obtain ⟨av, be⟩ := w
      have g2 : nl be = 0 := (RelE.self_ok (filter_sim hb.sim cfg.N s1.unconverged s1.deg
        s1.degrees (cfg.nev + cfg.nex) s1.locked s1.lambda s1.lowerb s1.upperb (be := s1.be)
        (be' := s1.be) ⟨rfl, g1⟩) (show filter (early ops) cfg.N s1.unconverged s1.deg s1.degrees
          (cfg.nev + cfg.nex) s1.locked s1.lambda s1.lowerb s1.upperb s1.be = .ok (av, be) from hf)).2.2
      rw [hf] at h
      dsimp only at h
      injection h with h
      rw [← h]
      unfold lockStep locking project
      dsimp only
      rw [e1.1, e1.2]
      generalize hq : ops.qr 0 _ be = t
      have ht0 : nl t = 0 := by rw [← hq, hb.qr, g2]
      rw [← hn]
      obtain ⟨a1, a2, a3, a4⟩ := lockLoop_all (ops := ops) (tol := cfg.tol) ht
        (index := P.sortIdx (n - cfg.nex) fun i => writeAt s1.ritzv 0 n (ops.rr n t).1 (0 + i))
        (u := n - cfg.nex) (m := n - cfg.nex) (k := 0) (blank := blank) hb.blank_swap
        (fun k hk => hP _ _ _ hk) (by omega) (n := n) (by omega)
        (p := { ritzv := writeAt s1.ritzv 0 n (ops.rr n t).1
                resid := writeAt s1.resid 0 (n - 0)
                  (ops.resd (fun i => writeAt s1.ritzv 0 n (ops.rr n t).1 (0 + i)) 0 (ops.rr n t).2).1
                residLast := forRange 0 n (fun i rl => Function.update rl (0 + i)
                  (stdMin (rl (0 + i)) (s1.resid (0 + i)))) s1.residLast
                be := (ops.resd (fun i => writeAt s1.ritzv 0 n (ops.rr n t).1 (0 + i)) 0
                  (ops.rr n t).2).2
                converged := 0 }) rfl
        (fun i hi => by
          show writeAt _ 0 n _ i = 0
          rw [writeAt, if_pos ⟨Nat.zero_le _, by omega⟩]
          exact hb.rr t ht0 _ (by omega))
        (fun i hi => by
          show writeAt _ 0 (n - 0) _ i = 0
          rw [writeAt, if_pos ⟨Nat.zero_le _, by omega⟩]
          exact hb.resd _ t ht0 _ (by omega))
        (hb.blank_resd _ t ht0)
      refine ⟨?_, ?_, a2, a3, hb.blank_lock _ _ a4⟩
      · rw [a1]; omega
      · rw [a1]; omega

/-- A solve that returns after at least one round has made one round, says that it found all pairs, and
returns zeros. -/
theorem solve {P : Plat R} (hP : ∀ u key k, k < u → P.sortIdx u key k < u) {cfg : Config R}
    (hn : n = cfg.nev + cfg.nex) (ht : ¬ (0 : R) > cfg.tol) {r0 s0 : ℕ → R} {be : S}
    {out : Outcome R S} (hsym : cfg.symCheck = true → (ops.checkSymmetryEasy be).1 = true)
    (h : Verif.solve P ops cfg r0 s0 be = .ok out) (hit : 0 < out.iterations) :
    out.iterations = 1 ∧ out.locked = cfg.nev ∧ (∀ i, i < n → out.ritzv i = 0) ∧
    (∀ i, i < n → out.resid i = 0) ∧ done out.be := by
  obtain ⟨be0, st0, st, -, h0, hs, hr, hv, rfl⟩ := solve_ok h hsym
  have g0 := hb.init h0
  obtain ⟨be1, l, -, -, -, hst0⟩ := initState_ok h0
  have i0 : st0.locked = 0 ∧ st0.unconverged = cfg.nev + cfg.nex ∧ st0.iteration = 0 := by
    rw [hst0]; exact ⟨rfl, rfl, rfl⟩
  have key : st = st0 ∨ (st.iteration = 1 ∧ st.locked = cfg.nev ∧ st.unconverged = cfg.nex ∧
      (∀ i, i < n → st.ritzv i = 0) ∧ (∀ i, i < n → st.resid i = 0) ∧ blank st.be) := by
    clear h hit hr
    induction hs with
    | refl => exact Or.inl rfl
    | tail _ hstep ih =>
      rcases ih with ih | ih
      · subst ih
        right
        have := hb.first hP hn ht g0 i0.1 i0.2.1 hstep.2
        exact ⟨by rw [iter_iteration _ _ _ _ _ hstep.2, i0.2.2], this⟩
      · exact absurd hstep.1.1 (by rw [ih.2.2.1]; omega)
  rcases key with rfl | ⟨k1, k2, k3, k4, k5, k6⟩
  · exact absurd (show 0 < st.iteration from hit) (by rw [i0.2.2]; exact lt_irrefl 0)
  · dsimp only
    have hsort : (∀ i, i < n → (finalSort ops cfg.nev st.ritzv st.be).1 i = 0) ∧
        blank (finalSort ops cfg.nev st.ritzv st.be).2 := by
      unfold finalSort
      refine forRange_pres _ (fun p : (ℕ → R) × S => (∀ i, i < n → p.1 i = 0) ∧ blank p.2) ⟨k4, k6⟩ ?_
      intro i p hi1 hi2 hp
      refine forRange_pres _ (fun p : (ℕ → R) × S => (∀ i, i < n → p.1 i = 0) ∧ blank p.2) hp ?_
      intro j q hj1 hj2 hq
      split_ifs
      · refine ⟨fun a ha => ?_, hb.blank_swap _ _ _ (by omega) (by omega) hq.2⟩
        dsimp only
        unfold swapAt
        by_cases h1 : a = i
        · by_cases h2 : a = j <;>
            simp [Function.update_apply, h1, h2, hq.1 i (by omega), hq.1 j (by omega)]
        · by_cases h2 : a = j <;>
            simp [Function.update_apply, h1, h2, hq.1 i (by omega), hq.1 j (by omega), hq.1 a ha]
      · exact hq
    exact ⟨k1, k2, hsort.1, k5, hb.blank_finish _ hsort.2⟩

end Blanks
end Verif
