/-
Helper lemmas about `locking` and `finalSort`.
-/
import Verif.Solver.DegreesProof

set_option linter.unusedSectionVars false

namespace Verif

variable {R S V : Type*} [LT R] [DecidableLT R]

theorem permOn_mul {lo hi : ℕ} {σ τ : Equiv.Perm ℕ} (h1 : PermOn lo hi σ) (h2 : PermOn lo hi τ) :
    PermOn lo hi (σ * τ) := by
  intro i hi
  rw [Equiv.Perm.mul_apply, h2 i hi, h1 i hi]

theorem permOn_swap {lo hi a b : ℕ} (ha : lo ≤ a ∧ a < hi) (hb : lo ≤ b ∧ b < hi) :
    PermOn lo hi (Equiv.swap a b) := by
  intro i hi
  rw [Equiv.swap_apply_of_ne_of_ne (by omega) (by omega)]

theorem permOn_one {lo hi : ℕ} : PermOn lo hi 1 := fun _ _ => rfl

theorem PermOn.mem {lo hi : ℕ} {σ : Equiv.Perm ℕ} (h : PermOn lo hi σ) {i : ℕ}
    (h1 : lo ≤ i) (h2 : i < hi) : lo ≤ σ i ∧ σ i < hi := by
  by_contra hcon
  have hout : σ i < lo ∨ hi ≤ σ i := by omega
  have : σ i = i := σ.injective (h _ hout)
  omega

theorem PermOn.mono {lo hi lo' hi' : ℕ} {σ : Equiv.Perm ℕ} (h : PermOn lo hi σ)
    (h1 : lo' ≤ lo) (h2 : hi ≤ hi') : PermOn lo' hi' σ :=
  fun i hi => h i (by omega)

/-- Number of pairs locked: at most the number of candidates. -/
theorem lockLoop_converged_le (ops : Chase R S) (tol : R) (index : ℕ → ℕ) (locked n k : ℕ)
    (st : LockSt R S) :
    st.converged ≤ (lockLoop ops tol index locked n k st).converged ∧
    (lockLoop ops tol index locked n k st).converged ≤ st.converged + n := by
  induction n generalizing k st with
  | zero => simp [lockLoop]
  | succ n ih =>
    unfold lockLoop
    dsimp only
    split_ifs with h
    · exact ⟨le_rfl, by omega⟩
    · have := ih (k + 1)
        { st.exchange ops locked (index k) with
          converged := (st.exchange ops locked (index k)).converged + 1 }
      have e : (st.exchange ops locked (index k)).converged = st.converged := by
        unfold LockSt.exchange; split_ifs <;> rfl
      simp only [e] at this ⊢
      omega

/-- The walk permutes pairs inside the window, whatever `index` is (as long as it stays inside). -/
theorem lockLoop_perm {ops : Chase R S} {cols : S → ℕ → V} {tol : R} {index : ℕ → ℕ}
    {locked u : ℕ} (hsw : SwapsColumns ops cols (locked + u)) (hidx : ∀ k, k < u → index k < u)
    (n k : ℕ) (st : LockSt R S) (hk : k + n = u) (hc : st.converged = k) :
    ∃ σ : Equiv.Perm ℕ, PermOn locked (locked + u) σ ∧
      (lockLoop ops tol index locked n k st).ritzv = st.ritzv ∘ σ ∧
      (lockLoop ops tol index locked n k st).resid = st.resid ∘ σ ∧
      (lockLoop ops tol index locked n k st).residLast = st.residLast ∘ σ ∧
      cols (lockLoop ops tol index locked n k st).be = cols st.be ∘ σ := by
  induction n generalizing k st with
  | zero => exact ⟨1, permOn_one, rfl, rfl, rfl, rfl⟩
  | succ n ih =>
    unfold lockLoop
    dsimp only
    split_ifs with h
    · exact ⟨1, permOn_one, rfl, rfl, rfl, rfl⟩
    · have hik := hidx k (by omega)
      obtain ⟨σ, hσ, h1, h2, h3, h4⟩ := ih (k + 1)
        { st.exchange ops locked (index k) with
          converged := (st.exchange ops locked (index k)).converged + 1 } (by omega)
        (by have e : (st.exchange ops locked (index k)).converged = st.converged := by
              unfold LockSt.exchange; split_ifs <;> rfl
            show (st.exchange ops locked (index k)).converged + 1 = k + 1
            rw [e, hc])
      have hx : ∃ τ : Equiv.Perm ℕ, PermOn locked (locked + u) τ ∧
          (st.exchange ops locked (index k)).ritzv = st.ritzv ∘ τ ∧
          (st.exchange ops locked (index k)).resid = st.resid ∘ τ ∧
          (st.exchange ops locked (index k)).residLast = st.residLast ∘ τ ∧
          cols (st.exchange ops locked (index k)).be = cols st.be ∘ τ := by
        unfold LockSt.exchange
        split_ifs with hne
        · refine ⟨Equiv.swap (locked + index k) (locked + st.converged),
            permOn_swap ⟨by omega, by omega⟩ ⟨by omega, by omega⟩, ?_, ?_, ?_, ?_⟩
          · exact swapAt_eq_comp _ _ _
          · exact swapAt_eq_comp _ _ _
          · exact swapAt_eq_comp _ _ _
          · show cols (ops.swap (index k + locked) (st.converged + locked) st.be) = _
            rw [hsw _ _ _ (by omega) (by omega), swapAt_eq_comp, Nat.add_comm (index k),
              Nat.add_comm st.converged]
        · exact ⟨1, permOn_one, rfl, rfl, rfl, rfl⟩
      obtain ⟨τ, hτ, g1, g2, g3, g4⟩ := hx
      refine ⟨τ * σ, permOn_mul hτ hσ, ?_, ?_, ?_, ?_⟩
      · rw [h1]; dsimp only; rw [g1]; rfl
      · rw [h2]; dsimp only; rw [g2]; rfl
      · rw [h3]; dsimp only; rw [g3]; rfl
      · rw [h4]; dsimp only; rw [g4]; rfl

/-- With an index list that does not move anything, nothing moves, and exactly the longest prefix of
acceptable pairs is taken. -/
theorem lockLoop_id {ops : Chase R S} {tol : R} {index : ℕ → ℕ} {locked u : ℕ}
    (hidx : ∀ k, k < u → index k = k) (n k : ℕ) (st : LockSt R S) (hk : k + n = u)
    (hc : st.converged = k) :
    (lockLoop ops tol index locked n k st).ritzv = st.ritzv ∧
    (lockLoop ops tol index locked n k st).resid = st.resid ∧
    (lockLoop ops tol index locked n k st).residLast = st.residLast ∧
    (lockLoop ops tol index locked n k st).be = st.be ∧
    (∀ i, k ≤ i → i < (lockLoop ops tol index locked n k st).converged →
      ¬ (tol < st.resid (locked + i) ∧ st.resid (locked + i) < st.residLast (locked + i))) ∧
    ((lockLoop ops tol index locked n k st).converged < u →
      tol < st.resid (locked + (lockLoop ops tol index locked n k st).converged) ∧
      st.resid (locked + (lockLoop ops tol index locked n k st).converged) <
        st.residLast (locked + (lockLoop ops tol index locked n k st).converged)) := by
  induction n generalizing k st with
  | zero =>
    refine ⟨rfl, rfl, rfl, rfl, ?_, ?_⟩
    · intro i h1 h2
      simp only [lockLoop] at h2
      omega
    · intro h
      simp only [lockLoop] at h
      omega
  | succ n ih =>
    have hik := hidx k (by omega)
    unfold lockLoop
    dsimp only
    rw [hik]
    split_ifs with h
    · refine ⟨rfl, rfl, rfl, rfl, ?_, ?_⟩
      · intro i h1 h2; omega
      · intro _; rw [hc]; exact h
    · have e : st.exchange ops locked k = st := by
        unfold LockSt.exchange
        rw [if_neg (by omega)]
      rw [e]
      obtain ⟨h1, h2, h3, h4, h5, h6⟩ := ih (k + 1) { st with converged := st.converged + 1 }
        (by omega) (by show st.converged + 1 = k + 1; omega)
      refine ⟨h1, h2, h3, h4, ?_, h6⟩
      intro i hi1 hi2
      rcases Nat.eq_or_lt_of_le hi1 with rfl | hlt
      · exact h
      · exact h5 i hlt hi2

theorem finalSort_eq (ops : Chase R S) (cols : S → ℕ → V) (nev : ℕ) (ritzv : ℕ → R)
    (be : S) :
    finalSort ops nev ritzv be =
      exchangeLoop nev (fun j => j + 1) (fun (s : (ℕ → R) × S) i => (s.1 i, cols s.2 i))
        (fun x => x.1) (fun k j s => (swapAt s.1 j k, ops.swap j k s.2)) (ritzv, be) := rfl

theorem finalSort_perm {ops : Chase R S} {cols : S → ℕ → V} {nev : ℕ}
    (hsw : SwapsColumns ops cols nev) (ritzv : ℕ → R) (be : S) :
    ∃ σ : Equiv.Perm ℕ, PermOn 0 nev σ ∧
      (finalSort ops nev ritzv be).1 = ritzv ∘ σ ∧
      cols (finalSort ops nev ritzv be).2 = cols be ∘ σ := by
  have h1 : ∀ k j (s : (ℕ → R) × S), k < nev → j < nev →
      (fun (s : (ℕ → R) × S) i => (s.1 i, cols s.2 i)) (swapAt s.1 j k, ops.swap j k s.2) =
        swapAt ((fun (s : (ℕ → R) × S) i => (s.1 i, cols s.2 i)) s) k j := by
    intro k j s hk hj
    funext i
    simp only [hsw j k s.2 hj hk, swapAt_apply]
    by_cases a : i = k <;> by_cases b : i = j <;> simp_all
  obtain ⟨σ, hσ, hv⟩ := exchangeLoop_perm (n := nev) (first := fun j => j + 1)
    (view := fun (s : (ℕ → R) × S) i => (s.1 i, cols s.2 i)) (key := fun x => x.1)
    (sw := fun k j s => (swapAt s.1 j k, ops.swap j k s.2)) h1 (ritzv, be)
  rw [← finalSort_eq] at hv
  refine ⟨σ, fun i hi => hσ i (by omega), ?_, ?_⟩
  · funext i; exact congrArg Prod.fst (congrFun hv i)
  · funext i; exact congrArg Prod.snd (congrFun hv i)

theorem finalSort_spec {R : Type*} [LinearOrder R] {ops : Chase R S} {cols : S → ℕ → V} {nev : ℕ}
    (hsw : SwapsColumns ops cols nev) (ritzv : ℕ → R) (be : S) :
    SortedOn 0 nev (finalSort ops nev ritzv be).1 ∧
    ∃ σ : Equiv.Perm ℕ, PermOn 0 nev σ ∧
      (finalSort ops nev ritzv be).1 = ritzv ∘ σ ∧
      cols (finalSort ops nev ritzv be).2 = cols be ∘ σ := by
  have h1 : ∀ k j (s : (ℕ → R) × S), k < nev → j < nev →
      (fun (s : (ℕ → R) × S) i => (s.1 i, cols s.2 i)) (swapAt s.1 j k, ops.swap j k s.2) =
        swapAt ((fun (s : (ℕ → R) × S) i => (s.1 i, cols s.2 i)) s) k j := by
    intro k j s hk hj
    funext i
    simp only [hsw j k s.2 hj hk, swapAt_apply]
    by_cases a : i = k <;> by_cases b : i = j <;> simp_all
  have hs := exchangeLoop_sorted (n := nev) (first := fun j => j + 1)
    (view := fun (s : (ℕ → R) × S) i => (s.1 i, cols s.2 i)) (key := fun x => x.1)
    (sw := fun k j s => (swapAt s.1 j k, ops.swap j k s.2)) (fun j => Or.inr rfl) h1 (ritzv, be)
  rw [← finalSort_eq] at hs
  exact ⟨fun a b _ h2 h3 => hs a b h2 h3, finalSort_perm hsw ritzv be⟩

/-- Nothing happens when the values are ascending already. -/
theorem finalSort_of_sorted {R : Type*} [LinearOrder R] (ops : Chase R S) {nev : ℕ} {ritzv : ℕ → R} (be : S)
    (h : SortedOn 0 nev ritzv) : finalSort ops nev ritzv be = (ritzv, be) := by
  unfold finalSort
  refine forRange_pres _ (fun st : (ℕ → R) × S => st = (ritzv, be)) rfl ?_
  rintro i _ _ hi rfl
  refine forRange_pres _ (fun st : (ℕ → R) × S => st = (ritzv, be)) rfl ?_
  rintro j _ hj1 hj2 rfl
  rw [if_neg]
  exact not_lt.mpr (h i j (by omega) (by omega) hj2)

end Verif
