/-
C16, C17: properties of the degree optimisation (`calc_degrees`).
-/
import Verif.Solver.DegreesProof
import Verif.Solver.Toy
import Verif.Config.Props

set_option linter.unusedSectionVars false

namespace Verif

variable {R S V : Type*} [Add R] [Sub R] [Mul R] [Div R] [Neg R] [Zero R] [One R] [NatCast R] [LT R] [DecidableLT R]

/-- **C16** After a successful degree optimisation, with an even maximal degree: every degree of an
unconverged column is even and at most `MaxDeg`, the degrees are ascending, and the returned degree
is the largest of them. -/
theorem C16_degrees_even_bounded_ascending (P : Plat R) (ops : Chase R S) (cfg : Config R)
    (hmax : Even cfg.maxDeg) {u nex locked deg : ℕ} {upperb lowerb tol : R} {p p' : Pairs R S}
    (h : calcDegrees P ops cfg u nex upperb lowerb tol locked p = .ok (deg, p')) :
    (∀ i, locked ≤ i → i < locked + u → Even (p'.degrees i) ∧ p'.degrees i ≤ cfg.maxDeg) ∧
    SortedOn locked (locked + u) p'.degrees ∧
    (∀ i, locked ≤ i → i < locked + u → p'.degrees i ≤ deg) ∧
    (∃ i, locked ≤ i ∧ i < locked + u ∧ p'.degrees i = deg) := by
  unfold calcDegrees at h
  split_ifs at h with hu
  dsimp only at h
  split at h
  · cases h
  · rename_i d hd
    cases h
    obtain ⟨hr1, hr2⟩ := rawDegrees_spec hd
    obtain ⟨hf1, hf2⟩ := fillDegrees_spec (locked := locked) (show nex < u by omega) d
    obtain ⟨hs, σ, hσ, hdeg, -⟩ := sortDegrees_spec (ops := ops) (cols := fun _ _ => ()) (u := u)
      (locked := locked) (fun _ _ _ _ _ => rfl)
      { p with degrees := fillDegrees u nex locked d }
    have bound : ∀ i, i < u - nex → d (locked + i) ≤ cfg.maxDeg := by
      intro i hi
      obtain ⟨k, -, hk⟩ := hr1 i hi
      rw [hk]; exact min_le_right _ _
    have hq : ∀ i, i < u → Even (fillDegrees u nex locked d (locked + i)) ∧
        fillDegrees u nex locked d (locked + i) ≤ cfg.maxDeg := by
      intro i hi
      rw [hf1 i hi]
      obtain ⟨m, hm⟩ := hmax
      have key : ∀ r, r ≤ cfg.maxDeg → Even (r + r % 2) ∧ r + r % 2 ≤ cfg.maxDeg := by
        intro r hr
        rw [Nat.even_iff]
        omega
      dsimp only
      split_ifs with hc
      · exact key _ (bound i hc)
      · exact key _ (bound _ (by omega))
    refine ⟨?_, hs, ?_, ⟨locked + (u - 1), by omega, by omega, rfl⟩⟩
    · intro i h1 h2
      rw [hdeg]
      have hin : locked ≤ σ i ∧ σ i < locked + u := by
        by_contra hcon
        have hout : σ i < locked ∨ locked + u ≤ σ i := by omega
        have := hσ _ hout
        have : σ i = i := σ.injective this
        omega
      have := hq (σ i - locked) (by omega)
      rwa [show locked + (σ i - locked) = σ i by omega] at this
    · intro i h1 h2
      exact hs i _ h1 (by omega) (by omega)

/-- Configurations reachable by setter calls satisfy the hypothesis of
`C16_degrees_even_bounded_ascending`. -/
theorem C16_reachable_config (P : Plat R) (ops : Chase R S) (sc : Scalar) (N nev nex' : ℕ)
    (hist : List (Config.Setter R))
    {u nex locked deg : ℕ} {upperb lowerb tol : R} {p p' : Pairs R S}
    (h : calcDegrees P ops (Config.run sc N nev nex' hist) u nex upperb lowerb tol locked p
      = .ok (deg, p')) :
    (∀ i, locked ≤ i → i < locked + u → Even (p'.degrees i) ∧
      p'.degrees i ≤ (Config.run sc N nev nex' hist).maxDeg) ∧ Even deg ∧
      deg ≤ (Config.run sc N nev nex' hist).maxDeg := by
  obtain ⟨h1, -, -, i, hi1, hi2, hi3⟩ := C16_degrees_even_bounded_ascending P ops _
    (C19_degrees_even sc N nev nex' hist).2 h
  exact ⟨h1, hi3 ▸ (h1 i hi1 hi2).1, hi3 ▸ (h1 i hi1 hi2).2⟩

/-- Degree assigned to the pair at relative position `i` before reordering, as documented: for a
wanted column the number of multiplications needed plus `DegExtra`, capped by `MaxDeg`, made even;
the `nex` guard columns get the value of the last wanted column. -/
def AssignedDegree (P : Plat R) (cfg : Config R) (u nex locked : ℕ) (upperb lowerb tol : R)
    (ritzv resid : ℕ → R) (i r : ℕ) : Prop :=
  let w := min i (u - nex - 1)
  ∃ k, P.degNeeded (ritzv (locked + w)) ((upperb + lowerb) / 2) ((upperb - lowerb) / 2)
      (resid (locked + w)) tol = some k ∧
    IsEvenRoundUp (min (k + cfg.degExtra) cfg.maxDeg) r

/-- **C17** The degree optimisation moves Ritz value, residual, last residual and vector of each
unconverged pair together with its degree, loses or duplicates none, and touches no locked pair:
there is one permutation of the unconverged positions that describes all five arrays. -/
theorem C17_degrees_permute_pairs (P : Plat R) (ops : Chase R S) (cols : S → ℕ → V)
    (cfg : Config R) {u nex locked deg : ℕ} {upperb lowerb tol : R} {p p' : Pairs R S}
    (hswap : SwapsColumns ops cols (locked + u))
    (h : calcDegrees P ops cfg u nex upperb lowerb tol locked p = .ok (deg, p')) :
    ∃ σ : Equiv.Perm ℕ, PermOn locked (locked + u) σ ∧
      p'.ritzv = p.ritzv ∘ σ ∧ p'.resid = p.resid ∘ σ ∧ p'.residLast = p.residLast ∘ σ ∧
      cols p'.be = cols p.be ∘ σ ∧
      (∀ i, i < u → ∃ j, j < u ∧ σ (locked + i) = locked + j ∧
        AssignedDegree P cfg u nex locked upperb lowerb tol p.ritzv p.resid j
          (p'.degrees (locked + i))) ∧
      (∀ i, i < locked ∨ locked + u ≤ i → p'.degrees i = p.degrees i) := by
  unfold calcDegrees at h
  split_ifs at h with hu
  dsimp only at h
  split at h
  · cases h
  · rename_i d hd
    cases h
    obtain ⟨hr1, hr2⟩ := rawDegrees_spec hd
    obtain ⟨hf1, hf2⟩ := fillDegrees_spec (locked := locked) (show nex < u by omega) d
    obtain ⟨-, σ, hσ, hdeg, h1, h2, h3, h4⟩ := sortDegrees_spec hswap
      { p with degrees := fillDegrees u nex locked d }
    refine ⟨σ, hσ, h1, h2, h3, h4, ?_, ?_⟩
    · intro i hi
      have hin : locked ≤ σ (locked + i) ∧ σ (locked + i) < locked + u := by
        by_contra hcon
        have hout : σ (locked + i) < locked ∨ locked + u ≤ σ (locked + i) := by omega
        have : σ (locked + i) = locked + i := σ.injective (hσ _ hout)
        omega
      refine ⟨σ (locked + i) - locked, by omega, by omega, ?_⟩
      generalize hj : σ (locked + i) - locked = j
      have hj' : σ (locked + i) = locked + j := by omega
      have hju : j < u := by omega
      obtain ⟨k, hk1, hk2⟩ := hr1 (min j (u - nex - 1)) (by omega)
      refine ⟨k, hk1, ?_⟩
      have hval : (sortDegrees ops u locked { p with degrees := fillDegrees u nex locked d }).degrees
          (locked + i) = d (locked + min j (u - nex - 1)) + d (locked + min j (u - nex - 1)) % 2 := by
        rw [hdeg, Function.comp, hj']
        show fillDegrees u nex locked d (locked + j) = _
        rw [hf1 j hju]
        dsimp only
        split_ifs with hc
        · rw [min_eq_left (by omega)]
        · rw [min_eq_right (by omega), show u - nex - 1 = u - 1 - nex by omega]
      rw [hval, ← hk2]
      exact isEvenRoundUp_add_mod _
    · intro i hi
      rw [hdeg, Function.comp, hσ i hi]
      show fillDegrees u nex locked d i = _
      rw [hf2 i hi, hr2 i (by omega)]

/-- The degree optimisation fails exactly when it is called without a wanted column, or when a
needed degree is not representable. -/
theorem C16_succeeds_iff (P : Plat R) (ops : Chase R S) (cfg : Config R)
    {u nex locked : ℕ} {upperb lowerb tol : R} {p : Pairs R S} :
    (∃ r, calcDegrees P ops cfg u nex upperb lowerb tol locked p = .ok r) ↔
      nex < u ∧ ∀ i, i < u - nex → P.degNeeded (p.ritzv (locked + i)) ((upperb + lowerb) / 2)
        ((upperb - lowerb) / 2) (p.resid (locked + i)) tol ≠ none := by
  constructor
  · rintro ⟨r, h⟩
    unfold calcDegrees at h
    split_ifs at h with hu
    dsimp only at h
    split at h
    · cases h
    · rename_i d hd
      refine ⟨by omega, fun i hi => ?_⟩
      obtain ⟨k, hk, -⟩ := (rawDegrees_spec hd).1 i hi
      rw [hk]; simp
  · rintro ⟨hu, hn⟩
    obtain ⟨d, hd, -⟩ := forRangeM_inv (Nat.zero_le (u - nex))
      (fun i d => match P.degNeeded (p.ritzv (locked + i)) ((upperb + lowerb) / 2)
        ((upperb - lowerb) / 2) (p.resid (locked + i)) tol with
        | none => Except.error Err.badConv
        | some k => Except.ok
          (Function.update d (locked + i) (min (k + cfg.degExtra) cfg.maxDeg)))
      (fun _ _ => True) (s := p.degrees) trivial (by
        intro i d _ hi _
        have := hn i hi
        cases hk : P.degNeeded (p.ritzv (locked + i)) ((upperb + lowerb) / 2)
          ((upperb - lowerb) / 2) (p.resid (locked + i)) tol with
        | none => exact absurd hk this
        | some k => exact ⟨_, rfl, trivial⟩)
    cases hc : calcDegrees P ops cfg u nex upperb lowerb tol locked p with
    | ok r => exact ⟨r, rfl⟩
    | error e =>
      have hd' : rawDegrees P cfg (u - nex) locked ((upperb + lowerb) / 2)
        ((upperb - lowerb) / 2) tol p.ritzv p.resid p.degrees = .ok d := hd
      unfold calcDegrees at hc
      rw [if_neg (by omega)] at hc
      dsimp only at hc
      rw [hd'] at hc
      cases hc

/-! Non-vacuity: three unconverged columns (one of them a guard column) behind one locked column;
the residuals force a real exchange. -/

/-- Start arrays of the example. -/
def exPairs : Pairs ℚ Toy.TS :=
  { degrees := fun _ => 20, ritzv := fun i => i, resid := fun i => 10 - 3 * i,
    residLast := fun _ => 100, be := Toy.start }

/-- Observation of a result on the first four positions. -/
def exObs (r : Except Err (ℕ × Pairs ℚ Toy.TS)) : Option (ℕ × List ℕ × List ℚ × List ℚ) :=
  match r with
  | .error _ => none
  | .ok (deg, p) => some (deg, (List.range 4).map p.degrees, (List.range 4).map p.ritzv,
      (List.range 4).map p.be.cols)

example : exObs (calcDegrees Toy.plat (Toy.ops (fun _ _ => 0) id true)
    (Config.mk' .d 100 3 1) 3 1 10 5 (1/10) 1 exPairs) =
    some (10, [20, 8, 8, 10], [0, 2, 3, 1], [0, 2, 3, 1]) := by decide +kernel

example : SwapsColumns (Toy.ops (fun _ _ => 0) id true) Toy.TS.cols (1 + 3) :=
  Toy.ops_swaps _ _ _ _

end Verif
