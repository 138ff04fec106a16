/-
The sequential backend keeps the bookkeeping contract of the solver in every arithmetic.
-/
import Verif.Rounded.Seq
import Verif.Backend.SeqProof
import Verif.Solver.Stamp

namespace Verif
namespace Rounded

variable {K R : Type*} {N : ℕ} {A : Arith K R N} {E : Params}

/-- The phases: between the calls of a round the next product reads `C`, and the second copy agrees with the first on
the locked columns (`inv`) or on all columns (`ready`, `synced`). -/
def phases (E : Params) : Phases (Seq.St K N) where
  pre := fun _ => True
  inv := fun s => s.next = .bAc ∧ s.locked ≤ E.nevex ∧ ∀ j, j < s.locked → s.C2 j = s.C j
  ready := fun s => s.next = .bAc ∧ s.locked ≤ E.nevex ∧ ∀ j, j < E.nevex → s.C2 j = s.C j
  synced := fun s => s.next = .bAc ∧ s.locked ≤ E.nevex ∧ ∀ j, j < E.nevex → s.C2 j = s.C j

theorem qr_form [Neg R] [Zero R] (k : ℕ) (c : R) (s : Seq.St K N) :
    ∃ Y, (ops A E).qr k c s = lockVectorCopy E s.locked { s with C := Y } := by
  show ∃ Y, qrSelect _ _ _ _ _ s = _
  unfold qrSelect
  dsimp only
  split_ifs <;> exact ⟨_, rfl⟩

/-- Putting the locked columns back. -/
theorem lockCopy_spec (s : Seq.St K N) {Y : ℕ → Fin N → K} (hc : ∀ j, j < s.locked → s.C2 j = s.C j) :
    (∀ j, j < s.locked → (lockVectorCopy E s.locked { s with C := Y }).C j = s.C j) ∧
    (∀ j, j < E.nevex → (lockVectorCopy E s.locked { s with C := Y }).C2 j =
      (lockVectorCopy E s.locked { s with C := Y }).C j) := by
  refine ⟨fun j hj => ?_, fun j hj => ?_⟩
  · show copyCols 0 s.locked s.C2 Y j = _
    rw [copyCols_apply, if_pos ⟨by omega, by omega⟩, hc j hj]
  · show copyCols s.locked (E.nevex - s.locked) (copyCols 0 s.locked s.C2 Y) s.C2 j =
      copyCols 0 s.locked s.C2 Y j
    rw [copyCols_apply]
    split_ifs with h
    · rfl
    · rw [copyCols_apply, if_pos ⟨by omega, by omega⟩]

theorem resd_frame [Neg R] (z : R) (ritzv : ℕ → R) (l u : ℕ) (s : Seq.St K N) :
    let r := resd A z ritzv l u s
    r.2.H = s.H ∧ r.2.C = s.C ∧ r.2.C2 = s.C2 ∧ r.2.next = s.next ∧ r.2.locked = s.locked :=
  forRange_pres _ (fun p : (ℕ → R) × Seq.St K N => p.2.H = s.H ∧ p.2.C = s.C ∧ p.2.C2 = s.C2 ∧
    p.2.next = s.next ∧ p.2.locked = s.locked) ⟨rfl, rfl, rfl, rfl, rfl⟩ (fun _ _ _ _ h => h)

variable [Add R] [Sub R] [Mul R] [Div R] [Neg R] [Zero R] [One R] [NatCast R] [LT R] [DecidableLT R]

/-- A product changes nothing but the unlocked columns. -/
theorem hemm_frame (n off : ℕ) (a b : R) (s : Seq.St K N) :
    ((ops A E).hemm n a b off s).locked = s.locked ∧ ((ops A E).hemm n a b off s).C2 = s.C2 ∧
    ∀ j, j < s.locked → ((ops A E).hemm n a b off s).C j = s.C j := by
  obtain ⟨H, C, B, C2, B2, next, locked, isSym⟩ := s
  cases next
  · refine ⟨rfl, rfl, fun j hj => ?_⟩
    show setBlk (locked + off) _ C j = C j
    have : j < locked := hj
    rw [setBlk_not_mem (by omega)]
  · exact ⟨rfl, rfl, fun _ _ => rfl⟩

/-- **The sequential backend keeps the bookkeeping contract, whatever its numerical kernels compute.** -/
theorem bookkeeping : Bookkeeping (ops A E) Seq.St.C Seq.St.locked (phases E) N E.nevex where
  swap := fun i j s _ _ => rfl
  swap_nl := fun i j s => rfl
  swap_inv := by
    rintro i j s hi hj - - ⟨h2, h3, h4⟩
    refine ⟨h2, h3, fun k hk => ?_⟩
    have hk : k < s.locked := hk
    show swapAt s.C2 i j k = swapAt s.C i j k
    rw [swapAt_apply, if_neg (by omega), if_neg (by omega), swapAt_apply, if_neg (by omega), if_neg (by omega)]
    exact h4 k hk
  swap_synced := by
    rintro i j s - - hi hj ⟨h2, h3, h4⟩
    refine ⟨h2, h3, fun k hk => ?_⟩
    show swapAt s.C2 i j k = swapAt s.C i j k
    rw [swapAt_apply, swapAt_apply]
    split_ifs <;> exact h4 _ (by omega)
  filter := by
    rintro deg av degrees lambda lower upper s s' ⟨h2, h3, h4⟩ hdeg hs hd h
    have hn := filter_toggle (p := fun s : Seq.St K N => decide (s.next = .bAc)) (fun _ _ _ => rfl)
      (by
        intro n α β off s
        obtain ⟨H, C, B, C2, B2, next, locked, isSym⟩ := s
        cases next <;> rfl) hs (fun j h1 h2 => (hd j h1 h2).2) hdeg h
    simp only [h2, decide_true, decide_eq_true_eq] at hn
    have hf := filter_frame (P := fun t : Seq.St K N => t.locked = s.locked ∧ t.C2 = s.C2 ∧
        ∀ j, j < s.locked → t.C j = s.C j) (fun _ _ _ h => h)
      (by
        rintro n α β off t ⟨g1, g2, g3⟩
        obtain ⟨a1, a2, a3⟩ := hemm_frame (A := A) (E := E) n off α β t
        exact ⟨a1.trans g1, a2.trans g2, fun j hj => (a3 j (by omega)).trans (g3 j hj)⟩)
      hs (fun j h1 h2 => (hd j h1 h2).2) h ⟨rfl, rfl, fun _ _ => rfl⟩
    obtain ⟨f1, f2, f3⟩ := hf
    refine ⟨f1, ⟨hn, by rw [f1]; exact h3, fun j hj => ?_⟩, f3⟩
    rw [f1] at hj
    rw [f2, f3 j hj, h4 j hj]
  qr := by
    rintro k c s ⟨h2, h3, h4⟩
    obtain ⟨Y, e⟩ := qr_form (A := A) (E := E) k c s
    obtain ⟨a1, a2⟩ := lockCopy_spec (E := E) s (Y := Y) h4
    rw [e]
    exact ⟨rfl, ⟨h2, h3, fun j hj => a2 j (lt_of_lt_of_le hj h3)⟩, ⟨h2, h3, a2⟩, a1⟩
  rr := by
    rintro s ⟨h2, h3, h4⟩ _
    set b := E.nevex - s.locked with hb
    have hC : ∀ j, j < s.locked → ((ops A E).rr b s).2.C j = s.C j := by
      intro j hj
      show setBlk s.locked _ s.C j = s.C j
      rw [setBlk_not_mem (by omega)]
    refine ⟨rfl, ⟨h2, h3, fun j hj => ?_⟩, hC⟩
    have e : ((ops A E).rr b s).2.C2 = copyCols s.locked b ((ops A E).rr b s).2.C s.C2 := rfl
    rw [e, copyCols_apply]
    split_ifs with h
    · rfl
    · rw [hC j (by omega), h4 j hj]
  resd := by
    rintro f k s ⟨h2, h3, h4⟩
    obtain ⟨-, a2, a3, a4, a5⟩ := resd_frame (A := A) 0 f s.locked (E.nevex - k) s
    exact ⟨a5, ⟨a4.trans h2, a5.le.trans h3,
      fun j hj => (congrFun a3 j).trans ((h4 j hj).trans (congrFun a2 j).symm)⟩, a2⟩
  lock := by
    rintro k s ⟨h2, h3, h4⟩ hk
    exact ⟨rfl, ⟨h2, hk, fun j hj => h4 j (lt_of_lt_of_le hj hk)⟩, rfl⟩
  start := fun s h => ⟨rfl, h⟩
  check := fun s h => h
  initVecs := by
    intro b s h hl
    have hl' : ((ops A E).initVecs b s).locked = 0 := by
      cases b <;> exact hl
    exact ⟨hl', rfl, by rw [hl']; omega, fun j hj => by omega⟩
  lanczos1 := fun m s h hl => ⟨hl, h⟩
  lanczosN := by
    rintro m k s ⟨h2, h3, h4⟩ hl
    refine ⟨hl, h2, h3, fun j hj => ?_⟩
    have : j < s.locked := hj
    omega
  lanczosDos := by
    rintro i m z s ⟨h2, h3, h4⟩ hl
    refine ⟨hl, h2, h3, fun j hj => ?_⟩
    have : j < s.locked := hj
    omega
  finish := fun s => rfl

end Rounded
end Verif
