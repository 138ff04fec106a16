/-
Proofs about the redistribution tables.
-/
import Verif.Dist.CyclicProof

namespace Verif
namespace Dist

theorem toLocal_succ {mb dims g : ℕ} (hmb : 0 < mb) (hd : 0 < dims)
    (h : (g + 1) / mb % dims = g / mb % dims) :
    toLocal mb dims (g + 1) = toLocal mb dims g + 1 := by
  unfold toLocal
  have h1 := Nat.div_add_mod g mb
  have h2 := Nat.mod_lt g hmb
  generalize g / mb = q at *
  generalize g % mb = r at *
  subst h1
  rcases Nat.lt_or_ge (r + 1) mb with h3 | h3
  · rw [Nat.add_assoc, Nat.mul_add_div hmb, Nat.mul_add_mod, Nat.div_eq_of_lt h3,
      Nat.mod_eq_of_lt h3, Nat.add_zero]
    omega
  · have h4 : mb * q + r + 1 = mb * (q + 1) := by rw [Nat.mul_succ]; omega
    rw [h4, Nat.mul_div_cancel_left _ hmb] at h
    rw [h4, Nat.mul_div_cancel_left _ hmb, Nat.mul_mod_right]
    have h5 : dims = 1 := by
      have h6 := Nat.mod_lt q hd
      rcases Nat.lt_or_ge (q % dims + 1) dims with h7 | h7
      · by_contra hne
        have h8 : 1 % dims = 1 := Nat.mod_eq_of_lt (by omega)
        rw [Nat.add_mod, h8, Nat.mod_eq_of_lt h7] at h
        omega
      · by_contra hne
        have h8 : 1 % dims = 1 := Nat.mod_eq_of_lt (by omega)
        rw [Nat.add_mod, h8, show q % dims + 1 = dims by omega, Nat.mod_self] at h
        omega
    subst h5
    rw [Nat.div_one, Nat.div_one, Nat.succ_mul, mul_comm]
    omega

/-- The moves a redistribution of the first `n` indices should consist of. -/
def goalMoves (n ms ps md pd : ℕ) : List Move :=
  (List.range n).map fun g => ⟨g / ms % ps, toLocal ms ps g, g / md % pd, toLocal md pd g⟩

structure RunInv (ms ps md pd i : ℕ) (st : Runs) : Prop where
  pos : 0 < st.cur.len
  src : st.cur.src = (i - 1) / ms % ps
  dest : st.cur.dest = (i - 1) / md % pd
  srcDisp : st.cur.srcDisp + st.cur.len = toLocal ms ps (i - 1) + 1
  destDisp : st.cur.destDisp + st.cur.len = toLocal md pd (i - 1) + 1
  moves : (st.closed ++ [st.cur]).flatMap Run.moves = goalMoves i ms ps md pd

theorem runStep_inv {ms ps md pd i : ℕ} (hms : 0 < ms) (hps : 0 < ps) (hmd : 0 < md) (hpd : 0 < pd)
    (hi : 0 < i) {st : Runs} (h : RunInv ms ps md pd i st) :
    RunInv ms ps md pd (i + 1) (runStep ms ps md pd i st) := by
  obtain ⟨hpos, hsrc, hdest, hsd, hdd, hmv⟩ := h
  have hgoal : goalMoves (i + 1) ms ps md pd = goalMoves i ms ps md pd ++
      [⟨i / ms % ps, toLocal ms ps i, i / md % pd, toLocal md pd i⟩] := by
    unfold goalMoves; rw [List.range_succ, List.map_append]; rfl
  unfold runStep
  by_cases hc : i / md % pd = st.cur.dest ∧ i / ms % ps = st.cur.src
  · simp only [hc, and_self, if_true]
    obtain ⟨h1, h2⟩ := hc
    have l1 : toLocal ms ps i = toLocal ms ps (i - 1) + 1 := by
      have := toLocal_succ (g := i - 1) hms hps (by
        rw [Nat.sub_add_cancel hi, h2, hsrc])
      rwa [Nat.sub_add_cancel hi] at this
    have l2 : toLocal md pd i = toLocal md pd (i - 1) + 1 := by
      have := toLocal_succ (g := i - 1) hmd hpd (by
        rw [Nat.sub_add_cancel hi, h1, hdest])
      rwa [Nat.sub_add_cancel hi] at this
    refine ⟨Nat.succ_pos _, ?_, ?_, ?_, ?_, ?_⟩
    · show st.cur.src = _; rw [Nat.add_sub_cancel, h2]
    · show st.cur.dest = _; rw [Nat.add_sub_cancel, h1]
    · show st.cur.srcDisp + (st.cur.len + 1) = _; rw [Nat.add_sub_cancel]; omega
    · show st.cur.destDisp + (st.cur.len + 1) = _; rw [Nat.add_sub_cancel]; omega
    · rw [hgoal, ← hmv, List.flatMap_append, List.flatMap_append, List.append_assoc]
      congr 1
      simp only [List.flatMap_cons, List.flatMap_nil, List.append_nil]
      unfold Run.moves
      rw [List.range_succ, List.map_append]
      congr 1
      simp only [List.map_cons, List.map_nil, List.cons.injEq, and_true, Move.mk.injEq]
      exact ⟨h2.symm, by omega, h1.symm, by omega⟩
  · rw [if_neg hc]
    have l1 : i % ms + i / ms / ps * ms = toLocal ms ps i := Nat.add_comm _ _
    have l2 : i % md + i / md / pd * md = toLocal md pd i := Nat.add_comm _ _
    refine ⟨Nat.one_pos, ?_, ?_, ?_, ?_, ?_⟩
    · show i / ms % ps = _; rw [Nat.add_sub_cancel]
    · show i / md % pd = _; rw [Nat.add_sub_cancel]
    · show i % ms + i / ms / ps * ms + 1 = _; rw [Nat.add_sub_cancel, l1]
    · show i % md + i / md / pd * md + 1 = _; rw [Nat.add_sub_cancel, l2]
    · rw [hgoal, ← hmv, List.flatMap_append (xs := st.closed ++ [st.cur])]
      congr 1
      simp only [List.flatMap_cons, List.flatMap_nil, List.append_nil]
      unfold Run.moves
      rw [l1, l2]; rfl

theorem runTable_moves {N ms ps md pd : ℕ} (hN : 0 < N) (hms : 0 < ms) (hps : 0 < ps)
    (hmd : 0 < md) (hpd : 0 < pd) :
    (runTable N ms ps 0 md pd 0).flatMap Run.moves = goalMoves N ms ps md pd := by
  unfold runTable
  refine (forRange_inv (show 1 ≤ N from hN) (runStep ms ps md pd)
    (fun i st => RunInv ms ps md pd i st) (s := ⟨[], ⟨0, 0, 1, 0, 0⟩⟩) ?_ ?_).moves
  · refine ⟨Nat.one_pos, ?_, ?_, ?_, ?_, ?_⟩ <;> simp [toLocal, goalMoves, Run.moves]
  · intro i st h1 h2 h
    exact runStep_inv hms hps hmd hpd h1 h

/-- The two tables (built by two copies of the loop) have the same runs. -/
theorem runTable_swap (N ms ps s0 md pd d0 : ℕ) :
    runTable N md pd d0 ms ps s0 =
      (runTable N ms ps s0 md pd d0).map fun r => ⟨r.src, r.dest, r.len, r.srcDisp, r.destDisp⟩ := by
  have key : ∀ hi, forRange 1 hi (runStep md pd ms ps) ⟨[], ⟨s0, d0, 1, 0, 0⟩⟩ =
      let st := forRange 1 hi (runStep ms ps md pd) ⟨[], ⟨d0, s0, 1, 0, 0⟩⟩
      ⟨st.closed.map fun r => ⟨r.src, r.dest, r.len, r.srcDisp, r.destDisp⟩,
        ⟨st.cur.src, st.cur.dest, st.cur.len, st.cur.srcDisp, st.cur.destDisp⟩⟩ := by
    intro hi
    induction hi with
    | zero => rfl
    | succ n ih =>
      rcases Nat.eq_zero_or_pos n with rfl | hn
      · rfl
      · rw [forRange_succ hn, forRange_succ hn, ih]
        generalize forRange 1 n (runStep ms ps md pd) ⟨[], ⟨d0, s0, 1, 0, 0⟩⟩ = st
        obtain ⟨cl, cur⟩ := st
        unfold runStep
        by_cases hc : n / ms % ps = cur.src ∧ n / md % pd = cur.dest
        · rw [if_pos hc, if_pos ⟨hc.2, hc.1⟩]
        · rw [if_neg hc, if_neg (fun h => hc ⟨h.2, h.1⟩)]
          simp
  unfold runTable
  rw [key]
  simp

end Dist
end Verif
