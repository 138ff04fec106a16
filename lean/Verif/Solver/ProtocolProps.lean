/-
Property C57: consequences of the call protocol and a concrete run.
-/
import Verif.Solver.Protocol
import Verif.Solver.ToyProof

namespace Verif

variable {R S : Type*}

section
variable [Neg R] [Zero R] [One R] {N nev nex nl : ℕ}

/-- What a path to each phase looks like from outside. -/
def Outside (tr : List (Call R)) : Phase R → Prop
  | .fresh => tr = []
  | .checked => tr = [.checkSymmetryEasy]
  | .done _ L => lockSum tr = L ∧ ∃ pre mid, tr = pre ++ .start :: (mid ++ [.finish]) ∧
      (pre = [] ∨ pre = [.checkSymmetryEasy]) ∧
      Call.start ∉ mid ∧ Call.finish ∉ mid ∧ Call.checkSymmetryEasy ∉ mid
  | .ready _ L | .shifted _ L _ | .mult _ L _ | .filtered _ L | .orthed _ L | .projected _ L
  | .measured _ L | .sorted _ L => lockSum tr = L ∧ ∃ pre mid, tr = pre ++ .start :: mid ∧
      (pre = [] ∨ pre = [.checkSymmetryEasy]) ∧
      Call.start ∉ mid ∧ Call.finish ∉ mid ∧ Call.checkSymmetryEasy ∉ mid
  | _ => lockSum tr = 0 ∧ ∃ pre mid, tr = pre ++ .start :: mid ∧
      (pre = [] ∨ pre = [.checkSymmetryEasy]) ∧
      Call.start ∉ mid ∧ Call.finish ∉ mid ∧ Call.checkSymmetryEasy ∉ mid

theorem outside_grow {tr : List (Call R)} {L : ℕ} {c : Call R} (k : ℕ)
    (h : lockSum tr = L ∧ ∃ pre mid, tr = pre ++ .start :: mid ∧
      (pre = [] ∨ pre = [.checkSymmetryEasy]) ∧
      Call.start ∉ mid ∧ Call.finish ∉ mid ∧ Call.checkSymmetryEasy ∉ mid)
    (hk : lockSum [c] = k) (h1 : c ≠ .start) (h2 : c ≠ .finish) (h3 : c ≠ .checkSymmetryEasy) :
    lockSum (tr ++ [c]) = L + k ∧ ∃ pre mid, tr ++ [c] = pre ++ .start :: mid ∧
      (pre = [] ∨ pre = [.checkSymmetryEasy]) ∧
      Call.start ∉ mid ∧ Call.finish ∉ mid ∧ Call.checkSymmetryEasy ∉ mid := by
  obtain ⟨hl, pre, mid, rfl, hp, g1, g2, g3⟩ := h
  refine ⟨by rw [lockSum_append, hl, hk], pre, mid ++ [c], by simp, hp, ?_, ?_, ?_⟩ <;>
    simp only [List.mem_append, List.mem_singleton, not_or]
  · exact ⟨g1, Ne.symm h1⟩
  · exact ⟨g2, Ne.symm h2⟩
  · exact ⟨g3, Ne.symm h3⟩

theorem Outside.next {tr : List (Call R)} {q q' : Phase R} {c : Call R}
    (hn : Next N nev nex nl q c q') (h : Outside tr q) : Outside (tr ++ [c]) q' := by
  induction hn with
  | check => obtain rfl : tr = [] := h; rfl
  | start => obtain rfl : tr = [] := h; exact ⟨rfl, [], [], rfl, .inl rfl, by simp⟩
  | startChecked =>
    obtain rfl : tr = [.checkSymmetryEasy] := h
    exact ⟨rfl, [.checkSymmetryEasy], [], rfl, .inr rfl, by simp⟩
  | skipDos _ ih => exact ih h
  | finish | finishSorted =>
    obtain ⟨hl, pre, mid, rfl, hp, g⟩ := h
    exact ⟨by rw [lockSum_append, hl]; rfl, pre, mid, by simp, hp, g⟩
  | lock _ => exact outside_grow _ h (by simp [lockSum]) (by simp) (by simp) (by simp)
  | _ => exact outside_grow 0 h rfl (by simp) (by simp) (by simp)

end

variable [Add R] [Sub R] [Mul R] [Div R] [Neg R] [Zero R] [One R] [NatCast R] [LT R] [DecidableLT R]

/-- **C57** Seen from outside: at most the symmetry check comes before `Start`; `Start` and `End` are
called exactly once and `End` is last; the numbers handed to `Lock` add up to the locked pairs. -/
theorem C57_start_end (P : Plat R) (hP : PermutesIndices P) (ops : Chase R S) (cfg : Config R)
    (ritzv0 resid0 : ℕ → R) (s : S) (out : Outcome R (S × List (Call R)))
    (h : solve P (traced ops) cfg ritzv0 resid0 (s, []) = .ok out)
    (hsym : cfg.symCheck = true → (ops.checkSymmetryEasy s).1 = true) :
    lockSum out.be.2 = out.locked ∧ ∃ pre mid, out.be.2 = pre ++ .start :: (mid ++ [.finish]) ∧
      (pre = [] ∨ pre = [.checkSymmetryEasy]) ∧
      Call.start ∉ mid ∧ Call.finish ∉ mid ∧ Call.checkSymmetryEasy ∉ mid := by
  have hp := C57_call_protocol hP ritzv0 resid0 s out h hsym
  suffices ∀ (tr : List (Call R)) q, Path cfg.N cfg.nev cfg.nex cfg.numLanczos .fresh tr q → Outside tr q from
    this _ _ hp
  intro tr q hp
  induction hp with
  | nil => rfl
  | snoc _ hn ih => exact Outside.next hn ih

/-- Non-vacuity: the complete record of a run of two rounds. -/
example : Toy.okAnd (fun out => out.iterations == 2 && out.be.2.length == 28 &&
      out.be.2.take 6 == [.checkSymmetryEasy, .start, .initVecs true, .qr 0 1, .lanczosN 3 2,
        .lanczosDos 1 3])
    (solve Toy.plat (traced (Toy.ops Toy.vals1 Toy.res1 true)) Toy.cfg1 (fun _ => 0) (fun _ => 0)
      (Toy.start, [])) = true := by rw [Toy.solve_eq_solveE]; decide +kernel

end Verif
