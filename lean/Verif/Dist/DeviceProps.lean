/-
C93: every process has a GPU of its own.
-/
import Verif.Dist.Device
import Mathlib.Data.Fin.VecNotation

namespace Verif
namespace Device

/-- **C93** (partial) If the processes of each node see the same GPUs and these are at least as many as
the processes, then every process works on an existing GPU, no two processes of a node on the same one, and
nobody prints an error, whatever devices were current before. -/
theorem C93_own_gpu_partial (J : Job) (sp : Split J) (cur : Fin J.procs → ℕ)
    (hsame : ∀ p q, J.node p = J.node q → J.visible p = J.visible q)
    (hnodup : ∀ p, (J.visible p).Nodup)
    (henough : ∀ p, (Finset.univ.filter fun q => J.node q = J.node p).card ≤ (J.visible p).length) :
    (∀ p, ∃ g, J.gpu sp cur p = some g) ∧
    (∀ p q, J.node p = J.node q → p ≠ q → J.gpu sp cur p ≠ J.gpu sp cur q) ∧
    ∀ p, (J.run sp cur p).message ≠ some .tooMany := by
  have hle : ∀ p, sp.size p ≤ (J.visible p).length := fun p => by rw [sp.size_eq]; exact henough p
  have hdev : ∀ p, (J.run sp cur p).device = sp.rank p := by
    intro p
    unfold Job.run choose
    rw [if_neg (by have := hle p; omega)]
    split_ifs <;> rfl
  have hlt : ∀ p, sp.rank p < (J.visible p).length := fun p => lt_of_lt_of_le (sp.rank_lt p) (hle p)
  have hgpu : ∀ p, J.gpu sp cur p = some ((J.visible p)[sp.rank p]'(hlt p)) := by
    intro p
    unfold Job.gpu
    rw [hdev, List.getElem?_eq_getElem (hlt p)]
  refine ⟨fun p => ⟨_, hgpu p⟩, fun p q hn hne he => ?_, fun p => ?_⟩
  · unfold Job.gpu at he
    rw [hdev, hdev, hsame p q hn] at he
    have h1 : sp.rank p < (J.visible q).length := by rw [← hsame p q hn]; exact hlt p
    exact hne (sp.rank_inj p q hn ((List.getElem?_inj h1 (hnodup q)).mp he))
  · unfold Job.run choose
    rw [if_neg (by have := hle p; omega)]
    split_ifs <;> simp

/-- **C93** (partial) If instead every process sees exactly one GPU, as some launchers arrange, and different
processes of a node different ones, then nobody shares a GPU either, if no other device is set before. -/
theorem C93_one_visible_partial (J : Job) (sp : Split J) (cur : Fin J.procs → ℕ) (hcur : ∀ p, cur p = 0)
    (gpu : Fin J.procs → ℕ) (hone : ∀ p, J.visible p = [gpu p])
    (hown : ∀ p q, J.node p = J.node q → p ≠ q → gpu p ≠ gpu q) :
    (∀ p, J.gpu sp cur p = some (gpu p)) ∧
    (∀ p q, J.node p = J.node q → p ≠ q → J.gpu sp cur p ≠ J.gpu sp cur q) := by
  have hgpu : ∀ p, J.gpu sp cur p = some (gpu p) := by
    intro p
    have hr := sp.rank_lt p
    have hdev : (J.run sp cur p).device = 0 := by
      unfold Job.run choose
      rw [hone p]
      simp only [List.length_singleton]
      have h0 := hcur p
      split_ifs
      all_goals first | exact h0 | (show sp.rank p = 0; omega)
    unfold Job.gpu
    rw [hdev, hone p]
    rfl
  refine ⟨hgpu, fun p q hn hne => ?_⟩
  rw [hgpu, hgpu]
  exact fun h => hown p q hn hne (Option.some.inj h)

/-- **C93 is false on a node with fewer GPUs than processes**: all processes of the node then work on the same
GPU, although the message says that the program will terminate. -/
theorem C93_shared_refuted (J : Job) (sp : Split J) (cur : Fin J.procs → ℕ) (hcur : ∀ p, cur p = 0)
    (hsame : ∀ p q, J.node p = J.node q → J.visible p = J.visible q) (p : Fin J.procs)
    (hfew : (J.visible p).length < (Finset.univ.filter fun q => J.node q = J.node p).card) :
    ∀ q, J.node q = J.node p → J.gpu sp cur q = (J.visible p).head? := by
  intro q hq
  have hsz : sp.size q = (Finset.univ.filter fun q => J.node q = J.node p).card := by
    rw [sp.size_eq, Job.mates, hq]
  unfold Job.gpu Job.run choose
  rw [hsame q p hq, if_pos (by omega), hcur]
  exact List.head?_eq_getElem?.symm

/-- **C93**, when the error is reported: if and only if the node of process 0 has fewer GPUs than processes. -/
theorem C93_error_printed (J : Job) (sp : Split J) (cur : Fin J.procs → ℕ) :
    (∃ p, (J.run sp cur p).message = some .tooMany) ↔
      ∃ p : Fin J.procs, p.val = 0 ∧
        (J.visible p).length < (Finset.univ.filter fun q => J.node q = J.node p).card := by
  have h : ∀ p, (J.run sp cur p).message = some .tooMany ↔
      p.val = 0 ∧ (J.visible p).length < (Finset.univ.filter fun q => J.node q = J.node p).card := by
    intro p
    have hs : sp.size p = (Finset.univ.filter fun q => J.node q = J.node p).card := sp.size_eq p
    rw [← hs]
    unfold Job.run choose
    by_cases h0 : p.val = 0
    · split_ifs with h1 h2 h3 <;> simp_all
    · split_ifs with h1 h2 h3 <;> simp_all
  simp only [h]

/-- **C93 is false, and nobody is told**: two nodes with one GPU each, one process on the first and two on the
second; both of the second work on its GPU and no process prints anything. -/
theorem C93_silent_refuted : ∃ J : Job, (∀ p q, J.node p = J.node q → J.visible p = J.visible q) ∧
    ∀ (sp : Split J) (cur : Fin J.procs → ℕ), (∀ p, cur p = 0) →
      (∃ p q, p ≠ q ∧ J.gpu sp cur p = some 1 ∧ J.gpu sp cur q = some 1) ∧
      ∀ p, (J.run sp cur p).message = none := by
  let J : Job := ⟨3, ![0, 1, 1], ![[0], [1], [1]]⟩
  refine ⟨J, by decide, fun sp cur hcur => ⟨⟨1, 2, by decide, ?_, ?_⟩, fun p => ?_⟩⟩
  · exact C93_shared_refuted J sp cur hcur (by decide) 1 (by decide) 1 rfl
  · exact C93_shared_refuted J sp cur hcur (by decide) 1 (by decide) 2 rfl
  · have hs := sp.size_eq
    have h0 : sp.size 0 = 1 := (hs 0).trans (by decide)
    have h1 : sp.size 1 = 2 := (hs 1).trans (by decide)
    have h2 : sp.size 2 = 2 := (hs 2).trans (by decide)
    have hp : p = 0 ∨ p = 1 ∨ p = 2 := by revert p; decide
    unfold Job.run choose
    rcases hp with rfl | rfl | rfl
    · rw [h0]; rfl
    · rw [h1]; rfl
    · rw [h2]; rfl

/-- Two nodes with four GPUs and three processes each: the hypotheses of `C93_own_gpu_partial`. -/
example : let J : Job := ⟨6, ![0, 0, 0, 1, 1, 1], fun p => if p.val < 3 then [0, 1, 2, 3] else [4, 5, 6, 7]⟩
    (∀ p q, J.node p = J.node q → J.visible p = J.visible q) ∧ (∀ p, (J.visible p).Nodup) ∧
    (∀ p, (Finset.univ.filter fun q => J.node q = J.node p).card ≤ (J.visible p).length) ∧
    ∀ cur, J.gpu J.split cur 4 = some 5 := by
  intro J
  refine ⟨by decide, by decide, by decide, fun cur => ?_⟩
  have : (J.run J.split cur 4).device = 1 := by
    have h1 : (J.split.size 4) = 3 := by decide
    have h2 : (J.split.rank 4) = 1 := by decide
    unfold Job.run choose
    rw [h1, h2]
    rfl
  unfold Job.gpu
  rw [this]
  rfl

/-- One visible GPU per process: the hypotheses of `C93_one_visible_partial`; process 0 prints the error all
the same. -/
example : let J : Job := ⟨2, ![0, 0], fun p => [p.val]⟩
    (∀ p, J.visible p = [(fun p : Fin 2 => p.val) p]) ∧
    (∀ p q, J.node p = J.node q → p ≠ q → (fun p : Fin 2 => p.val) p ≠ (fun p : Fin 2 => p.val) q) ∧
    ∃ p, (J.run J.split (fun _ => 0) p).message = some .tooMany := by
  decide

end Device
end Verif
