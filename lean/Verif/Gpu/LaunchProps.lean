/-
C96: CUDA accepts every kernel launch of a solve.
-/
import Verif.Gpu.Launch
import Verif.Solver.ProtocolProps

set_option linter.unusedSectionVars false

namespace Verif
namespace Gpu

/-- The limits of CUDA (compute capability 3.0 and later, CUDA C++ Programming Guide, technical specifications): at least one
block and one thread, at most `2^31 - 1` blocks in the first and 65535 in the second direction, at most 1024 threads. -/
def Accepted (l : Launch) : Prop :=
  0 < l.gx ∧ l.gx ≤ 2147483647 ∧ 0 < l.gy ∧ l.gy ≤ 65535 ∧ 0 < l.threads ∧ l.threads ≤ 1024

/-- The launches are those of the kernels whose effect is the subject of C46 and C47. -/
theorem launch_blocks {V : Type*} [AddCommMonoid V] :
    (∀ (term : V → V → V → V) root m n lda, (residuals term root m n lda).blocks = (residualLaunch n).gx) ∧
    (∀ (abs : V → V) n ld, (absTrace abs n ld).blocks = (absTraceLaunch n).gx) ∧
    (∀ (add : V → V) n, (shiftMatrix add n).blocks = (shiftLaunch n).gx) ∧
    (∀ (add : V → V) (offs : List (ℕ × ℕ)) ldH, offs.length < 2 ^ 32 →
      (shiftMgpu add offs ldH).blocks = (shiftMgpuLaunch offs.length).gx) ∧
    (∀ (draw : ℕ → ℕ → V) n, (randNormal draw n).blocks = randLaunch.gx) ∧
    ∀ uplo m n ldda lddb, (lacpyLaunches (V := V) superNB uplo m n ldda lddb).map Kernel.blocks =
      (lacpyConfigs m n).map fun l => l.gx * l.gy := by
  refine ⟨fun _ _ _ _ _ => rfl, fun _ _ _ => rfl, fun _ _ => rfl, fun add offs ldH h => ?_, fun _ _ => rfl,
    fun uplo m n ldda lddb => ?_⟩
  · have h1 : (offs.length + blockDim - 1) / blockDim < 2 ^ 32 := by
      unfold blockDim; omega
    show (if _ then _ else _) = if _ then _ else _
    rw [Nat.mod_eq_of_lt h1]
  · unfold lacpyLaunches lacpyConfigs
    simp only [List.map_flatMap, List.map_map]
    rfl

theorem mem_lacpyConfigs {m n : ℕ} {l : Launch} :
    l ∈ lacpyConfigs m n ↔ ∃ i < (m + superNB - 1) / superNB, ∃ j < (n + superNB - 1) / superNB,
      l = ⟨((if i = (m + superNB - 1) / superNB - 1 then m % superNB else superNB) + blk - 1) / blk,
        ((if j = (n + superNB - 1) / superNB - 1 then n % superNB else superNB) + blk - 1) / blk, blk⟩ := by
  unfold lacpyConfigs
  generalize superNB = S
  simp only [List.mem_flatMap, List.mem_map, List.mem_range, eq_comm (b := l)]

/-- **C96**, the copies of the multi-GPU backend (partial).  For at least one row and one column, all launches are accepted
exactly if neither the number of rows nor that of columns is a multiple of `65535 * 64 = 4194240`. -/
theorem C96_copy_partial {m n : ℕ} (hm : 0 < m) (hn : 0 < n) :
    (∀ l ∈ lacpyConfigs m n, Accepted l) ↔ m % 4194240 ≠ 0 ∧ n % 4194240 ≠ 0 := by
  have hS : superNB = 4194240 := by norm_num [superNB]
  have hb : blk = 64 := by norm_num [blk]
  simp only [mem_lacpyConfigs, hS, hb]
  constructor
  · intro h
    have key := h _ ⟨(m + 4194240 - 1) / 4194240 - 1, by omega, (n + 4194240 - 1) / 4194240 - 1, by omega, rfl⟩
    simp only [Accepted, if_true] at key
    omega
  · rintro ⟨h1, h2⟩ l ⟨i, hi, j, hj, rfl⟩
    simp only [Accepted]
    refine ⟨?_, ?_, ?_, ?_, by omega, by omega⟩ <;> split_ifs <;> omega

/-- A copy of no rows or no columns launches nothing. -/
theorem C96_copy_empty (m n : ℕ) : lacpyConfigs 0 n = [] ∧ lacpyConfigs m 0 = [] := by
  have hS : superNB = 4194240 := by norm_num [superNB]
  constructor <;>
  · refine List.eq_nil_iff_forall_not_mem.2 fun l hl => ?_
    obtain ⟨i, hi, j, hj, -⟩ := mem_lacpyConfigs.1 hl
    rw [hS] at hi hj
    omega

/-- The full claim is false for the copies: if the number of rows is a multiple of that of a super block, or the number of
columns is, a launch has no blocks. -/
theorem C96_copy_refuted {m n : ℕ} (hm : 0 < m) (hn : 0 < n) (h : m % 4194240 = 0 ∨ n % 4194240 = 0) :
    ∃ l ∈ lacpyConfigs m n, ¬ Accepted l := by
  by_contra hc
  have := (C96_copy_partial hm hn).1 fun l hl => by_contra fun hA => hc ⟨l, hl, hA⟩
  omega

example : ∃ m n : ℕ, 0 < m ∧ 0 < n ∧ (m % 4194240 = 0 ∨ n % 4194240 = 0) :=
  ⟨4194240, 1, by omega, by omega, by omega⟩

/-- A local matrix of 30000 rows and 1500 columns is copied in one launch of 469 x 24 blocks; one of 4194241 rows in two. -/
example : (∀ l ∈ lacpyConfigs 30000 1500, Accepted l) ∧ (⟨469, 24, 64⟩ : Launch) ∈ lacpyConfigs 30000 1500 ∧
    (⟨65535, 24, 64⟩ : Launch) ∈ lacpyConfigs 4194241 1500 ∧ (⟨1, 24, 64⟩ : Launch) ∈ lacpyConfigs 4194241 1500 := by
  have hS : superNB = 4194240 := by norm_num [superNB]
  have hb : blk = 64 := by norm_num [blk]
  refine ⟨(C96_copy_partial (by omega) (by omega)).2 (by omega), ?_, ?_, ?_⟩ <;>
    simp only [mem_lacpyConfigs, hS, hb]
  · exact ⟨0, by omega, 0, by omega, by norm_num⟩
  · exact ⟨0, by omega, 0, by omega, by norm_num⟩
  · exact ⟨1, by omega, 0, by omega, by norm_num⟩

section
variable {R S : Type*} [Add R] [Sub R] [Mul R] [Div R] [Neg R] [Zero R] [One R] [NatCast R] [LT R] [DecidableLT R]
  {ops : Chase R S} {P : Plat R} {cfg : Config R}

/-- In a round at least one wanted pair is not locked. -/
def Unlocked (nev : ℕ) : Phase R → Prop
  | .shifted _ L _ | .mult _ L _ | .filtered _ L | .orthed _ L | .projected _ L | .measured _ L => L < nev
  | _ => True

theorem Unlocked.next {N nev nex nl : ℕ} {q q' : Phase R} {c : Call R} (hn : Next N nev nex nl q c q')
    (hU : Unlocked nev q) : Unlocked nev q' ∧ ∀ L, c = .resd L → L < nev := by
  induction hn with
  | skipDos _ ih => exact ih trivial
  | shift hL => exact ⟨by simpa [Unlocked] using hL, by rintro L ⟨⟩⟩
  | resd => exact ⟨hU, by rintro L ⟨⟩; exact hU⟩
  | _ => exact ⟨by first | exact hU | trivial, by rintro L ⟨⟩⟩

theorem resd_unlocked {N nev nex nl : ℕ} {tr : List (Call R)} {q : Phase R} (h : Path N nev nex nl .fresh tr q) :
    Unlocked nev q ∧ ∀ L, Call.resd L ∈ tr → L < nev := by
  induction h with
  | nil => exact ⟨trivial, by simp⟩
  | snoc _ hn ih =>
    obtain ⟨h1, h2⟩ := ih
    obtain ⟨h3, h4⟩ := h1.next hn
    refine ⟨h3, fun L hL => ?_⟩
    rcases List.mem_append.1 hL with h | h
    · exact h2 L h
    · rw [List.mem_singleton] at h
      exact h4 L h.symm

theorem accepted_fixed {n : ℕ} (h1 : 0 < n) (h2 : n ≤ 2147483392) :
    Accepted randLaunch ∧ Accepted (residualLaunch n) ∧ Accepted (absTraceLaunch n) ∧ Accepted (shiftLaunch n) := by
  simp only [Accepted, randLaunch, residualLaunch, absTraceLaunch, shiftLaunch, gridDim, nbx, blockDim]
  omega

theorem accepted_shiftMgpu {k : ℕ} (h : k ≤ 2147483647 * 256) : Accepted (shiftMgpuLaunch k) := by
  have hk : (k + 256 - 1) / 256 ≤ 2147483647 := by omega
  have key : ∀ g, g ≤ 2147483647 → Accepted ⟨if g % 2 ^ 32 = 0 then 1 else g % 2 ^ 32, 1, 256⟩ := fun g hg => by
    rw [Nat.mod_eq_of_lt (by omega)]
    simp only [Accepted]
    split_ifs <;> omega
  exact key _ hk

/-- **C96**, single-process GPU backend: in every solve that returns, CUDA accepts every kernel launch, for every matrix of
order at least one and every number of columns, as long as both are at most `2^31 - 256`. -/
theorem C96_cuda (hP : PermutesIndices P) (ritzv0 resid0 : ℕ → R) (s : S) (out : Outcome R (S × List (Call R)))
    (h : solve P (traced ops) cfg ritzv0 resid0 (s, []) = .ok out)
    (hsym : cfg.symCheck = true → (ops.checkSymmetryEasy s).1 = true) (hnev : 0 < cfg.nev) (hN : 0 < cfg.N)
    (hN' : cfg.N ≤ 2147483392) (hn : cfg.nev + cfg.nex ≤ 2147483392) :
    ∀ c ∈ out.be.2, ∀ l ∈ cudaLaunches cfg.N (cfg.nev + cfg.nex) c, Accepted l := by
  have hp := (resd_unlocked (C57_call_protocol hP ritzv0 resid0 s out h hsym)).2
  intro c hc l hl
  have hf := accepted_fixed (n := cfg.nev + cfg.nex) (by omega) hn
  unfold cudaLaunches at hl
  split at hl <;> simp only [List.mem_cons, List.not_mem_nil, or_false] at hl
  · exact hl ▸ hf.1
  · exact hl ▸ (accepted_fixed hN hN').2.2.2
  · have := hp _ hc
    exact hl ▸ (accepted_fixed (n := cfg.nev + cfg.nex - _) (by omega) (by omega)).2.1
  · rcases hl with rfl | rfl
    · exact hf.2.2.1
    · exact hf.2.2.2

/-- **C96**, multi-GPU backend (partial): the same on each process, which has `offsize` of the diagonal entries of the
matrix, possibly none.  The copies are accepted too if the numbers of rows and of columns stay below 4194240; missing are
larger ones, see `C96_copy_partial` and `C96_copy_refuted`. -/
theorem C96_mgpu_partial (hP : PermutesIndices P) (ritzv0 resid0 : ℕ → R) (s : S) (out : Outcome R (S × List (Call R)))
    (h : solve P (traced ops) cfg ritzv0 resid0 (s, []) = .ok out)
    (hsym : cfg.symCheck = true → (ops.checkSymmetryEasy s).1 = true) (hnev : 0 < cfg.nev)
    (hn : cfg.nev + cfg.nex ≤ 2147483392) {offsize : ℕ} (ho : offsize ≤ 2147483647 * 256) :
    (∀ c ∈ out.be.2, ∀ l ∈ mgpuLaunches offsize (cfg.nev + cfg.nex) c, Accepted l) ∧
      ∀ rows cols, rows < 4194240 → cols < 4194240 → ∀ l ∈ lacpyConfigs rows cols, Accepted l := by
  have hp := (resd_unlocked (C57_call_protocol hP ritzv0 resid0 s out h hsym)).2
  refine ⟨fun c hc l hl => ?_, fun rows cols hr hc l hl => ?_⟩
  · have hf := accepted_fixed (n := cfg.nev + cfg.nex) (by omega) hn
    unfold mgpuLaunches at hl
    split at hl <;> simp only [List.mem_cons, List.not_mem_nil, or_false] at hl
    · exact hl ▸ hf.1
    · exact hl ▸ accepted_shiftMgpu ho
    · have := hp _ hc
      exact hl ▸ (accepted_fixed (n := cfg.nev + cfg.nex - _) (by omega) (by omega)).2.1
    · rcases hl with rfl | rfl
      · exact hf.2.2.1
      · exact hf.2.2.2
  · rcases Nat.eq_zero_or_pos rows with rfl | h1
    · rw [(C96_copy_empty 0 cols).1] at hl
      exact absurd hl List.not_mem_nil
    · rcases Nat.eq_zero_or_pos cols with rfl | h2
      · rw [(C96_copy_empty rows 0).2] at hl
        exact absurd hl List.not_mem_nil
      · exact (C96_copy_partial h1 h2).2 ⟨by omega, by omega⟩ l hl

end

/-- A run of two rounds launches kernels, on a process without diagonal entries too. -/
example : 0 < Toy.cfg1.nev ∧ 0 < Toy.cfg1.N ∧ Toy.cfg1.N ≤ 2147483392 ∧ Toy.cfg1.nev + Toy.cfg1.nex ≤ 2147483392 ∧
    Toy.okAnd (fun out => (out.be.2.flatMap (cudaLaunches Toy.cfg1.N (Toy.cfg1.nev + Toy.cfg1.nex))).length == 13 &&
      (out.be.2.flatMap (mgpuLaunches 0 (Toy.cfg1.nev + Toy.cfg1.nex))).length == 13)
    (solve Toy.plat (traced (Toy.ops Toy.vals1 Toy.res1 true)) Toy.cfg1 (fun _ => 0) (fun _ => 0)
      (Toy.start, [])) = true := by
  refine ⟨by decide, by decide, by decide, by decide, ?_⟩
  rw [Toy.solve_eq_solveE]; decide +kernel

end Gpu
end Verif
