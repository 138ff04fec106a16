/-
C78: a process never needs more memory than the estimate that the documentation gives for its problem and process grid
(docs/installation/suggestion.rst 37-65 and 197-212).
-/
import Verif.Memory.Kept
import Verif.Solver.Succeeds

set_option linter.unusedSectionVars false

namespace Verif.Memory

/-! ### Specification -/

/-- Host memory of a resource, in elements. -/
def Res.hostElems : Res → ℕ
  | .host k => k
  | _ => 0

/-- Device memory of a resource, in elements. -/
def Res.deviceElems : Res → ℕ
  | .device k => k
  | _ => 0

/-- Host memory that is held. -/
def hostMem (l : List (ℕ × Res)) : ℕ := (l.map fun x => x.2.hostElems).sum

/-- Device memory that is held. -/
def deviceMem (l : List (ℕ × Res)) : ℕ := (l.map fun x => x.2.deviceElems).sum

/-- Documented estimate for a process, block distribution: suggestion.rst 46-47, in elements.  `n` and `m` are the order
`N` divided by the number of rows and of columns of the process grid, `block` is at most `nev + nex`, `nb` is the
algorithmic block size of QR. -/
def docCpu (N n m block nb : ℕ) : ℕ := n * m + (n + m) * block + 2 * N * block + 1 + 5 * n + 2 * n ^ 2 + 2 * nb

/-- Documented estimate for a process, block-cyclic distribution: suggestion.rst 64-65. -/
def docCpuCyclic (N n m block nb : ℕ) : ℕ := docCpu N n m block nb + N * block

/-- Documented estimate for a GPU, if each process has one: suggestion.rst 210. -/
def docGpu (N m n block : ℕ) : ℕ := 3 * block * max m n + m * n + (2 * N + block) * block

/-- The arrays that the caller of a distributed solver provides: the local block of the matrix, the local rows of the
vectors, the Ritz values (chase_mpi 188-192). -/
def callers (E : Env) : ℕ := E.m * E.n + E.m * E.nevex + E.nevex

/-- Host memory that a constructor acquires. -/
def constructedHost (E : Env) : Backend → ℕ
  | .seq => E.N * E.nevex + E.nevex ^ 2 + E.nevex + 4 * E.N * E.nev
  | .inplace => E.N * E.nevex + E.nevex ^ 2 + E.nevex
  | .cuda => E.nevex + 3 * E.N
  | .mpi sc => E.m * E.nevex + 2 * E.n * E.nevex + E.nevex ^ 2 + E.nevex + E.m +
      (if E.sameDist then 0 else E.maxRun * E.nevex) + (if sc then 9 else 0)
  | .mgpu false sc => E.m * E.nevex + 2 * E.n * E.nevex + E.nevex ^ 2 + E.nevex + E.m +
      (if E.sameDist then 0 else E.maxRun * E.nevex) + (if sc then 9 else 0)
  | .mgpu true sc => E.nevex + E.m + (if sc then 9 else 0)

/-- Device memory that a constructor acquires. -/
def constructedDevice (E : Env) : Backend → ℕ
  | .seq | .inplace | .mpi _ => 0
  | .cuda => E.N ^ 2 + 2 * E.N * E.nevex + E.nevex ^ 2 + 3 * E.nevex + 5 * E.N + 8193 + E.work
  | .mgpu aware _ => E.m * E.n + 2 * (E.m + E.n) * E.nevex + E.nevex ^ 2 + 2 * E.nevex + 2 * E.m + E.n + 8194 + E.work +
      2 * E.diag + (if aware ∧ ¬ E.sameDist then E.maxRun * E.nevex else 0)

section
variable {R : Type*} [Add R] [Sub R] [Mul R] [Div R] [Neg R] [Zero R] [One R] [NatCast R] [LT R] [DecidableLT R]

/-- `tr` lists the calls of a completed solve of a problem with the sizes of `E`, with any other options and any
backend behaviour, in which the bounds were estimated with `w` Lanczos vectors. -/
def SolveOf (E : Env) (tr : List (Call R)) (w : ℕ) : Prop :=
  ∃ (S : Type) (P : Plat R) (ops : Chase R S) (cfg : Config R) (ritzv0 resid0 : ℕ → R) (s : S)
    (out : Outcome R (S × List (Call R))),
    cfg.N = E.N ∧ cfg.nev = E.nev ∧ cfg.nex = E.nex ∧
    PermutesIndices P ∧ (cfg.symCheck = true → (ops.checkSymmetryEasy s).1 = true) ∧
      solve P (traced ops) cfg ritzv0 resid0 (s, []) = .ok out ∧ tr = out.be.2 ∧
      w = if cfg.approx then 1 else cfg.numLanczos

/-- Number of orthogonalisations. -/
def qrs : List (Call R) → ℕ
  | [] => 0
  | .qr _ _ :: t => qrs t + 1
  | _ :: t => qrs t

/-- Elements of host memory of the Lanczos matrices for one vector. -/
def lanczosHost (E : Env) : Backend → ℕ
  | .seq | .inplace => 3 * E.N
  | .cuda => 0
  | .mpi _ | .mgpu _ _ => 3 * E.m + E.n

/-- Elements of device memory of the Lanczos matrices for one vector. -/
def lanczosDevice (E : Env) : Backend → ℕ
  | .cuda => 3 * E.N
  | .seq | .inplace | .mpi _ => 0
  | .mgpu _ _ => 3 * E.m + E.n

/-- Elements of host memory that an orthogonalisation with ScaLAPACK leaves behind: two descriptors. -/
def qrHost : Backend → ℕ
  | .mpi true | .mgpu _ true => 18
  | _ => 0

/-- Host memory that solves leave behind (C75): `w` Lanczos vectors, `q` orthogonalisations, `x` exchanges of columns in
total. -/
def leftHost (E : Env) (b : Backend) (w q x : ℕ) : ℕ :=
  lanczosHost E b * w + (if b = .inplace then E.N * x else 0) + qrHost b * q +
    (if E.display ∧ ¬ E.zdouble then 5 * E.nevex * q else 0)

/-- Host memory that the object acquires when it is first used. -/
def fullHost (E : Env) : Backend → ℕ
  | .mpi false | .mgpu _ false => E.N * E.nevex
  | _ => 0

/-- Host memory that is in use during one call only. -/
def tempHost (E : Env) (b : Backend) (w : ℕ) : ℕ :=
  (match b with | .seq | .inplace | .cuda => 3 * E.N | _ => 2 * (E.m + E.n)) +
    5 * w * E.nevex + 3 * E.nevex ^ 2 + 4 * E.nevex + 4 * w + 3 * E.work +
    (if E.display then E.N * E.nevex + 7 * E.nevex + E.work else 0)

/-! ### The construction -/

theorem hostMem_eq (l : List (ℕ × Res)) : hostMem l = weigh Res.hostElems l := rfl
theorem deviceMem_eq (l : List (ℕ × Res)) : deviceMem l = weigh Res.deviceElems l := rfl

theorem total_replicate (μ : Res → ℕ) (r : Res) (k : ℕ) : total μ (List.replicate k r) = k * μ r := by
  simp [total]

theorem constructed_host (E : Env) (b : Backend) :
    total Res.hostElems (b.lost E) + total Res.hostElems (b.owned E) = constructedHost E b := by
  cases b with
  | seq => simp [Backend.lost, Backend.owned, matricesSeq, matrix, matrixOf, total, Res.hostElems, constructedHost]; ring
  | inplace => simp [Backend.lost, Backend.owned, matricesSeq, matrix, matrixOf, total, Res.hostElems, constructedHost]; ring
  | cuda => simp [Backend.lost, Backend.owned, matricesSeq, matrix, matrixOf, total, Res.hostElems, constructedHost]; ring
  | mpi sc =>
    cases sc <;> by_cases hs : E.sameDist = true <;>
      simp [Backend.lost, Backend.owned, dlaLost, dlaOwned, matricesMpi, matrix, matrixOf, total, Res.hostElems,
        constructedHost, hs] <;> ring
  | mgpu aw sc =>
    cases aw <;> cases sc <;> by_cases hs : E.sameDist = true <;>
      simp [Backend.lost, Backend.owned, dlaLost, dlaOwned, matricesMpi, matrix, matrixOf, mgpuMode, total, Res.hostElems,
        constructedHost, hs] <;> ring

theorem constructed_device (E : Env) (b : Backend) :
    total Res.deviceElems (b.lost E) + total Res.deviceElems (b.owned E) = constructedDevice E b := by
  cases b with
  | seq => simp [Backend.lost, Backend.owned, matricesSeq, matrix, matrixOf, total, Res.deviceElems, constructedDevice]
  | inplace => simp [Backend.lost, Backend.owned, matricesSeq, matrix, matrixOf, total, Res.deviceElems, constructedDevice]
  | cuda => simp [Backend.lost, Backend.owned, matricesSeq, matrix, matrixOf, total, Res.deviceElems, constructedDevice]; ring
  | mpi sc =>
    cases sc <;> by_cases hs : E.sameDist = true <;>
      simp [Backend.lost, Backend.owned, dlaLost, dlaOwned, matricesMpi, matrix, matrixOf, total, Res.deviceElems,
        constructedDevice, hs]
  | mgpu aw sc =>
    have h1 : total Res.deviceElems (Backend.lost E (.mgpu aw sc)) = E.m + E.n := by
      cases sc <;> simp [Backend.lost, dlaLost, total, Res.deviceElems]
    have h2 : total Res.deviceElems (matricesMpi E (mgpuMode aw)) =
        E.m * E.n + 2 * (E.m + E.n) * E.nevex + E.nevex ^ 2 + 2 * E.nevex + E.m := by
      cases aw <;> simp [matricesMpi, matrix, matrixOf, mgpuMode, total, Res.deviceElems] <;> ring
    have h3 : total Res.deviceElems (dlaOwned E aw) = if aw = true ∧ ¬ E.sameDist = true then E.maxRun * E.nevex else 0 := by
      cases aw <;> by_cases hs : E.sameDist = true <;> simp [dlaOwned, matrix, total, Res.deviceElems, hs]
    show _ + total Res.deviceElems (matricesMpi E (mgpuMode aw) ++ _ ++ dlaOwned E aw) = _
    rw [total_append, total_append, h1, h2, h3]
    simp only [total_cons, total_nil, Res.deviceElems, constructedDevice]
    omega

/-- **C78, the construction:** what each constructor acquires, exactly. -/
theorem C78_constructed_partial (E : Env) (b : Backend) (h : Heap) : ∃ o h', construct E b h = some (o, h') ∧
    hostMem h'.live = hostMem h.live + constructedHost E b ∧
    deviceMem h'.live = deviceMem h.live + constructedDevice E b := by
  have hn : ∀ (rs : List Res) (h : Heap), ∃ as h', newAll rs h = some (as, h') := by
    intro rs
    induction rs with
    | nil => exact fun h => ⟨[], h, rfl⟩
    | cons r rs ih =>
      intro h
      obtain ⟨as, h', e⟩ := ih ⟨h.next + 1, (h.next, r) :: h.live, ((h.next, r) :: h.live) :: h.past⟩
      refine ⟨(h.next, r) :: as, h', ?_⟩
      show (newAll rs _).bind (fun x => some ((h.next, r) :: x.1, x.2)) = _
      rw [e]; rfl
  obtain ⟨l, h1, e1⟩ := hn (b.lost E) h
  obtain ⟨as, h2, e2⟩ := hn (b.owned E) h1
  refine ⟨⟨as, none, none⟩, h2, ?_, ?_, ?_⟩
  · show (newAll (b.lost E) h).bind (fun x => (newAll (b.owned E) x.2).bind _) = _
    rw [e1]
    show (newAll (b.owned E) h1).bind _ = _
    rw [e2]; rfl
  · have a := (newAll_weigh (μ := Res.hostElems) _ e1).2.1
    have c := (newAll_weigh (μ := Res.hostElems) _ e2).2.1
    have d := constructed_host E b
    simp only [hostMem_eq]
    omega
  · have a := (newAll_weigh (μ := Res.deviceElems) _ e1).2.1
    have c := (newAll_weigh (μ := Res.deviceElems) _ e2).2.1
    have d := constructed_device E b
    simp only [deviceMem_eq]
    omega

/-! ### Which calls a solve makes -/

/-- Lengths of the Lanczos runs and sizes of the blocks. -/
def SizeAt (n : ℕ) : Phase R → Prop
  | .dos m => m ≤ n
  | _ => True

/-- What is known of a call, from the protocol. -/
def Sized (n : ℕ) : Call R → Prop
  | .lanczos1 m => m ≤ n
  | .lanczosN m _ => m ≤ n
  | .lanczosDos i m => i < m ∧ m ≤ n
  | .rr k => k ≤ n
  | _ => True

theorem sized_next {N nev nex nl : ℕ} {q q' : Phase R} {c : Call R} (hn : Next N nev nex nl q c q')
    (h : SizeAt (nev + nex) q) : SizeAt (nev + nex) q' ∧ Sized (nev + nex) c := by
  induction hn with
  | skipDos _ ih => exact ih trivial
  | lanczos1 _ h2 => exact ⟨trivial, h2⟩
  | lanczosN _ h2 => exact ⟨h2, h2⟩
  | lanczosDos _ h2 => exact ⟨trivial, h2, h⟩
  | rr h1 => exact ⟨trivial, by show _ ≤ _; omega⟩
  | _ => exact ⟨trivial, trivial⟩

theorem sized_path {N nev nex nl : ℕ} {tr : List (Call R)} {q : Phase R} (h : Path N nev nex nl .fresh tr q) :
    SizeAt (nev + nex) q ∧ ∀ c ∈ tr, Sized (nev + nex) c := by
  induction h with
  | nil => exact ⟨trivial, fun c hc => by cases hc⟩
  | snoc _ hn ih =>
    obtain ⟨a, b⟩ := sized_next hn ih.1
    refine ⟨a, fun c hc => ?_⟩
    rcases List.mem_append.mp hc with hc | hc
    · exact ih.2 c hc
    · rw [List.mem_singleton.mp hc]; exact b

theorem SolveOf.completed {E : Env} {tr : List (Call R)} {w : ℕ} (h : SolveOf E tr w) : Completed tr w := by
  obtain ⟨S, P, ops, cfg, ritzv0, resid0, s, out, -, -, -, h⟩ := h
  exact ⟨S, P, ops, cfg, ritzv0, resid0, s, out, h⟩

theorem SolveOf.sized {E : Env} {tr : List (Call R)} {w : ℕ} (h : SolveOf E tr w) : ∀ c ∈ tr, Sized E.nevex c := by
  obtain ⟨S, P, ops, cfg, ritzv0, resid0, s, out, -, h1, h2, hP, hsym, h, rfl, -⟩ := h
  have := (sized_path (C57_call_protocol hP ritzv0 resid0 s out h hsym)).2
  rwa [h1, h2] at this

theorem mem_widths_one {tr : List (Call R)} {m : ℕ} (h : Call.lanczos1 m ∈ tr) : 1 ∈ widths tr := by
  induction tr with
  | nil => cases h
  | cons c t ih =>
    rcases List.mem_cons.mp h with rfl | h
    · exact List.mem_cons_self
    · have := ih h
      cases c <;> simp [widths, this]

theorem mem_widths {tr : List (Call R)} {m w : ℕ} (h : Call.lanczosN m w ∈ tr) : w ∈ widths tr := by
  induction tr with
  | nil => cases h
  | cons c t ih =>
    rcases List.mem_cons.mp h with rfl | h
    · exact List.mem_cons_self
    · have := ih h
      cases c <;> simp [widths, this]

/-- The temporary memory of the calls of a solve. -/
theorem SolveOf.small {E : Env} {tr : List (Call R)} {w W : ℕ} (h : SolveOf E tr w) (hW : w ≤ W) (b : Backend) :
    Small Res.hostElems E b (tempHost E b W) 0 tr := by
  have hw := h.completed.widths.1
  intro c hc
  refine ⟨?_, fun idx m _ => le_rfl⟩
  have hs := h.sized c hc
  have hb2 : E.nevex ^ 2 = E.nevex * E.nevex := sq _
  unfold tempHost
  cases c with
  | checkSymmetryEasy => cases b <;> simp only [temp, total_cons, total_nil, Res.hostElems] <;> omega
  | qr locked cond =>
    have h1 : condTemp Res.hostElems E (E.nevex - locked) ≤ if E.display then E.N * E.nevex + 7 * E.nevex + E.work else 0 := by
      unfold condTemp
      split_ifs
      · simp only [total_cons, total_nil, Res.hostElems]
        have : min E.N (E.nevex - locked) ≤ E.nevex := (min_le_right _ _).trans (Nat.sub_le _ _)
        omega
      · exact le_rfl
    have h2 : hhTemp Res.hostElems E b ≤ E.nevex + E.work := by
      cases b <;> simp [hhTemp, total, Res.hostElems]
    simp only [temp]
    omega
  | lanczos1 m =>
    have h1 : w = 1 := by
      have := mem_widths_one hc
      rw [hw] at this
      exact (List.mem_singleton.mp this).symm
    have hm : m ≤ E.nevex := hs
    have h2 : 5 * 1 * E.nevex ≤ 5 * W * E.nevex := Nat.mul_le_mul_right _ (by omega)
    simp only [temp, total_cons, total_nil, Res.hostElems]
    omega
  | lanczosN m v =>
    have h1 : v = w := by
      have := mem_widths hc
      rw [hw] at this
      exact List.mem_singleton.mp this
    subst h1
    have hm : m ≤ E.nevex := hs
    have h2 : v * m ≤ W * E.nevex := Nat.mul_le_mul hW hm
    have h3 : m * m ≤ E.nevex * E.nevex := Nat.mul_le_mul hm hm
    have h4 : m * v = v * m := Nat.mul_comm _ _
    have h5 : 5 * W * E.nevex = 5 * (W * E.nevex) := by ring
    simp only [temp, total_cons, total_nil, Res.hostElems]
    omega
  | rr k =>
    have hk : k ≤ E.nevex := hs
    have h3 : k * k ≤ E.nevex * E.nevex := Nat.mul_le_mul hk hk
    cases b <;> simp only [temp, total_cons, total_nil, Res.hostElems] <;> omega
  | swap i j =>
    by_cases hb : b = .seq
    · subst hb
      simp only [temp, if_true, Res.hostElems]
      omega
    · simp only [temp, if_neg hb]
      exact Nat.zero_le _
  | _ => exact Nat.zero_le _

/-- On the device nothing is temporary. -/
theorem SolveOf.smallDevice {E : Env} {tr : List (Call R)} {w : ℕ} (h : SolveOf E tr w) (b : Backend) :
    Small Res.deviceElems E b 0 (E.nevex ^ 2) tr := by
  intro c hc
  have hs := h.sized c hc
  constructor
  · cases c with
    | checkSymmetryEasy => cases b <;> simp [temp, total, Res.deviceElems]
    | qr locked cond => cases b <;> simp [temp, condTemp, hhTemp, total, Res.deviceElems]
    | lanczos1 m => simp [temp, total, Res.deviceElems]
    | lanczosN m v => simp [temp, total, Res.deviceElems]
    | rr k => cases b <;> simp [temp, total, Res.deviceElems]
    | swap i j => simp [temp, Res.deviceElems]
    | _ => exact Nat.zero_le _
  · intro idx m e
    subst e
    obtain ⟨h1, h2⟩ : idx < m ∧ m ≤ E.nevex := hs
    show m * idx ≤ E.nevex ^ 2
    rw [sq]
    exact Nat.mul_le_mul h2 (by omega)

/-! ### What solves leave behind -/

theorem leaks_host (E : Env) (b : Backend) (path : ℕ → QrPath) (tr : List (Call R)) (k : ℕ) :
    total Res.hostElems (leaks E b path tr k) ≤ leftHost E b (widths tr).sum (qrs tr) (swaps tr) := by
  have hadd : ∀ w q x w' q' x', leftHost E b w q x + leftHost E b w' q' x' = leftHost E b (w + w') (q + q') (x + x') := by
    intro w q x w' q' x'
    unfold leftHost
    split_ifs <;> ring
  induction tr generalizing k with
  | nil => exact Nat.zero_le _
  | cons c t ih =>
    have h0 : total Res.hostElems (leaks E b path (c :: t) k) = total Res.hostElems (leak E b (path k) c) +
      total Res.hostElems (leaks E b path t (k + 1)) := total_append _ _
    have ih := ih (k + 1)
    rw [h0]
    have key : ∀ w q x, total Res.hostElems (leak E b (path k) c) ≤ leftHost E b w q x →
        total Res.hostElems (leak E b (path k) c) + total Res.hostElems (leaks E b path t (k + 1)) ≤
          leftHost E b (w + (widths t).sum) (q + qrs t) (x + swaps t) := by
      intro w q x h
      rw [← hadd]
      omega
    cases c with
    | qr locked cond =>
      have := key 0 1 0 (by
        have hh : total Res.hostElems (hhLeak b) = qrHost b * 1 := by
          rcases b with _ | _ | _ | sc | ⟨aw, sc⟩ <;> try cases sc
          all_goals simp [hhLeak, qrHost, total, Res.hostElems]
        have hc : total Res.hostElems (if E.display ∧ ¬ E.zdouble then [Res.host (5 * min E.N (E.nevex - locked))] else []) ≤
            if E.display ∧ ¬ E.zdouble then 5 * E.nevex * 1 else 0 := by
          split_ifs
          · simp only [total_cons, total_nil, Res.hostElems]
            have : min E.N (E.nevex - locked) ≤ E.nevex := (min_le_right _ _).trans (Nat.sub_le _ _)
            omega
          · exact le_rfl
        unfold leftHost leak
        cases path k with
        | householder =>
          show total Res.hostElems (hhLeak b) ≤ _
          rw [hh]; omega
        | cholesky s f =>
          dsimp only
          rw [total_append, total_append]
          have h2 : total Res.hostElems (if s = true ∧ b = .cuda then [Res.device 1] else []) = 0 := by
            split_ifs <;> rfl
          have h3 : total Res.hostElems (if f = true then hhLeak b else []) ≤ total Res.hostElems (hhLeak b) := by
            split_ifs
            · exact le_rfl
            · exact Nat.zero_le _
          rw [h2]
          omega)
      simpa [widths, qrs, swaps, add_comm] using this
    | lanczos1 m =>
      have := key 1 0 0 (by
        show total Res.hostElems (lanczosMats E 1 b) ≤ _
        rcases b with _ | _ | _ | sc | ⟨aw, sc⟩ <;>
          simp [leftHost, lanczosMats, matrix, total, Res.hostElems, lanczosHost] <;> omega)
      simpa [widths, qrs, swaps, add_comm] using this
    | lanczosN m w =>
      have := key w 0 0 (by
        have h0 : total Res.hostElems (lanczosMats E w b) = lanczosHost E b * w := by
          cases b <;> simp [lanczosMats, matrix, total, Res.hostElems, lanczosHost] <;> ring
        show total Res.hostElems (lanczosMats E w b) ≤ _
        rw [h0]
        unfold leftHost
        omega)
      simpa [widths, qrs, swaps, add_comm] using this
    | swap i j =>
      have := key 0 0 1 (by
        unfold leftHost leak
        split_ifs <;> simp [total, Res.hostElems] <;> omega)
      simpa [widths, qrs, swaps, add_comm] using this
    | _ => exact (Nat.zero_add _).le.trans ih

/-- Device memory that solves leave behind. -/
def leftDevice (E : Env) (b : Backend) (w q : ℕ) : ℕ := lanczosDevice E b * w + (if b = .cuda then q else 0)

theorem leaks_device (E : Env) (b : Backend) (path : ℕ → QrPath) (tr : List (Call R)) (k : ℕ) :
    total Res.deviceElems (leaks E b path tr k) ≤ leftDevice E b (widths tr).sum (qrs tr) := by
  have hadd : ∀ w q w' q', leftDevice E b w q + leftDevice E b w' q' = leftDevice E b (w + w') (q + q') := by
    intro w q w' q'
    unfold leftDevice
    split_ifs <;> ring
  induction tr generalizing k with
  | nil => exact Nat.zero_le _
  | cons c t ih =>
    have h0 : total Res.deviceElems (leaks E b path (c :: t) k) = total Res.deviceElems (leak E b (path k) c) +
      total Res.deviceElems (leaks E b path t (k + 1)) := total_append _ _
    have ih := ih (k + 1)
    rw [h0]
    have key : ∀ w q, total Res.deviceElems (leak E b (path k) c) ≤ leftDevice E b w q →
        total Res.deviceElems (leak E b (path k) c) + total Res.deviceElems (leaks E b path t (k + 1)) ≤
          leftDevice E b (w + (widths t).sum) (q + qrs t) := by
      intro w q h
      rw [← hadd]
      omega
    cases c with
    | qr locked cond =>
      have := key 0 1 (by
        have hh : total Res.deviceElems (hhLeak b) = 0 := by
          rcases b with _ | _ | _ | sc | ⟨aw, sc⟩ <;> try cases sc
          all_goals simp [hhLeak, total, Res.deviceElems]
        unfold leftDevice leak
        cases path k with
        | householder =>
          show total Res.deviceElems (hhLeak b) ≤ _
          rw [hh]; exact Nat.zero_le _
        | cholesky s f =>
          dsimp only
          rw [total_append, total_append]
          have h1 : total Res.deviceElems (if E.display ∧ ¬ E.zdouble then [Res.host (5 * min E.N (E.nevex - locked))] else []) = 0 := by
            split_ifs <;> rfl
          have h2 : total Res.deviceElems (if s = true ∧ b = .cuda then [Res.device 1] else []) ≤ if b = .cuda then 1 else 0 := by
            by_cases hb : b = .cuda
            · rw [if_pos hb]; split_ifs <;> simp [total, Res.deviceElems]
            · rw [if_neg hb, if_neg (fun h => hb h.2)]; exact le_rfl
          have h3 : total Res.deviceElems (if f = true then hhLeak b else []) = 0 := by
            split_ifs
            · exact hh
            · rfl
          rw [h1, h3]
          omega)
      simpa [widths, qrs, add_comm] using this
    | lanczos1 m =>
      have := key 1 0 (by
        show total Res.deviceElems (lanczosMats E 1 b) ≤ _
        rcases b with _ | _ | _ | sc | ⟨aw, sc⟩ <;>
          simp [leftDevice, lanczosMats, matrix, total, Res.deviceElems, lanczosDevice] <;> omega)
      simpa [widths, qrs, add_comm] using this
    | lanczosN m w =>
      have := key w 0 (by
        have h0 : total Res.deviceElems (lanczosMats E w b) = lanczosDevice E b * w := by
          cases b <;> simp [lanczosMats, matrix, total, Res.deviceElems, lanczosDevice] <;> ring
        show total Res.deviceElems (lanczosMats E w b) ≤ _
        rw [h0]
        unfold leftDevice
        omega)
      simpa [widths, qrs, add_comm] using this
    | swap i j =>
      have := key 0 0 (by
        unfold leak
        split_ifs <;> simp [total, Res.deviceElems])
      simpa [widths, qrs, add_comm] using this
    | _ => exact (Nat.zero_add _).le.trans ih

theorem allLeaks_host (E : Env) (b : Backend) (path : ℕ → ℕ → QrPath) (trs : List (List (Call R))) (ws : List ℕ)
    (hs : List.Forall₂ (SolveOf E) trs ws) (k : ℕ) :
    total Res.hostElems (allLeaks E b path trs k) ≤ leftHost E b ws.sum (trs.map qrs).sum (trs.map swaps).sum := by
  have hadd : ∀ w q x w' q' x', leftHost E b w q x + leftHost E b w' q' x' = leftHost E b (w + w') (q + q') (x + x') := by
    intro w q x w' q' x'
    unfold leftHost
    split_ifs <;> ring
  induction hs generalizing k with
  | nil => exact Nat.zero_le _
  | cons hc _ ih =>
    have h0 : ∀ (tr : List (Call R)) trs, total Res.hostElems (allLeaks E b path (tr :: trs) k) =
        total Res.hostElems (leaks E b (path k) tr 0) + total Res.hostElems (allLeaks E b path trs (k + 1)) :=
      fun _ _ => total_append _ _
    rw [h0]
    refine (Nat.add_le_add (leaks_host E b (path k) _ 0) (ih (k + 1))).trans ?_
    rw [hc.completed.widths.1, hadd]
    simp

theorem allLeaks_device (E : Env) (b : Backend) (path : ℕ → ℕ → QrPath) (trs : List (List (Call R))) (ws : List ℕ)
    (hs : List.Forall₂ (SolveOf E) trs ws) (k : ℕ) :
    total Res.deviceElems (allLeaks E b path trs k) ≤ leftDevice E b ws.sum (trs.map qrs).sum := by
  have hadd : ∀ w q w' q', leftDevice E b w q + leftDevice E b w' q' = leftDevice E b (w + w') (q + q') := by
    intro w q w' q'
    unfold leftDevice
    split_ifs <;> ring
  induction hs generalizing k with
  | nil => exact Nat.zero_le _
  | cons hc _ ih =>
    have h0 : ∀ (tr : List (Call R)) trs, total Res.deviceElems (allLeaks E b path (tr :: trs) k) =
        total Res.deviceElems (leaks E b (path k) tr 0) + total Res.deviceElems (allLeaks E b path trs (k + 1)) :=
      fun _ _ => total_append _ _
    rw [h0]
    refine (Nat.add_le_add (leaks_device E b (path k) _ 0) (ih (k + 1))).trans ?_
    rw [hc.completed.widths.1, hadd]
    simp

theorem forall₂_le {tr : List (Call R)} {E : Env} {trs : List (List (Call R))} {ws : List ℕ}
    (hs : List.Forall₂ (SolveOf E) trs ws) (h : tr ∈ trs) : ∃ w, SolveOf E tr w ∧ w ≤ ws.sum := by
  induction hs with
  | nil => cases h
  | cons hc _ ih =>
    rw [List.sum_cons]
    rcases List.mem_cons.mp h with rfl | h
    · exact ⟨_, hc, by omega⟩
    · obtain ⟨w, h1, h2⟩ := ih h
      exact ⟨w, h1, by omega⟩

/-! ### C78 -/

/-- **C78, an upper bound** for every backend: while an object is constructed and used for any completed solves, the
host memory in use never exceeds what was in use before plus what the constructor acquires (exactly
`constructedHost`), a full block of vectors if the distributed Householder QR without ScaLAPACK is used, what the
solves leave behind, and the temporaries of one call.  The same for device memory, where nothing is temporary.
(`_partial`: this is a bound by an expression, not by the documented one.) -/
theorem C78_peak_partial (E : Env) (b : Backend) (path : ℕ → ℕ → QrPath) (trs : List (List (Call R))) (ws : List ℕ)
    (hs : List.Forall₂ (SolveOf E) trs ws) (h : Heap) (hw : h.WF) :
    ∃ o h', session E b path trs h = some (o, h') ∧ ∀ l ∈ h'.past, l ∈ h.past ∨
      hostMem l ≤ hostMem h.live + constructedHost E b + fullHost E b +
        leftHost E b ws.sum (trs.map qrs).sum (trs.map swaps).sum + tempHost E b ws.sum ∧
      deviceMem l ≤ deviceMem h.live + constructedDevice E b + (if ∃ sc, b = .mgpu true sc then E.nevex ^ 2 else 0) +
        leftDevice E b ws.sum (trs.map qrs).sum := by
  obtain ⟨o, h', bs, h1, -, -, -⟩ := session_does E b path trs h h.live hw (.refl _)
  refine ⟨o, h', h1, fun l hl => ?_⟩
  have a := (session_uses (μ := Res.hostElems) E b path (tempHost E b ws.sum) 0 trs (fun tr htr => by
    obtain ⟨w, g1, g2⟩ := forall₂_le hs htr
    exact g1.small g2 b) h o h' h1).2 l hl
  have c := (session_uses (μ := Res.deviceElems) E b path 0 (E.nevex ^ 2) trs (fun tr htr => by
    obtain ⟨w, g1, -⟩ := forall₂_le hs htr
    exact g1.smallDevice b) h o h' h1).2 l hl
  rcases a with a | a
  · exact .inl a
  rcases c with c | c
  · exact .inl c
  right
  rw [constructed_host] at a
  rw [constructed_device] at c
  have a1 := allLeaks_host E b path trs ws hs 0
  have c1 := allLeaks_device E b path trs ws hs 0
  have a2 : laterAll Res.hostElems E b 0 ≤ fullHost E b := by
    rcases b with _ | _ | _ | sc | ⟨aw, sc⟩ <;> try cases sc
    all_goals try cases aw
    all_goals simp [laterAll, later, fullHost, matrix, total, Res.hostElems]
  have c2 : laterAll Res.deviceElems E b (E.nevex ^ 2) ≤ if ∃ sc, b = .mgpu true sc then E.nevex ^ 2 else 0 := by
    rcases b with _ | _ | _ | sc | ⟨aw, sc⟩ <;> try cases sc
    all_goals try cases aw
    all_goals simp [laterAll, later, matrix, total, Res.deviceElems]
  simp only [hostMem_eq, deviceMem_eq] at *
  omega

/-- **C78, refuted (1):** no estimate that does not depend on the number of solves is right: an object that is used for
more than `B` completed solves holds more than `B` elements of host memory (C75; all backends but the one for a single
GPU, which loses device memory instead). -/
theorem C78_grows_refuted (E : Env) (b : Backend) (hb : 0 < lanczosHost E b) (B : ℕ) (path : ℕ → ℕ → QrPath)
    (trs : List (List (Call R))) (hs : ∀ tr ∈ trs, ∃ w, Completed tr w) (hB : B < trs.length) (h : Heap) (hw : h.WF) :
    ∃ o h', session E b path trs h = some (o, h') ∧ B < hostMem h'.live := by
  obtain ⟨o, h', bs, h1, -, h3, lost, h4, h5⟩ := session_does E b path trs h h.live hw (.refl _)
  refine ⟨o, h', h1, ?_⟩
  have h6 := (h3.trans ((h4.append_right h.live))).map fun x : ℕ × Res => x.2.hostElems
  have h7 : hostMem h'.live = weigh Res.hostElems o.blocks + weigh Res.hostElems lost + hostMem h.live := by
    show (h'.live.map _).sum = _
    rw [h6.sum_eq, List.map_append, List.map_append, List.sum_append, List.sum_append]
    rfl
  have h8 : weigh Res.hostElems lost = total Res.hostElems (allLeaks E b path trs 0) + total Res.hostElems (b.lost E) := by
    rw [weigh_eq, total_perm h5, total_append]
  have h9 : ∀ (trs : List (List (Call R))) k, (∀ tr ∈ trs, ∃ w, Completed tr w) →
      trs.length * lanczosHost E b ≤ total Res.hostElems (allLeaks E b path trs k) := by
    intro trs
    induction trs with
    | nil => intro k _; simp
    | cons tr trs ih =>
      intro k hs
      show _ ≤ total Res.hostElems (leaks E b (path k) tr 0 ++ allLeaks E b path trs (k + 1))
      rw [total_append, List.length_cons, Nat.succ_mul, Nat.add_comm]
      refine Nat.add_le_add ?_ (ih (k + 1) fun t ht => hs t (List.mem_cons_of_mem _ ht))
      obtain ⟨w, hw⟩ := hs tr List.mem_cons_self
      have h1 := sublist_sum_le ((leaks_ge E b (path k) tr 0).map Res.hostElems)
      rw [hw.widths.1] at h1
      simp only [List.flatMap_cons, List.flatMap_nil, List.append_nil] at h1
      have h2 : ((lanczosMats E w b).map Res.hostElems).sum = lanczosHost E b * w := by
        cases b <;> simp [lanczosMats, matrix, Res.hostElems, lanczosHost] <;> ring
      rw [h2] at h1
      exact le_trans (Nat.le_mul_of_pos_right _ hw.widths.2) h1
  have h10 := h9 trs 0 hs
  have h11 : trs.length * 1 ≤ trs.length * lanczosHost E b := Nat.mul_le_mul_left _ hb
  omega

/-- **C78, refuted (2):** on a process grid with a single column (or, should the documentation mean it the other way
round, a single row) one solve with a Householder orthogonalisation is enough, if the other local dimension `l` is small:
what the process holds after it, together with the arrays of the caller, exceeds the estimate. -/
theorem C78_householder_refuted (E : Env) (l nb : ℕ) (hg : E.m = l ∧ E.n = E.N ∨ E.m = E.N ∧ E.n = l)
    (hl : 2 * l ^ 2 + 5 * l + 2 * nb < (l + E.nevex) * E.nevex) (path : ℕ → ℕ → QrPath) (tr : List (Call R))
    (hh : Householder (path 0) tr 0) (h : Heap) (hw : h.WF) :
    ∃ o h', session E (.mpi false) path [tr] h = some (o, h') ∧
      hostMem h.live + docCpu E.N l E.N E.nevex nb < hostMem h'.live + callers E := by
  obtain ⟨o, h', bs, h1, -, h3, lost, h4, h5⟩ := session_does E (.mpi false) path [tr] h h.live hw (.refl _)
  refine ⟨o, h', h1, ?_⟩
  have h6 := (h3.trans ((h4.append_right h.live))).map fun x : ℕ × Res => x.2.hostElems
  have h7 : hostMem h'.live = weigh Res.hostElems o.blocks + weigh Res.hostElems lost + hostMem h.live := by
    show (h'.live.map _).sum = _
    rw [h6.sum_eq, List.map_append, List.map_append, List.sum_append, List.sum_append]
    rfl
  have h8 : weigh Res.hostElems lost = total Res.hostElems (allLeaks E (.mpi false) path [tr] 0) +
      total Res.hostElems (Backend.lost E (.mpi false)) := by
    rw [weigh_eq, total_perm h5, total_append]
  obtain ⟨⟨g1, g2⟩, g3⟩ := session_full (.inl rfl) path tr hh h o h' h1
  obtain ⟨v, hv⟩ := Option.ne_none_iff_exists'.mp g3
  have h9 : weigh Res.hostElems o.blocks = weigh Res.hostElems o.ritzVc.toList + E.N * E.nevex +
      total Res.hostElems (Backend.owned E (.mpi false)) := by
    have k1 : weigh Res.hostElems o.blocks = weigh Res.hostElems o.ritzVc.toList + weigh Res.hostElems v +
        weigh Res.hostElems o.owned := by
      unfold Obj.blocks
      rw [hv]
      simp [weigh, add_assoc]
    rw [k1, weigh_eq v, g2 v hv, weigh_eq o.owned, g1]
    simp [matrix, total, Res.hostElems]
  have h10 := constructed_host E (.mpi false)
  have h11 : E.m * E.nevex + 2 * E.n * E.nevex + E.nevex ^ 2 + E.nevex + E.m ≤ constructedHost E (.mpi false) := by
    simp only [constructedHost]; omega
  have h12 : E.nevex ^ 2 = E.nevex * E.nevex := sq _
  have h13 : (l + E.nevex) * E.nevex = l * E.nevex + E.nevex * E.nevex := Nat.add_mul ..
  have h14 : (l + E.N) * E.nevex = l * E.nevex + E.N * E.nevex := Nat.add_mul ..
  have h15 : 2 * E.N * E.nevex = 2 * (E.N * E.nevex) := by ring
  have h16 : 2 * l * E.nevex = 2 * (l * E.nevex) := by ring
  have h17 : E.N * l = l * E.N := Nat.mul_comm ..
  unfold docCpu callers
  have hb : 0 < E.nevex := Nat.pos_of_ne_zero fun h0 => by rw [h0] at hl; simp at hl
  have h18 : 2 * E.n * E.nevex = 2 * (E.n * E.nevex) := by ring
  have h19 : E.m * E.nevex + E.n * E.nevex = l * E.nevex + E.N * E.nevex := by
    rcases hg with ⟨e1, e2⟩ | ⟨e1, e2⟩ <;> rw [e1, e2]
    exact Nat.add_comm _ _
  have h20 : E.m * E.n = l * E.N := by
    rcases hg with ⟨e1, e2⟩ | ⟨e1, e2⟩ <;> rw [e1, e2]
    exact h17
  omega

/-- **C78, where the estimate suffices** (`_partial`: under a condition on the sizes).  Distributed backends without
ScaLAPACK, host memory, block or block-cyclic distribution, any number of completed solves.  `n` and `m` are the two
local dimensions, in either order.  What is required: `m + n + block ≤ N`, and that what the solves leave behind and the
temporaries fit into the quadratic terms of the estimate. -/
theorem C78_estimate_partial (E : Env) (b : Backend) (hb : b = .mpi false ∨ ∃ aw, b = .mgpu aw false)
    (hd : E.display = false) (n m nb : ℕ) (hnm : n = E.m ∧ m = E.n ∨ n = E.n ∧ m = E.m)
    (hrun : E.sameDist = true ∨ E.maxRun ≤ E.N) (hN : E.m + E.n + E.nevex ≤ E.N) (path : ℕ → ℕ → QrPath)
    (trs : List (List (Call R))) (ws : List ℕ) (hs : List.Forall₂ (SolveOf E) trs ws)
    (hslack : 2 * E.nevex + E.m + (3 * E.m + E.n) * ws.sum + tempHost E b ws.sum ≤ 1 + 5 * n + 2 * n ^ 2 + 2 * nb)
    (h : Heap) (hw : h.WF) :
    ∃ o h', session E b path trs h = some (o, h') ∧ ∀ l ∈ h'.past, l ∈ h.past ∨
      hostMem l + callers E ≤ hostMem h.live +
        if E.sameDist then docCpu E.N n m E.nevex nb else docCpuCyclic E.N n m E.nevex nb := by
  obtain ⟨o, h', h1, h2⟩ := C78_peak_partial E b path trs ws hs h hw
  refine ⟨o, h', h1, fun l hl => (h2 l hl).imp id fun ⟨a, _⟩ => ?_⟩
  have e1 : constructedHost E b ≤ E.m * E.nevex + 2 * E.n * E.nevex + E.nevex ^ 2 + E.nevex + E.m +
      if E.sameDist then 0 else E.N * E.nevex := by
    have k : (if E.sameDist = true then 0 else E.maxRun * E.nevex) ≤ if E.sameDist = true then 0 else E.N * E.nevex := by
      split_ifs with hsd
      · exact le_rfl
      · exact Nat.mul_le_mul_right _ (hrun.resolve_left hsd)
    rcases hb with rfl | ⟨aw, rfl⟩
    · simp only [constructedHost, Bool.false_eq_true, if_false]; omega
    · cases aw <;> simp only [constructedHost, Bool.false_eq_true, if_false] <;> omega
  have e2 : fullHost E b = E.N * E.nevex := by rcases hb with rfl | ⟨aw, rfl⟩ <;> rfl
  have e3 : leftHost E b ws.sum (trs.map qrs).sum (trs.map swaps).sum = (3 * E.m + E.n) * ws.sum := by
    rcases hb with rfl | ⟨aw, rfl⟩ <;> simp [leftHost, lanczosHost, qrHost, hd]
  have e4 : (E.m + E.n + E.nevex) * E.nevex ≤ E.N * E.nevex := Nat.mul_le_mul_right _ hN
  have e5 : (E.m + E.n + E.nevex) * E.nevex = E.m * E.nevex + E.n * E.nevex + E.nevex ^ 2 := by ring
  have e6 : (n + m) * E.nevex = E.m * E.nevex + E.n * E.nevex := by rcases hnm with ⟨rfl, rfl⟩ | ⟨rfl, rfl⟩ <;> ring
  have e7 : n * m = E.m * E.n := by
    rcases hnm with ⟨rfl, rfl⟩ | ⟨rfl, rfl⟩
    · rfl
    · exact Nat.mul_comm _ _
  have e8 : 2 * E.N * E.nevex = 2 * (E.N * E.nevex) := by ring
  have e9 : 2 * E.n * E.nevex = 2 * (E.n * E.nevex) := by ring
  unfold docCpuCyclic docCpu callers
  split_ifs at e1 ⊢ with hsd
  · omega
  · omega

/-- **C78 for a GPU** (`_partial`: under a condition on the sizes): the device memory of the multi-GPU backend stays
within the documented estimate, if the smaller blocks, what the solves leave behind and, with CUDA-aware MPI, two more
buffers fit into `N * block`. -/
theorem C78_gpu_partial (E : Env) (aw sc : Bool) (hm : E.m ≤ E.N) (hn : E.n ≤ E.N) (path : ℕ → ℕ → QrPath)
    (trs : List (List (Call R))) (ws : List ℕ) (hs : List.Forall₂ (SolveOf E) trs ws)
    (hslack : 2 * E.nevex + 2 * E.m + E.n + 8194 + E.work + 2 * E.diag + (3 * E.m + E.n) * ws.sum +
      (if aw then E.nevex ^ 2 + (if E.sameDist then 0 else E.maxRun * E.nevex) else 0) ≤ E.N * E.nevex)
    (h : Heap) (hw : h.WF) :
    ∃ o h', session E (.mgpu aw sc) path trs h = some (o, h') ∧ ∀ l ∈ h'.past, l ∈ h.past ∨
      deviceMem l ≤ deviceMem h.live + docGpu E.N E.m E.n E.nevex := by
  obtain ⟨o, h', h1, h2⟩ := C78_peak_partial E (.mgpu aw sc) path trs ws hs h hw
  refine ⟨o, h', h1, fun l hl => (h2 l hl).imp id fun ⟨_, a⟩ => ?_⟩
  have e1 : leftDevice E (.mgpu aw sc) ws.sum (trs.map qrs).sum = (3 * E.m + E.n) * ws.sum := by
    simp [leftDevice, lanczosDevice]
  have e2 : 2 * (E.m + E.n) * E.nevex ≤ 3 * E.nevex * max E.m E.n + E.N * E.nevex := by
    have : 2 * (E.m + E.n) ≤ 3 * max E.m E.n + E.N := by omega
    calc 2 * (E.m + E.n) * E.nevex ≤ (3 * max E.m E.n + E.N) * E.nevex := Nat.mul_le_mul_right _ this
      _ = _ := by ring
  have e3 : (2 * E.N + E.nevex) * E.nevex = 2 * (E.N * E.nevex) + E.nevex ^ 2 := by ring
  rw [e1] at a
  unfold docGpu
  unfold constructedDevice at a
  cases aw with
  | false => simp at a hslack; omega
  | true =>
    by_cases hsd : E.sameDist = true
    · simp [hsd] at a hslack; omega
    · simp [hsd] at a hslack; omega

/-! ### Non-vacuity -/

/-- A round of a solve contains an orthogonalisation. -/
def QrAt (q : ℕ) : Phase R → Prop
  | .orth | .dos _ | .orthed _ _ | .projected _ _ | .measured _ _ => 0 < q
  | .ready n _ | .shifted n _ _ | .mult n _ _ | .filtered n _ | .sorted n _ | .done n _ => 0 < n → 0 < q
  | _ => True

theorem qrs_append (a b : List (Call R)) : qrs (a ++ b) = qrs a + qrs b := by
  induction a with
  | nil => simp [qrs]
  | cons c t ih => cases c <;> simp [qrs, ih] <;> omega

theorem QrAt.next {N nev nex nl k : ℕ} {q q' : Phase R} {c : Call R} (hn : Next N nev nex nl q c q')
    (h : QrAt k q) : QrAt (k + qrs [c]) q' := by
  induction hn with
  | skipDos _ ih => exact ih fun h => by omega
  | qr0 => show 0 < k + 1; omega
  | qr => show 0 < k + 1; omega
  | lanczosDos => exact fun h => by omega
  | lanczos1 => exact fun h => by omega
  | lock => exact fun _ => h
  | _ => first | exact h | trivial

theorem qrAt_path {N nev nex nl : ℕ} {tr : List (Call R)} {q : Phase R} (h : Path N nev nex nl .fresh tr q) :
    QrAt (qrs tr) q := by
  induction h with
  | nil => trivial
  | snoc _ hn ih => rw [qrs_append]; exact ih.next hn

theorem exists_qr {tr : List (Call R)} (h : 0 < qrs tr) : ∃ (i locked : ℕ) (cond : R), tr[i]? = some (.qr locked cond) := by
  induction tr with
  | nil => simp [qrs] at h
  | cons c t ih =>
    cases c
    case qr locked cond => exact ⟨0, locked, cond, rfl⟩
    all_goals
      obtain ⟨i, l, c, hi⟩ := ih h
      exact ⟨i + 1, l, c, hi⟩

end

/-- There are completed solves of problems of all sizes, with an orthogonalisation. -/
theorem exists_solveOf (E : Env) (h1 : 2 ≤ E.N) (h2 : 1 ≤ E.nev) :
    ∃ tr : List (Call ℚ), SolveOf E tr 1 ∧ 0 < qrs tr := by
  let cfg : Config ℚ := { Toy.cfg1 with N := E.N, nev := E.nev, nex := E.nex, approx := true, symCheck := false }
  let ops := Toy.ops Toy.vals1 Toy.res1 true
  have hsym : cfg.symCheck = true → (ops.checkSymmetryEasy Toy.start).1 = true := fun _ => rfl
  have d1 : 1 ≤ Toy.cfg1.deg ∧ 2 ≤ Toy.cfg1.maxDeg ∧ 1 ≤ Toy.cfg1.degExtra ∧ 1 ≤ Toy.cfg1.lanczosIter ∧ 1 ≤ Toy.cfg1.maxIter := by
    decide
  have hopt : cfg.optimization = true → ∀ a b c d e, Toy.plat.degNeeded a b c d e ≠ none := fun h =>
    absurd (show false = true from h) (by decide)
  obtain ⟨out, e, hr⟩ := C51_approx_solve_defined Toy.plat (traced ops) cfg rfl ⟨4, rfl⟩ h1 d1.1 d1.2.1
    d1.2.2.1 h2 d1.2.2.2.1 hopt (fun _ => 0) (fun _ => 0) (Toy.start, [])
  refine ⟨out.be.2, ⟨_, Toy.plat, ops, cfg, _, _, Toy.start, out, rfl, rfl, rfl, Toy.plat_sorts.permutes,
    hsym, e, rfl, rfl⟩, ?_⟩
  have := qrAt_path (C57_call_protocol Toy.plat_sorts.permutes _ _ _ out e hsym)
  exact this (hr hsym d1.2.2.2.2)

/-- A problem of order 1000 for 100 pairs on a grid of 20 by 1, with local blocks of 50 rows and 1000 columns: a solve
with Householder QR needs more than the estimate, for block sizes of QR up to 4000. -/
example (path : ℕ → ℕ → QrPath) (hp : ∀ k i, (path k i).toHouseholder) :
    ∃ tr : List (Call ℚ), SolveOf { exampleEnv with m := 50, n := 1000, rows := 20, cols := 1 } tr 1 ∧ ∃ o h',
      session { exampleEnv with m := 50, n := 1000, rows := 20, cols := 1 } (.mpi false) path [tr] ⟨0, [], []⟩ = some (o, h') ∧
      docCpu 1000 50 1000 100 4000 < hostMem h'.live + callers { exampleEnv with m := 50, n := 1000, rows := 20, cols := 1 } := by
  obtain ⟨tr, h1, h2⟩ := exists_solveOf { exampleEnv with m := 50, n := 1000, rows := 20, cols := 1 } (by decide) (by decide)
  obtain ⟨i, l, c, hi⟩ := exists_qr h2
  refine ⟨tr, h1, ?_⟩
  obtain ⟨o, h', e, g⟩ := C78_householder_refuted { exampleEnv with m := 50, n := 1000, rows := 20, cols := 1 } 50 4000
    (.inl ⟨rfl, rfl⟩) (by decide) path tr ⟨i, l, c, hi, hp 0 _⟩ ⟨0, [], []⟩ empty_wf
  exact ⟨o, h', e, lt_of_le_of_lt (Nat.le_add_left _ _) g⟩

/-- Ten solves of a problem of order 1000 for 30 pairs on a grid of 3 by 3 stay within the estimate, on the host and on
the device. -/
example (path : ℕ → ℕ → QrPath) :
    let E : Env := { exampleEnv with nev := 20, nex := 10, m := 334, n := 334, rows := 3, cols := 3, diag := 334 }
    ∃ tr : List (Call ℚ), SolveOf E tr 1 ∧
    (∃ o h', session E (.mpi false) path (List.replicate 10 tr) ⟨0, [], []⟩ = some (o, h') ∧ ∀ l ∈ h'.past,
      hostMem l + callers E ≤ docCpu 1000 334 334 30 32) ∧
    (∃ o h', session E (.mgpu false false) path [tr] ⟨0, [], []⟩ = some (o, h') ∧ ∀ l ∈ h'.past,
      deviceMem l ≤ docGpu 1000 334 334 30) := by
  intro E
  obtain ⟨tr, h1, -⟩ := exists_solveOf E (by decide) (by decide)
  refine ⟨tr, h1, ?_, ?_⟩
  · have hs : ∀ k, List.Forall₂ (SolveOf E) (List.replicate k tr) (List.replicate k 1) := by
      intro k
      induction k with
      | zero => exact .nil
      | succ k ih => exact .cons h1 ih
    obtain ⟨o, h', e, g⟩ := C78_estimate_partial E (.mpi false) (.inl rfl) rfl 334 334 32 (.inl ⟨rfl, rfl⟩) (.inl rfl)
      (by decide) path _ _ (hs 10) (by decide +kernel) ⟨0, [], []⟩ empty_wf
    refine ⟨o, h', e, fun l hl => ?_⟩
    rcases g l hl with g | g
    · cases g
    · exact g.trans (by decide +kernel)
  · obtain ⟨o, h', e, g⟩ := C78_gpu_partial E false false (by decide) (by decide) path [tr] [1] (.cons h1 .nil)
      (by decide +kernel) ⟨0, [], []⟩ empty_wf
    refine ⟨o, h', e, fun l hl => ?_⟩
    rcases g l hl with g | g
    · cases g
    · exact g.trans (by decide +kernel)

/-- The hypotheses of the first refutation are met: a million solves. -/
example (path : ℕ → ℕ → QrPath) : ∃ trs : List (List (Call ℚ)), ∃ o h',
    session exampleEnv (.mpi false) path trs ⟨0, [], []⟩ = some (o, h') ∧
      docCpu 1000 500 500 100 32 < hostMem h'.live := by
  obtain ⟨tr, h1, -⟩ := exists_solveOf exampleEnv (by decide) (by decide)
  exact ⟨List.replicate (docCpu 1000 500 500 100 32 + 1) tr, C78_grows_refuted exampleEnv (.mpi false) (by decide) _ path _
    (fun t ht => ⟨_, (List.eq_of_mem_replicate ht).symm ▸ h1.completed⟩) (by rw [List.length_replicate]; exact Nat.lt_succ_self _)
    ⟨0, [], []⟩ empty_wf⟩

end Verif.Memory
