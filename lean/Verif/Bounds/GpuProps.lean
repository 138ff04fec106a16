/-
Property C42 for the GPU backends: they stay inside their host and device buffers.  `Bounds.Touch.Fits`
(GpuModel.lean) with `Bounds.Access.Fits` (Model.lean) is the specification: every element touched has an index
below the size of its array, on the host and on the device.
-/
import Verif.Bounds.GpuFits
import Verif.Bounds.Props

namespace Verif
namespace Bounds

variable {R S : Type*} [Add R] [Sub R] [Mul R] [Div R] [Neg R] [Zero R] [One R] [NatCast R] [LT R] [DecidableLT R]
variable {P : Plat R} {ops : Chase R S} {cfg : Config R} {ritzv0 resid0 : ℕ → R} {s : S}
  {out : Outcome R (S × List (Call R))}

/-- **C42**, the single-GPU backend: in every solve that returns, whatever the numbers, every call stays inside the
arrays on the host and on the device.  Conditions: the user's arrays have the sizes asked for, the leading dimension
is large enough and no more Lanczos runs are configured than there are columns. -/
theorem C42_cuda (hP : PermutesIndices P)
    (h : solve P (traced ops) cfg ritzv0 resid0 (s, []) = .ok out)
    (hsym : cfg.symCheck = true → (ops.checkSymmetryEasy s).1 = true)
    (hn : 0 < cfg.nev + cfg.nex) (ldh : ℕ) (hld : cfg.N ≤ ldh) (hl : cfg.numLanczos ≤ cfg.nev + cfg.nex)
    (V1 V2 : Buf) (hV : InPlace.Pair V1 V2) (l0 k : ℕ) (c : Call R) (hc : out.be.2[k]? = some c) :
    (Cuda.touch (Cuda.make cfg.N cfg.nev cfg.nex ldh) V1 V2 (cfg.nev + cfg.nex)
      (lockedAfter (out.be.2.take k) l0) c).Fits (Cuda.make cfg.N cfg.nev cfg.nex ldh).host
      (Cuda.make cfg.N cfg.nev cfg.nex ldh).dev :=
  Cuda.touch_fits (D := Cuda.make cfg.N cfg.nev cfg.nex ldh) hV hld hl
    ((path_allowed hn l0 (C57_call_protocol hP ritzv0 resid0 s out h hsym)).2 k c hc)

/-- **C42** is false of the single-GPU backend when more Lanczos runs than columns are configured: the start vectors
are read from behind the end of the device copy of the block of vectors. -/
theorem C42_cuda_lanczos_refuted (hP : PermutesIndices P)
    (h : solve P (traced ops) cfg ritzv0 resid0 (s, []) = .ok out)
    (hsym : cfg.symCheck = true → (ops.checkSymmetryEasy s).1 = true)
    (hN : 0 < cfg.N) (hap : Call.initVecs true ∈ out.be.2) (hl : cfg.nev + cfg.nex < cfg.numLanczos)
    (ldh l0 : ℕ) :
    ∃ k c, out.be.2[k]? = some c ∧
      ¬ (Cuda.touch (Cuda.make cfg.N cfg.nev cfg.nex ldh) .C .B (cfg.nev + cfg.nex)
        (lockedAfter (out.be.2.take k) l0) c).Fits (Cuda.make cfg.N cfg.nev cfg.nex ldh).host
        (Cuda.make cfg.N cfg.nev cfg.nex ldh).dev := by
  rcases path_lanczosN (C57_call_protocol hP ritzv0 resid0 s out h hsym) hap with h1 | ⟨m, h1⟩
  · simp at h1
  · obtain ⟨k, hk⟩ := List.mem_iff_getElem?.mp h1
    refine ⟨k, _, hk, fun hf => ?_⟩
    have hf := hf.2 (vec .C 0 (cfg.N * cfg.numLanczos)) (by
      unfold Cuda.touch mLanczosVecs
      simp only [List.append_assoc, List.cons_append, List.mem_cons]
      exact .inl rfl)
    have h5 : cfg.N * (cfg.nev + cfg.nex) < cfg.N * cfg.numLanczos := Nat.mul_lt_mul_of_pos_left hl hN
    have := hf (cfg.N * (cfg.nev + cfg.nex)) h5 0 Nat.one_pos
    have h6 : 0 + cfg.N * (cfg.nev + cfg.nex) + 0 * _ < cfg.N * (cfg.nev + cfg.nex) := this
    omega

/-! ### The multi-GPU backend -/

section
open Mpi (Dims)

/-- Phases before the call of `LanczosDos`. -/
def Early : Phase R → Prop
  | .fresh | .checked | .begun | .random | .given | .orth | .dos _ => True
  | _ => False

theorem next_early {N nev nex nl : ℕ} {q q' : Phase R} {c : Call R} (h : Next N nev nex nl q c q') :
    (Early q' → Early q ∧ ∀ i m, c ≠ .lanczosDos i m) ∧ ∀ i m, c = .lanczosDos i m → ∃ m', q = .dos m' := by
  induction h with
  | lanczosDos h1 h2 => exact ⟨fun h => h.elim, fun i m _ => ⟨_, rfl⟩⟩
  | skipDos _ ih =>
    refine ⟨fun h => ((ih.1 h).1).elim, fun i m e => ?_⟩
    obtain ⟨m', h⟩ := ih.2 i m e
    cases h
  | _ => simp [Early]

theorem ritzVcAfter_of_not_mem {tr : List (Call R)} (h : ∀ i m, Call.lanczosDos i m ∉ tr) (rv : Option ℕ) :
    Mgpu.ritzVcAfter tr rv = rv := by
  induction tr generalizing rv with
  | nil => rfl
  | cons c t ih =>
    have ht : ∀ i m, Call.lanczosDos i m ∉ t := fun i m hm => h i m (List.mem_cons_of_mem _ hm)
    cases c with
    | lanczosDos i m => exact absurd (List.mem_cons_self ..) (h i m)
    | _ => exact ih ht rv

/-- `LanczosDos` is called at most once in a solve: before it the buffer is as it was at the start of the solve. -/
theorem path_ritzVc {N nev nex nl : ℕ} {tr : List (Call R)} {q : Phase R} (h : Path N nev nex nl .fresh tr q)
    (rv : Option ℕ) :
    (Early q → ∀ i m, Call.lanczosDos i m ∉ tr) ∧
      ∀ k i m, tr[k]? = some (.lanczosDos i m) → Mgpu.ritzVcAfter (tr.take k) rv = rv := by
  induction h with
  | nil => exact ⟨fun _ i m hm => (by cases hm), fun k i m hk => (by simp at hk)⟩
  | @snoc tr q c q' hp hnx ih =>
    obtain ⟨ih1, ih2⟩ := ih
    obtain ⟨n1, n2⟩ := next_early hnx
    refine ⟨fun he i m hm => ?_, fun k i m hk => ?_⟩
    · obtain ⟨e1, e2⟩ := n1 he
      rcases List.mem_append.mp hm with h | h
      · exact ih1 e1 i m h
      · exact e2 i m (List.mem_singleton.mp h).symm
    · by_cases hlt : k < tr.length
      · rw [List.getElem?_append_left hlt] at hk
        rw [List.take_append_of_le_length (le_of_lt hlt)]
        exact ih2 k i m hk
      · have hk' : k = tr.length := by
          have := (List.getElem?_eq_some_iff.mp hk).1
          rw [List.length_append, List.length_singleton] at this
          omega
        subst hk'
        rw [List.getElem?_append_right (le_refl _), Nat.sub_self] at hk
        obtain rfl : c = .lanczosDos i m := by simpa using hk
        obtain ⟨m', rfl⟩ := n2 i m rfl
        rw [List.take_append_of_le_length (le_refl _), List.take_length]
        exact ritzVcAfter_of_not_mem (ih1 trivial) rv

variable {N : ℕ} {r c : Verif.Mpi.Layout N} {i : Fin r.procs} {j : Fin c.procs} {ldh : ℕ} {same : Bool}
  {cRuns bRuns : List Dist.Run}

/-- **C42**, a process of the multi-GPU backend, in the staged and in the CUDA-aware build: if the redistribution
tables are right (C36), and the layouts of rows and columns coincide or no process of its process column has more
rows than it, then in every solve that returns every call stays inside the arrays of the process on the host and on
the device.  In the CUDA-aware build the buffer for the Lanczos vectors must be new (`rv = none`) or large enough.
Missing: processes with fewer rows than others when the layouts differ (`C42_mgpu_overrun`), and objects whose buffer
was sized by an earlier solve (`C42_mgpu_history_refuted`). -/
theorem C42_mgpu_partial (hP : PermutesIndices P)
    (h : solve P (traced ops) cfg ritzv0 resid0 (s, []) = .ok out)
    (hsym : cfg.symCheck = true → (ops.checkSymmetryEasy s).1 = true)
    (hn : 0 < cfg.nev + cfg.nex) (hl : cfg.numLanczos ≤ cfg.nev + cfg.nex)
    (hc : Verif.Mpi.RunsOk r c cRuns) (hb : Verif.Mpi.RunsOk c r bRuns) (hld : r.size i ≤ ldh)
    (hsq : same = true → j.val = i.val → r.size i = c.size j)
    (hrows : same = true ∨ ∀ i', r.size i' ≤ r.size i)
    (aware : Bool) (rv : Option ℕ)
    (hrv : aware = true → ∀ sz, rv = some sz → ∀ i m, Call.lanczosDos i m ∈ out.be.2 → m * i ≤ sz)
    (l0 k : ℕ) (call : Call R) (hk : out.be.2[k]? = some call) :
    (Mgpu.touch (procDims r c i j cfg.nev cfg.nex ldh same cRuns bRuns) aware
      (Mgpu.ritzVcAfter (out.be.2.take k) rv) (lockedAfter (out.be.2.take k) l0) call).Fits
      (Mgpu.host (procDims r c i j cfg.nev cfg.nex ldh same cRuns bRuns) aware)
      (Mgpu.dev (procDims r c i j cfg.nev cfg.nex ldh same cRuns bRuns) aware) := by
  have hpath := C57_call_protocol hP ritzv0 resid0 s out h hsym
  refine Mgpu.touch_fits (D := procDims r c i j cfg.nev cfg.nex ldh same cRuns bRuns)
    (procDims_fitting hc hb hld hsq) hl ((path_allowed hn l0 hpath).2 k call hk) ?_ ?_
  · intro hsame run hrun hd t ht
    rcases hrows with hr | hr
    · rw [show same = false from hsame] at hr; cases hr
    · obtain ⟨hs, hd', h1, h2, -⟩ := hc.valid run hrun t ht
      exact Nat.lt_of_lt_of_le h1 (hr ⟨run.src, hs⟩)
  · intro ha
    cases call with
    | lanczosDos i m =>
      intro sz hsz
      rw [(path_ritzVc hpath rv).2 k i m hk] at hsz
      exact hrv ha sz hsz i m (List.mem_of_getElem? hk)
    | _ => trivial

/-- **C42** is false of the multi-GPU backend on a process with too few rows, as it is of the distributed CPU backend
(`C42_mpi_overrun`): packing reads behind the end of `C2`, on the host in the staged build and on the device in the
CUDA-aware one. -/
theorem C42_mgpu_overrun (hP : PermutesIndices P)
    (h : solve P (traced ops) cfg ritzv0 resid0 (s, []) = .ok out)
    (hsym : cfg.symCheck = true → (ops.checkSymmetryEasy s).1 = true)
    (hn : 0 < cfg.nev + cfg.nex) (hit : out.iterations ≠ 0)
    (D : Dims) (hD : D.nev = cfg.nev ∧ D.nex = cfg.nex) (hs : D.same = false) (run : Dist.Run)
    (hrun : run ∈ D.cRuns) (hd : run.dest = D.rowRank) (hlen : 0 < run.len)
    (hover : D.m < run.srcDisp + run.len) (aware : Bool) (rv : Option ℕ) (l0 : ℕ) :
    ∃ k call, out.be.2[k]? = some call ∧
      ¬ (Mgpu.touch D aware (Mgpu.ritzVcAfter (out.be.2.take k) rv) (lockedAfter (out.be.2.take k) l0) call).Fits
        (Mgpu.host D aware) (Mgpu.dev D aware) := by
  have hpath := C57_call_protocol hP ritzv0 resid0 s out h hsym
  rcases path_rr hpath with ⟨b, hb⟩ | h1
  · obtain ⟨k, hk⟩ := List.mem_iff_getElem?.mp hb
    obtain ⟨hal, hL⟩ : lockedAfter (out.be.2.take k) l0 + b = cfg.nev + cfg.nex ∧
        lockedAfter (out.be.2.take k) l0 < cfg.nev := (path_allowed hn l0 hpath).2 k _ hk
    refine ⟨k, _, hk, fun hf => ?_⟩
    have hmem : (⟨.C2, run.srcDisp + lockedAfter (out.be.2.take k) l0 * D.m, run.len, b, D.m⟩ : Access) ∈
        Mpi.gatherC2 D (lockedAfter (out.be.2.take k) l0) b := by
      unfold Mpi.gatherC2
      rw [hs]
      exact List.mem_flatMap.mpr ⟨run, List.mem_filter.mpr ⟨hrun, by simp [hd]⟩, List.mem_cons_self ..⟩
    have hf' : ∃ z : Sizes, z.C2 = D.m * (D.nev + D.nex) ∧
        Access.Fits z ⟨.C2, run.srcDisp + lockedAfter (out.be.2.take k) l0 * D.m, run.len, b, D.m⟩ := by
      cases aware with
      | false =>
        refine ⟨Mgpu.host D false, rfl, hf.1 _ ?_⟩
        show _ ∈ Mgpu.gatherHost D false _ _ ++ _ ++ _
        exact List.mem_append_left _ (List.mem_append_left _ (List.mem_append_left _ hmem))
      | true =>
        refine ⟨Mgpu.dev D true, rfl, hf.2 _ ?_⟩
        show _ ∈ Mgpu.gatherDev D true _ _ ++ _ ++ _
        exact List.mem_append_left _ (List.mem_append_left _ (List.mem_append_left _ (List.mem_append_left _ hmem)))
    obtain ⟨z, hz, hf'⟩ := hf'
    have h2 := hf' (run.len - 1) (by show _ < run.len; omega) (b - 1) (by show b - 1 < b; omega)
    generalize lockedAfter (out.be.2.take k) l0 = L at *
    have h3 : run.srcDisp + L * D.m + (run.len - 1) + (b - 1) * D.m < z.C2 := h2
    have h4 : D.m * (D.nev + D.nex) = L * D.m + (b - 1) * D.m + D.m := by
      rw [hD.1, hD.2, ← hal, ← Nat.add_mul, Nat.mul_comm, ← Nat.succ_mul]
      congr 1; omega
    omega
  · exact absurd h1 hit

/-- **C42** is false of an object of the CUDA-aware multi-GPU backend that has solved before: if the buffer for the
Lanczos vectors was allocated with fewer elements than this solve needs, then this solve writes behind its end. -/
theorem C42_mgpu_history_refuted (hP : PermutesIndices P)
    (h : solve P (traced ops) cfg ritzv0 resid0 (s, []) = .ok out)
    (hsym : cfg.symCheck = true → (ops.checkSymmetryEasy s).1 = true)
    (D : Dims) (sz : ℕ) {idx m : ℕ} (hm : Call.lanczosDos idx m ∈ out.be.2) (hsz : sz < m * idx) (l0 : ℕ) :
    ∃ k call, out.be.2[k]? = some call ∧
      ¬ (Mgpu.touch D true (Mgpu.ritzVcAfter (out.be.2.take k) (some sz)) (lockedAfter (out.be.2.take k) l0)
        call).Fits (Mgpu.host D true) (Mgpu.dev D true) := by
  have hpath := C57_call_protocol hP ritzv0 resid0 s out h hsym
  obtain ⟨k, hk⟩ := List.mem_iff_getElem?.mp hm
  refine ⟨k, _, hk, fun hf => ?_⟩
  rw [(path_ritzVc hpath (some sz)).2 k idx m hk] at hf
  have hf := hf.2 (vec (.tmp sz) 0 (m * idx)) (List.mem_cons_self ..)
  have := hf sz hsz 0 Nat.one_pos
  have h6 : 0 + sz + 0 * _ < sz := this
  omega

end

/-- A matrix whose single Lanczos run of length `m` has the values `0, …, m-1` with equal weights `w`; wanted: 4 pairs
of a matrix of dimension 10, with one extra column. -/
def dosOps (w : ℚ) : Chase ℚ Toy.TS :=
  { Toy.ops Toy.vals1 Toy.res1 true with
    lanczosN := fun m _ s =>
      ({ upperb := 10, theta := fun i => ((i % m : ℕ) : ℚ), tau := fun _ => w, ritzV := fun _ => 0 }, s) }

/-- The configuration of both solves. -/
def dosCfg : Config ℚ := { Toy.cfg1 with numLanczos := 1, lanczosIter := 5, nev := 4 }

/-- The situation of `C42_mgpu_history_refuted` occurs: a new object solves one problem, then another one with the
same configuration.  In the first solve the density of states singles out one Lanczos vector, in the second one
three; the second solve writes 15 elements into a buffer of 5. -/
theorem C42_mgpu_two_solves_refuted : ∃ out1 out2 : Outcome ℚ (Toy.TS × List (Call ℚ)),
    solve Toy.plat (traced (dosOps (1 / 4))) dosCfg (fun _ => 0) (fun _ => 0) (Toy.start, []) = .ok out1 ∧
    solve Toy.plat (traced (dosOps (1 / 8))) dosCfg (fun _ => 0) (fun _ => 0) (Toy.start, []) = .ok out2 ∧
    ∀ (D : Mpi.Dims) (l0 : ℕ), ∃ k call, out2.be.2[k]? = some call ∧
      ¬ (Mgpu.touch D true (Mgpu.ritzVcAfter (out2.be.2.take k) (Mgpu.ritzVcAfter out1.be.2 none))
        (lockedAfter (out2.be.2.take k) l0) call).Fits (Mgpu.host D true) (Mgpu.dev D true) := by
  have h1 : Toy.okAnd (fun out => Mgpu.ritzVcAfter out.be.2 none == some 5)
      (solve Toy.plat (traced (dosOps (1 / 4))) dosCfg (fun _ => 0) (fun _ => 0) (Toy.start, [])) = true := by
    rw [Toy.solve_eq_solveE]; decide +kernel
  have h2 : Toy.okAnd (fun out => out.be.2.contains (.lanczosDos 3 5))
      (solve Toy.plat (traced (dosOps (1 / 8))) dosCfg (fun _ => 0) (fun _ => 0) (Toy.start, [])) = true := by
    rw [Toy.solve_eq_solveE]; decide +kernel
  obtain ⟨out1, e1, p1⟩ := Toy.okAnd_elim h1
  obtain ⟨out2, e2, p2⟩ := Toy.okAnd_elim h2
  refine ⟨out1, out2, e1, e2, fun D l0 => ?_⟩
  rw [eq_of_beq p1]
  exact C42_mgpu_history_refuted Toy.plat_sorts e2 (fun _ => rfl) D 5 (List.contains_iff_mem.mp p2) (by decide) l0

/-! ### Non-vacuity -/

/-- A run that meets the conditions of `C42_cuda` and, on a new object, those of `C42_mgpu_partial` on the solve: two
rounds, 28 calls.  (For those on the layouts see the example in Props.lean.) -/
example : Toy.okAnd (fun out => out.iterations == 2 && out.be.2.length == 28)
      (solve Toy.plat (traced (Toy.ops Toy.vals1 Toy.res1 true)) Toy.cfg1 (fun _ => 0) (fun _ => 0)
        (Toy.start, [])) = true ∧
    Toy.cfg1.numLanczos ≤ Toy.cfg1.nev + Toy.cfg1.nex ∧ SortsIndices Toy.plat :=
  ⟨by rw [Toy.solve_eq_solveE]; decide +kernel, by decide, Toy.plat_sorts⟩

/-- A run with more Lanczos runs than columns (`C42_cuda_lanczos_refuted`). -/
example : Toy.okAnd (fun out => out.be.2.contains (.initVecs true))
      (solve Toy.plat (traced (Toy.ops Toy.vals1 Toy.res1 true)) { Toy.cfg1 with numLanczos := 4 }
        (fun _ => 0) (fun _ => 0) (Toy.start, [])) = true := by
  rw [Toy.solve_eq_solveE]; decide +kernel

end Bounds
end Verif
