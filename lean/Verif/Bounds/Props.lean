/-
Property C42: the backends stay inside their buffers.  `Bounds.Access.Fits` (Model.lean) is the
specification: every element touched has an index below the size of its array.
-/
import Verif.Bounds.Fits
import Verif.Backend.MpiLayout
import Verif.Solver.ToyProof

namespace Verif
namespace Bounds

variable {R S : Type*} [Add R] [Sub R] [Mul R] [Div R] [Neg R] [Zero R] [One R] [NatCast R] [LT R] [DecidableLT R]

section
variable {P : Plat R} {ops : Chase R S} {cfg : Config R} {ritzv0 resid0 : ℕ → R} {s : S}
  {out : Outcome R (S × List (Call R))}

/-- **C42**, the backend in place: in every solve that returns, whatever the numbers, every call stays inside
the arrays.  Conditions: the user's arrays have the sizes asked for, the leading dimension is large enough and
no more Lanczos runs are configured than there are columns. -/
theorem C42_inplace (hP : PermutesIndices P)
    (h : solve P (traced ops) cfg ritzv0 resid0 (s, []) = .ok out)
    (hsym : cfg.symCheck = true → (ops.checkSymmetryEasy s).1 = true)
    (hn : 0 < cfg.nev + cfg.nex) (ldh : ℕ) (hld : cfg.N ≤ ldh) (hl : cfg.numLanczos ≤ cfg.nev + cfg.nex)
    (V1 V2 : Buf) (hV : InPlace.Pair V1 V2) (l0 k : ℕ) (c : Call R) (hc : out.be.2[k]? = some c) :
    ∀ a ∈ InPlace.touch (InPlace.make cfg.N cfg.nev cfg.nex ldh) V1 V2 (cfg.nev + cfg.nex)
      (lockedAfter (out.be.2.take k) l0) c, a.Fits (InPlace.make cfg.N cfg.nev cfg.nex ldh).sizes :=
  InPlace.touch_fits (D := InPlace.make cfg.N cfg.nev cfg.nex ldh) hV hld hl
    ((path_allowed hn l0 (C57_call_protocol hP ritzv0 resid0 s out h hsym)).2 k c hc)

/-- **C42**, the sequential backend: the same if no more extra columns than wanted ones are configured.
Missing: `nex > nev`, see `C42_seq_refuted`. -/
theorem C42_seq_partial (hP : PermutesIndices P)
    (h : solve P (traced ops) cfg ritzv0 resid0 (s, []) = .ok out)
    (hsym : cfg.symCheck = true → (ops.checkSymmetryEasy s).1 = true)
    (hn : 0 < cfg.nev + cfg.nex) (ldh : ℕ) (hld : cfg.N ≤ ldh) (hl : cfg.numLanczos ≤ cfg.nev + cfg.nex)
    (hx : cfg.nex ≤ cfg.nev) (l0 k : ℕ) (c : Call R) (hc : out.be.2[k]? = some c) :
    ∀ a ∈ Seq.touch (Seq.make cfg.N cfg.nev cfg.nex ldh) (cfg.nev + cfg.nex)
      (lockedAfter (out.be.2.take k) l0) c, a.Fits (Seq.make cfg.N cfg.nev cfg.nex ldh).sizes :=
  Seq.touch_fits (D := Seq.make cfg.N cfg.nev cfg.nex ldh) (Nat.add_comm _ _) hld
    (by show cfg.nex + cfg.nev ≤ cfg.nev + cfg.nev; omega) hl
    ((path_allowed hn l0 (C57_call_protocol hP ritzv0 resid0 s out h hsym)).2 k c hc)

/-- **C42** is false of the sequential backend when more extra columns than wanted ones are configured: every
solve that returns has touched an element outside an array (the constructor exchanges `nev` and `nex`, so that
`C2` and `B2` have `2 * nev` columns). -/
theorem C42_seq_refuted (hP : PermutesIndices P)
    (h : solve P (traced ops) cfg ritzv0 resid0 (s, []) = .ok out)
    (hsym : cfg.symCheck = true → (ops.checkSymmetryEasy s).1 = true)
    (hN : 0 < cfg.N) (hx : cfg.nev < cfg.nex) (ldh l0 : ℕ) :
    ∃ k c, out.be.2[k]? = some c ∧
      ∃ a ∈ Seq.touch (Seq.make cfg.N cfg.nev cfg.nex ldh) (cfg.nev + cfg.nex)
        (lockedAfter (out.be.2.take k) l0) c, ¬ a.Fits (Seq.make cfg.N cfg.nev cfg.nex ldh).sizes := by
  rcases path_init (C57_call_protocol hP ritzv0 resid0 s out h hsym) with h1 | ⟨b, h1⟩
  · simp at h1
  · obtain ⟨k, hk⟩ := List.mem_iff_getElem?.mp h1
    refine ⟨k, _, hk, ⟨.C2, 0, cfg.N, cfg.nex + cfg.nev, cfg.N⟩, ?_, ?_⟩
    · unfold Seq.touch
      exact List.mem_append_right _ (List.mem_cons_of_mem _ (List.mem_singleton.mpr rfl))
    · intro hf
      have := hf 0 hN (cfg.nex + cfg.nev - 1) (by show _ < cfg.nex + cfg.nev; omega)
      have h3 : 0 + 0 + (cfg.nex + cfg.nev - 1) * cfg.N < cfg.N * (cfg.nev + cfg.nev) := this
      have h4 : cfg.N * (cfg.nev + cfg.nev) ≤ cfg.N * (cfg.nex + cfg.nev - 1) :=
        Nat.mul_le_mul_left _ (by omega)
      rw [Nat.mul_comm (cfg.nex + cfg.nev - 1)] at h3
      omega

/-- **C42** is false of every backend when more Lanczos runs than columns are configured: the start vectors
are read, and the last Lanczos vectors written, behind the end of the user's block of vectors.  Stated for the
backend in place; the sequential and the distributed one copy the same columns. -/
theorem C42_lanczos_refuted (hP : PermutesIndices P)
    (h : solve P (traced ops) cfg ritzv0 resid0 (s, []) = .ok out)
    (hsym : cfg.symCheck = true → (ops.checkSymmetryEasy s).1 = true)
    (hN : 0 < cfg.N) (hap : Call.initVecs true ∈ out.be.2) (hl : cfg.nev + cfg.nex < cfg.numLanczos)
    (ldh l0 : ℕ) :
    ∃ k c, out.be.2[k]? = some c ∧
      ∃ a ∈ InPlace.touch (InPlace.make cfg.N cfg.nev cfg.nex ldh) .C .B (cfg.nev + cfg.nex)
        (lockedAfter (out.be.2.take k) l0) c, ¬ a.Fits (InPlace.make cfg.N cfg.nev cfg.nex ldh).sizes := by
  rcases path_lanczosN (C57_call_protocol hP ritzv0 resid0 s out h hsym) hap with h1 | ⟨m, h1⟩
  · simp at h1
  · obtain ⟨k, hk⟩ := List.mem_iff_getElem?.mp h1
    refine ⟨k, _, hk, vec .C 0 (cfg.N * cfg.numLanczos), ?_, ?_⟩
    · unfold InPlace.touch mLanczosVecs
      simp only [List.append_assoc, List.cons_append, List.mem_cons]
      exact .inl rfl
    · intro hf
      have h5 : cfg.N * (cfg.nev + cfg.nex) < cfg.N * cfg.numLanczos := Nat.mul_lt_mul_of_pos_left hl hN
      have := hf (cfg.N * (cfg.nev + cfg.nex)) h5 0 Nat.one_pos
      have h6 : 0 + cfg.N * (cfg.nev + cfg.nex) + 0 * _ < cfg.N * (cfg.nev + cfg.nex) := this
      omega

end

/-! ### The distributed backend -/

section
open Mpi (Dims Fitting PackFits)

variable {N : ℕ}

/-- The sizes and tables of process `(i, j)` of a grid with row layout `r` and column layout `c`. -/
def procDims (r c : Verif.Mpi.Layout N) (i : Fin r.procs) (j : Fin c.procs) (nev nex ldh : ℕ) (same : Bool)
    (cRuns bRuns : List Dist.Run) : Dims :=
  { N := N, m := r.size i, n := c.size j, nev := nev, nex := nex, ldh := ldh, same := same
    colRank := i, rowRank := j, cRuns := cRuns, bRuns := bRuns }

variable {r c : Verif.Mpi.Layout N} {i : Fin r.procs} {j : Fin c.procs} {nev nex ldh : ℕ} {same : Bool}
  {cRuns bRuns : List Dist.Run}

theorem procDims_fitting (hc : Verif.Mpi.RunsOk r c cRuns) (hb : Verif.Mpi.RunsOk c r bRuns)
    (hld : r.size i ≤ ldh) (hsq : same = true → j.val = i.val → r.size i = c.size j) :
    Fitting (procDims r c i j nev nex ldh same cRuns bRuns) where
  ldh := hld
  square := hsq
  cDest := by
    intro run hrun hd t ht
    obtain ⟨hs, hd', h1, h2, -⟩ := hc.valid run hrun t ht
    obtain ⟨j, hj⟩ := j
    obtain rfl : run.dest = j := hd
    exact h2
  cSrc := by
    intro run hrun hd t ht
    obtain ⟨hs, hd', h1, h2, -⟩ := hc.valid run hrun t ht
    obtain ⟨i, hi⟩ := i
    obtain rfl : run.src = i := hd
    exact h1
  bDest := by
    intro run hrun hd t ht
    obtain ⟨hs, hd', h1, h2, -⟩ := hb.valid run hrun t ht
    obtain ⟨i, hi⟩ := i
    obtain rfl : run.dest = i := hd
    exact h2
  bSrc := by
    intro run hrun hd t ht
    obtain ⟨hs, hd', h1, h2, -⟩ := hb.valid run hrun t ht
    obtain ⟨j, hj⟩ := j
    obtain rfl : run.src = j := hd
    exact h1

variable {P : Plat R} {ops : Chase R S} {cfg : Config R} {ritzv0 resid0 : ℕ → R} {s : S}
  {out : Outcome R (S × List (Call R))}

/-- **C42**, a process of the distributed backend: if the redistribution tables are right (C36), and the layouts
of rows and columns coincide or no process of its process column has more rows than it, then in every solve that
returns every call stays inside the arrays of the process.  Missing: processes with fewer rows than others when
the layouts differ, see `C42_mpi_overrun`. -/
theorem C42_mpi_partial (hP : PermutesIndices P)
    (h : solve P (traced ops) cfg ritzv0 resid0 (s, []) = .ok out)
    (hsym : cfg.symCheck = true → (ops.checkSymmetryEasy s).1 = true)
    (hn : 0 < cfg.nev + cfg.nex) (hl : cfg.numLanczos ≤ cfg.nev + cfg.nex)
    (hc : Verif.Mpi.RunsOk r c cRuns) (hb : Verif.Mpi.RunsOk c r bRuns) (hld : r.size i ≤ ldh)
    (hsq : same = true → j.val = i.val → r.size i = c.size j)
    (hrows : same = true ∨ ∀ i', r.size i' ≤ r.size i)
    (l0 k : ℕ) (call : Call R) (hk : out.be.2[k]? = some call) :
    ∀ a ∈ Mpi.touch (procDims r c i j cfg.nev cfg.nex ldh same cRuns bRuns)
      (lockedAfter (out.be.2.take k) l0) call,
      a.Fits (procDims r c i j cfg.nev cfg.nex ldh same cRuns bRuns).sizes := by
  refine Mpi.touch_fits (D := procDims r c i j cfg.nev cfg.nex ldh same cRuns bRuns)
    (procDims_fitting hc hb hld hsq) hl
    ((path_allowed hn l0 (C57_call_protocol hP ritzv0 resid0 s out h hsym)).2 k call hk) ?_
  intro hsame run hrun hd t ht
  rcases hrows with hr | hr
  · rw [show same = false from hsame] at hr; cases hr
  · obtain ⟨hs, hd', h1, h2, -⟩ := hc.valid run hrun t ht
    exact Nat.lt_of_lt_of_le h1 (hr ⟨run.src, hs⟩)

/-- No round has been completed, nor is one past its projection. -/
def NoRound : Phase R → Prop
  | .ready n _ | .shifted n _ _ | .mult n _ _ | .filtered n _ | .orthed n _ | .sorted n _ | .done n _ => n = 0
  | .projected _ _ | .measured _ _ => False
  | _ => True

/-- A solve of at least one round calls `RR`. -/
theorem path_rr {N nev nex nl : ℕ} {tr : List (Call R)} {q : Phase R} (h : Path N nev nex nl .fresh tr q) :
    (∃ k, Call.rr k ∈ tr) ∨ NoRound q := by
  have key : ∀ {q c q'}, Next N nev nex nl q c q' → (∃ k, c = (Call.rr k : Call R)) ∨ (NoRound q → NoRound q') := by
    intro q c q' h
    induction h with
    | skipDos _ ih =>
      rcases ih with ih | ih
      · exact .inl ih
      · exact .inr fun _ => ih rfl
    | _ => simp [NoRound]
  induction h with
  | nil => exact .inr trivial
  | snoc hp hnx ih =>
    rcases ih with ⟨k, ih⟩ | ih
    · exact .inl ⟨k, by simp [ih]⟩
    · rcases key hnx with ⟨k, rfl⟩ | h
      · exact .inl ⟨k, by simp⟩
      · exact .inr (h ih)

/-- **C42** is false of the distributed backend on a process with too few rows: if some run destined for its
process column ends, at its source, behind the number of rows this process has, then every solve of at least one
round reads behind the end of the block `C2` on this process. -/
theorem C42_mpi_overrun (hP : PermutesIndices P)
    (h : solve P (traced ops) cfg ritzv0 resid0 (s, []) = .ok out)
    (hsym : cfg.symCheck = true → (ops.checkSymmetryEasy s).1 = true)
    (hn : 0 < cfg.nev + cfg.nex) (hit : out.iterations ≠ 0)
    (D : Dims) (hD : D.nev = cfg.nev ∧ D.nex = cfg.nex) (hs : D.same = false) (run : Dist.Run)
    (hrun : run ∈ D.cRuns) (hd : run.dest = D.rowRank) (hlen : 0 < run.len)
    (hover : D.m < run.srcDisp + run.len) (l0 : ℕ) :
    ∃ k call, out.be.2[k]? = some call ∧ ∃ a ∈ Mpi.touch D (lockedAfter (out.be.2.take k) l0) call,
      ¬ a.Fits D.sizes := by
  have hpath := C57_call_protocol hP ritzv0 resid0 s out h hsym
  rcases path_rr hpath with ⟨b, hb⟩ | h1
  · obtain ⟨k, hk⟩ := List.mem_iff_getElem?.mp hb
    obtain ⟨hal, hL⟩ : lockedAfter (out.be.2.take k) l0 + b = cfg.nev + cfg.nex ∧
        lockedAfter (out.be.2.take k) l0 < cfg.nev := (path_allowed hn l0 hpath).2 k _ hk
    refine ⟨k, _, hk, ⟨.C2, run.srcDisp + lockedAfter (out.be.2.take k) l0 * D.m, run.len, b, D.m⟩, ?_, ?_⟩
    · unfold Mpi.touch Mpi.gather Mpi.gatherC2
      rw [hs]
      refine List.mem_append_left _ (List.mem_append_left _ ?_)
      exact List.mem_flatMap.mpr ⟨run, List.mem_filter.mpr ⟨hrun, by simp [hd]⟩, List.mem_cons_self ..⟩
    · intro hf
      have h2 := hf (run.len - 1) (by show _ < run.len; omega) (b - 1) (by show b - 1 < b; omega)
      generalize lockedAfter (out.be.2.take k) l0 = L at *
      have h3 : run.srcDisp + L * D.m + (run.len - 1) + (b - 1) * D.m < D.m * (D.nev + D.nex) := h2
      have h4 : D.m * (D.nev + D.nex) = L * D.m + (b - 1) * D.m + D.m := by
        rw [hD.1, hD.2, ← hal, ← Nat.add_mul, Nat.mul_comm, ← Nat.succ_mul]
        congr 1; omega
      omega
  · exact absurd h1 hit

/-- The situation of `C42_mpi_overrun` occurs: a matrix of dimension 3 on a grid of two process rows and one
process column, with blocks of 2 rows and of 3 columns.  The second process has one row, but packs a run of
length 2. -/
theorem C42_mpi_refuted : ∃ (L0 L1 : Dist.Local) (run : Dist.Run),
    Dist.cyclicLocal 3 2 0 0 2 = .ok L0 ∧ Dist.cyclicLocal 3 2 1 0 2 = .ok L1 ∧
    run ∈ Verif.Mpi.commRuns 3 2 2 0 3 1 0 (fun p => if p = 0 then L0.size else L1.size) ∧
    run.dest = 0 ∧ 0 < run.len ∧ L1.size < run.srcDisp + run.len ∧
    ¬ (2 = 1 ∧ 0 = 0 ∧ 2 = 3) := by
  refine ⟨_, _, ⟨0, 0, 2, 0, 0⟩, rfl, rfl, ?_, rfl, by decide, by decide, by decide⟩
  decide

end

/-! ### Non-vacuity -/

/-- A run that meets the conditions of `C42_seq_partial` and `C42_inplace`: two rounds, 28 calls. -/
example : Toy.okAnd (fun out => out.iterations == 2 && out.be.2.length == 28)
      (solve Toy.plat (traced (Toy.ops Toy.vals1 Toy.res1 true)) Toy.cfg1 (fun _ => 0) (fun _ => 0)
        (Toy.start, [])) = true ∧
    Toy.cfg1.nex ≤ Toy.cfg1.nev ∧ Toy.cfg1.numLanczos ≤ Toy.cfg1.nev + Toy.cfg1.nex ∧
    SortsIndices Toy.plat :=
  ⟨by rw [Toy.solve_eq_solveE]; decide +kernel, by decide, by decide, Toy.plat_sorts⟩

/-- A run with more extra columns than wanted ones (`C42_seq_refuted`). -/
example : Toy.okAnd (fun out => out.be.2.length != 0)
      (solve Toy.plat (traced (Toy.ops Toy.vals1 Toy.res1 true)) { Toy.cfg1 with nev := 1, nex := 2 }
        (fun _ => 0) (fun _ => 0) (Toy.start, [])) = true := by
  rw [Toy.solve_eq_solveE]; decide +kernel

/-- A run with more Lanczos runs than columns (`C42_lanczos_refuted`). -/
example : Toy.okAnd (fun out => out.be.2.contains (.initVecs true))
      (solve Toy.plat (traced (Toy.ops Toy.vals1 Toy.res1 true)) { Toy.cfg1 with numLanczos := 4 }
        (fun _ => 0) (fun _ => 0) (Toy.start, [])) = true := by
  rw [Toy.solve_eq_solveE]; decide +kernel

/-- Grids on which the conditions of `C42_mpi_partial` hold although the layouts differ: 4 rows on two process
rows, one process column. -/
example : ∃ (h1 : Verif.Mpi.CyclicOk 4 2 0 2) (h2 : Verif.Mpi.CyclicOk 4 4 0 1),
    ∀ i i', (Verif.Mpi.cyclicLayout h1).size i' ≤ (Verif.Mpi.cyclicLayout h1).size i := by
  have h1 : Verif.Mpi.CyclicOk 4 2 0 2 := ⟨by decide, by decide, by decide⟩
  have h2 : Verif.Mpi.CyclicOk 4 4 0 1 := ⟨by decide, by decide, by decide⟩
  refine ⟨h1, h2, ?_⟩
  intro i i'
  have e : ∀ q : Fin 2, (Verif.Mpi.cyclicLayout h1).size q = 2 := by
    intro q
    refine (h1.size q.2).trans ?_
    obtain ⟨q, hq⟩ := q
    have : q = 0 ∨ q = 1 := by omega
    rcases this with rfl | rfl <;> simp [Dist.rows, Dist.dist]
  rw [e i, e i']

end Bounds
end Verif
