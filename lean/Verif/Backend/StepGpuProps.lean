/-
C33, C34, C38 on the multi-GPU backend: products, shifts and residuals with the matrix and the columns on the
devices of a grid of processes, and copies of some of them on the hosts.
-/
import Verif.Backend.MgpuProps

namespace Verif.Mgpu

open Matrix

variable {K : Type*} [RCLike K] {N : ℕ} {r c : Mpi.Layout N} {E : GpuEnv K}

/-- Product from the row layout to the column layout (multi-GPU backend, either setup): on every process the
columns of the window become `alpha H^* C + beta B` in the buffer in use, all others stay; the matrix stays.
When staging, with `beta ≠ 0`, the target must have been uploaded: the routine does not do it. -/
theorem C33_mgpu_to_B {s : GFam K r c} {g : Mpi.GSt K N} (h : Mpi.Rep (view E s) g) (hn : g.next = .bAc)
    (α β : K) (offset block locked : ℕ) (hf : β = 0 ∨ (E.aware = false → ∀ i j k, locked + offset ≤ k →
      k < locked + offset + block → (s i j).dB k = (s i j).host.B k)) (i : Fin r.procs) (j : Fin c.procs) :
    let p := apply E α β offset block locked s i j
    (∀ k b, (if E.aware then p.dB else p.host.B) k b =
      if locked + offset ≤ k ∧ k < locked + offset + block then
        α * (∑ x, star (g.H x (c.glob j b)) * g.C k x) + β * g.B k (c.glob j b)
      else g.B k (c.glob j b)) ∧
    p.dH = (s i j).dH ∧ p.host.H = (s i j).host.H ∧ p.host.next = .cAb := by
  have hnx : ∀ i j, (s i j).host.next = .bAc := fun i j =>
    ((work_next E.aware (s i j)).symm.trans (h.next i j)).trans hn
  obtain ⟨v1, v2, v3, -⟩ := apply_view (E := E) (s := s) .bAc α β offset block locked hnx (by
    rcases hf with hf | hf
    · exact Or.inl hf
    · exact Or.inr ⟨fun _ h => (by cases h), fun ha _ i j k h1 h2 => hf ha i j k h1 h2⟩)
  obtain ⟨m1, -, -, -, -, m6⟩ := Mpi.C33_apply_to_B h hn α β offset block locked i j
  have hv : ∀ s : GFam K r c, (if E.aware then (s i j).dB else (s i j).host.B) = (view E s i j).B ∧
      (s i j).host.next = (view E s i j).next := by
    intro s
    unfold view
    cases E.aware <;> exact ⟨rfl, rfl⟩
  refine ⟨fun k b => ?_, v2 i j, v3 i j, ?_⟩
  · rw [(hv _).1, v1]
    exact m1 k b
  · rw [(hv _).2, v1]
    exact m6

/-- Product from the column layout to the row layout (multi-GPU backend, either setup): `alpha H B + beta C`. -/
theorem C33_mgpu_to_C {s : GFam K r c} {g : Mpi.GSt K N} (h : Mpi.Rep (view E s) g) (hn : g.next = .cAb)
    (α β : K) (offset block locked : ℕ) (hf : β = 0 ∨ (E.aware = false → ∀ i j k, locked + offset ≤ k →
      k < locked + offset + block → (s i j).dC k = (s i j).host.C k)) (i : Fin r.procs) (j : Fin c.procs) :
    let p := apply E α β offset block locked s i j
    (∀ k a, (if E.aware then p.dC else p.host.C) k a =
      if locked + offset ≤ k ∧ k < locked + offset + block then
        α * (∑ x, g.H (r.glob i a) x * g.B k x) + β * g.C k (r.glob i a)
      else g.C k (r.glob i a)) ∧
    p.dH = (s i j).dH ∧ p.host.H = (s i j).host.H ∧ p.host.next = .bAc := by
  have hnx : ∀ i j, (s i j).host.next = .cAb := fun i j =>
    ((work_next E.aware (s i j)).symm.trans (h.next i j)).trans hn
  obtain ⟨v1, v2, v3, -⟩ := apply_view (E := E) (s := s) .cAb α β offset block locked hnx (by
    rcases hf with hf | hf
    · exact Or.inl hf
    · exact Or.inr ⟨fun ha _ i j k h1 h2 => hf ha i j k h1 h2, fun _ h => (by cases h)⟩)
  obtain ⟨m1, -, -, -, -, m6⟩ := Mpi.C33_apply_to_C h hn α β offset block locked i j
  have hv : ∀ s : GFam K r c, (if E.aware then (s i j).dC else (s i j).host.C) = (view E s i j).C ∧
      (s i j).host.next = (view E s i j).next := by
    intro s
    unfold view
    cases E.aware <;> exact ⟨rfl, rfl⟩
  refine ⟨fun k b => ?_, v2 i j, v3 i j, ?_⟩
  · rw [(hv _).1, v1]
    exact m1 k b
  · rw [(hv _).2, v1]
    exact m6

/-- **C33**, why the condition: when staging, a product with `beta = 1` adds to what the device holds, not to
the vector in use on the host.  (A filter call never does this, its first product has `beta = 0`.) -/
theorem C33_mgpu_stale (hA : E.aware = false) (s : GFam K r c) (offset block locked : ℕ) (i : Fin r.procs)
    (j : Fin c.procs) (hn : (s i j).host.next = .bAc) (k : ℕ) (hk : locked + offset ≤ k)
    (hk' : k < locked + offset + block) :
    (apply E 0 1 offset block locked s i j).host.B k = ∑ i', if i'.val = 0 then (s i' j).dB k else 0 := by
  obtain ⟨mpi, aware, cd⟩ := E
  dsimp only at hA
  subst hA
  unfold apply
  rw [hn]
  show setBlk (locked + offset) (∑ i' : Fin r.procs, Mpi.gemmB 0 1 (locked + offset) block i'.val
    (GProc.upC (locked + offset) block (s i' j)).dev) _ k = _
  rw [setBlk_mem hk hk']
  funext b
  rw [Matrix.sum_apply, Finset.sum_apply]
  refine Finset.sum_congr rfl fun i' _ => ?_
  unfold Mpi.gemmB
  rw [zero_smul, zero_add, Matrix.smul_apply]
  have e : getBlk (locked + offset) block (GProc.upC (locked + offset) block (s i' j)).dev.B b
      ⟨k - (locked + offset), by omega⟩ = (s i' j).dB k b := by
    show (s i' j).dB (locked + offset + (k - (locked + offset))) b = _
    rw [show locked + offset + (k - (locked + offset)) = k by omega]
  rw [e]
  by_cases h0 : i'.val = 0
  · simp [h0]
  · simp [h0]

/-- Non-vacuity of `C33_mgpu_to_B`, `C34_mgpu` and `C38_mgpu_residuals`: a matrix on the devices of a 3 by 2 grid, with
staged copies, the columns also on the device. -/
example :
    let g : Mpi.GSt ℂ 7 := ⟨⟨exMat ℂ, fun k i => (k + i.val : ℕ), fun k i => (k + i.val : ℕ),
      fun k i => (k + i.val : ℕ), fun k i => (k + i.val : ℕ), .bAc, 1, true⟩, false⟩
    let s : GFam ℂ (Mpi.cyclicLayout Mpi.exRow) (Mpi.cyclicLayout Mpi.exCol) := fun i j =>
      { onHost ℂ _ _ g (fun k i => (k + i.val : ℕ)) false i j with dH := (Mpi.scatter _ _ g i j).H }
    Mpi.RunsOk (Mpi.cyclicLayout Mpi.exRow) (Mpi.cyclicLayout Mpi.exCol) (exGpu ℂ false).mpi.cRuns ∧
    Mpi.Rep (view (exGpu ℂ false) s) g ∧ g.next = .bAc ∧ g.H ≠ 0 ∧
    (∀ i j k, (s i j).dB k = (s i j).host.B k) ∧ ∀ i j k, (s i j).dC k = (s i j).host.C k := by
  intro g s
  refine ⟨(Mpi.exRuns ℂ).1, ⟨fun _ _ _ _ => rfl, fun _ _ _ _ => rfl, fun _ _ _ _ => rfl, fun _ _ _ _ => rfl,
    fun _ _ _ _ => rfl, fun _ _ => rfl, fun _ _ => rfl, fun _ _ => rfl, fun _ _ => rfl⟩, rfl, ?_,
    fun _ _ _ => rfl, fun _ _ _ => rfl⟩
  intro h
  have := congrFun (congrFun h 0) 1
  simp [g, exMat] at this

/-- **C34** (multi-GPU backend) A shift adds the number to the entries on the diagonal of the distributed matrix
on the devices and leaves the others alone, and the user's matrix on the hosts as it is. -/
theorem C34_mgpu (x : K) (s : GFam K r c) (i : Fin r.procs) (j : Fin c.procs) :
    (∀ a b, (shift x s i j).dH a b = (s i j).dH a b + if r.glob i a = c.glob j b then x else 0) ∧
    (shift x s i j).host.H = (s i j).host.H := by
  refine ⟨fun a b => ?_, rfl⟩
  show shiftDev (r.tab i) (c.tab j) x (s i j).dH a b = _
  rw [shiftDev_eq]
  exact Mpi.C34_shift x (fun i j => { (s i j).host with H := (s i j).dH }) i j a b

/-- **C38** (multi-GPU backend, either setup) The residuals every process gets are those of the matrix spread
over the devices, the columns in use and the values given; when staging, if the columns were uploaded, and with
device-aware communication, if the values on the device are those given. -/
theorem C38_mgpu_residuals (hE : Mpi.RunsOk r c E.mpi.cRuns) {s : GFam K r c} {g : Mpi.GSt K N}
    (h : Mpi.Rep (view E s) g) (ritzv : ℕ → ℝ) (fixednev : ℕ)
    (hf : E.aware = false → ∀ i j k, g.locked ≤ k → k < g.locked + (E.mpi.base.nevex - fixednev) →
      (s i j).dC k = (s i j).host.C k)
    (hr : E.aware = true → ∀ i j, ∀ t < E.mpi.base.nevex - fixednev, (s i j).dRitz t = ritzv t)
    (i : Fin r.procs) (j : Fin c.procs) (t : ℕ) (ht : t < E.mpi.base.nevex - fixednev) :
    ((opsAt E i j).resd ritzv fixednev s).1 t =
      Real.sqrt (∑ x, ‖(∑ y, star (g.H y x) * g.C (g.locked + t) y) -
        (ritzv t : K) * g.C2 (g.locked + t) x‖ ^ 2) := by
  have hlk : (fun i j => (s i j).host.locked) = fun (_ : Fin r.procs) (_ : Fin c.procs) => g.locked := by
    funext i j
    exact (work_locked E.aware (s i j)).symm.trans (h.locked i j)
  have hlk' : (fun i j => (view E s i j).locked) = fun (_ : Fin r.procs) (_ : Fin c.procs) => g.locked := by
    funext i j
    exact h.locked i j
  obtain ⟨v1, -⟩ := resd_view (E := E) (s := s) ritzv fixednev g.locked
    (fun ha i j k h1 h2 => hf ha i j k h1 h2) hr
  have := Mpi.C38_residuals (E := E.mpi) hE h ritzv fixednev i j t ht
  rw [hlk'] at this
  rw [← this, ← v1, ← hlk]
  rfl

end Verif.Mgpu
