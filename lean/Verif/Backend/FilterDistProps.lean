/-
C10, C13, C14 on the distributed CPU backend and on the multi-GPU backend: what a filter call computes when
the matrix and the columns are spread over a grid of processes, and, on the multi-GPU backend, over host and
device memory.
-/
import Verif.Backend.MgpuProps
import Verif.Backend.FilterProps

namespace Verif

open Matrix Polynomial

variable {K : Type*} [RCLike K] {N : ℕ} {r c : Mpi.Layout N}

/-- How a filter call scales an eigenvector of eigenvalue `μ`: by 1 if `μ = lambda_1`; by at most
`1/|T_d(t)| < 1` in absolute value if `μ` is in the damped interval; by more than that if `μ` is below it. -/
def Scales (lambda1 lower upper : ℝ) (d : ℕ) (μ r : ℝ) : Prop :=
  (μ = lambda1 → r = 1) ∧
  1 / |(Chebyshev.T ℝ d).eval (normPoint lambda1 lower upper)| < 1 ∧
  (lower ≤ μ → μ ≤ upper → |r| ≤ 1 / |(Chebyshev.T ℝ d).eval (normPoint lambda1 lower upper)|) ∧
  (μ < lower → 1 / |(Chebyshev.T ℝ d).eval (normPoint lambda1 lower upper)| < |r|)

/-- The filter polynomial scales so at every eigenvalue. -/
theorem filterPoly_scales {lambda1 lower upper : ℝ} {d : ℕ} (hd : d ≠ 0) (h1 : lambda1 < lower)
    (h2 : lower < upper) (μ : ℝ) :
    Scales lambda1 lower upper d μ ((filterPoly lambda1 lower upper d).eval μ) := by
  have hd0 : ((d : ℕ) : ℤ) ≠ 0 := by omega
  have hpt : 1 < |(Chebyshev.T ℝ d).eval (normPoint lambda1 lower upper)| := by
    apply Chebyshev.one_lt_abs_eval_T_real hd0
    have := normPoint_of_lt h2 h1
    rw [lt_abs]; right; linarith
  refine ⟨?_, ?_, fun hl hu => ?_, fun hl => ?_⟩
  · rintro rfl
    rw [filterPoly_eval]
    exact div_self (fun h => by rw [h] at hpt; norm_num at hpt)
  · rw [div_lt_one (by linarith)]; exact hpt
  · rw [filterPoly_eval, abs_div]
    gcongr
    apply Chebyshev.abs_eval_T_real_le_one
    unfold normPoint centre halfWidth
    rw [abs_le]
    constructor
    · rw [le_div_iff₀ (by linarith)]; linarith
    · rw [div_le_iff₀ (by linarith)]; linarith
  · rw [filterPoly_eval, abs_div]
    gcongr
    apply Chebyshev.one_lt_abs_eval_T_real hd0
    have := normPoint_of_lt h2 hl
    rw [lt_abs]; right; linarith

/-- **C14** (in-place CPU and single-GPU backend) For `lambda_1 < lower < upper`, a column that is an
eigenvector is scaled by 1, by at most `1/|T_d(t)| < 1`, or by more than that, as its eigenvalue is `lambda_1`,
in the damped interval, or below it. -/
theorem C14_inplace (E : Env K) (k : InPlace.Kind) (s : InPlace.St K N) {n nevex deg : ℕ}
    {degrees : ℕ → ℕ} (lambda1 lower upper : ℝ) (hn : n ≠ 0) (hd : GoodDegrees s.locked nevex deg degrees)
    (h1 : lambda1 < lower) (h2 : lower < upper) :
    ∃ av s', filter (InPlace.ops E k) n (nevex - s.locked) deg degrees nevex s.locked lambda1 lower upper s
        = .ok (av, s') ∧
      ∀ j, s.locked ≤ j → j < nevex → ∀ μ : ℝ, s.H.mulVec (s.V1 j) = (μ : K) • s.V1 j →
        ∃ ρ : ℝ, Scales lambda1 lower upper (degrees j) μ ρ ∧ s'.V1 j = (ρ : K) • s.V1 j := by
  obtain ⟨av, s', h, -, a, -⟩ := C11_inplace_filter E k s lambda1 lower upper hn hd
    (fun i _ => C10_outside lambda1 lower upper h2 (Or.inl h1.le) i)
  refine ⟨av, s', h, fun j hj1 hj2 μ hμ => ⟨_, filterPoly_scales ?_ h1 h2 μ, ?_⟩⟩
  · have := (hd.each j hj1 hj2).2.1
    omega
  · rw [a j hj1 hj2, aeval_mulVec_eigenvector s.H _ hμ]

/-- Non-vacuity: a column in the search space that is an eigenvector for an eigenvalue in `[1, 2]`. -/
example : ∃ s : InPlace.St ℂ 3, GoodDegrees s.locked 2 4 (fun _ => 4) ∧
    s.H.mulVec (s.V1 1) = (((3 / 2 : ℝ) : ℝ) : ℂ) • s.V1 1 ∧ s.V1 1 ≠ 0 := by
  refine ⟨⟨(((3 / 2 : ℝ) : ℝ) : ℂ) • 1, 1, fun _ _ => 1, fun _ _ => 1, fun _ => 0, false, fun _ => 0, 1, true⟩,
    ⟨by decide, fun _ _ _ _ _ => le_refl _, fun _ _ _ => ⟨by decide, by decide, le_refl _⟩, by decide⟩, ?_, ?_⟩
  · rw [Matrix.smul_mulVec, Matrix.one_mulVec]
  · intro h
    simpa using congrFun h 0

namespace Mpi

variable {E : MEnv K}

/-- A completed filter call of the global backend. -/
theorem gFilter_spec {G : GEnv K N} {g g' : GSt K N} (hH : g.H.IsHermitian) (hnext : g.next = .bAc)
    {n nevex deg av : ℕ} {degrees : ℕ → ℕ} {lambda1 lower upper : ℝ} (hn : n ≠ 0)
    (hd : GoodDegrees g.locked nevex deg degrees)
    (ht : ∀ i, i ≤ deg → (Chebyshev.T ℝ i).eval (normPoint lambda1 lower upper) ≠ 0)
    (h : filter (gOps G) n (nevex - g.locked) deg degrees nevex g.locked lambda1 lower upper g
      = .ok (av, g')) :
    g'.next = .bAc ∧
    (∀ k, g.locked ≤ k → k < nevex →
      g'.C k = (aeval g.H (filterPoly lambda1 lower upper (degrees k))).mulVec (g.C k)) ∧
    (∀ k, k < g.locked ∨ nevex ≤ k → g'.C k = g.C k) := by
  have h1 := gFilter hnext h
  obtain ⟨av', s', h2, a1, a2, a3⟩ := C10_filter_is_chebyshev G.base g.toSt hH hnext lambda1 lower upper hn
    hd ht
  have h3 := h1.symm.trans h2
  cases h3
  exact ⟨a1, a2, a3⟩

/-- **C10** (distributed CPU backend) A filter call on a Hermitian matrix spread over the processes
succeeds.  Afterwards every process holds, of every column `k` of the search space, its part of `p_d(H)` times
the former column, `d = degrees[k]`, in the buffer `C_` the next step reads; of the other columns what it held
before; and of the matrix its block, as before. -/
theorem C10_mpi (hc : RunsOk r c E.cRuns) (hb : RunsOk c r E.bRuns) (i0 : Fin r.procs) (j0 : Fin c.procs)
    {s : Fam K r c} {g : GSt K N} (hs : Rep s g) (hH : g.H.IsHermitian) (hnext : g.next = .bAc)
    {n nevex deg : ℕ} {degrees : ℕ → ℕ} (lambda1 lower upper : ℝ) (hn : n ≠ 0)
    (hd : GoodDegrees g.locked nevex deg degrees)
    (ht : ∀ i, i ≤ deg → (Chebyshev.T ℝ i).eval (normPoint lambda1 lower upper) ≠ 0) :
    ∃ av s', filter (opsAt E i0 j0) n (nevex - g.locked) deg degrees nevex g.locked lambda1 lower upper s
        = .ok (av, s') ∧ ∀ i j, (s' i j).next = .bAc ∧ (s' i j).H = (s i j).H ∧
      (∀ k, g.locked ≤ k → k < nevex → ∀ a, (s' i j).C k a =
        ((aeval g.H (filterPoly lambda1 lower upper (degrees k))).mulVec (g.C k)) (r.glob i a)) ∧
      (∀ k, k < g.locked ∨ nevex ≤ k → (s' i j).C k = (s i j).C k) := by
  obtain ⟨av, s', h⟩ := filter_succeeds (opsAt E i0 j0) lambda1 lower upper s hn hd
  refine ⟨av, s', h, fun i j => ?_⟩
  have hm := C13_mpi i0 j0 lambda1 lower upper s s' h i j
  have h2 := filter_sim (sim hc hb i0 j0) n (nevex - g.locked) deg degrees nevex g.locked lambda1 lower upper
    hs
  rw [h] at h2
  generalize hy : filter (gOps (E.glob r)) n _ _ _ _ _ _ _ _ g = y at h2
  cases h2 with
  | ok hh =>
    rename_i y
    obtain ⟨av', g'⟩ := y
    obtain ⟨-, hr⟩ := hh
    obtain ⟨b1, b2, b3⟩ := gFilter_spec hH hnext hn hd ht hy
    refine ⟨(hr.next i j).trans b1, hm, fun k h1 h2 a => ?_, fun k hk => ?_⟩
    · rw [hr.C, ← b2 k h1 h2]
    · funext a
      rw [hr.C, hs.C, b3 k hk]

/-- **C14** (distributed CPU backend) For `lambda_1 < lower < upper`, a column that is an eigenvector of the
distributed matrix is scaled by one factor on all processes: 1, at most `1/|T_d(t)| < 1`, or more than that, as
its eigenvalue is `lambda_1`, in the damped interval, or below it. -/
theorem C14_mpi (hc : RunsOk r c E.cRuns) (hb : RunsOk c r E.bRuns) (i0 : Fin r.procs) (j0 : Fin c.procs)
    {s : Fam K r c} {g : GSt K N} (hs : Rep s g) (hH : g.H.IsHermitian) (hnext : g.next = .bAc)
    {n nevex deg : ℕ} {degrees : ℕ → ℕ} (lambda1 lower upper : ℝ) (hn : n ≠ 0)
    (hd : GoodDegrees g.locked nevex deg degrees) (h1 : lambda1 < lower) (h2 : lower < upper) :
    ∃ av s', filter (opsAt E i0 j0) n (nevex - g.locked) deg degrees nevex g.locked lambda1 lower upper s
        = .ok (av, s') ∧
      ∀ k, g.locked ≤ k → k < nevex → ∀ μ : ℝ, g.H.mulVec (g.C k) = (μ : K) • g.C k →
        ∃ ρ : ℝ, Scales lambda1 lower upper (degrees k) μ ρ ∧
          ∀ i j, (s' i j).C k = (ρ : K) • (s i j).C k := by
  obtain ⟨av, s', h, hh⟩ := C10_mpi hc hb i0 j0 hs hH hnext lambda1 lower upper hn hd
    (fun i _ => C10_outside lambda1 lower upper h2 (Or.inl h1.le) i)
  refine ⟨av, s', h, fun k hk1 hk2 μ hμ => ⟨_, filterPoly_scales ?_ h1 h2 μ, fun i j => ?_⟩⟩
  · have := (hd.each k hk1 hk2).2.1
    omega
  funext a
  rw [(hh i j).2.2.1 k hk1 hk2 a]
  rw [aeval_mulVec_eigenvector g.H _ hμ, Pi.smul_apply, Pi.smul_apply, hs.C]

end Mpi

namespace Mgpu

variable {E : GpuEnv K}

/-- **C13** (multi-GPU backend, with either communication setup) A filter that completes leaves, on every
process, the block of the matrix on the device and the user's block on the host as they were; whatever the
degrees, the bounds and the data. -/
theorem C13_mgpu (i0 : Fin r.procs) (j0 : Fin c.procs) {n u deg : ℕ} {degrees : ℕ → ℕ}
    {dsize p0 av : ℕ} (lambda1 lower upper : ℝ) (s s' : GFam K r c)
    (h : filter (opsAt E i0 j0) n u deg degrees dsize p0 lambda1 lower upper s = .ok (av, s'))
    (i : Fin r.procs) (j : Fin c.procs) :
    (s' i j).dH = (s i j).dH ∧ (s' i j).host.H = (s i j).host.H := by
  have hd : ∀ (f : {m n : ℕ} → GProc K m n → GProc K m n) (s : GFam K r c) (i : Fin r.procs)
      (j : Fin c.procs), (∀ {m n : ℕ} (p : GProc K m n), (f p).dH = p.dH ∧ (f p).host.H = p.host.H) →
      (staged E f s i j).dH = (s i j).dH ∧ (staged E f s i j).host.H = (s i j).host.H := by
    intro f s i j hf
    unfold staged
    split_ifs
    · exact ⟨rfl, rfl⟩
    · exact hf _
  have key : ∀ (α β : K) (o b l : ℕ) (s : GFam K r c), (apply E α β o b l s i j).dH = (s i j).dH ∧
      (apply E α β o b l s i j).host.H = (s i j).host.H := by
    intro α β o b l s
    unfold apply
    cases (s i j).host.next
    · exact ⟨(put_dH _ _ _).trans (hd (GProc.upB (l + o) b) s i j fun p => ⟨rfl, rfl⟩).1,
        (put_hostH _ _ _).trans (hd (GProc.upB (l + o) b) s i j fun p => ⟨rfl, rfl⟩).2⟩
    · exact ⟨(put_dH _ _ _).trans (hd (GProc.upC (l + o) b) s i j fun p => ⟨rfl, rfl⟩).1,
        (put_hostH _ _ _).trans (hd (GProc.upC (l + o) b) s i j fun p => ⟨rfl, rfl⟩).2⟩
  constructor
  · refine Mpi.filter_restores (ops := opsAt E i0 j0) (fun s : GFam K r c => (s i j).dH)
      (fun (x : ℝ) H => Mpi.shiftLocal (r.tab i) (c.tab j) (x : K) H) ?_ ?_ ?_ h
    · intro x H
      rw [RCLike.ofReal_neg]
      exact shiftLocal_back i j _ _
    · intro x b s
      exact shiftDev_eq _ _ _ _
    · intro n x y o s
      exact (key _ _ _ _ _ s).1
  · exact Mpi.filter_restores (ops := opsAt E i0 j0) (fun s : GFam K r c => (s i j).host.H)
      (fun (_ : ℝ) H => H) (fun _ _ => rfl) (fun _ _ _ => rfl) (fun n x y o s => (key _ _ _ _ _ s).2) h

/-- A filter call of the multi-GPU backend is one of the global backend, on the data in the buffers that the
communication uses. -/
theorem filter_rel (i0 : Fin r.procs) (j0 : Fin c.procs) {s : GFam K r c} {g : Mpi.GSt K N} {l : ℕ}
    (hs : Inv E l s g) {n nevex deg : ℕ} {degrees : ℕ → ℕ} (lambda1 lower upper : ℝ) (hl : l ≤ nevex) :
    RelE (fun a b => a.1 = b.1 ∧ Inv E l a.2 b.2)
      (filter (opsAt E i0 j0) n (nevex - l) deg degrees nevex l lambda1 lower upper s)
      (filter (Mpi.gOps (E.mpi.glob r)) n (nevex - l) deg degrees nevex l lambda1 lower upper g) := by
  refine filter_nested (InFilter E l ((upper + lower) / 2))
    (fun a _ s g => InFilter E l ((upper + lower) / 2) s g ∧ Fresh E (l + a) nevex g.next s) (Inv E l)
    ?_ ?_ ?_ ?_ ?_
  · refine ⟨?_, fun i j => ?_, hs.locked⟩
    · show Mpi.Rep (view E (shift _ s)) _
      rw [shift_view]
      exact Mpi.shift_rep (E := E.mpi) hs.rep _ false
    · show shiftDev (r.tab i) (c.tab j) _ (s i j).dH = _
      rw [shiftDev_eq, hs.mat i j, RCLike.ofReal_neg]
      rfl
  · intro y s g h
    obtain ⟨h1, h2⟩ := hemm_step h i0 j0 (nevex - l) y 0 0 (Or.inl rfl)
    rw [show l + 0 + (nevex - l) = nevex by omega] at h2
    exact ⟨h1, h2⟩
  · intro a m y z s g ha h
    obtain ⟨h1, h2⟩ := hemm_step h.1 i0 j0 (nevex - l - a) y z a (Or.inr (by
      rw [show l + a + (nevex - l - a) = nevex by omega]
      exact h.2))
    rw [show l + a + (nevex - l - a) = nevex by omega] at h2
    exact ⟨h1, h2⟩
  · intro a b m s g hab _ h
    exact ⟨h.1, fun ha hn i j => (h.2.C ha hn i j).mono (by omega) le_rfl,
      fun ha hn i j => (h.2.B ha hn i j).mono (by omega) le_rfl⟩
  · intro a m s g _ _ h
    refine ⟨?_, fun i j => ?_, h.1.locked⟩
    · show Mpi.Rep (view E (shift _ s)) _
      rw [shift_view]
      exact Mpi.shift_rep (E := E.mpi) h.1.rep _ true
    · show shiftDev (r.tab i) (c.tab j) _ (s i j).dH = (s i j).host.H
      rw [shiftDev_eq, h.1.mat i j]
      exact shiftLocal_back i j _ _

/-- **C10** (multi-GPU backend, with either communication setup) A filter call on a Hermitian matrix spread
over the devices succeeds.  Afterwards every process holds, of every column `k` of the search space, its part
of `p_d(H)` times the former column, `d = degrees[k]`, in the buffer the next step reads, on the device with
device-aware communication and on the host without; of the other columns what it held before; and of the
matrix its block, on device and host. -/
theorem C10_mgpu (i0 : Fin r.procs) (j0 : Fin c.procs) {s : GFam K r c} {g : Mpi.GSt K N}
    (hs : Mpi.Rep (view E s) g) (hdev : ∀ i j, (s i j).dH = (s i j).host.H) (hH : g.H.IsHermitian)
    (hnext : g.next = .bAc) {n nevex deg : ℕ} {degrees : ℕ → ℕ} (lambda1 lower upper : ℝ) (hn : n ≠ 0)
    (hd : GoodDegrees g.locked nevex deg degrees)
    (ht : ∀ i, i ≤ deg → (Chebyshev.T ℝ i).eval (normPoint lambda1 lower upper) ≠ 0) :
    ∃ av s', filter (opsAt E i0 j0) n (nevex - g.locked) deg degrees nevex g.locked lambda1 lower upper s
        = .ok (av, s') ∧ ∀ i j, (s' i j).host.next = .bAc ∧ (s' i j).dH = (s i j).dH ∧
      (s' i j).host.H = (s i j).host.H ∧
      (∀ k, g.locked ≤ k → k < nevex → ∀ a, (if E.aware then (s' i j).dC else (s' i j).host.C) k a =
        ((aeval g.H (filterPoly lambda1 lower upper (degrees k))).mulVec (g.C k)) (r.glob i a)) ∧
      (∀ k, k < g.locked ∨ nevex ≤ k → (if E.aware then (s' i j).dC else (s' i j).host.C) k =
        (if E.aware then (s i j).dC else (s i j).host.C) k) := by
  obtain ⟨av, s', h⟩ := filter_succeeds (opsAt E i0 j0) lambda1 lower upper s hn hd
  refine ⟨av, s', h, fun i j => ?_⟩
  have hm := C13_mgpu i0 j0 lambda1 lower upper s s' h i j
  have hv : ∀ s : GFam K r c, (if E.aware then (s i j).dC else (s i j).host.C) = (view E s i j).C := by
    intro s
    unfold view
    cases E.aware <;> rfl
  have h2 := filter_rel (n := n) (deg := deg) (degrees := degrees) i0 j0 (Inv.mk hs hdev rfl) lambda1 lower
    upper hd.some.le
  rw [h] at h2
  generalize hy : filter (Mpi.gOps (E.mpi.glob r)) n _ _ _ _ _ _ _ _ g = y at h2
  cases h2 with
  | ok hh =>
    rename_i y
    obtain ⟨av', g'⟩ := y
    obtain ⟨-, hr⟩ := hh
    obtain ⟨b1, b2, b3⟩ := Mpi.gFilter_spec hH hnext hn hd ht hy
    refine ⟨((work_next E.aware (s' i j)).symm.trans (hr.rep.next i j)).trans b1, hm.1, hm.2,
      fun k h1 h2 a => ?_, fun k hk => ?_⟩
    · rw [hv, hr.rep.C, ← b2 k h1 h2]
    · funext a
      rw [hv, hv, hr.rep.C, hs.C, b3 k hk]

/-- **C14** (multi-GPU backend, with either communication setup) For `lambda_1 < lower < upper`, a column that
is an eigenvector of the distributed matrix is scaled by one factor on all processes: 1, at most
`1/|T_d(t)| < 1`, or more than that, as its eigenvalue is `lambda_1`, in the damped interval, or below it. -/
theorem C14_mgpu (i0 : Fin r.procs) (j0 : Fin c.procs) {s : GFam K r c} {g : Mpi.GSt K N}
    (hs : Mpi.Rep (view E s) g) (hdev : ∀ i j, (s i j).dH = (s i j).host.H) (hH : g.H.IsHermitian)
    (hnext : g.next = .bAc) {n nevex deg : ℕ} {degrees : ℕ → ℕ} (lambda1 lower upper : ℝ) (hn : n ≠ 0)
    (hd : GoodDegrees g.locked nevex deg degrees) (h1 : lambda1 < lower) (h2 : lower < upper) :
    ∃ av s', filter (opsAt E i0 j0) n (nevex - g.locked) deg degrees nevex g.locked lambda1 lower upper s
        = .ok (av, s') ∧
      ∀ k, g.locked ≤ k → k < nevex → ∀ μ : ℝ, g.H.mulVec (g.C k) = (μ : K) • g.C k →
        ∃ ρ : ℝ, Scales lambda1 lower upper (degrees k) μ ρ ∧
          ∀ i j, (if E.aware then (s' i j).dC else (s' i j).host.C) k =
            (ρ : K) • (if E.aware then (s i j).dC else (s i j).host.C) k := by
  obtain ⟨av, s', h, hh⟩ := C10_mgpu i0 j0 hs hdev hH hnext lambda1 lower upper hn hd
    (fun i _ => C10_outside lambda1 lower upper h2 (Or.inl h1.le) i)
  refine ⟨av, s', h, fun k hk1 hk2 μ hμ => ⟨_, filterPoly_scales ?_ h1 h2 μ, fun i j => ?_⟩⟩
  · have := (hd.each k hk1 hk2).2.1
    omega
  have hv : (if E.aware then (s i j).dC else (s i j).host.C) = (view E s i j).C := by
    unfold view
    cases E.aware <;> rfl
  funext a
  rw [(hh i j).2.2.2.1 k hk1 hk2 a]
  rw [aeval_mulVec_eigenvector g.H _ hμ, Pi.smul_apply, Pi.smul_apply, hv, hs.C]

end Mgpu

/-! ### Non-vacuity -/

/-- The 7 by 7 example matrix, unit vectors as columns, one of them locked. -/
noncomputable def exFilt (K : Type*) [RCLike K] : Mpi.GSt K 7 :=
  ⟨⟨exMat K, fun k i => if i.val = k then 1 else 0, fun _ _ => 1, fun _ _ => 0, fun _ _ => 0, .bAc, 1, true⟩,
    false⟩

theorem exFilt_degrees : GoodDegrees 1 4 6 (fun i => if i = 1 then 2 else if i = 3 then 6 else 4) := by
  refine ⟨by omega, ?_, ?_, by decide⟩
  · intro a b h1 h2 h3
    dsimp only
    split_ifs <;> omega
  · intro j h1 h2
    split_ifs
    · exact ⟨by decide, by omega, by omega⟩
    · exact ⟨by decide, by omega, by omega⟩
    · exact ⟨by decide, by omega, by omega⟩

/-- The hypotheses of `C10_mpi` and `C14_mpi` hold for a 3 by 2 grid of processes and a 7 by 7 matrix, with
degrees 2, 4, 6. -/
example : Mpi.RunsOk (Mpi.cyclicLayout Mpi.exRow) (Mpi.cyclicLayout Mpi.exCol) (Mpi.exMEnv ℂ).cRuns ∧
    Mpi.RunsOk (Mpi.cyclicLayout Mpi.exCol) (Mpi.cyclicLayout Mpi.exRow) (Mpi.exMEnv ℂ).bRuns ∧
    Mpi.Rep (Mpi.scatter (Mpi.cyclicLayout Mpi.exRow) (Mpi.cyclicLayout Mpi.exCol) (exFilt ℂ)) (exFilt ℂ) ∧
    (exFilt ℂ).H.IsHermitian ∧ (exFilt ℂ).next = .bAc ∧
    GoodDegrees (exFilt ℂ).locked 4 6 (fun i => if i = 1 then 2 else if i = 3 then 6 else 4) ∧
    (∀ i : ℕ, i ≤ 6 → (Chebyshev.T ℝ i).eval (normPoint (-1) 1 2) ≠ 0) :=
  ⟨(Mpi.exRuns ℂ).1, (Mpi.exRuns ℂ).2, Mpi.scatter_rep _ _ _, exMat_hermitian, rfl, exFilt_degrees,
    fun i _ => C10_outside (-1) 1 2 (by norm_num) (Or.inl (by norm_num)) i⟩

/-- The hypotheses of `C10_mgpu` and `C14_mgpu` hold for the same data on a 3 by 2 grid of devices, with either
communication setup; the buffers on the other side hold other vectors. -/
example (aware : Bool) :
    let s : Mgpu.GFam ℂ (Mpi.cyclicLayout Mpi.exRow) (Mpi.cyclicLayout Mpi.exCol) := fun i j =>
      { Mgpu.onHost ℂ _ _ (exFilt ℂ) (fun _ _ => 5) true i j with
        host := { Mpi.scatter _ _ (exFilt ℂ) i j with
          C := if aware then fun _ _ => 5 else (Mpi.scatter _ _ (exFilt ℂ) i j).C }
        dH := (Mpi.scatter _ _ (exFilt ℂ) i j).H
        dC := if aware then (Mpi.scatter _ _ (exFilt ℂ) i j).C else fun _ _ => 5 }
    ∃ g, Mpi.Rep (Mgpu.view (Mgpu.exGpu ℂ aware) s) g ∧ (∀ i j, (s i j).dH = (s i j).host.H) ∧
      g.H.IsHermitian ∧ g.next = .bAc ∧ g.C = (exFilt ℂ).C ∧
      GoodDegrees g.locked 4 6 (fun i => if i = 1 then 2 else if i = 3 then 6 else 4) := by
  intro s
  cases aware
  · exact ⟨exFilt ℂ, ⟨fun _ _ _ _ => rfl, fun _ _ _ _ => rfl, fun _ _ _ _ => rfl, fun _ _ _ _ => rfl,
      fun _ _ _ _ => rfl, fun _ _ => rfl, fun _ _ => rfl, fun _ _ => rfl, fun _ _ => rfl⟩, fun _ _ => rfl,
      exMat_hermitian, rfl, rfl, exFilt_degrees⟩
  · refine ⟨⟨⟨exMat ℂ, (exFilt ℂ).C, fun _ _ => 5, fun _ _ => 5, fun _ _ => 5, .bAc, 1, true⟩, false⟩,
      ⟨fun _ _ _ _ => rfl, fun _ _ _ _ => rfl, fun _ _ _ _ => rfl, fun _ _ _ _ => rfl, fun _ _ _ _ => rfl,
        fun _ _ => rfl, fun _ _ => rfl, fun _ _ => rfl, fun _ _ => rfl⟩, fun _ _ => rfl, exMat_hermitian, rfl,
      rfl, exFilt_degrees⟩

end Verif
