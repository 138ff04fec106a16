/-
The multi-GPU backend against the distributed CPU backend: the copies between host and device bring the
right columns to the right place before they are used.
-/
import Verif.Backend.Mgpu
import Verif.Backend.MpiSolve
import Verif.Solver.SimPhase
import Verif.Solver.Watch

namespace Verif
namespace Mgpu

open Matrix
open Seq (NextOp)
open Mpi (Layout Proc MEnv Fam)

variable {K : Type*} [RCLike K] {N : ℕ} {r c : Layout N}

/-! ### Columns -/

/-- Equal columns in `[a, b)`. -/
def EqOn {m : ℕ} (a b : ℕ) (X Y : ℕ → Fin m → K) : Prop := ∀ k, a ≤ k → k < b → X k = Y k

section Cols
variable {m : ℕ} {X Y Z : ℕ → Fin m → K} {a b off n : ℕ}

omit [RCLike K] in
theorem copyCols_of_mem {k : ℕ} (h : off ≤ k ∧ k < off + n) : copyCols off n X Y k = X k := by
  unfold copyCols writeAt
  rw [if_pos h]
  dsimp only
  rw [show off + (k - off) = k by omega]

omit [RCLike K] in
theorem copyCols_of_not_mem {k : ℕ} (h : ¬ (off ≤ k ∧ k < off + n)) : copyCols off n X Y k = Y k := by
  unfold copyCols writeAt
  rw [if_neg h]

omit [RCLike K] in
theorem copyCols_eqOn (h1 : off ≤ a) (h2 : b ≤ off + n) : EqOn a b (copyCols off n X Y) X :=
  fun _ ha hb => copyCols_of_mem ⟨by omega, by omega⟩

omit [RCLike K] in
theorem EqOn.refl : EqOn a b X X := fun _ _ _ => rfl

omit [RCLike K] in
theorem EqOn.symm (h : EqOn a b X Y) : EqOn a b Y X := fun k h1 h2 => (h k h1 h2).symm

omit [RCLike K] in
theorem EqOn.mono {a' b' : ℕ} (h : EqOn a b X Y) (h1 : a ≤ a') (h2 : b' ≤ b) : EqOn a' b' X Y :=
  fun k hk1 hk2 => h k (by omega) (by omega)

omit [RCLike K] in
theorem getBlk_congr (h : EqOn a b X Y) (h1 : a ≤ off) (h2 : off + n ≤ b) :
    getBlk off n X = getBlk off n Y := by
  funext x y
  exact congrFun (h (off + y) (by omega) (by have := y.2; omega)) x

omit [RCLike K] in
theorem copyCols_same (h : EqOn off (off + n) X Y) : copyCols off n X Y = Y := by
  funext k
  by_cases hk : off ≤ k ∧ k < off + n
  · rw [copyCols_of_mem hk, h k hk.1 hk.2]
  · rw [copyCols_of_not_mem hk]

omit [RCLike K] in
theorem setBlk_eqOn {M : Matrix (Fin m) (Fin n) K} (h : off ≤ a) (h2 : b ≤ off + n) :
    EqOn a b (setBlk off M X) (setBlk off M Y) := fun k h1 h3 => by
  unfold setBlk
  rw [dif_pos ⟨by omega, by omega⟩, dif_pos ⟨by omega, by omega⟩]

omit [RCLike K] in
theorem copyCols_setBlk {M : Matrix (Fin m) (Fin n) K} :
    copyCols off n (setBlk off M X) Y = setBlk off M Y := by
  funext k
  by_cases hk : off ≤ k ∧ k < off + n
  · rw [copyCols_of_mem hk, setBlk_eqOn (b := off + n) le_rfl le_rfl k hk.1 hk.2]
  · rw [copyCols_of_not_mem hk]
    unfold setBlk
    rw [dif_neg hk]

/-- `trsm` computes with the columns of the block only. -/
theorem trsm_congr (A : Matrix (Fin n) (Fin n) K) (h : EqOn 0 n X Y) :
    EqOn 0 n (trsm A X) (trsm A Y) := by
  unfold trsm
  refine forRange_rel (fun X Y => EqOn 0 n X Y) _ _ ?_ h
  intro j X Y _ hj h k _ hk
  by_cases hkj : k = j
  · subst hkj
    rw [Function.update_self, Function.update_self, h k (Nat.zero_le _) hk]
    congr 2
    refine Finset.sum_congr rfl fun t ht => ?_
    rw [h t (Nat.zero_le _) (by have := Finset.mem_range.1 ht; omega)]
  · rw [Function.update_of_ne hkj, Function.update_of_ne hkj]
    exact h k (Nat.zero_le _) hk

theorem trsm_above (A : Matrix (Fin n) (Fin n) K) {k : ℕ} (hk : n ≤ k) : trsm A X k = X k := by
  unfold trsm
  refine forRange_pres _ (fun Y : ℕ → Fin m → K => Y k = X k) rfl ?_
  intro j Y _ hj h
  rw [Function.update_of_ne (by omega)]
  exact h

end Cols

/-! ### The shift -/

theorem forRange_eq_foldl {S : Type*} (n : ℕ) (f : ℕ → S → S) (s : S) :
    forRange 0 n f s = (List.range n).foldl (fun s i => f i s) s := by
  induction n with
  | zero => simp [forRange_self]
  | succ n ih => rw [forRange_succ (Nat.zero_le _), ih, List.range_succ, List.foldl_append]; rfl

theorem diagOffsets_foldl {S : Type*} (R Cl : Dist.Local) (g : S → ℕ × ℕ → S) (s : S) :
    (Gpu.diagOffsets R Cl).foldl g s =
      forRange 0 Cl.blocks (fun j s => forRange 0 R.blocks (fun i s => forRange 0 (Cl.lens j) (fun q s =>
        forRange 0 (R.lens i) (fun p s => if q + Cl.offs j = p + R.offs i then
          g s (p + R.offsL i, q + Cl.offsL j) else s) s) s) s) s := by
  unfold Gpu.diagOffsets
  rw [List.foldl_flatMap, forRange_eq_foldl]
  congr 1
  funext s bj
  rw [List.foldl_flatMap, forRange_eq_foldl]
  congr 1
  funext s bi
  rw [List.foldl_flatMap, forRange_eq_foldl]
  congr 1
  funext s q
  rw [List.foldl_filterMap, forRange_eq_foldl]
  congr 1
  funext s p
  by_cases h : q + Cl.offs bj = p + R.offs bi
  · simp only [h, if_true]
  · simp only [h, if_false]

/-- The kernel over the listed entries does what the nested loops of the CPU backend do. -/
theorem shiftDev_eq (R Cl : Dist.Local) (x : K) (H : Matrix (Fin R.size) (Fin Cl.size) K) :
    shiftDev R Cl x H = Mpi.shiftLocal R Cl x H :=
  diagOffsets_foldl R Cl _ H

theorem shiftLocal_back (i : Fin r.procs) (j : Fin c.procs) (x : K)
    (H : Matrix (Fin (r.size i)) (Fin (c.size j)) K) :
    Mpi.shiftLocal (r.tab i) (c.tab j) x (Mpi.shiftLocal (r.tab i) (c.tab j) (-x) H) = H := by
  funext a b
  rw [Mpi.shiftLocal_eq, Mpi.shiftLocal_eq]
  split_ifs <;> simp

/-! ### Cholesky QR -/

/-- A routine on the vectors of a process column that uses and changes their first `n` columns only. -/
structure Local (n : ℕ) (f : Cols K r → ℤ × Cols K r) : Prop where
  info : ∀ C C', (∀ i, EqOn 0 n (C i) (C' i)) → (f C).1 = (f C').1
  cols : ∀ C C', (∀ i, EqOn 0 n (C i) (C' i)) → ∀ i, EqOn 0 n ((f C).2 i) ((f C').2 i)
  above : ∀ C i k, n ≤ k → (f C).2 i k = C i k

variable (E : GpuEnv K)

theorem gram_congr {n : ℕ} {C C' : Cols K r} (h : ∀ i, EqOn 0 n (C i) (C' i)) :
    ∑ i', syherk (getBlk 0 n (C i')) = ∑ i', syherk (getBlk 0 n (C' i')) :=
  Finset.sum_congr rfl fun i _ => by rw [getBlk_congr (h i) le_rfl (by omega)]

theorem cholQR1_local (n : ℕ) : Local n (Mpi.cholQR1 (r := r) E.mpi n) := by
  constructor
  · intro C C' h
    unfold Mpi.cholQR1
    rw [gram_congr h]
    dsimp only
    split_ifs <;> rfl
  · intro C C' h i
    unfold Mpi.cholQR1
    rw [gram_congr h]
    dsimp only
    split_ifs
    · exact h i
    · exact trsm_congr _ (h i)
  · intro C i k hk
    unfold Mpi.cholQR1
    dsimp only
    split_ifs
    · rfl
    · exact trsm_above _ hk

theorem cholQR2_local (n : ℕ) : Local n (cholQR2 (r := r) E n) := by
  constructor
  · intro C C' h
    unfold cholQR2
    rw [gram_congr h]
    dsimp only
    split_ifs <;> rfl
  · intro C C' h i
    unfold cholQR2
    rw [gram_congr h]
    dsimp only
    split_ifs
    · exact h i
    · rw [gram_congr (C := fun i => trsm _ (C i)) (C' := fun i => trsm _ (C' i)) fun i => trsm_congr _ (h i)]
      exact trsm_congr _ (trsm_congr _ (h i))
  · intro C i k hk
    unfold cholQR2
    dsimp only
    split_ifs
    · rfl
    · exact (trsm_above _ hk).trans (trsm_above _ hk)

theorem shiftedcholQR2_local (n : ℕ) : Local n (Mpi.shiftedcholQR2 (r := r) E.mpi n) := by
  constructor
  · intro C C' h
    unfold Mpi.shiftedcholQR2
    rw [gram_congr h]
    dsimp only
    rw [gram_congr (C := fun i => trsm _ (C i)) (C' := fun i => trsm _ (C' i)) fun i => trsm_congr _ (h i)]
    split_ifs <;> rfl
  · intro C C' h i
    unfold Mpi.shiftedcholQR2
    rw [gram_congr h]
    dsimp only
    rw [gram_congr (C := fun i => trsm _ (C i)) (C' := fun i => trsm _ (C' i)) fun i => trsm_congr _ (h i)]
    split_ifs with h1 h2
    · exact h i
    · exact trsm_congr _ (h i)
    · rw [gram_congr (C := fun i => trsm _ (trsm _ (C i))) (C' := fun i => trsm _ (trsm _ (C' i)))
        fun i => trsm_congr _ (trsm_congr _ (h i))]
      exact trsm_congr _ (trsm_congr _ (trsm_congr _ (h i)))
  · intro C i k hk
    unfold Mpi.shiftedcholQR2
    dsimp only
    split_ifs
    · rfl
    · exact trsm_above _ hk
    · exact (trsm_above _ hk).trans ((trsm_above _ hk).trans (trsm_above _ hk))


/-! ### The buffers in use -/

/-- The buffers in use, with the matrix on the device. -/
def view (s : GFam K r c) : Fam K r c := fun i j => (s i j).work E.aware

/-- The buffers in use, with the matrix in host memory. -/
def pview (s : GFam K r c) : Fam K r c := fun i j => { (s i j).work E.aware with H := (s i j).host.H }

section
variable {m n : ℕ} (a : Bool) (p : GProc K m n) (q : Proc K m n)

theorem work_put : (p.put a q).work a = { q with H := p.dH } := by cases a <;> rfl
theorem put_hostH : (p.put a q).host.H = p.host.H := by cases a <;> rfl
theorem put_dH : (p.put a q).dH = p.dH := by cases a <;> rfl
theorem put_hh : (p.put a q).hh = p.hh := by cases a <;> rfl
theorem put_dRitz : (p.put a q).dRitz = p.dRitz := by cases a <;> rfl
theorem work_next : (p.work a).next = p.host.next := by cases a <;> rfl
theorem work_locked : (p.work a).locked = p.host.locked := by cases a <;> rfl
theorem work_fresh : (p.work a).fresh = p.host.fresh := by cases a <;> rfl
theorem work_H : (p.work a).H = p.dH := by cases a <;> rfl
end

/-- A piece that leaves the matrix alone does on the buffers in use what it does. -/
theorem view_lift (f : Fam K r c → Fam K r c) (hf : ∀ s i j, (f s i j).H = (s i j).H)
    (s : GFam K r c) : view E (lift E f s) = f (view E s) := by
  funext i j
  show ((s i j).put _ _).work _ = _
  rw [work_put]
  have : (f (view E s) i j).H = (s i j).dH := (hf _ i j).trans (work_H _ _)
  rw [← this]
  rfl

theorem gemmB_congr {m n : ℕ} {p q : Proc K m n} (α β : K) (off block rank : ℕ) (hH : p.H = q.H)
    (hC : getBlk off block p.C = getBlk off block q.C)
    (hB : β = 0 ∨ getBlk off block p.B = getBlk off block q.B) :
    Mpi.gemmB α β off block rank p = Mpi.gemmB α β off block rank q := by
  unfold Mpi.gemmB
  rw [hH, hC]
  rcases hB with h | h
  · rw [h, ite_self, zero_smul, zero_smul]
  · rw [h]

theorem gemmC_congr {m n : ℕ} {p q : Proc K m n} (α β : K) (off block rank : ℕ) (hH : p.H = q.H)
    (hB : getBlk off block p.B = getBlk off block q.B)
    (hC : β = 0 ∨ getBlk off block p.C = getBlk off block q.C) :
    Mpi.gemmC α β off block rank p = Mpi.gemmC α β off block rank q := by
  unfold Mpi.gemmC
  rw [hH, hB]
  rcases hC with h | h
  · rw [h, ite_self, zero_smul, zero_smul]
  · rw [h]

section
variable {m n o b : ℕ}
omit [RCLike K] in
theorem setBlk_setBlk {M M' : Matrix (Fin m) (Fin b) K} {X : ℕ → Fin m → K} :
    setBlk o M (setBlk o M' X) = setBlk o M X := by
  funext k
  unfold setBlk
  split_ifs <;> rfl
end

variable {E} {s : GFam K r c} {g : Mpi.GSt K N}

/-! ### Products -/

/-- The device copies that a product with `beta` reads. -/
structure Fresh (E : GpuEnv K) (lo hi : ℕ) (next : NextOp) (s : GFam K r c) : Prop where
  C : E.aware = false → next = .cAb → ∀ i j, EqOn lo hi (s i j).dC (s i j).host.C
  B : E.aware = false → next = .bAc → ∀ i j, EqOn lo hi (s i j).dB (s i j).host.B

theorem apply_bAc (α β : K) (off block lk : ℕ) (hn : ∀ i j, (s i j).host.next = .bAc)
    (h : β = 0 ∨ Fresh E (lk + off) (lk + off + block) .bAc s) :
    view E (apply E α β off block lk s) = Mpi.apply α β off block lk (view E s) ∧
    (∀ i j, (apply E α β off block lk s i j).dH = (s i j).dH) ∧
    (∀ i j, (apply E α β off block lk s i j).host.H = (s i j).host.H) ∧
    Fresh E (lk + off) (lk + off + block) .cAb (apply E α β off block lk s) := by
  obtain ⟨mpi, aware, cd⟩ := E
  cases aware
  · have hX : ∀ (i' : Fin r.procs) j, Mpi.gemmB α β (lk + off) block i' (GProc.upC (lk + off) block (s i' j)).dev =
        Mpi.gemmB α β (lk + off) block i' ((s i' j).work false) := by
      intro i' j
      refine gemmB_congr _ _ _ _ _ rfl (getBlk_congr (copyCols_eqOn le_rfl le_rfl) le_rfl le_rfl) ?_
      rcases h with h | h
      · exact Or.inl h
      · exact Or.inr (getBlk_congr (h.B rfl rfl i' j) le_rfl le_rfl)
    have key : ∀ i j, apply (⟨mpi, false, cd⟩ : GpuEnv K) α β off block lk s i j =
        { GProc.upC (lk + off) block (s i j) with
          dB := setBlk (lk + off) (Mpi.gemmB α β (lk + off) block i ((s i j).work false)) (s i j).dB
          host := { (s i j).host with
            B := setBlk (lk + off) (∑ i' : Fin r.procs, Mpi.gemmB α β (lk + off) block i'
              ((s i' j).work false)) (s i j).host.B
            next := .cAb } } := by
      intro i j
      unfold apply
      simp only [hn i j]
      simp only [← hX]
      rfl
    refine ⟨?_, fun i j => ?_, fun i j => ?_, fun _ _ i j => ?_, fun _ hc => by cases hc⟩
    · funext i j
      have e : (view (⟨mpi, false, cd⟩ : GpuEnv K) s i j).next = .bAc := hn i j
      unfold Mpi.apply
      simp only [e]
      show (apply _ α β off block lk s i j).work false = _
      rw [key]
      rfl
    · rw [key]; rfl
    · rw [key]
    · rw [key]; exact copyCols_eqOn le_rfl le_rfl
  · have key : ∀ i j, apply (⟨mpi, true, cd⟩ : GpuEnv K) α β off block lk s i j =
        { s i j with
          dB := setBlk (lk + off) (∑ i' : Fin r.procs, Mpi.gemmB α β (lk + off) block i' (s i' j).dev)
            (s i j).dB
          host := { (s i j).host with next := .cAb } } := by
      intro i j
      unfold apply
      simp only [hn i j]
      rw [← setBlk_setBlk (X := (s i j).dB)]
      rfl
    refine ⟨?_, fun i j => ?_, fun i j => ?_, ⟨fun hc => (by cases hc), fun hc => (by cases hc)⟩⟩
    · funext i j
      have e : (view (⟨mpi, true, cd⟩ : GpuEnv K) s i j).next = .bAc := hn i j
      unfold Mpi.apply
      simp only [e]
      show (apply _ α β off block lk s i j).work true = _
      rw [key]
      rfl
    · rw [key]
    · rw [key]

theorem apply_cAb (α β : K) (off block lk : ℕ) (hn : ∀ i j, (s i j).host.next = .cAb)
    (h : β = 0 ∨ Fresh E (lk + off) (lk + off + block) .cAb s) :
    view E (apply E α β off block lk s) = Mpi.apply α β off block lk (view E s) ∧
    (∀ i j, (apply E α β off block lk s i j).dH = (s i j).dH) ∧
    (∀ i j, (apply E α β off block lk s i j).host.H = (s i j).host.H) ∧
    Fresh E (lk + off) (lk + off + block) .bAc (apply E α β off block lk s) := by
  obtain ⟨mpi, aware, cd⟩ := E
  cases aware
  · have hX : ∀ i (j' : Fin c.procs), Mpi.gemmC α β (lk + off) block j'
        (GProc.upB (lk + off) block (s i j')).dev =
        Mpi.gemmC α β (lk + off) block j' ((s i j').work false) := by
      intro i j'
      refine gemmC_congr _ _ _ _ _ rfl (getBlk_congr (copyCols_eqOn le_rfl le_rfl) le_rfl le_rfl) ?_
      rcases h with h | h
      · exact Or.inl h
      · exact Or.inr (getBlk_congr (h.C rfl rfl i j') le_rfl le_rfl)
    have key : ∀ i j, apply (⟨mpi, false, cd⟩ : GpuEnv K) α β off block lk s i j =
        { GProc.upB (lk + off) block (s i j) with
          dC := setBlk (lk + off) (Mpi.gemmC α β (lk + off) block j ((s i j).work false)) (s i j).dC
          host := { (s i j).host with
            C := setBlk (lk + off) (∑ j' : Fin c.procs, Mpi.gemmC α β (lk + off) block j'
              ((s i j').work false)) (s i j).host.C
            next := .bAc } } := by
      intro i j
      unfold apply
      simp only [hn i j]
      simp only [← hX]
      rfl
    refine ⟨?_, fun i j => ?_, fun i j => ?_, fun _ hc => (by cases hc), fun _ _ i j => ?_⟩
    · funext i j
      have e : (view (⟨mpi, false, cd⟩ : GpuEnv K) s i j).next = .cAb := hn i j
      unfold Mpi.apply
      simp only [e]
      show (apply _ α β off block lk s i j).work false = _
      rw [key]
      rfl
    · rw [key]; rfl
    · rw [key]
    · rw [key]; exact copyCols_eqOn le_rfl le_rfl
  · have key : ∀ i j, apply (⟨mpi, true, cd⟩ : GpuEnv K) α β off block lk s i j =
        { s i j with
          dC := setBlk (lk + off) (∑ j' : Fin c.procs, Mpi.gemmC α β (lk + off) block j' (s i j').dev)
            (s i j).dC
          host := { (s i j).host with next := .bAc } } := by
      intro i j
      unfold apply
      simp only [hn i j]
      rw [← setBlk_setBlk (X := (s i j).dC)]
      rfl
    refine ⟨?_, fun i j => ?_, fun i j => ?_, ⟨fun hc => (by cases hc), fun hc => (by cases hc)⟩⟩
    · funext i j
      have e : (view (⟨mpi, true, cd⟩ : GpuEnv K) s i j).next = .cAb := hn i j
      unfold Mpi.apply
      simp only [e]
      show (apply _ α β off block lk s i j).work true = _
      rw [key]
      rfl
    · rw [key]
    · rw [key]

/-- The direction of the next product. -/
def other : NextOp → NextOp
  | .bAc => .cAb
  | .cAb => .bAc

theorem apply_view (nx : NextOp) (α β : K) (off block lk : ℕ) (hn : ∀ i j, (s i j).host.next = nx)
    (h : β = 0 ∨ Fresh E (lk + off) (lk + off + block) nx s) :
    view E (apply E α β off block lk s) = Mpi.apply α β off block lk (view E s) ∧
    (∀ i j, (apply E α β off block lk s i j).dH = (s i j).dH) ∧
    (∀ i j, (apply E α β off block lk s i j).host.H = (s i j).host.H) ∧
    Fresh E (lk + off) (lk + off + block) (other nx)
      (apply E α β off block lk s) := by
  cases nx with
  | bAc => exact apply_bAc α β off block lk hn h
  | cAb => exact apply_cAb α β off block lk hn h

theorem shift_view (x : K) (s : GFam K r c) : view E (shift x s) = Mpi.shift x (view E s) := by
  funext i j
  show (shift x s i j).work _ = _
  unfold shift Mpi.shift
  rw [shiftDev_eq]
  cases h : E.aware <;> simp only [view, h] <;> rfl

/-! ### Gathering, Rayleigh-Ritz, residuals -/

theorem gather_view (l b : ℕ) (copied : Fin r.procs → Fin c.procs → Bool)
    (h : E.aware = false → ∀ i j, copied i j = false ∨ EqOn l (l + b) (s i j).dC (s i j).host.C) :
    view E (asynCxHGatherC E l b copied s) = Mpi.asynCxHGatherC E.mpi l b (view E s) ∧
    (∀ i j, (asynCxHGatherC E l b copied s i j).dH = (s i j).dH) ∧
    (∀ i j, (asynCxHGatherC E l b copied s i j).host.H = (s i j).host.H) ∧
    (∀ i j, (asynCxHGatherC E l b copied s i j).dRitz = (s i j).dRitz) ∧
    (E.aware = false → ∀ i j, EqOn l (l + b) (asynCxHGatherC E l b copied s i j).dC
      (asynCxHGatherC E l b copied s i j).host.C) := by
  obtain ⟨mpi, aware, cd⟩ := E
  cases aware
  · let s0 : GFam K r c := fun i j => if copied i j then s i j else GProc.upC l b (s i j)
    have e0 : ∀ i j, (s0 i j).host = (s i j).host ∧ (s0 i j).dH = (s i j).dH ∧
        (s0 i j).dB = (s i j).dB ∧ (s0 i j).dRitz = (s i j).dRitz ∧
        EqOn l (l + b) (s0 i j).dC (s i j).host.C := by
      intro i j
      show ((if copied i j then s i j else GProc.upC l b (s i j)) : GProc K _ _).host = _ ∧ _
      rcases h rfl i j with hc | hc
      · simp only [s0, hc]
        exact ⟨rfl, rfl, rfl, rfl, copyCols_eqOn le_rfl le_rfl⟩
      · by_cases hb : copied i j = true
        · simp only [s0, hb]
          exact ⟨rfl, rfl, rfl, rfl, hc⟩
        · simp only [s0, hb]
          exact ⟨rfl, rfl, rfl, rfl, copyCols_eqOn le_rfl le_rfl⟩
    have key : ∀ i j, asynCxHGatherC (⟨mpi, false, cd⟩ : GpuEnv K) l b copied s i j =
        { s0 i j with
          dB := setBlk l ((s0 i j).dHᴴ * getBlk l b (s0 i j).dC) (s0 i j).dB
          host := { (s i j).host with
            B2 := writeAt (s i j).host.B2 l b (fun k => Mpi.redist mpi.cRuns
              (fun i' => (s i' j).host.C2 (l + k)) j ((s i j).host.B2 (l + k)))
            B := setBlk l (∑ i', (s i' j).dHᴴ * getBlk l b (s i' j).host.C) (s i j).host.B } } := by
      intro i j
      have hX : ∀ i', (s0 i' j).dHᴴ * getBlk l b (s0 i' j).dC =
          (s i' j).dHᴴ * getBlk l b (s i' j).host.C := by
        intro i'
        rw [(e0 i' j).2.1, getBlk_congr (e0 i' j).2.2.2.2 le_rfl le_rfl]
      simp only [← hX, ← (e0 i j).1]
      rfl
    refine ⟨?_, fun i j => ?_, fun i j => ?_, fun i j => ?_, fun _ i j => ?_⟩
    · funext i j
      show (asynCxHGatherC _ l b copied s i j).work false = _
      rw [key]
      show ({ (s i j).host with H := (s0 i j).dH, B2 := _, B := _ } : Proc K _ _) = _
      rw [(e0 i j).2.1]
      rfl
    · rw [key]; exact (e0 i j).2.1
    · rw [key]
    · rw [key]; exact (e0 i j).2.2.2.1
    · rw [key]; exact (e0 i j).2.2.2.2
  · have key : ∀ i j, asynCxHGatherC (⟨mpi, true, cd⟩ : GpuEnv K) l b copied s i j =
        { s i j with
          dB2 := writeAt (s i j).dB2 l b (fun k => Mpi.redist mpi.cRuns
              (fun i' => (s i' j).dC2 (l + k)) j ((s i j).dB2 (l + k)))
          dB := setBlk l (∑ i', (s i' j).dHᴴ * getBlk l b (s i' j).dC) (s i j).dB } := by
      intro i j
      unfold asynCxHGatherC staged
      simp only [if_true, ite_self]
      rw [← setBlk_setBlk (M := ∑ i', (s i' j).dHᴴ * getBlk l b (s i' j).dC)
        (M' := (s i j).dHᴴ * getBlk l b (s i j).dC) (X := (s i j).dB)]
      rfl
    refine ⟨?_, fun i j => ?_, fun i j => ?_, fun i j => ?_, fun hc => by cases hc⟩
    · funext i j
      show (asynCxHGatherC _ l b copied s i j).work true = _
      rw [key]
      rfl
    · rw [key]
    · rw [key]
    · rw [key]

/-- `RR` after gathering. -/
def rrFrom (E : GpuEnv K) (block l : ℕ) (s1 : GFam K r c) :
    (Fin r.procs → Fin c.procs → ℕ → ℝ) × GFam K r c :=
  let s2 : GFam K r c := fun i j => staged E (fun p => (p.upB l block).upB2 l block) s1 i j
  let A : (i : Fin r.procs) → (j : Fin c.procs) → Matrix (Fin block) (Fin block) K := fun i _ =>
    Mpi.rrMatrix l block (fun i j => (s2 i j).dev) i
  let w : Fin r.procs → Fin c.procs → ℕ → ℝ := fun i j t => if h : t < block then
    (E.mpi.base.lapack.heevd (A i j)).1 ⟨t, h⟩ else 0
  (w, fun i j =>
    let lk := E.mpi.base.nevex - block
    let p := staged E (GProc.upC2 lk block) s2 i j
    let p := { p with
      dRitz := writeAt p.dRitz 0 block (w i j)
      dC := setBlk lk (getBlk lk block p.dC2 * (E.mpi.base.lapack.heevd (A i j)).2) p.dC }
    let p := if E.aware then p else p.downC lk block
    p.put E.aware { p.work E.aware with
      C2 := copyCols l block (p.work E.aware).C (p.work E.aware).C2 })

/-- `RR` of the CPU backend after gathering. -/
def mrrFrom (E : MEnv K) (block l : ℕ) (s1 : Fam K r c) :
    (Fin r.procs → Fin c.procs → ℕ → ℝ) × Fam K r c :=
  (fun i _ t => if h : t < block then
      (E.base.lapack.heevd (Mpi.rrMatrix l block s1 i)).1 ⟨t, h⟩ else 0,
   fun i j =>
    let Z := (E.base.lapack.heevd (Mpi.rrMatrix l block s1 i)).2
    let C := setBlk l (getBlk l block (s1 i j).C2 * Z) (s1 i j).C
    { s1 i j with C := C, C2 := copyCols l block C (s1 i j).C2 })

theorem rrFrom_view (l b : ℕ) (hl : E.mpi.base.nevex - b = l) (s1 : GFam K r c) :
    (rrFrom E b l s1).1 = (mrrFrom E.mpi b l (view E s1)).1 ∧
    view E (rrFrom E b l s1).2 = (mrrFrom E.mpi b l (view E s1)).2 ∧
    (∀ i j, ((rrFrom E b l s1).2 i j).dH = (s1 i j).dH) ∧
    (∀ i j, ((rrFrom E b l s1).2 i j).host.H = (s1 i j).host.H) ∧
    (∀ i j, ∀ t < b, ((rrFrom E b l s1).2 i j).dRitz t = (rrFrom E b l s1).1 i j t) ∧
    (E.aware = false → ∀ i j, EqOn l (l + b) ((rrFrom E b l s1).2 i j).dC
      ((rrFrom E b l s1).2 i j).host.C) := by
  obtain ⟨mpi, aware, cd⟩ := E
  subst hl
  generalize hl : mpi.base.nevex - b = l
  cases aware
  · have hA : ∀ i, Mpi.rrMatrix l b (fun i j =>
        (((s1 i j).upB l b).upB2 l b).dev) i =
        Mpi.rrMatrix l b (view (⟨mpi, false, cd⟩ : GpuEnv K) s1) i := by
      intro i
      unfold Mpi.rrMatrix
      refine Finset.sum_congr rfl fun j _ => ?_
      show (getBlk l b (copyCols l b _ _))ᴴ * getBlk l b (copyCols l b _ _) = _
      rw [getBlk_congr (copyCols_eqOn le_rfl le_rfl) le_rfl le_rfl,
        getBlk_congr (copyCols_eqOn le_rfl le_rfl) le_rfl le_rfl]
      rfl
    have hw : (rrFrom (⟨mpi, false, cd⟩ : GpuEnv K) b l s1).1 =
        (mrrFrom mpi b l (view (⟨mpi, false, cd⟩ : GpuEnv K) s1)).1 := by
      funext i j t
      show dite _ _ _ = dite _ _ _
      split_ifs with ht
      · exact congrArg (fun A => (mpi.base.lapack.heevd A).1 ⟨t, ht⟩) (hA i)
      · rfl
    let Z : (i : Fin r.procs) → Matrix (Fin b) (Fin b) K := fun i => (mpi.base.lapack.heevd
      (Mpi.rrMatrix l b (view (⟨mpi, false, cd⟩ : GpuEnv K) s1) i)).2
    have key : ∀ i j, (rrFrom (⟨mpi, false, cd⟩ : GpuEnv K) b l s1).2 i j = { s1 i j with
        dB := copyCols l b (s1 i j).host.B (s1 i j).dB
        dB2 := copyCols l b (s1 i j).host.B2 (s1 i j).dB2
        dC2 := copyCols l b (s1 i j).host.C2 (s1 i j).dC2
        dRitz := writeAt (s1 i j).dRitz 0 b ((rrFrom (⟨mpi, false, cd⟩ : GpuEnv K) b l s1).1 i j)
        dC := setBlk l (getBlk l b (s1 i j).host.C2 * Z i) (s1 i j).dC
        host := { (s1 i j).host with
          C := setBlk l (getBlk l b (s1 i j).host.C2 * Z i) (s1 i j).host.C
          C2 := copyCols l b (setBlk l (getBlk l b (s1 i j).host.C2 * Z i) (s1 i j).host.C)
            (s1 i j).host.C2 } } := by
      intro i j
      have e1 : getBlk l b (copyCols l b (s1 i j).host.C2 (s1 i j).dC2) = getBlk l b (s1 i j).host.C2 :=
        getBlk_congr (copyCols_eqOn le_rfl le_rfl) le_rfl le_rfl
      have e2 : Z i = (mpi.base.lapack.heevd (Mpi.rrMatrix l b (fun i j =>
        (((s1 i j).upB l b).upB2 l b).dev) i)).2 := by rw [hA]
      rw [← e1, e2, ← copyCols_setBlk (X := (s1 i j).dC)]
      unfold rrFrom
      simp only [hl]
      rfl
    refine ⟨hw, ?_, fun i j => ?_, fun i j => ?_, fun i j t ht => ?_, fun _ i j => ?_⟩
    · funext i j
      show ((rrFrom _ b l s1).2 i j).work false = _
      rw [key]
      rfl
    · rw [key]
    · rw [key]
    · rw [key]
      show writeAt _ _ _ _ t = _
      unfold writeAt
      rw [if_pos ⟨Nat.zero_le _, by omega⟩]
      rfl
    · rw [key]; exact setBlk_eqOn le_rfl le_rfl
  · have key : ∀ i j, (rrFrom (⟨mpi, true, cd⟩ : GpuEnv K) b l s1).2 i j = { s1 i j with
        dRitz := writeAt (s1 i j).dRitz 0 b ((rrFrom (⟨mpi, true, cd⟩ : GpuEnv K) b l s1).1 i j)
        dC := setBlk l (getBlk l b (s1 i j).dC2 * (mpi.base.lapack.heevd
          (Mpi.rrMatrix l b (view (⟨mpi, true, cd⟩ : GpuEnv K) s1) i)).2) (s1 i j).dC
        dC2 := copyCols l b (setBlk l (getBlk l b (s1 i j).dC2 * (mpi.base.lapack.heevd
          (Mpi.rrMatrix l b (view (⟨mpi, true, cd⟩ : GpuEnv K) s1) i)).2) (s1 i j).dC) (s1 i j).dC2 } := by
      intro i j
      unfold rrFrom
      simp only [hl]
      rfl
    refine ⟨rfl, ?_, fun i j => ?_, fun i j => ?_, fun i j t ht => ?_, fun hc => by cases hc⟩
    · funext i j
      show ((rrFrom _ b l s1).2 i j).work true = _
      rw [key]
      rfl
    · rw [key]
    · rw [key]
    · rw [key]
      show writeAt _ _ _ _ t = _
      unfold writeAt
      rw [if_pos ⟨Nat.zero_le _, by omega⟩]
      rfl

theorem rr_view (l b : ℕ) (hl : E.mpi.base.nevex - b = l)
    (h : E.aware = false → ∀ i j, (s i j).hh = true ∨ EqOn l (l + b) (s i j).dC (s i j).host.C) :
    (rr E b (fun _ _ => l) s).1 = (Mpi.rr E.mpi b (fun _ _ => l) (view E s)).1 ∧
    view E (rr E b (fun _ _ => l) s).2 = (Mpi.rr E.mpi b (fun _ _ => l) (view E s)).2 ∧
    (∀ i j, ((rr E b (fun _ _ => l) s).2 i j).dH = (s i j).dH) ∧
    (∀ i j, ((rr E b (fun _ _ => l) s).2 i j).host.H = (s i j).host.H) ∧
    (∀ i j, ∀ t < b, ((rr E b (fun _ _ => l) s).2 i j).dRitz t = (rr E b (fun _ _ => l) s).1 i j t) ∧
    (E.aware = false → ∀ i j, EqOn l (l + b) ((rr E b (fun _ _ => l) s).2 i j).dC
      ((rr E b (fun _ _ => l) s).2 i j).host.C) := by
  obtain ⟨g1, g2, g3, -, -⟩ := gather_view (E := E) (s := s) l b (fun i j => !(s i j).hh) (by
    intro ha i j
    rcases h ha i j with hc | hc
    · left; rw [hc]; rfl
    · exact Or.inr hc)
  have e1 : rr E b (fun _ _ => l) s = rrFrom E b l (asynCxHGatherC E l b (fun i j => !(s i j).hh) s) := rfl
  have e2 : Mpi.rr E.mpi b (fun _ _ => l) (view E s) =
      mrrFrom E.mpi b l (Mpi.asynCxHGatherC E.mpi l b (view E s)) := rfl
  rw [e1, e2, ← g1]
  obtain ⟨r1, r2, r3, r4, r5, r6⟩ := rrFrom_view l b hl (asynCxHGatherC E l b (fun i j => !(s i j).hh) s)
  exact ⟨r1, r2, fun i j => (r3 i j).trans (g2 i j), fun i j => (r4 i j).trans (g3 i j), r5, r6⟩


theorem resd_view (f : ℕ → ℝ) (k l : ℕ)
    (h : E.aware = false → ∀ i j, EqOn l (l + (E.mpi.base.nevex - k)) (s i j).dC (s i j).host.C)
    (hr : E.aware = true → ∀ i j, ∀ t < E.mpi.base.nevex - k, (s i j).dRitz t = f t) :
    (resd E f k (fun _ _ => l) s).1 = (Mpi.resd E.mpi f k (fun _ _ => l) (view E s)).1 ∧
    view E (resd E f k (fun _ _ => l) s).2 = (if E.aware then
      Mpi.asynCxHGatherC E.mpi l (E.mpi.base.nevex - k) (view E s)
      else (Mpi.resd E.mpi f k (fun _ _ => l) (view E s)).2) ∧
    (∀ i j, ((resd E f k (fun _ _ => l) s).2 i j).dH = (s i j).dH) ∧
    (∀ i j, ((resd E f k (fun _ _ => l) s).2 i j).host.H = (s i j).host.H) ∧
    (∀ i j, ((resd E f k (fun _ _ => l) s).2 i j).dRitz = (s i j).dRitz) ∧
    (E.aware = false → ∀ i j, EqOn l (l + (E.mpi.base.nevex - k)) ((resd E f k (fun _ _ => l) s).2 i j).dC
      ((resd E f k (fun _ _ => l) s).2 i j).host.C) := by
  obtain ⟨g1, g2, g3, g4, g5⟩ := gather_view (E := E) (s := s) l (E.mpi.base.nevex - k) (fun _ _ => true)
    fun ha i j => Or.inr (h ha i j)
  have hv : (resd E f k (fun _ _ => l) s).1 = (Mpi.resd E.mpi f k (fun _ _ => l) (view E s)).1 := by
    have hpart : ∀ i j, ∀ t < E.mpi.base.nevex - k, (Mpi.resdLocal (if E.aware then
        (asynCxHGatherC E l (E.mpi.base.nevex - k) (fun _ _ => true) s i j).dRitz else f) l
        (E.mpi.base.nevex - k) (view E (asynCxHGatherC E l (E.mpi.base.nevex - k) (fun _ _ => true) s) i j)).1 t =
        (Mpi.resdLocal f l (E.mpi.base.nevex - k) (Mpi.asynCxHGatherC E.mpi l (E.mpi.base.nevex - k)
          (view E s) i j)).1 t := by
      intro i j t ht
      rw [g1, Mpi.resdLocal_eq, Mpi.resdLocal_eq]
      dsimp only
      rw [if_pos ht, if_pos ht]
      cases ha : E.aware
      · rfl
      · rw [if_pos rfl, g4, hr ha i j t ht]
    funext i j t
    show ite _ _ _ = ite _ _ _
    by_cases ht : t < E.mpi.base.nevex - k
    · rw [if_pos ht, if_pos ht]
      congr 1
      exact Finset.sum_congr rfl fun j' _ => hpart i j' t ht
    · rw [if_neg ht, if_neg ht]
  refine ⟨hv, ?_⟩
  obtain ⟨mpi, aware, cd⟩ := E
  cases aware
  · refine ⟨?_, g2, g3, g4, g5⟩
    have : ∀ i j, (view (⟨mpi, false, cd⟩ : GpuEnv K) (asynCxHGatherC ⟨mpi, false, cd⟩ l
      (mpi.base.nevex - k) (fun _ _ => true) s)) i j = Mpi.asynCxHGatherC mpi l (mpi.base.nevex - k)
      (view (⟨mpi, false, cd⟩ : GpuEnv K) s) i j := fun i j => by rw [g1]
    funext i j
    show _ = (Mpi.resd mpi f k (fun _ _ => l) (view (⟨mpi, false, cd⟩ : GpuEnv K) s)).2 i j
    unfold Mpi.resd
    simp only [← this]
    rfl
  · exact ⟨g1, g2, g3, g4, fun hc => by cases hc⟩

/-! ### Orthogonalisation -/

/-- The variants for which the Householder QR and the copying of the locked vectors work: staged without
ScaLAPACK, or CUDA-aware with ScaLAPACK and a `cudaMemcpy` that copies. -/
def GpuEnv.Sound (E : GpuEnv K) : Prop :=
  (E.aware = false ∧ E.mpi.scalapack = false) ∨
    (E.aware = true ∧ E.mpi.scalapack = true ∧ E.copyDone = true)

omit [RCLike K] in
theorem proc_ext {m n : ℕ} {p q : Proc K m n} (h1 : p.H = q.H) (h2 : p.C = q.C) (h3 : p.C2 = q.C2)
    (h4 : p.B = q.B) (h5 : p.B2 = q.B2) (h6 : p.next = q.next) (h7 : p.locked = q.locked)
    (h8 : p.isSym = q.isSym) (h9 : p.fresh = q.fresh) : p = q := by
  cases p; cases q
  dsimp only at h1 h2 h3 h4 h5 h6 h7 h8 h9
  subst h1 h2 h3 h4 h5 h6 h7 h8 h9
  rfl

theorem hhQR_view (hS : E.Sound) (s : GFam K r c) :
    view E (hhQR E s) = Mpi.hhQR E.mpi (view E s) ∧
    (∀ i j, (hhQR E s i j).dH = (s i j).dH) ∧ (∀ i j, (hhQR E s i j).host.H = (s i j).host.H) ∧
    (E.aware = false → ∀ i j, (hhQR E s i j).hh = true) := by
  obtain ⟨mpi, aware, cd⟩ := E
  rcases hS with ⟨ha, hs⟩ | ⟨ha, hs, -⟩
  · dsimp only at ha hs
    subst ha
    have key : ∀ i j, hhQR (⟨mpi, false, cd⟩ : GpuEnv K) s i j =
        { s i j with host := Mpi.hhQR mpi (fun i j => (s i j).host) i j, hh := true } := by
      intro i j
      unfold hhQR
      simp only [hs]
      rfl
    refine ⟨?_, fun i j => ?_, fun i j => ?_, fun _ i j => ?_⟩
    · funext i j
      show (hhQR _ s i j).work false = _
      rw [key]
      rfl
    · rw [key]
    · rw [key]; rfl
    · rw [key]
  · dsimp only at ha hs
    subst ha
    let s1 : GFam K r c := fun i j => (s i j).downC 0 mpi.base.nevex
    have key : ∀ i j, hhQR (⟨mpi, true, cd⟩ : GpuEnv K) s i j =
        GProc.upC 0 mpi.base.nevex { s1 i j with host := Mpi.hhQR mpi (fun i j => (s1 i j).host) i j } := by
      intro i j
      unfold hhQR
      simp only [hs]
      rfl
    have hV : ∀ j, getBlk 0 mpi.base.nevex (fun k => Mpi.assemble r fun i' => (s1 i' j).host.C k) =
        getBlk 0 mpi.base.nevex (fun k => Mpi.assemble r fun i' => (s i' j).dC k) := by
      intro j
      refine getBlk_congr (a := 0) (b := mpi.base.nevex) (fun k _ hk => ?_) le_rfl (by omega)
      congr 1
      funext i'
      exact copyCols_of_mem ⟨Nat.zero_le _, by omega⟩
    refine ⟨?_, fun i j => ?_, fun i j => ?_, fun hc => by cases hc⟩
    · funext i j
      show (hhQR _ s i j).work true = _
      rw [key]
      have e : copyCols 0 mpi.base.nevex (Mpi.hhQR mpi (fun i j => (s1 i j).host) i j).C (s i j).dC =
          (Mpi.hhQR mpi (fun i j => (s i j).dev) i j).C := by
        unfold Mpi.hhQR
        refine copyCols_setBlk.trans ?_
        rw [hV]
        rfl
      have e2 : (Mpi.hhQR mpi (fun i j => (s1 i j).host) i j).next =
          (Mpi.hhQR mpi (fun i j => (s i j).dev) i j).next := by
        unfold Mpi.hhQR
        simp only [hs]
        rfl
      exact proc_ext rfl e rfl rfl rfl e2 rfl rfl rfl
    · rw [key]; rfl
    · rw [key]; rfl

theorem lockCopy_view (hS : E.Sound) (lk : Fin r.procs → Fin c.procs → ℕ) (b : Bool) (s : GFam K r c) :
    view E (lockVectorCopy E lk b s) = Mpi.lockVectorCopy E.mpi lk (view E s) ∧
    (∀ i j, (lockVectorCopy E lk b s i j).dH = (s i j).dH) ∧
    (∀ i j, (lockVectorCopy E lk b s i j).host.H = (s i j).host.H) ∧
    (∀ i j, (lockVectorCopy E lk b s i j).hh = (s i j).hh) ∧
    (E.aware = false → ∀ i j, (lockVectorCopy E lk b s i j).dC = (s i j).dC ∧
      (lockVectorCopy E lk b s i j).host.C = copyCols 0 (lk i j) (s i j).host.C2 (s i j).host.C) := by
  refine ⟨?_, fun i j => put_dH _ _ _, fun i j => put_hostH _ _ _, fun i j => put_hh _ _ _, ?_⟩
  · unfold lockVectorCopy
    rw [view_lift]
    swap
    · intro s i j; rfl
    have hc : (E.aware && !b && !E.copyDone) = false := by
      rcases hS with ⟨ha, -⟩ | ⟨-, -, hd⟩
      · rw [ha]; rfl
      · rw [hd]; simp
    funext i j
    simp only [hc]
    rfl
  · intro ha i j
    obtain ⟨mpi, aware, cd⟩ := E
    dsimp only at ha
    subst ha
    exact ⟨rfl, rfl⟩

/-- What the multi-GPU backend adds to a Cholesky QR on global data: with the vectors on the host a
failed factorisation leaves them as they were. -/
noncomputable def keep (aware : Bool) (p : ℤ × (ℕ → Fin N → K)) (g : Mpi.GSt K N) : ℤ × Mpi.GSt K N :=
  (p.1, if p.1 = 0 ∨ aware = true then { g with C := p.2 } else g)

/-- The orthogonalisation routines on global data: `cholQR2` does not report its last factorisation. -/
noncomputable def refQrRoutines (G : Mpi.GEnv K N) (aware : Bool) (locked : ℕ) : QrRoutines (Mpi.GSt K N) :=
  { Mpi.gQrRoutines G locked with
    cholQR1 := fun g => keep aware (cholQR1c G.base.lapack G.base.nevex g.C) g
    cholQR2 := fun g => keep aware (cholQR2c G.base.lapack G.base.nevex ⟨true, false⟩ g.C) g
    shiftedcholQR2 := fun g => keep aware (shiftedcholQR2c G.base.lapack G.base.nevex ⟨true, false⟩ g.C) g }

/-- QR on global data. -/
noncomputable def refQr (G : Mpi.GEnv K N) (aware : Bool) : ℕ → ℝ → Mpi.GSt K N → Mpi.GSt K N :=
  fun _ cond g => qrSelect (refQrRoutines G aware g.locked) G.base.doCholQR
    G.base.envDisable (open Classical in decide (cond > G.base.condUpper))
    (open Classical in decide (cond < G.base.condLower)) g

/-- Residuals on global data: the CUDA-aware variant does not subtract in the buffer `B`. -/
noncomputable def refResd (G : Mpi.GEnv K N) (aware : Bool) :
    (ℕ → ℝ) → ℕ → Mpi.GSt K N → (ℕ → ℝ) × Mpi.GSt K N := fun f k g =>
  (((Mpi.gOps G).resd f k g).1, if aware then
    { g with toSt := Seq.asynCxHGatherC g.locked (G.base.nevex - k) g.toSt }
    else ((Mpi.gOps G).resd f k g).2)

/-- The multi-GPU backend on global data. -/
noncomputable def refOps (G : Mpi.GEnv K N) (aware : Bool) : Chase ℝ (Mpi.GSt K N) :=
  Mpi.gOpsWith G (refQr G aware) (refResd G aware)

theorem cholQR2_rep {C : Cols K r} {X : ℕ → Fin N → K} (h : ∀ i, Mpi.Part (r.glob i) (C i) X) (n : ℕ) :
    (cholQR2 E n C).1 = (cholQR2c E.mpi.base.lapack n ⟨true, false⟩ X).1 ∧
      ∀ i, Mpi.Part (r.glob i) ((cholQR2 E n C).2 i) (cholQR2c E.mpi.base.lapack n ⟨true, false⟩ X).2 := by
  unfold cholQR2 cholQR2c
  rw [Mpi.sum_syherk h]
  rcases E.mpi.base.lapack.potrf (gram n X) with ⟨info, A⟩
  dsimp only
  by_cases hi : info ≠ 0
  · rw [if_pos hi, if_pos hi]; exact ⟨rfl, h⟩
  · rw [if_neg hi, if_neg hi]
    have h1 : ∀ i, Mpi.Part (r.glob i) (trsm A (C i)) (trsm A X) := fun i => (h i).trsm A
    rw [Mpi.sum_syherk h1]
    push Not at hi
    exact ⟨hi.symm, fun i => (h1 i).trsm _⟩

/-- A Cholesky QR on the device does on the buffers in use what it does on global data. -/
theorem chol_rep {f : Cols K r → ℤ × Cols K r} {fc : (ℕ → Fin N → K) → ℤ × (ℕ → Fin N → K)}
    (hf : Local E.mpi.base.nevex f)
    (hr : ∀ C X, (∀ i, Mpi.Part (r.glob i) (C i) X) →
      (f C).1 = (fc X).1 ∧ ∀ i, Mpi.Part (r.glob i) ((f C).2 i) (fc X).2)
    (j0 : Fin c.procs) (h : Mpi.Rep (view E s) g) :
    (chol E f j0 s).1 = (keep E.aware (fc g.C) g).1 ∧
    Mpi.Rep (view E (chol E f j0 s).2) (keep E.aware (fc g.C) g).2 ∧
    (∀ i j, ((chol E f j0 s).2 i j).dH = (s i j).dH) ∧
    (∀ i j, ((chol E f j0 s).2 i j).host.H = (s i j).host.H) ∧
    (∀ i j, ((chol E f j0 s).2 i j).host.locked = (s i j).host.locked) ∧
    (E.aware = false → (chol E f j0 s).1 = 0 → ∀ i j, EqOn 0 E.mpi.base.nevex
      ((chol E f j0 s).2 i j).dC ((chol E f j0 s).2 i j).host.C) := by
  obtain ⟨mpi, aware, cd⟩ := E
  have hC : ∀ i j, Mpi.Part (r.glob i) ((s i j).work aware).C g.C := fun i j => h.C i j
  cases aware
  · let D : Fin c.procs → ℤ × Cols K r := fun j =>
      f fun i => copyCols 0 mpi.base.nevex (s i j).host.C (s i j).dC
    have hcp : ∀ j i, EqOn 0 mpi.base.nevex
        (copyCols 0 mpi.base.nevex (s i j).host.C (s i j).dC) (s i j).host.C :=
      fun j i => copyCols_eqOn le_rfl (by omega)
    have hD1 : ∀ j, (D j).1 = (fc g.C).1 := fun j =>
      (hf.info _ (fun i => (s i j).host.C) (hcp j)).trans (hr _ _ fun i => hC i j).1
    have hD2 : ∀ i j, copyCols 0 mpi.base.nevex ((D j).2 i) (s i j).host.C =
        (f fun i => (s i j).host.C).2 i := by
      intro i j
      funext k
      by_cases hk : k < mpi.base.nevex
      · rw [copyCols_of_mem ⟨Nat.zero_le _, by omega⟩]
        exact hf.cols _ _ (hcp j) i k (Nat.zero_le _) hk
      · rw [copyCols_of_not_mem (by omega)]
        exact (hf.above (fun i => (s i j).host.C) i k (Nat.le_of_not_lt hk)).symm
    have key : ∀ i j, (chol (⟨mpi, false, cd⟩ : GpuEnv K) f j0 s).2 i j =
        { s i j with
          dC := (D j).2 i
          hh := false
          host := { (s i j).host with
            C := if (fc g.C).1 = 0 then (f fun i => (s i j).host.C).2 i else (s i j).host.C } } := by
      intro i j
      rw [← hD2, ← hD1 j]
      unfold chol
      show (if (D j).1 = 0 then _ else _ : GProc K _ _) = _
      by_cases h0 : (D j).1 = 0
      · rw [if_pos h0, if_pos h0]; rfl
      · rw [if_neg h0, if_neg h0]; rfl
    refine ⟨hD1 j0, ?_, fun i j => ?_, fun i j => ?_, fun i j => ?_, fun _ h0 i j => ?_⟩
    · have hv : view (⟨mpi, false, cd⟩ : GpuEnv K) (chol (⟨mpi, false, cd⟩ : GpuEnv K) f j0 s).2 =
          fun i j => { view (⟨mpi, false, cd⟩ : GpuEnv K) s i j with
            C := if (fc g.C).1 = 0 then (f fun i => (s i j).host.C).2 i else (s i j).host.C } := by
        funext i j
        show ((chol _ f j0 s).2 i j).work false = _
        rw [key]
        rfl
      rw [hv]
      unfold keep
      by_cases h0 : (fc g.C).1 = 0
      · simp only [h0, if_true, true_or]
        exact Mpi.setC_rep h fun i j => (hr _ _ fun i => hC i j).2 i
      · simp only [h0, if_false, Bool.false_eq_true, or_self]
        exact h
    · rw [key]
    · rw [key]
    · rw [key]
    · rw [key]
      have h0' : (fc g.C).1 = 0 := (hD1 j0).symm.trans h0
      show EqOn _ _ ((D j).2 i) (if (fc g.C).1 = 0 then _ else _)
      rw [if_pos h0']
      exact hf.cols _ _ (hcp j) i
  · have key : ∀ i j, (chol (⟨mpi, true, cd⟩ : GpuEnv K) f j0 s).2 i j =
        { s i j with dC := (f fun i => (s i j).dC).2 i, hh := false } := by
      intro i j
      unfold chol
      simp only [if_true, ite_self]
      rfl
    have hk : ∀ p : ℤ × (ℕ → Fin N → K), keep true p g = (p.1, { g with C := p.2 }) := by
      intro p
      unfold keep
      rw [if_pos (Or.inr rfl)]
    refine ⟨(hr _ _ fun i => hC i j0).1, ?_, fun i j => ?_, fun i j => ?_, fun i j => ?_,
      fun hc => by cases hc⟩
    · have hv : view (⟨mpi, true, cd⟩ : GpuEnv K) (chol (⟨mpi, true, cd⟩ : GpuEnv K) f j0 s).2 =
          fun i j => { view (⟨mpi, true, cd⟩ : GpuEnv K) s i j with C := (f fun i => (s i j).dC).2 i } := by
        funext i j
        show ((chol _ f j0 s).2 i j).work true = _
        rw [key]
        rfl
      rw [hv, hk]
      exact Mpi.setC_rep h fun i j => (hr _ _ fun i => hC i j).2 i
    · rw [key]
    · rw [key]
    · rw [key]

/-! ### Phases -/

/-- Between the steps of a solve. -/
structure Inv (E : GpuEnv K) (l : ℕ) (s : GFam K r c) (g : Mpi.GSt K N) : Prop where
  rep : Mpi.Rep (view E s) g
  mat : ∀ i j, (s i j).dH = (s i j).host.H
  locked : g.locked = l

/-- Between the products of a filter call. -/
structure InFilter (E : GpuEnv K) (l : ℕ) (x : ℝ) (s : GFam K r c) (g : Mpi.GSt K N) : Prop where
  rep : Mpi.Rep (view E s) g
  mat : ∀ i j, (s i j).dH = Mpi.shiftLocal (r.tab i) (c.tab j) (-(x : K)) (s i j).host.H
  locked : g.locked = l

theorem InFilter.next {l : ℕ} {x : ℝ} (h : InFilter E l x s g) (i : Fin r.procs) (j : Fin c.procs) :
    (s i j).host.next = g.next :=
  (work_next E.aware (s i j)).symm.trans (h.rep.next i j)

theorem InFilter.lk {l : ℕ} {x : ℝ} (h : InFilter E l x s g) (i : Fin r.procs) (j : Fin c.procs) :
    (s i j).host.locked = l :=
  ((work_locked E.aware (s i j)).symm.trans (h.rep.locked i j)).trans h.locked

/-- The relations between the multi-GPU backend and global data. -/
def phases (E : GpuEnv K) : PhaseRel ℝ (GFam K r c) (Mpi.GSt K N) where
  pre := fun s g => Mpi.Rep (pview E s) g
  begun := fun s g => Mpi.Rep (pview E s) g ∧ g.locked = 0
  inv := Inv E
  filt := InFilter E
  nest := fun l x a _ s g => InFilter E l x s g ∧ Fresh E (l + a) E.mpi.base.nevex g.next s
  ready := fun l s g => Inv E l s g ∧ (E.aware = false → ∀ i j, (s i j).hh = true ∨
    EqOn l E.mpi.base.nevex (s i j).dC (s i j).host.C)
  synced := fun l v s g => Inv E l s g ∧
    (E.aware = false → ∀ i j, EqOn l E.mpi.base.nevex (s i j).dC (s i j).host.C) ∧
    (E.aware = true → ∀ i j, ∀ t < E.mpi.base.nevex - l, (s i j).dRitz t = v t)

theorem Inv.pview_eq {l : ℕ} (h : Inv E l s g) : pview E s = view E s := by
  funext i j
  unfold pview view
  rw [← h.mat i j]
  cases E.aware <;> rfl

/-- QR establishes what Rayleigh-Ritz needs. -/
theorem qr_ready (hS : E.Sound) (i0 : Fin r.procs) (j0 : Fin c.procs) (l k : ℕ) (cond : ℝ)
    (h : Inv E l s g) :
    (phases E).ready l ((opsAt E i0 j0).qr k cond s) (refQr (E.mpi.glob r) E.aware k cond g) := by
  have hlk : ∀ i j, (s i j).host.locked = g.locked := fun i j =>
    (work_locked E.aware (s i j)).symm.trans (h.rep.locked i j)
  -- what holds before the locked vectors are copied
  let P : GFam K r c → Mpi.GSt K N → Prop := fun s' g' => Mpi.Rep (view E s') g' ∧
    (∀ i j, (s' i j).dH = (s' i j).host.H) ∧ g'.locked = l
  have lock : ∀ (b : Bool) (s' : GFam K r c) (g' : Mpi.GSt K N), P s' g' →
      (E.aware = false → ∀ i j, (s' i j).hh = true ∨
        EqOn l E.mpi.base.nevex (s' i j).dC (s' i j).host.C) →
      (phases E).ready l ((qrRoutines E j0 fun i j => (s i j).host.locked).lockCopy b s')
        ((refQrRoutines (E.mpi.glob r) E.aware g.locked).lockCopy b g') := by
    rintro b s' g' ⟨h1, h2, h3⟩ h4
    obtain ⟨v1, v2, v3, v4, v5⟩ := lockCopy_view hS (fun i j => (s i j).host.locked) b s'
    refine ⟨⟨?_, fun i j => ?_, h3⟩, fun ha i j => ?_⟩
    · show Mpi.Rep (view E (lockVectorCopy E _ b s')) _
      rw [v1]
      exact Mpi.lockVectorCopy_rep h1 hlk
    · exact (v2 i j).trans ((h2 i j).trans (v3 i j).symm)
    · rcases h4 ha i j with hc | hc
      · exact Or.inl ((v4 i j).trans hc)
      · right
        show EqOn _ _ (lockVectorCopy E _ b s' i j).dC (lockVectorCopy E _ b s' i j).host.C
        rw [(v5 ha i j).1, (v5 ha i j).2]
        intro t ht1 ht2
        rw [copyCols_of_not_mem (by rw [hlk i j, h.locked]; omega)]
        exact hc t ht1 ht2
  have hh : ∀ (s' : GFam K r c) (g' : Mpi.GSt K N), P s' g' →
      P (hhQR E s') ((refQrRoutines (E.mpi.glob r) E.aware g.locked).hhQR g') ∧
      (E.aware = false → ∀ i j, (hhQR E s' i j).hh = true ∨
        EqOn l E.mpi.base.nevex (hhQR E s' i j).dC (hhQR E s' i j).host.C) := by
    rintro s' g' ⟨h1, h2, h3⟩
    obtain ⟨v1, v2, v3, v4⟩ := hhQR_view hS s'
    refine ⟨⟨?_, fun i j => (v2 i j).trans ((h2 i j).trans (v3 i j).symm), h3⟩,
      fun ha i j => Or.inl (v4 ha i j)⟩
    rw [v1]
    exact Mpi.hhQR_rep h1
  have ch : ∀ (f : Cols K r → ℤ × Cols K r) (fc : (ℕ → Fin N → K) → ℤ × (ℕ → Fin N → K)),
      Local E.mpi.base.nevex f →
      (∀ C X, (∀ i, Mpi.Part (r.glob i) (C i) X) →
        (f C).1 = (fc X).1 ∧ ∀ i, Mpi.Part (r.glob i) ((f C).2 i) (fc X).2) →
      (phases E).ready l (if (chol E f j0 s).1 ≠ 0 then
          (qrRoutines E j0 fun i j => (s i j).host.locked).lockCopy true (hhQR E (chol E f j0 s).2)
        else (qrRoutines E j0 fun i j => (s i j).host.locked).lockCopy false (chol E f j0 s).2)
        (if (keep E.aware (fc g.C) g).1 ≠ 0 then
          (refQrRoutines (E.mpi.glob r) E.aware g.locked).lockCopy true
            ((refQrRoutines (E.mpi.glob r) E.aware g.locked).hhQR (keep E.aware (fc g.C) g).2)
        else (refQrRoutines (E.mpi.glob r) E.aware g.locked).lockCopy false
            (keep E.aware (fc g.C) g).2) := by
    intro f fc hf hr
    obtain ⟨c1, c2, c3, c4, c5, c6⟩ := chol_rep hf hr j0 h.rep
    have hkl : (keep E.aware (fc g.C) g).2.locked = l := by
      unfold keep
      dsimp only
      split_ifs <;> exact h.locked
    have hP : P (chol E f j0 s).2 (keep E.aware (fc g.C) g).2 :=
      ⟨c2, fun i j => (c3 i j).trans ((h.mat i j).trans (c4 i j).symm), hkl⟩
    rw [← c1]
    by_cases h0 : (chol E f j0 s).1 ≠ 0
    · rw [if_pos h0, if_pos h0]
      exact lock _ _ _ (hh _ _ hP).1 (hh _ _ hP).2
    · rw [if_neg h0, if_neg h0]
      push Not at h0
      exact lock _ _ _ hP fun ha i j => Or.inr ((c6 ha h0 i j).mono (Nat.zero_le _) le_rfl)
  have main : ∀ dc env ab be, (phases E).ready l
      (qrSelect (qrRoutines E j0 fun i j => (s i j).host.locked) dc env ab be s)
      (qrSelect (refQrRoutines (E.mpi.glob r) E.aware g.locked) dc env ab be g) := ?_
  · exact main _ _ _ _
  intro dc env ab be
  unfold qrSelect
  split_ifs
  · exact lock _ _ _ (hh _ _ ⟨h.rep, h.mat, h.locked⟩).1 (hh _ _ ⟨h.rep, h.mat, h.locked⟩).2
  · exact ch _ _ (shiftedcholQR2_local E _) fun C X hX => Mpi.shiftedcholQR2_rep hX _
  · exact ch _ _ (cholQR1_local E _) fun C X hX => Mpi.cholQR1_rep hX _
  · exact ch _ _ (cholQR2_local E _) fun C X hX => cholQR2_rep hX _

/-! ### The simulation -/

theorem hemm_eq (i0 : Fin r.procs) (j0 : Fin c.procs) (block : ℕ) (α β : ℝ) (off l : ℕ)
    (h : ∀ i j, (s i j).host.locked = l) :
    (opsAt E i0 j0).hemm block α β off s = apply E (α : K) (β : K) off block l s := by
  funext i j
  show apply E (α : K) (β : K) off block (s i j).host.locked s i j = _
  rw [h i j]

/-- A product keeps the relation, if what it reads on the device is up to date. -/
theorem hemm_step {l : ℕ} {x : ℝ} (h : InFilter E l x s g) (i0 : Fin r.procs) (j0 : Fin c.procs)
    (block : ℕ) (α β : ℝ) (off : ℕ) (hf : β = 0 ∨ Fresh E (l + off) (l + off + block) g.next s) :
    InFilter E l x ((opsAt E i0 j0).hemm block α β off s)
      ((Mpi.gOps (E.mpi.glob r)).hemm block α β off g) ∧
    Fresh E (l + off) (l + off + block) ((Mpi.gOps (E.mpi.glob r)).hemm block α β off g).next
      ((opsAt E i0 j0).hemm block α β off s) := by
  obtain ⟨a1, a2, a3, a4⟩ := apply_view (E := E) (s := s) g.next (α : K) (β : K) off block l h.next (by
    rcases hf with hf | hf
    · left; rw [hf]; exact RCLike.ofReal_zero
    · exact Or.inr hf)
  rw [hemm_eq i0 j0 block α β off l h.lk]
  have hloc : ((Mpi.gOps (E.mpi.glob r)).hemm block α β off g).locked = l := by
    show (Seq.apply _ _ _ _ _ g.toSt).locked = _
    rw [← h.locked]
    unfold Seq.apply
    cases g.next <;> rfl
  refine ⟨⟨?_, fun i j => ?_, hloc⟩, ?_⟩
  · rw [a1]
    have := Mpi.apply_rep h.rep (α : K) (β : K) off block l
    rw [← h.locked] at this ⊢
    exact this
  · rw [a2, a3]; exact h.mat i j
  · have e : ((Mpi.gOps (E.mpi.glob r)).hemm block α β off g).next = other g.next := by
      show (Seq.apply _ _ _ _ _ g.toSt).next = _
      unfold Seq.apply
      cases g.next <;> rfl
    rw [e]
    exact a4

/-- In the order of the calls of a solve, the multi-GPU backend behaves as its description on global
data. -/
theorem sim (hS : E.Sound) (hc : Mpi.RunsOk r c E.mpi.cRuns) (hb : Mpi.RunsOk c r E.mpi.bRuns)
    (i0 : Fin r.procs) (j0 : Fin c.procs) :
    SimP (opsAt E i0 j0) (refOps (E.mpi.glob r) E.aware : Chase ℝ (Mpi.GSt K N)) E.mpi.base.nevex
      (fun _ => True) (phases E) := by
  have hm := Mpi.sim (K := K) (E := E.mpi) hc hb i0 j0
  have hlk : ∀ {l : ℕ} {s : GFam K r c} {g : Mpi.GSt K N}, Inv E l s g →
      (fun i j => (s i j).host.locked) = fun (_ : Fin r.procs) (_ : Fin c.procs) => l := by
    intro l s g h
    funext i j
    exact ((work_locked E.aware (s i j)).symm.trans (h.rep.locked i j)).trans h.locked
  have hlk' : ∀ {l : ℕ} {s : GFam K r c} {g : Mpi.GSt K N}, Inv E l s g →
      (fun i j => (view E s i j).locked) = fun (_ : Fin r.procs) (_ : Fin c.procs) => l := by
    intro l s g h
    funext i j
    exact (h.rep.locked i j).trans h.locked
  constructor
  case checkSymmetryEasy =>
    intro s g h
    obtain ⟨h1, h2⟩ := hm.checkSymmetryEasy _ _ h
    have e : Mpi.symCheck E.mpi (fun i j => (s i j).host) = Mpi.symCheck E.mpi (pview E s) := rfl
    refine ⟨h1, ?_⟩
    show Mpi.Rep (pview E fun i j => { s i j with host := { (s i j).host with isSym := _ } }) _
    rw [e]
    have e2 : (pview E fun i j => { s i j with host := { (s i j).host with
        isSym := Mpi.symCheck E.mpi (pview E s) } }) =
        fun i j => { pview E s i j with isSym := Mpi.symCheck E.mpi (pview E s) } := by
      funext i j
      unfold pview
      cases E.aware <;> rfl
    rw [e2]
    exact h2
  case start =>
    intro s g h
    refine ⟨?_, rfl⟩
    have e : pview E ((opsAt E i0 j0).start s) = (Mpi.opsAt E.mpi i0 j0).start (pview E s) := by
      funext i j
      show ({ GProc.work _ _ with H := _ } : Proc K _ _) = { pview E s i j with locked := 0 }
      unfold pview
      cases E.aware <;> rfl
    rw [e]
    exact hm.start _ _ h
  case initVecs =>
    rintro b s g ⟨h, hl⟩
    have e1 : ∀ s : GFam K r c, view E (initVecs E s) = Mpi.initVecs E.mpi (pview E s) := by
      intro s
      funext i j
      obtain ⟨mpi, aware, cd⟩ := E
      cases aware <;> rfl
    have e2 : ∀ s : GFam K r c, pview E (initRndVecs E s) = Mpi.initRndVecs E.mpi (pview E s) := by
      intro s
      funext i j
      obtain ⟨mpi, aware, cd⟩ := E
      cases aware
      · have e : copyCols 0 mpi.base.nevex (writeAt (s i j).dC 0 mpi.base.nevex
            (fun k a => mpi.gen i (k * r.size i + a))) (s i j).host.C =
            writeAt (s i j).host.C 0 mpi.base.nevex (fun k a => mpi.gen i (k * r.size i + a)) := by
          funext k
          by_cases hk : 0 ≤ k ∧ k < 0 + mpi.base.nevex
          · rw [copyCols_of_mem hk]
            unfold writeAt
            rw [if_pos hk, if_pos hk]
          · rw [copyCols_of_not_mem hk]
            unfold writeAt
            rw [if_neg hk]
        show ({ (s i j).host with C := copyCols 0 mpi.base.nevex _ (s i j).host.C } : Proc K _ _) = _
        rw [e]
        rfl
      · rfl
    have e3 : view E ((opsAt E i0 j0).initVecs b s) =
        (Mpi.opsAt E.mpi i0 j0).initVecs b (pview E s) := by
      show view E (initVecs E (if b then initRndVecs E s else s)) =
        Mpi.initVecs E.mpi (if b then Mpi.initRndVecs E.mpi (pview E s) else pview E s)
      rw [e1]
      cases b
      · rfl
      · exact congrArg _ (e2 s)
    have hloc : ((refOps (E.mpi.glob r) E.aware).initVecs b g).locked = 0 := by
      cases b <;> exact hl
    refine ⟨?_, fun i j => ?_, hloc⟩
    · rw [e3]
      exact hm.initVecs b _ _ h
    · show ((if b then initRndVecs E s else s) i j).host.H =
        (lift E (Mpi.initVecs E.mpi) (if b then initRndVecs E s else s) i j).host.H
      exact (put_hostH _ _ _).symm
  case qr => exact fun l k cd s g h => qr_ready hS i0 j0 l k cd h
  case ready_inv => exact fun l s g h => h.1
  case lanczos1 =>
    intro m s g h
    exact ⟨(hm.lanczos1 m _ _ h.rep).1, h⟩
  case lanczosN =>
    intro m k s g h
    obtain ⟨h1, h2⟩ := hm.lanczosN m k _ _ h.rep
    refine ⟨h1, ?_, fun i j => ?_, h.locked⟩
    · show Mpi.Rep (view E (lift E _ s)) _
      rw [view_lift]
      · exact h2
      · intro s i j; rfl
    · exact (put_dH _ _ _).trans ((h.mat i j).trans (put_hostH _ _ _).symm)
  case lanczosDos =>
    intro i m z s g h
    refine ⟨?_, fun i j => ?_, h.locked⟩
    · show Mpi.Rep (view E (lift E _ s)) _
      rw [view_lift]
      · exact hm.lanczosDos i m z _ _ h.rep
      · intro s i j; rfl
    · exact (put_dH _ _ _).trans ((h.mat i j).trans (put_hostH _ _ _).symm)
  case shiftIn =>
    intro l x s g hl h
    refine ⟨?_, fun i j => ?_, h.locked⟩
    · show Mpi.Rep (view E (shift _ s)) _
      rw [shift_view]
      exact Mpi.shift_rep (E := E.mpi) h.rep _ false
    · show shiftDev (r.tab i) (c.tab j) _ (s i j).dH = _
      rw [shiftDev_eq, h.mat i j, RCLike.ofReal_neg]
      rfl
  case first =>
    intro l x y s g hl h
    obtain ⟨h1, h2⟩ := hemm_step h i0 j0 (E.mpi.base.nevex - l) y 0 0 (Or.inl rfl)
    rw [show l + 0 + (E.mpi.base.nevex - l) = E.mpi.base.nevex by omega] at h2
    exact ⟨h1, h2⟩
  case prod =>
    intro l x a m y z s g hl ha h
    obtain ⟨h1, h2⟩ := hemm_step h.1 i0 j0 (E.mpi.base.nevex - l - a) y z a (Or.inr (by
      rw [show l + a + (E.mpi.base.nevex - l - a) = E.mpi.base.nevex by omega]
      exact h.2))
    rw [show l + a + (E.mpi.base.nevex - l - a) = E.mpi.base.nevex by omega] at h2
    exact ⟨h1, h2⟩
  case nest_mono =>
    intro l x a b m s g _ hab _ h
    exact ⟨h.1, fun ha hn i j => (h.2.C ha hn i j).mono (by omega) le_rfl,
      fun ha hn i j => (h.2.B ha hn i j).mono (by omega) le_rfl⟩
  case shiftOut =>
    intro l x a m s g _ _ _ h
    refine ⟨?_, fun i j => ?_, h.1.locked⟩
    · show Mpi.Rep (view E (shift _ s)) _
      rw [shift_view]
      exact Mpi.shift_rep (E := E.mpi) h.1.rep _ true
    · show shiftDev (r.tab i) (c.tab j) _ (s i j).dH = (s i j).host.H
      rw [shiftDev_eq, h.1.mat i j]
      exact shiftLocal_back i j _ _
  case rr =>
    rintro l s g hl ⟨h, hr⟩
    obtain ⟨v1, v2, v3, v4, v5, v6⟩ := rr_view (E := E) (s := s) l (E.mpi.base.nevex - l) (by omega) (by
      rw [show l + (E.mpi.base.nevex - l) = E.mpi.base.nevex by omega]; exact hr)
    obtain ⟨m1, m2⟩ := hm.rr (E.mpi.base.nevex - l) _ _ h.rep
    have e : (opsAt E i0 j0).rr (E.mpi.base.nevex - l) s =
        ((rr E (E.mpi.base.nevex - l) (fun _ _ => l) s).1 i0 j0,
          (rr E (E.mpi.base.nevex - l) (fun _ _ => l) s).2) := by
      rw [← hlk h]; rfl
    have e' : (Mpi.opsAt E.mpi i0 j0).rr (E.mpi.base.nevex - l) (view E s) =
        ((Mpi.rr E.mpi (E.mpi.base.nevex - l) (fun _ _ => l) (view E s)).1 i0 j0,
          (Mpi.rr E.mpi (E.mpi.base.nevex - l) (fun _ _ => l) (view E s)).2) := by
      rw [← hlk' h]; rfl
    have hall : ∀ i j, (rr E (E.mpi.base.nevex - l) (fun _ _ => l) s).1 i j =
        (rr E (E.mpi.base.nevex - l) (fun _ _ => l) s).1 i0 j0 := by
      intro i j
      rw [v1]
      have := Mpi.rr_rep (E := E.mpi) hc h.rep (E.mpi.base.nevex - l)
      rw [hlk' h] at this
      rw [this.1, this.1]
    rw [e]
    rw [e'] at m1 m2
    refine ⟨?_, ⟨?_, fun i j => ?_, h.locked⟩, ?_, ?_⟩
    · rw [v1]; exact m1
    · rw [v2]; exact m2
    · rw [v3, v4]; exact h.mat i j
    · rw [show l + (E.mpi.base.nevex - l) = E.mpi.base.nevex by omega] at v6
      exact v6
    · intro ha i j t ht
      rw [v5 i j t ht, hall]
  case resd =>
    rintro f v l s g hl hf ⟨h, h1, h2⟩
    obtain ⟨v1, v2, v3, v4, v5, v6⟩ := resd_view (E := E) (s := s) f l l (by
      rw [show l + (E.mpi.base.nevex - l) = E.mpi.base.nevex by omega]; exact h1) (by
      intro ha i j t ht
      rw [h2 ha i j t ht, hf t ht])
    obtain ⟨m1, m2⟩ := hm.resd f l _ _ h.rep
    have e : (opsAt E i0 j0).resd f l s = ((resd E f l (fun _ _ => l) s).1 i0 j0,
          (resd E f l (fun _ _ => l) s).2) := by
      show ((resd E f l (fun i j => (s i j).host.locked) s).1 i0 j0,
        (resd E f l (fun i j => (s i j).host.locked) s).2) = _
      rw [hlk h]
    have e' : (Mpi.opsAt E.mpi i0 j0).resd f l (view E s) =
        ((Mpi.resd E.mpi f l (fun _ _ => l) (view E s)).1 i0 j0,
          (Mpi.resd E.mpi f l (fun _ _ => l) (view E s)).2) := by
      show ((Mpi.resd E.mpi f l (fun i j => (view E s i j).locked) (view E s)).1 i0 j0,
        (Mpi.resd E.mpi f l (fun i j => (view E s i j).locked) (view E s)).2) = _
      rw [hlk' h]
    rw [e]
    rw [e'] at m1 m2
    have hloc : ((refOps (E.mpi.glob r) E.aware).resd f l g).2.locked = l := by
      show (if E.aware then _ else _ : Mpi.GSt K N).locked = l
      cases E.aware
      · show (Seq.resd _ _ _ g.toSt).2.locked = l
        rw [Mpi.seq_resd_eq]
        exact h.locked
      · exact h.locked
    refine ⟨?_, ⟨?_, fun i j => ?_, hloc⟩, ?_, ?_⟩
    · rw [v1]; exact m1
    · rw [v2]
      show Mpi.Rep _ (if E.aware then _ else _)
      cases E.aware
      · exact m2
      · have := Mpi.gather_rep (E := E.mpi) hc h.rep l (E.mpi.base.nevex - l)
        show Mpi.Rep (Mpi.asynCxHGatherC _ _ _ _) { g with toSt := Seq.asynCxHGatherC g.locked _ _ }
        rw [h.locked]
        exact this
    · rw [v3, v4]; exact h.mat i j
    · rw [show l + (E.mpi.base.nevex - l) = E.mpi.base.nevex by omega] at v6
      exact v6
    · intro ha i j t ht
      rw [v5]
      exact h2 ha i j t ht
  case lock =>
    rintro l v k s g ⟨h, -, -⟩
    have e : view E ((opsAt E i0 j0).lock k s) = (Mpi.opsAt E.mpi i0 j0).lock k (view E s) := by
      funext i j
      show GProc.work _ _ = { view E s i j with locked := (view E s i j).locked + k }
      unfold view
      cases E.aware <;> rfl
    refine ⟨?_, h.mat, ?_⟩
    · rw [e]
      exact hm.lock k _ _ h.rep
    · show g.locked + k = l + k
      rw [h.locked]
  case swap_inv =>
    intro l a b s g h
    refine ⟨?_, fun i j => ?_, h.locked⟩
    · show Mpi.Rep (view E (lift E _ s)) _
      rw [view_lift]
      · exact hm.swap a b _ _ h.rep
      · intro s i j; rfl
    · exact (put_dH _ _ _).trans ((h.mat i j).trans (put_hostH _ _ _).symm)
  case swap_synced =>
    rintro l v a b s g ⟨h, h1, h2⟩
    refine ⟨⟨?_, fun i j => ?_, h.locked⟩, ?_, ?_⟩
    · show Mpi.Rep (view E (lift E _ s)) _
      rw [view_lift]
      · exact hm.swap a b _ _ h.rep
      · intro s i j; rfl
    · exact (put_dH _ _ _).trans ((h.mat i j).trans (put_hostH _ _ _).symm)
    · intro ha i j
      show EqOn _ _ (lift E (Mpi.swap a b) s i j).dC (lift E (Mpi.swap a b) s i j).host.C
      unfold lift
      rw [Mpi.swap_eq]
      have := h1 ha i j
      obtain ⟨mpi, aware, cd⟩ := E
      dsimp only at ha
      subst ha
      exact this
    · intro ha i j t ht
      exact (congrFun (put_dRitz _ _ _) t).trans (h2 ha i j t ht)
  case finish =>
    intro l s g h
    have e : pview E ((opsAt E i0 j0).finish s) = pview E s := by
      funext i j
      obtain ⟨mpi, aware, cd⟩ := E
      cases aware <;> rfl
    show Mpi.Rep (pview E _) g
    rw [e, h.pview_eq]
    exact h.rep

end Mgpu
end Verif
