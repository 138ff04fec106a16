/-
Kernels without barriers: races and final memory of the copy, shift and random number kernels.
-/
import Verif.Gpu.Model
import Verif.Dist.FileProof

namespace Verif
namespace Gpu

section
variable {α V : Type*}

theorem pairwise_range {R : ℕ → ℕ → Prop} {n : ℕ} (h : ∀ i j, i < j → j < n → R i j) :
    (List.range n).Pairwise R :=
  List.Pairwise.imp_of_mem (fun {a b} _ hb hab => h a b hab (List.mem_range.1 hb)) List.pairwise_lt_range

/-- Sufficient for the absence of races: jobs between two barriers write different cells, a job reads no cell
written by another one, and every cell is either read only or belongs to one block. -/
theorem raceFree_of {K : Kernel α V} (own : α → ℕ) (ro : α → Prop)
    (hpair : ∀ b < K.blocks, ∀ ph ∈ K.body b, ph.Pairwise fun x y => x.dst ≠ y.dst)
    (hself : ∀ b < K.blocks, ∀ ph ∈ K.body b, ∀ x ∈ ph, ∀ y ∈ ph, x.dst ∈ y.reads → x.dst = y.dst)
    (hown : ∀ b < K.blocks, ∀ ph ∈ K.body b, ∀ x ∈ ph, own x.dst = b ∧ ¬ ro x.dst ∧
      ∀ r ∈ x.reads, ro r ∨ own r = b) : RaceFree K where
  within := by
    intro b hb ph hph i j x y hi hj hij
    have hne : x.dst ≠ y.dst := by
      have hp := List.pairwise_iff_getElem.1 (hpair b hb ph hph)
      obtain ⟨hi1, rfl⟩ := List.getElem?_eq_some_iff.1 hi
      obtain ⟨hj1, rfl⟩ := List.getElem?_eq_some_iff.1 hj
      rcases Nat.lt_or_gt_of_ne hij with h | h
      · exact hp i j hi1 hj1 h
      · exact (hp j i hj1 hi1 h).symm
    exact ⟨hne, fun hr => hne (hself b hb ph hph x (List.mem_of_getElem? hi) y (List.mem_of_getElem? hj) hr)⟩
  across := by
    intro b hb b' hb' hbb ph hph ph' hph' x hx y hy
    obtain ⟨h1, h2, -⟩ := hown b hb ph hph x hx
    obtain ⟨h3, -, h4⟩ := hown b' hb' ph' hph' y hy
    refine ⟨fun h => hbb (h1.symm.trans ((congrArg own h).trans h3)), fun h => ?_⟩
    rcases h4 _ h with h5 | h5
    · exact h2 h5
    · exact hbb (h1.symm.trans h5)

variable [DecidableEq α]

theorem single_written {K : Kernel α V} {mem mem' : α → V} (hK : RaceFree K) (h : Runs K mem mem') {b : ℕ}
    (hb : b < K.blocks) {ph : List (Job α V)} (hbody : K.body b = [ph]) {x : Job α V} (hx : x ∈ ph) :
    mem' x.dst = x.op (x.reads.map mem) := by
  have hph : ph ∈ K.body b := hbody ▸ List.mem_singleton.2 rfl
  rw [(runs_unique hK h).1 b hb x.dst ⟨ph, hph, x, hx, rfl⟩, hbody]
  obtain ⟨j, hj⟩ := List.mem_iff_getElem?.1 hx
  exact runPhase_mem hj fun i y hi hij => (hK.within b hb ph hph i j y x hi hj hij).1

/-- Launches that read only cells nobody writes, and write to every cell the value `W`. -/
theorem runsAll_spec (ro : α → Prop) (W : α → V) {Ks : List (Kernel α V)} {mem mem' : α → V}
    (hK : ∀ K ∈ Ks, RaceFree K)
    (hs : ∀ K ∈ Ks, ∀ b < K.blocks, ∃ ph, K.body b = [ph] ∧ ∀ x ∈ ph, ¬ ro x.dst ∧ (∀ r ∈ x.reads, ro r) ∧
      ∀ m : α → V, (∀ r, ro r → m r = mem r) → x.op (x.reads.map m) = W x.dst) (h : RunsAll Ks mem mem') (a : α) :
    ((∃ K ∈ Ks, ∃ b < K.blocks, WritesCell K b a) → mem' a = W a) ∧
      ((∀ K ∈ Ks, ∀ b < K.blocks, ¬ WritesCell K b a) → mem' a = mem a) := by
  have key : ∀ Ks' : List (Kernel α V), (∀ K ∈ Ks', K ∈ Ks) → ∀ m : α → V, (∀ r, ro r → m r = mem r) →
      RunsAll Ks' m mem' → ((∃ K ∈ Ks', ∃ b < K.blocks, WritesCell K b a) → mem' a = W a) ∧
      ((∀ K ∈ Ks', ∀ b < K.blocks, ¬ WritesCell K b a) → mem' a = m a) := by
    intro Ks'
    induction Ks' with
    | nil =>
      intro _ m _ h
      cases h
      exact ⟨fun ⟨K, hK, _⟩ => absurd hK List.not_mem_nil, fun _ => rfl⟩
    | cons K Ks' ih =>
      intro hsub m hm h
      cases h with
      | @cons _ _ _ m1 _ h1 h2 =>
        have hKin := hsub K List.mem_cons_self
        have hrf := hK K hKin
        have hro : ∀ r, ro r → m1 r = mem r := by
          intro r hr
          rw [← hm r hr]
          refine (runs_unique hrf h1).2 r fun b hb hw => ?_
          obtain ⟨ph, hph, x, hx, hxr⟩ := hw
          obtain ⟨ph', hb', hall⟩ := hs K hKin b hb
          rw [hb', List.mem_singleton] at hph
          subst hph
          exact (hall x hx).1 (hxr ▸ hr)
        obtain ⟨i1, i2⟩ := ih (fun K' hK' => hsub K' (List.mem_cons_of_mem _ hK')) m1 hro h2
        have hw : (∃ b < K.blocks, WritesCell K b a) → m1 a = W a := by
          rintro ⟨b, hb, ph, hph, x, hx, rfl⟩
          obtain ⟨ph', hb', hall⟩ := hs K hKin b hb
          rw [hb', List.mem_singleton] at hph
          subst hph
          rw [single_written hrf h1 hb hb' hx]
          exact (hall x hx).2.2 m hm
        by_cases hlater : ∃ K ∈ Ks', ∃ b < K.blocks, WritesCell K b a
        · refine ⟨fun _ => i1 hlater, fun hn => ?_⟩
          obtain ⟨K', hK', b, hb, hw'⟩ := hlater
          exact absurd hw' (hn K' (List.mem_cons_of_mem _ hK') b hb)
        · have e : mem' a = m1 a := i2 fun K' hK' b hb hw' => hlater ⟨K', hK', b, hb, hw'⟩
          refine ⟨?_, fun hn => ?_⟩
          · rintro ⟨K', hK', b, hb, hw'⟩
            rcases List.mem_cons.1 hK' with rfl | hK'
            · exact e.trans (hw ⟨b, hb, hw'⟩)
            · exact absurd ⟨K', hK', b, hb, hw'⟩ hlater
          · exact e.trans ((runs_unique hrf h1).2 a fun b hb => hn K List.mem_cons_self b hb)
  exact key Ks (fun _ h => h) mem (fun _ _ => rfl) h

theorem runsAll_exists {Ks : List (Kernel α V)} (hK : ∀ K ∈ Ks, RaceFree K) (mem : α → V) :
    ∃ mem', RunsAll Ks mem mem' := by
  induction Ks generalizing mem with
  | nil => exact ⟨mem, .nil mem⟩
  | cons K Ks ih =>
    obtain ⟨m1, h1⟩ := runs_exists (hK K List.mem_cons_self) mem
    obtain ⟨m2, h2⟩ := ih (fun K' hK' => hK K' (List.mem_cons_of_mem _ hK')) m1
    exact ⟨m2, .cons h1 h2⟩

end

section
variable {V : Type*} [Zero V]

/-! ### Shift -/

theorem shift_mem {add : V → V} {n b : ℕ} {ph : List (Job Cell V)} (hph : ph ∈ (shiftMatrix add n).body b)
    {x : Job Cell V} (hx : x ∈ ph) : ∃ i < n, i / blockDim = b ∧
      x = ⟨[.A (i * n + i)], .A (i * n + i), fun vs => add (vs.getD 0 0)⟩ := by
  simp only [shiftMatrix, List.mem_singleton] at hph
  subst hph
  obtain ⟨tx, htx, h⟩ := List.mem_filterMap.1 hx
  rw [List.mem_range] at htx
  split_ifs at h with hlt
  refine ⟨b * blockDim + tx, hlt, ?_, ?_⟩
  · unfold blockDim at *
    omega
  · simpa using h.symm

theorem shift_job {add : V → V} {n i : ℕ} (hi : i < n) : i / blockDim < (shiftMatrix add n).blocks ∧
    ∃ ph, (shiftMatrix add n).body (i / blockDim) = [ph] ∧
      (⟨[.A (i * n + i)], .A (i * n + i), fun vs => add (vs.getD 0 0)⟩ : Job Cell V) ∈ ph := by
  constructor
  · show i / blockDim < (n + (blockDim - 1)) / blockDim
    unfold blockDim
    omega
  · refine ⟨_, rfl, List.mem_filterMap.2 ⟨i % blockDim, List.mem_range.2 (Nat.mod_lt _ (by decide)), ?_⟩⟩
    have e : i / blockDim * blockDim + i % blockDim = i := Nat.div_add_mod' _ _
    simp only [e, if_pos hi]

theorem diag_inj {n i j : ℕ} (h : i * n + i = j * n + j) : i = j := by
  have h : i * (n + 1) = j * (n + 1) := by linarith
  exact Nat.eq_of_mul_eq_mul_right (by omega) h

theorem shift_raceFree (add : V → V) (n : ℕ) : RaceFree (shiftMatrix add n) := by
  refine raceFree_of (fun a => match a with
    | .A x => x / (n + 1) / blockDim
    | _ => 0) (fun _ => False) ?_ ?_ ?_
  · intro b _ ph hph
    simp only [shiftMatrix, List.mem_singleton] at hph
    subst hph
    rw [List.pairwise_filterMap]
    refine pairwise_range fun i j hij _ x hx y hy => ?_
    split_ifs at hx with h1
    · split_ifs at hy with h2
      · cases hx
        cases hy
        intro h
        injection h with h
        have := diag_inj h
        omega
  · intro b _ ph hph x hx y hy hr
    obtain ⟨i, -, -, rfl⟩ := shift_mem hph hx
    obtain ⟨j, -, -, rfl⟩ := shift_mem hph hy
    exact List.mem_singleton.1 hr
  · intro b _ ph hph x hx
    obtain ⟨i, hi, hib, rfl⟩ := shift_mem hph hx
    have e : (i * n + i) / (n + 1) / blockDim = b := by
      rw [show i * n + i = i * (n + 1) by ring, Nat.mul_div_cancel _ (by omega), hib]
    refine ⟨e, id, fun r hr => .inr ?_⟩
    rw [List.mem_singleton.1 hr]
    exact e

/-! ### Shift of a distributed matrix -/

theorem shiftMgpu_mem {add : V → V} {offs : List (ℕ × ℕ)} {ld b : ℕ} {ph : List (Job Cell V)}
    (hph : ph ∈ (shiftMgpu add offs ld).body b) {x : Job Cell V} (hx : x ∈ ph) :
    ∃ (i : ℕ) (o : ℕ × ℕ), offs[i]? = some o ∧ i / blockDim = b ∧
      x = ⟨[.A (o.2 * ld + o.1)], .A (o.2 * ld + o.1), fun vs => add (vs.getD 0 0)⟩ := by
  simp only [shiftMgpu, List.mem_singleton] at hph
  subst hph
  obtain ⟨tx, htx, h⟩ := List.mem_filterMap.1 hx
  rw [List.mem_range] at htx
  cases ho : offs[b * blockDim + tx]? with
  | none => simp [ho] at h
  | some o =>
    refine ⟨b * blockDim + tx, o, ho, ?_, ?_⟩
    · unfold blockDim at *
      omega
    · simp only [ho] at h
      simpa using h.symm

theorem shiftMgpu_job {add : V → V} {offs : List (ℕ × ℕ)} {ld i : ℕ} {o : ℕ × ℕ} (ho : offs[i]? = some o) :
    i / blockDim < (shiftMgpu add offs ld).blocks ∧ ∃ ph, (shiftMgpu add offs ld).body (i / blockDim) = [ph] ∧
      (⟨[.A (o.2 * ld + o.1)], .A (o.2 * ld + o.1), fun vs => add (vs.getD 0 0)⟩ : Job Cell V) ∈ ph := by
  have hi := (List.getElem?_eq_some_iff.1 ho).1
  constructor
  · show i / blockDim < if (offs.length + blockDim - 1) / blockDim = 0 then 1 else _
    unfold blockDim
    split_ifs <;> omega
  · refine ⟨_, rfl, List.mem_filterMap.2 ⟨i % blockDim, List.mem_range.2 (Nat.mod_lt _ (by decide)), ?_⟩⟩
    have e : i / blockDim * blockDim + i % blockDim = i := Nat.div_add_mod' _ _
    simp only [e, ho]

theorem shiftMgpu_raceFree (add : V → V) {offs : List (ℕ × ℕ)} {ld : ℕ}
    (hnd : (offs.map fun o => o.2 * ld + o.1).Nodup) : RaceFree (shiftMgpu add offs ld) := by
  have hinj : ∀ (i j : ℕ) (o o' : ℕ × ℕ), offs[i]? = some o → offs[j]? = some o' →
      o.2 * ld + o.1 = o'.2 * ld + o'.1 → i = j := by
    intro i j o o' hi hj h
    obtain ⟨hi1, rfl⟩ := List.getElem?_eq_some_iff.1 hi
    obtain ⟨hj1, rfl⟩ := List.getElem?_eq_some_iff.1 hj
    refine (List.Nodup.getElem_inj_iff hnd (hi := by simpa using hi1) (hj := by simpa using hj1)).1 ?_
    simpa using h
  refine raceFree_of (fun a => match a with
    | .A x => (offs.map fun o => o.2 * ld + o.1).idxOf x / blockDim
    | _ => 0) (fun _ => False) ?_ ?_ ?_
  · intro b _ ph hph
    simp only [shiftMgpu, List.mem_singleton] at hph
    subst hph
    rw [List.pairwise_filterMap]
    refine pairwise_range fun i j hij _ x hx y hy => ?_
    cases h1 : offs[b * blockDim + i]? with
    | none => simp [h1] at hx
    | some o =>
      cases h2 : offs[b * blockDim + j]? with
      | none => simp [h2] at hy
      | some o' =>
        simp only [h1, Option.some.injEq] at hx
        simp only [h2, Option.some.injEq] at hy
        subst hx
        subst hy
        intro h
        injection h with h
        have := hinj _ _ _ _ h1 h2 h
        omega
  · intro b _ ph hph x hx y hy hr
    obtain ⟨i, o, -, -, rfl⟩ := shiftMgpu_mem hph hx
    obtain ⟨j, o', -, -, rfl⟩ := shiftMgpu_mem hph hy
    exact List.mem_singleton.1 hr
  · intro b _ ph hph x hx
    obtain ⟨i, o, ho, hib, rfl⟩ := shiftMgpu_mem hph hx
    have e : (offs.map fun o => o.2 * ld + o.1).idxOf (o.2 * ld + o.1) / blockDim = b := by
      obtain ⟨hi1, rfl⟩ := List.getElem?_eq_some_iff.1 ho
      have hlen : i < (offs.map fun o => o.2 * ld + o.1).length := by simpa using hi1
      have := List.Nodup.idxOf_getElem hnd i hlen
      rw [List.getElem_map] at this
      rw [this, hib]
    refine ⟨e, id, fun r hr => .inr ?_⟩
    rw [List.mem_singleton.1 hr]
    exact e

/-! ### Random numbers -/

theorem strided_eq {step m : ℕ} (hstep : 0 < step) (fuel : ℕ) : ∀ i, m ≤ i + fuel * step →
    strided step m fuel i = (List.range ((m - i + step - 1) / step)).map fun k => i + k * step := by
  induction fuel with
  | zero =>
    intro i hi
    have e : (m - i + step - 1) / step = 0 := Nat.div_eq_of_lt (by omega)
    rw [e]
    rfl
  | succ fuel ih =>
    intro i hi
    unfold strided
    split_ifs with h
    · rw [ih (i + step) (by rw [Nat.add_mul] at hi; omega)]
      have e : (m - i + step - 1) / step = (m - (i + step) + step - 1) / step + 1 := by
        rw [← Nat.add_div_right _ hstep]
        by_cases hc : i + step ≤ m
        · congr 1
          omega
        · have h1 : (m - i + step - 1) / step = 1 := Nat.div_eq_of_lt_le (by omega) (by omega)
          have h2 : (m - (i + step) + step - 1 + step) / step = 1 := Nat.div_eq_of_lt_le (by omega) (by omega)
          rw [h1, h2]
      rw [e, List.range_succ_eq_map, List.map_cons, List.map_map]
      congr 1
      · omega
      · refine List.map_congr_left fun k _ => ?_
        simp only [Function.comp]
        rw [Nat.succ_mul]
        omega
    · have e : (m - i + step - 1) / step = 0 := Nat.div_eq_of_lt (by omega)
      rw [e]
      rfl

theorem mem_strided_idx {step m t : ℕ} (hstep : 0 < step) {k i : ℕ} :
    (strided step m m t)[k]? = some i ↔ i = t + k * step ∧ i < m := by
  have hlt : k < (m - t + step - 1) / step ↔ t + k * step < m := by
    rw [Nat.lt_iff_add_one_le, Nat.le_div_iff_mul_le hstep, Nat.add_mul]
    omega
  rw [strided_eq hstep m t (by have := Nat.le_mul_of_pos_right m hstep; omega), List.getElem?_map]
  by_cases h : k < (m - t + step - 1) / step
  · rw [List.getElem?_range h]
    have h' := hlt.1 h
    simp only [Option.map_some, Option.some.injEq]
    constructor
    · rintro rfl
      exact ⟨rfl, h'⟩
    · rintro ⟨rfl, -⟩
      rfl
  · rw [List.getElem?_eq_none (by simpa using Nat.le_of_not_lt h)]
    have h' := fun hc => h (hlt.2 hc)
    simp only [Option.map_none, false_iff, reduceCtorEq]
    rintro ⟨rfl, hc⟩
    exact h' hc

omit [Zero V] in
theorem normal_mem {draw : ℕ → ℕ → V} {n b : ℕ} {ph : List (Job Cell V)} (hph : ph ∈ (randNormal draw n).body b)
    {x : Job Cell V} (hx : x ∈ ph) : ∃ i < n, i % (gridDim * blockDim) / blockDim = b % gridDim ∧
      (b < gridDim → x = ⟨[], .out i, fun _ => draw (i % (gridDim * blockDim)) (i / (gridDim * blockDim))⟩) := by
  simp only [randNormal, List.mem_singleton] at hph
  subst hph
  obtain ⟨tx, htx, h⟩ := List.mem_flatMap.1 hx
  rw [List.mem_range] at htx
  obtain ⟨k, hk, h⟩ := List.mem_mapIdx.1 h
  have hg : (strided (gridDim * blockDim) n n (b * blockDim + tx))[k]? = some _ := List.getElem?_eq_getElem hk
  obtain ⟨h1, h2⟩ := (mem_strided_idx (by decide)).1 hg
  refine ⟨_, h2, ?_, fun hb => ?_⟩
  · rw [h1]
    unfold gridDim blockDim at *
    omega
  · rw [← h]
    have e1 : (b * blockDim + tx + k * (gridDim * blockDim)) % (gridDim * blockDim) = b * blockDim + tx := by
      unfold gridDim blockDim at *
      omega
    have e2 : (b * blockDim + tx + k * (gridDim * blockDim)) / (gridDim * blockDim) = k := by
      unfold gridDim blockDim at *
      omega
    rw [h1, e1, e2]

omit [Zero V] in
theorem normal_job {draw : ℕ → ℕ → V} {n i : ℕ} (hi : i < n) :
    i % (gridDim * blockDim) / blockDim < (randNormal draw n).blocks ∧
    ∃ ph, (randNormal draw n).body (i % (gridDim * blockDim) / blockDim) = [ph] ∧
      (⟨[], .out i, fun _ => draw (i % (gridDim * blockDim)) (i / (gridDim * blockDim))⟩ : Job Cell V) ∈ ph := by
  constructor
  · show i % (gridDim * blockDim) / blockDim < gridDim
    unfold gridDim blockDim
    omega
  · refine ⟨_, rfl, List.mem_flatMap.2 ⟨i % blockDim, List.mem_range.2 (Nat.mod_lt _ (by decide)), ?_⟩⟩
    have e : i % (gridDim * blockDim) / blockDim * blockDim + i % blockDim = i % (gridDim * blockDim) := by
      unfold gridDim blockDim
      omega
    rw [e]
    have hg : (strided (gridDim * blockDim) n n (i % (gridDim * blockDim)))[i / (gridDim * blockDim)]? = some i := by
      refine (mem_strided_idx (by decide)).2 ⟨?_, hi⟩
      unfold gridDim blockDim
      omega
    obtain ⟨hk, he⟩ := List.getElem?_eq_some_iff.1 hg
    exact List.mem_mapIdx.2 ⟨_, hk, by rw [he]⟩

omit [Zero V] in
theorem normal_raceFree (draw : ℕ → ℕ → V) (n : ℕ) : RaceFree (randNormal draw n) := by
  refine raceFree_of (fun a => match a with
    | .out i => i % (gridDim * blockDim) / blockDim
    | _ => 0) (fun _ => False) ?_ ?_ ?_
  · intro b _ ph hph
    simp only [randNormal, List.mem_singleton] at hph
    subst hph
    rw [List.pairwise_flatMap]
    constructor
    · intro tx _
      rw [List.pairwise_iff_getElem]
      intro k k' hk hk' hkk
      rw [List.length_mapIdx] at hk hk'
      have h1 := ((mem_strided_idx (by decide)).1 (List.getElem?_eq_getElem hk)).1
      have h2 := ((mem_strided_idx (by decide)).1 (List.getElem?_eq_getElem hk')).1
      simp only [List.getElem_mapIdx]
      intro h
      injection h with h
      rw [h1, h2] at h
      unfold gridDim blockDim at h
      omega
    · refine pairwise_range fun i j hij hj x hx y hy => ?_
      obtain ⟨k, hk, rfl⟩ := List.mem_mapIdx.1 hx
      obtain ⟨k', hk', rfl⟩ := List.mem_mapIdx.1 hy
      have h1 := ((mem_strided_idx (by decide)).1 (List.getElem?_eq_getElem hk)).1
      have h2 := ((mem_strided_idx (by decide)).1 (List.getElem?_eq_getElem hk')).1
      intro h
      injection h with h
      rw [h1, h2] at h
      unfold gridDim blockDim at *
      omega
  · intro b hb ph hph x hx y hy hr
    obtain ⟨i, -, -, h⟩ := normal_mem hph hy
    rw [h hb] at hr
    exact absurd hr List.not_mem_nil
  · intro b hb ph hph x hx
    obtain ⟨i, -, h1, h⟩ := normal_mem hph hx
    rw [h hb]
    refine ⟨h1.trans (Nat.mod_eq_of_lt hb), id, fun r hr => absurd hr List.not_mem_nil⟩

/-! ### Copy -/

/-- The entries that are copied, by their row and column. -/
def Tri.keeps (k : Tri) (r c : ℕ) : Prop :=
  match k with
  | .full => True
  | .upper => c ≤ r
  | .lower => r ≤ c

theorem Tri.copies_iff (k : Tri) {r iby j : ℕ} (hj : j < blk) : k.copies r iby j = true ↔ k.keeps r (iby + j) := by
  cases k
  · simp [Tri.copies, Tri.keeps]
  · simp only [Tri.copies, Tri.keeps, decide_eq_true_eq]
    omega
  · simp only [Tri.copies, Tri.keeps, decide_eq_true_eq]
    omega

open Classical in
/-- The job for one entry. -/
noncomputable def copyJob (k : Tri) (offA ldda offB lddb r c : ℕ) : Job Cell V :=
  if k.keeps r c then ⟨[.A (offA + (r + c * ldda))], .out (offB + (r + c * lddb)), fun vs => vs.getD 0 0⟩
  else ⟨[], .out (offB + (r + c * lddb)), fun _ => 0⟩

theorem copyJob_dst (k : Tri) (offA ldda offB lddb r c : ℕ) :
    (copyJob k offA ldda offB lddb r c : Job Cell V).dst = .out (offB + (r + c * lddb)) := by
  unfold copyJob
  split_ifs <;> rfl

theorem copyJob_reads {k : Tri} {offA ldda offB lddb r c : ℕ} {a : Cell}
    (ha : a ∈ (copyJob k offA ldda offB lddb r c : Job Cell V).reads) : ∃ i, a = .A i := by
  unfold copyJob at ha
  split_ifs at ha
  · exact ⟨_, List.mem_singleton.1 ha⟩
  · exact absurd ha List.not_mem_nil

theorem copyJob_eq (k : Tri) {offA ldda offB lddb r iby j : ℕ} (hj : j < blk) :
    (if k.copies r iby j then
        (⟨[.A (offA + (r + iby * ldda) + j * ldda)], .out (offB + (r + iby * lddb) + j * lddb),
          fun vs => vs.getD 0 0⟩ : Job Cell V)
      else ⟨[], .out (offB + (r + iby * lddb) + j * lddb), fun _ => 0⟩) =
    copyJob k offA ldda offB lddb r (iby + j) := by
  have e : ∀ o ld : ℕ, o + (r + iby * ld) + j * ld = o + (r + (iby + j) * ld) := by
    intro o ld
    rw [Nat.add_mul]
    omega
  unfold copyJob
  rw [e, e]
  by_cases h : k.keeps r (iby + j)
  · rw [if_pos h, if_pos ((Tri.copies_iff k hj).2 h)]
  · rw [if_neg h, if_neg fun hc => h ((Tri.copies_iff k hj).1 hc)]

theorem lacpy_mem {k : Tri} {m n offA ldda offB lddb gx gy b : ℕ} {ph : List (Job Cell V)}
    (hph : ph ∈ (lacpyKernel k m n offA ldda offB lddb gx gy).body b) {x : Job Cell V} (hx : x ∈ ph) :
    ∃ r c, r < m ∧ c < n ∧ r / blk = b % gx ∧ c / blk = b / gx ∧ x = copyJob k offA ldda offB lddb r c := by
  simp only [lacpyKernel, List.mem_singleton] at hph
  subst hph
  obtain ⟨tx, htx, h⟩ := List.mem_flatMap.1 hx
  rw [List.mem_range] at htx
  split_ifs at h with hm
  · obtain ⟨j, hj, h⟩ := List.mem_filterMap.1 h
    rw [List.mem_range] at hj
    rw [copyJob_eq k hj] at h
    split_ifs at h with hn
    refine ⟨b % gx * blk + tx, b / gx * blk + j, hm, by omega, ?_, ?_, by simpa using h.symm⟩
    · rw [Nat.mul_comm, Nat.mul_add_div (by decide), Nat.div_eq_of_lt htx, Nat.add_zero]
    · rw [Nat.mul_comm, Nat.mul_add_div (by decide), Nat.div_eq_of_lt hj, Nat.add_zero]
  · exact absurd h List.not_mem_nil

theorem lacpy_job {k : Tri} {m n offA ldda offB lddb r c : ℕ} (hr : r < m) (hc : c < n) :
    ∃ b < (lacpyKernel (V := V) k m n offA ldda offB lddb ((m + blk - 1) / blk) ((n + blk - 1) / blk)).blocks,
      ∃ ph, (lacpyKernel k m n offA ldda offB lddb ((m + blk - 1) / blk) ((n + blk - 1) / blk)).body b = [ph] ∧
        (copyJob k offA ldda offB lddb r c : Job Cell V) ∈ ph := by
  have hx : r / blk < (m + blk - 1) / blk := by
    unfold blk
    omega
  have hy : c / blk < (n + blk - 1) / blk := by
    unfold blk
    omega
  obtain ⟨e1, e2⟩ := Dist.flat_div (j := c / blk) hx
  refine ⟨r / blk + c / blk * ((m + blk - 1) / blk), Dist.flat_lt hx hy, _, rfl, ?_⟩
  refine List.mem_flatMap.2 ⟨r % blk, List.mem_range.2 (Nat.mod_lt _ (by decide)), ?_⟩
  rw [e1, e2]
  have e3 : r / blk * blk + r % blk = r := Nat.div_add_mod' _ _
  have e4 : c / blk * blk + c % blk = c := Nat.div_add_mod' _ _
  have hj : c % blk < blk := Nat.mod_lt _ (by decide)
  simp only [e3, if_pos hr]
  refine List.mem_filterMap.2 ⟨c % blk, List.mem_range.2 hj, ?_⟩
  rw [copyJob_eq k hj, e4, if_pos (.inr hc)]

theorem lacpy_raceFree (k : Tri) {m n offA ldda offB lddb gx gy : ℕ} (hld : m ≤ lddb) :
    RaceFree (lacpyKernel (V := V) k m n offA ldda offB lddb gx gy) := by
  refine raceFree_of (fun a => match a with
    | .out x => (x - offB) % lddb / blk + (x - offB) / lddb / blk * gx
    | _ => 0) (fun a => ∃ i, a = .A i) ?_ ?_ ?_
  · intro b _ ph hph
    simp only [lacpyKernel, List.mem_singleton] at hph
    subst hph
    rw [List.pairwise_flatMap]
    constructor
    · intro tx _
      split_ifs with hm
      · rw [List.pairwise_filterMap]
        refine pairwise_range fun i j hij hj x hx y hy => ?_
        rw [copyJob_eq k (by omega)] at hx
        rw [copyJob_eq k hj] at hy
        split_ifs at hx with h1
        split_ifs at hy with h2
        cases hx
        cases hy
        rw [copyJob_dst, copyJob_dst]
        intro h
        injection h with h
        have := (Dist.flat_inj (N := lddb) (by omega) (by omega) (Nat.add_left_cancel h)).2
        omega
      · exact List.Pairwise.nil
    · refine pairwise_range fun i j hij hj x hx y hy => ?_
      split_ifs at hx with h1
      · split_ifs at hy with h2
        · obtain ⟨p, hp, hx⟩ := List.mem_filterMap.1 hx
          obtain ⟨q, hq, hy⟩ := List.mem_filterMap.1 hy
          rw [List.mem_range] at hp hq
          rw [copyJob_eq k hp] at hx
          rw [copyJob_eq k hq] at hy
          split_ifs at hx
          split_ifs at hy
          cases hx
          cases hy
          rw [copyJob_dst, copyJob_dst]
          intro h
          injection h with h
          have := (Dist.flat_inj (N := lddb) (by omega) (by omega) (Nat.add_left_cancel h)).1
          omega
        · exact absurd hy List.not_mem_nil
      · exact absurd hx List.not_mem_nil
  · intro b _ ph hph x hx y hy hr
    obtain ⟨r, c, -, -, -, -, rfl⟩ := lacpy_mem hph hx
    obtain ⟨r', c', -, -, -, -, rfl⟩ := lacpy_mem hph hy
    rw [copyJob_dst] at hr
    unfold copyJob at hr
    split_ifs at hr
    · simp at hr
    · simp at hr
  · intro b _ ph hph x hx
    obtain ⟨r, c, hr, hc, hrb, hcb, rfl⟩ := lacpy_mem hph hx
    rw [copyJob_dst]
    refine ⟨?_, fun ⟨i, hi⟩ => Cell.noConfusion hi, ?_⟩
    · show (offB + (r + c * lddb) - offB) % lddb / blk + (offB + (r + c * lddb) - offB) / lddb / blk * gx = b
      obtain ⟨e1, e2⟩ := Dist.flat_div (i := r) (j := c) (m := lddb) (by omega)
      rw [Nat.add_sub_cancel_left, e1, e2, hrb, hcb]
      exact Nat.mod_add_div' b gx
    · exact fun a ha => .inl (copyJob_reads ha)

/-- The number of rows (columns) the launches reach: the last super block is empty if the number of rows is a
multiple of the size of the super blocks. -/
def cut (S m : ℕ) : ℕ := if m % S = 0 then m - S else m

theorem cut_iff {S m r : ℕ} (hS : 0 < S) : r < cut S m ↔
    r / S < (m + S - 1) / S ∧ r % S < if r / S = (m + S - 1) / S - 1 then m % S else S := by
  obtain ⟨q, t, ht, rfl⟩ : ∃ q t, t < S ∧ m = S * q + t :=
    ⟨m / S, m % S, Nat.mod_lt _ hS, (Nat.div_add_mod m S).symm⟩
  obtain ⟨p, u, hu, rfl⟩ : ∃ p u, u < S ∧ r = S * p + u :=
    ⟨r / S, r % S, Nat.mod_lt _ hS, (Nat.div_add_mod r S).symm⟩
  have e1 : (S * p + u) / S = p := by rw [Nat.mul_add_div hS, Nat.div_eq_of_lt hu, Nat.add_zero]
  have e2 : (S * p + u) % S = u := by rw [Nat.mul_add_mod, Nat.mod_eq_of_lt hu]
  have e3 : (S * q + t) % S = t := by rw [Nat.mul_add_mod, Nat.mod_eq_of_lt ht]
  have e4 : (S * q + t + S - 1) / S = if t = 0 then q else q + 1 := by
    split_ifs with h
    · rw [h, show S * q + 0 + S - 1 = S * q + (S - 1) by omega, Nat.mul_add_div hS, Nat.div_eq_of_lt (by omega),
        Nat.add_zero]
    · rw [show S * q + t + S - 1 = S * q + (t - 1 + S) by omega, Nat.mul_add_div hS, Nat.add_div_right _ hS,
        Nat.div_eq_of_lt (by omega)]
  have hlt : ∀ {x y : ℕ}, x < y → S * x + S ≤ S * y := fun {x y} h => Nat.mul_le_mul_left S h
  unfold cut
  rw [e1, e2, e3, e4]
  by_cases h0 : t = 0
  · subst h0
    simp only [if_true, Nat.add_zero]
    constructor
    · intro h
      have h1 : p + 1 < q := by
        by_contra hc
        have := Nat.mul_le_mul_left S (Nat.le_of_not_lt hc)
        rw [Nat.mul_add] at this
        omega
      refine ⟨by omega, ?_⟩
      rw [if_neg (by omega)]
      exact hu
    · rintro ⟨h1, h2⟩
      split_ifs at h2 with h3
      · omega
      · have h4 : p + 1 < q := by omega
        have := hlt h4
        rw [Nat.mul_add] at this
        omega
  · simp only [h0, if_false, Nat.add_sub_cancel]
    constructor
    · intro h
      have h1 : p ≤ q := by
        by_contra hc
        have := hlt (Nat.lt_of_not_le hc)
        omega
      refine ⟨by omega, ?_⟩
      split_ifs with h3
      · subst h3
        omega
      · exact hu
    · rintro ⟨h1, h2⟩
      split_ifs at h2 with h3
      · subst h3
        omega
      · have := hlt (show p < q by omega)
        omega

/-- The entries copied by the launches for `uplo`. -/
def Keeps (S : ℕ) (uplo : Char) (r c : ℕ) : Prop :=
  (uplo = 'U' → r / S = c / S → c ≤ r) ∧ (uplo = 'L' → r / S = c / S → r ≤ c)

theorem super_addr (S ld i j r c : ℕ) : i * S + j * S * ld + (r + c * ld) = (i * S + r) + (j * S + c) * ld := by
  ring

theorem keeps_launch {S : ℕ} (hS : 0 < S) (uplo : Char) {i j r c : ℕ} (hr : r < S) (hc : c < S) :
    (if uplo = 'U' ∧ i = j then Tri.upper else if uplo = 'L' ∧ i = j then Tri.lower else .full).keeps r c ↔
      Keeps S uplo (i * S + r) (j * S + c) := by
  have e1 : (i * S + r) / S = i := by
    rw [Nat.mul_comm, Nat.mul_add_div hS, Nat.div_eq_of_lt hr, Nat.add_zero]
  have e2 : (j * S + c) / S = j := by
    rw [Nat.mul_comm, Nat.mul_add_div hS, Nat.div_eq_of_lt hc, Nat.add_zero]
  unfold Keeps
  rw [e1, e2]
  split_ifs with h1 h2
  · obtain ⟨rfl, rfl⟩ := h1
    simp [Tri.keeps]
  · obtain ⟨rfl, rfl⟩ := h2
    simp [Tri.keeps]
  · simp only [Tri.keeps, true_iff]
    exact ⟨fun hu hij => absurd ⟨hu, hij⟩ h1, fun hu hij => absurd ⟨hu, hij⟩ h2⟩

/-- The launch for super block `(i, j)`. -/
def superLaunch (S : ℕ) (uplo : Char) (m n ldda lddb i j : ℕ) : Kernel Cell V :=
  let mm := if i = (m + S - 1) / S - 1 then m % S else S
  let nn := if j = (n + S - 1) / S - 1 then n % S else S
  lacpyKernel (if uplo = 'U' ∧ i = j then Tri.upper else if uplo = 'L' ∧ i = j then Tri.lower else .full) mm nn
    (i * S + j * S * ldda) ldda (i * S + j * S * lddb) lddb ((mm + blk - 1) / blk) ((nn + blk - 1) / blk)

theorem mem_launches {S : ℕ} {uplo : Char} {m n ldda lddb : ℕ} {K : Kernel Cell V} :
    K ∈ lacpyLaunches S uplo m n ldda lddb ↔
      ∃ i < (m + S - 1) / S, ∃ j < (n + S - 1) / S, K = superLaunch S uplo m n ldda lddb i j := by
  simp only [lacpyLaunches, List.mem_flatMap, List.mem_map, List.mem_range]
  constructor
  · rintro ⟨i, hi, j, hj, rfl⟩
    exact ⟨i, hi, j, hj, rfl⟩
  · rintro ⟨i, hi, j, hj, rfl⟩
    exact ⟨i, hi, j, hj, rfl⟩

theorem super_le {S m i : ℕ} (hS : 0 < S) (hi : i < (m + S - 1) / S) :
    (if i = (m + S - 1) / S - 1 then m % S else S) ≤ m := by
  split_ifs with h
  · exact Nat.mod_le _ _
  · have h1 : 1 ≤ (m + S - 1) / S - 1 := by omega
    have h2 : 2 ≤ (m + S - 1) / S := by omega
    have := (Nat.le_div_iff_mul_le hS).1 h2
    omega

theorem launches_raceFree {S : ℕ} (hS : 0 < S) (uplo : Char) {m n ldda lddb : ℕ} (hld : m ≤ lddb)
    {K : Kernel Cell V} (hK : K ∈ lacpyLaunches S uplo m n ldda lddb) : RaceFree K := by
  obtain ⟨i, hi, j, hj, rfl⟩ := mem_launches.1 hK
  exact lacpy_raceFree _ (le_trans (super_le hS hi) hld)

open Classical in
/-- What the launches of a copy do, for all sizes. -/
theorem launches_spec {S : ℕ} (hS : 0 < S) (uplo : Char) {m n ldda lddb : ℕ} (hld : m ≤ lddb)
    {mem mem' : Cell → V} (h : RunsAll (lacpyLaunches S uplo m n ldda lddb) mem mem') :
    (∀ r c, r < cut S m → c < cut S n → mem' (.out (r + c * lddb)) =
      if Keeps S uplo r c then mem (.A (r + c * ldda)) else 0) ∧
    ∀ a, (∀ r c, r < cut S m → c < cut S n → a ≠ .out (r + c * lddb)) → mem' a = mem a := by
  have hmm : ∀ {m i r : ℕ}, i < (m + S - 1) / S → r < (if i = (m + S - 1) / S - 1 then m % S else S) →
      r < S ∧ i * S + r < cut S m := by
    intro m i r hi hr
    have hrS : r < S := by
      split_ifs at hr
      · exact lt_trans hr (Nat.mod_lt _ hS)
      · exact hr
    have e1 : (i * S + r) / S = i := by
      rw [Nat.mul_comm, Nat.mul_add_div hS, Nat.div_eq_of_lt hrS, Nat.add_zero]
    have e2 : (i * S + r) % S = r := by
      rw [Nat.mul_comm, Nat.mul_add_mod, Nat.mod_eq_of_lt hrS]
    refine ⟨hrS, (cut_iff hS).2 ?_⟩
    rw [e1, e2]
    exact ⟨hi, hr⟩
  have hcut : ∀ {m : ℕ}, cut S m ≤ m := by
    intro m
    unfold cut
    split_ifs <;> omega
  have hspec := fun a => runsAll_spec (fun a => ∃ i, a = Cell.A i) (fun a => match a with
      | .out x => if Keeps S uplo (x % lddb) (x / lddb) then mem (.A (x % lddb + x / lddb * ldda)) else 0
      | _ => 0) (fun K hK => launches_raceFree hS uplo hld hK) (by
    intro K hK b _
    obtain ⟨i, hi, j, hj, rfl⟩ := mem_launches.1 hK
    refine ⟨_, rfl, fun x hx => ?_⟩
    obtain ⟨r, c, hr, hc, -, -, rfl⟩ := lacpy_mem (gy := 0) (List.mem_singleton.2 rfl) hx
    obtain ⟨hrS, hr'⟩ := hmm hi hr
    obtain ⟨hcS, hc'⟩ := hmm hj hc
    rw [copyJob_dst, super_addr]
    refine ⟨fun ⟨i, hi⟩ => Cell.noConfusion hi, ?_, ?_⟩
    · exact fun a ha => copyJob_reads ha
    · intro m1 hm1
      obtain ⟨e1, e2⟩ := Dist.flat_div (i := i * S + r) (j := j * S + c) (m := lddb)
        (lt_of_lt_of_le hr' (le_trans hcut hld))
      show _ = if Keeps S uplo (((i * S + r) + (j * S + c) * lddb) % lddb)
        (((i * S + r) + (j * S + c) * lddb) / lddb) then _ else _
      rw [e1, e2]
      unfold copyJob
      by_cases hk : Keeps S uplo (i * S + r) (j * S + c)
      · rw [if_pos hk, if_pos ((keeps_launch hS uplo hrS hcS).2 hk)]
        show m1 _ = _
        rw [hm1 _ ⟨_, rfl⟩, super_addr]
      · rw [if_neg hk, if_neg fun hc => hk ((keeps_launch hS uplo hrS hcS).1 hc)]) h a
  constructor
  · intro r c hr hc
    rw [(hspec _).1 ?_]
    · obtain ⟨e1, e2⟩ := Dist.flat_div (i := r) (j := c) (m := lddb) (lt_of_lt_of_le hr (le_trans hcut hld))
      show (if Keeps S uplo ((r + c * lddb) % lddb) ((r + c * lddb) / lddb) then _ else _) = _
      rw [e1, e2]
    · obtain ⟨h1, h2⟩ := (cut_iff hS).1 hr
      obtain ⟨h3, h4⟩ := (cut_iff hS).1 hc
      refine ⟨_, mem_launches.2 ⟨r / S, h1, c / S, h3, rfl⟩, ?_⟩
      obtain ⟨b, hb, ph, hph, hx⟩ := lacpy_job (V := V)
        (k := if uplo = 'U' ∧ r / S = c / S then Tri.upper else if uplo = 'L' ∧ r / S = c / S then Tri.lower else .full)
        (offA := r / S * S + c / S * S * ldda) (ldda := ldda) (offB := r / S * S + c / S * S * lddb) (lddb := lddb)
        h2 h4
      refine ⟨b, hb, ph, ?_, _, hx, ?_⟩
      · show ph ∈ (lacpyKernel _ _ _ _ _ _ _ _ _).body b
        rw [hph]
        exact List.mem_singleton.2 rfl
      · rw [copyJob_dst, super_addr, Nat.div_add_mod', Nat.div_add_mod']
  · intro a ha
    refine (hspec a).2 fun K hK b _ hw => ?_
    obtain ⟨i, hi, j, hj, rfl⟩ := mem_launches.1 hK
    obtain ⟨ph, hph, x, hx, hxa⟩ := hw
    obtain ⟨r, c, hr, hc, -, -, rfl⟩ := lacpy_mem hph hx
    rw [copyJob_dst, super_addr] at hxa
    exact ha _ _ (hmm hi hr).2 (hmm hj hc).2 hxa.symm

end
end Gpu
end Verif
