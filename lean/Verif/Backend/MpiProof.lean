/-
The distributed backend refines the global one.
-/
import Verif.Backend.MpiSpec
import Verif.Backend.LanczosProof
import Verif.Backend.SeqProof

namespace Verif
namespace Mpi

open Matrix
open Seq (NextOp)

variable {K : Type*} [RCLike K] {N : ℕ}

/-! ### Layouts -/

theorem Layout.sum_glob (L : Layout N) {A : Type*} [AddCommMonoid A] (f : Fin N → A) :
    ∑ p, ∑ a, f (L.glob p a) = ∑ g, f g := by
  rw [← Fintype.sum_sigma' (fun p a => f (L.glob p a))]
  exact (Equiv.ofBijective _ L.bij).sum_comp f

omit [RCLike K] in
theorem assemble_apply (L : Layout N) (v : (p : Fin L.procs) → Fin (L.size p) → K) (p : Fin L.procs)
    (a : Fin (L.size p)) : assemble L v (L.glob p a) = v p a := by
  have : (Equiv.ofBijective _ L.bij).symm (L.glob p a) = ⟨p, a⟩ :=
    (Equiv.ofBijective _ L.bij).symm_apply_apply (⟨p, a⟩ : Σ p, Fin (L.tab p).size)
  unfold assemble
  simp only
  rw [this]

theorem Layout.exists_glob (L : Layout N) (g : Fin N) : ∃ p a, L.glob p a = g := by
  obtain ⟨x, hx⟩ := L.bij.2 g
  exact ⟨x.1, x.2, hx⟩

omit [RCLike K] in
theorem assemble_eq (L : Layout N) {v : (p : Fin L.procs) → Fin (L.size p) → K} {V : Fin N → K}
    (h : ∀ p a, v p a = V (L.glob p a)) : assemble L v = V := by
  funext g
  obtain ⟨p, a, rfl⟩ := L.exists_glob g
  rw [assemble_apply, h]

/-! ### Restriction to the rows of a process -/

section restrict
variable {m M : ℕ} {φ : Fin m → Fin M}

omit [RCLike K] in
/-- `x` is the part of `X` with the rows `φ`. -/
def Part (φ : Fin m → Fin M) (x : ℕ → Fin m → K) (X : ℕ → Fin M → K) : Prop :=
  ∀ k a, x k a = X k (φ a)

omit [RCLike K] in
theorem Part.col {x : ℕ → Fin m → K} {X : ℕ → Fin M → K} (h : Part φ x X) (k : ℕ) :
    x k = fun a => X k (φ a) := funext (h k)

omit [RCLike K] in
theorem Part.setBlk {x : ℕ → Fin m → K} {X : ℕ → Fin M → K} (h : Part φ x X) {n : ℕ} (off : ℕ)
    {y : Matrix (Fin m) (Fin n) K} {Y : Matrix (Fin M) (Fin n) K} (hy : ∀ a k, y a k = Y (φ a) k) :
    Part φ (setBlk off y x) (setBlk off Y X) := by
  intro k a
  unfold Verif.setBlk
  split_ifs
  · exact hy a _
  · exact h k a

omit [RCLike K] in
theorem Part.writeAt {x : ℕ → Fin m → K} {X : ℕ → Fin M → K} (h : Part φ x X) (off len : ℕ)
    {y : ℕ → Fin m → K} {Y : ℕ → Fin M → K} (hy : ∀ k, k < len → ∀ a, y k a = Y k (φ a)) :
    Part φ (writeAt x off len y) (writeAt X off len Y) := by
  intro k a
  unfold Verif.writeAt
  split_ifs with hk
  · exact hy _ (by omega) a
  · exact h k a

omit [RCLike K] in
theorem Part.copyCols {x y : ℕ → Fin m → K} {X Y : ℕ → Fin M → K} (hx : Part φ x X)
    (hy : Part φ y Y) (off len : ℕ) : Part φ (copyCols off len x y) (copyCols off len X Y) :=
  hy.writeAt off len fun k _ a => hx (off + k) a

omit [RCLike K] in
theorem Part.update {x : ℕ → Fin m → K} {X : ℕ → Fin M → K} (h : Part φ x X) (k : ℕ) {v : Fin m → K}
    {V : Fin M → K} (hv : ∀ a, v a = V (φ a)) :
    Part φ (Function.update x k v) (Function.update X k V) := by
  intro t a
  by_cases ht : t = k
  · subst ht; rw [Function.update_self, Function.update_self]; exact hv a
  · rw [Function.update_of_ne ht, Function.update_of_ne ht]; exact h t a

theorem Part.trsm {x : ℕ → Fin m → K} {X : ℕ → Fin M → K} (h : Part φ x X) {n : ℕ}
    (A : Matrix (Fin n) (Fin n) K) : Part φ (trsm A x) (trsm A X) := by
  unfold Verif.trsm
  refine forRange_rel (Part φ) _ _ ?_ h
  intro j x X _ _ h
  refine h.update j fun a => ?_
  simp only [Pi.smul_apply, Pi.sub_apply, Finset.sum_apply, h _ a]

theorem Part.getBlk_mul {x : ℕ → Fin m → K} {X : ℕ → Fin M → K} (h : Part φ x X) (off : ℕ) {n b : ℕ}
    (Z : Matrix (Fin n) (Fin b) K) (a : Fin m) (k : Fin b) :
    (getBlk off n x * Z) a k = (getBlk off n X * Z) (φ a) k := by
  simp only [mul_apply, getBlk, h _ _]

end restrict

/-! ### Sums over communicators -/

section sums
variable {r c : Layout N}

/-- `H^* X` from the parts. -/
theorem sum_conj_mul {j : Fin c.procs}
    {h : (i : Fin r.procs) → Matrix (Fin (r.size i)) (Fin (c.size j)) K}
    {H : Matrix (Fin N) (Fin N) K}
    (hH : ∀ i a b, h i a b = H (r.glob i a) (c.glob j b))
    {x : (i : Fin r.procs) → ℕ → Fin (r.size i) → K} {X : ℕ → Fin N → K}
    (hx : ∀ i, Part (r.glob i) (x i) X) (off n : ℕ) (b : Fin (c.size j)) (k : Fin n) :
    (∑ i, (h i)ᴴ * getBlk off n (x i)) b k = (Hᴴ * getBlk off n X) (c.glob j b) k := by
  rw [Matrix.sum_apply]
  simp only [mul_apply, conjTranspose_apply, getBlk]
  rw [← r.sum_glob]
  refine Finset.sum_congr rfl fun i _ => Finset.sum_congr rfl fun a _ => ?_
  rw [hH, hx]

/-- `H X` from the parts. -/
theorem sum_mul {i : Fin r.procs} {h : (j : Fin c.procs) → Matrix (Fin (r.size i)) (Fin (c.size j)) K}
    {H : Matrix (Fin N) (Fin N) K}
    (hH : ∀ j a b, h j a b = H (r.glob i a) (c.glob j b))
    {x : (j : Fin c.procs) → ℕ → Fin (c.size j) → K} {X : ℕ → Fin N → K}
    (hx : ∀ j, Part (c.glob j) (x j) X) (off n : ℕ) (a : Fin (r.size i)) (k : Fin n) :
    (∑ j, h j * getBlk off n (x j)) a k = (H * getBlk off n X) (r.glob i a) k := by
  rw [Matrix.sum_apply]
  simp only [mul_apply, getBlk]
  rw [← c.sum_glob]
  refine Finset.sum_congr rfl fun j _ => Finset.sum_congr rfl fun b _ => ?_
  rw [hH, hx]

theorem sum_conj_mulVec {j : Fin c.procs}
    {h : (i : Fin r.procs) → Matrix (Fin (r.size i)) (Fin (c.size j)) K}
    {H : Matrix (Fin N) (Fin N) K} (hH : ∀ i a b, h i a b = H (r.glob i a) (c.glob j b))
    {x : (i : Fin r.procs) → Fin (r.size i) → K} {X : Fin N → K}
    (hx : ∀ i a, x i a = X (r.glob i a)) (b : Fin (c.size j)) :
    (∑ i, (h i)ᴴ.mulVec (x i)) b = Hᴴ.mulVec X (c.glob j b) := by
  rw [Finset.sum_apply]
  simp only [mulVec, dotProduct, conjTranspose_apply]
  rw [← r.sum_glob]
  refine Finset.sum_congr rfl fun i _ => Finset.sum_congr rfl fun a _ => ?_
  rw [hH, hx]

theorem sum_mulVec {i : Fin r.procs}
    {h : (j : Fin c.procs) → Matrix (Fin (r.size i)) (Fin (c.size j)) K}
    {H : Matrix (Fin N) (Fin N) K} (hH : ∀ j a b, h j a b = H (r.glob i a) (c.glob j b))
    {x : (j : Fin c.procs) → Fin (c.size j) → K} {X : Fin N → K}
    (hx : ∀ j b, x j b = X (c.glob j b)) (a : Fin (r.size i)) :
    (∑ j, (h j).mulVec (x j)) a = H.mulVec X (r.glob i a) := by
  rw [Finset.sum_apply]
  simp only [mulVec, dotProduct]
  rw [← c.sum_glob]
  refine Finset.sum_congr rfl fun j _ => Finset.sum_congr rfl fun b _ => ?_
  rw [hH, hx]

/-- `X^* Y` from the parts. -/
theorem sum_gram {L : Layout N} {x y : (p : Fin L.procs) → ℕ → Fin (L.size p) → K}
    {X Y : ℕ → Fin N → K} (hx : ∀ p, Part (L.glob p) (x p) X) (hy : ∀ p, Part (L.glob p) (y p) Y)
    (off n off' n' : ℕ) :
    ∑ p, (getBlk off n (x p))ᴴ * getBlk off' n' (y p) = (getBlk off n X)ᴴ * getBlk off' n' Y := by
  ext k l
  rw [Matrix.sum_apply]
  simp only [mul_apply, conjTranspose_apply, getBlk]
  rw [← L.sum_glob]
  refine Finset.sum_congr rfl fun p _ => Finset.sum_congr rfl fun a _ => ?_
  rw [hx, hy]

theorem sum_dotc {L : Layout N} {x y : (p : Fin L.procs) → Fin (L.size p) → K}
    {X Y : Fin N → K} (hx : ∀ p a, x p a = X (L.glob p a)) (hy : ∀ p a, y p a = Y (L.glob p a)) :
    ∑ p, dotc (x p) (y p) = dotc X Y := by
  unfold dotc
  rw [← L.sum_glob]
  refine Finset.sum_congr rfl fun p _ => Finset.sum_congr rfl fun a _ => ?_
  rw [hx, hy]

theorem sum_normp2 {L : Layout N} {x : (p : Fin L.procs) → Fin (L.size p) → K}
    {X : Fin N → K} (hx : ∀ p a, x p a = X (L.glob p a)) :
    ∑ p, normp2 (x p) = normp2 X := by
  unfold normp2
  rw [← L.sum_glob]
  refine Finset.sum_congr rfl fun p _ => Finset.sum_congr rfl fun a _ => ?_
  rw [hx]

theorem nrm2_sq {m : ℕ} (v : Fin m → K) : nrm2 v ^ 2 = normp2 v :=
  Real.sq_sqrt (Finset.sum_nonneg fun _ _ => sq_nonneg _)

theorem sqrt_sum_nrm2 {L : Layout N} {x : (p : Fin L.procs) → Fin (L.size p) → K}
    {X : Fin N → K} (hx : ∀ p a, x p a = X (L.glob p a)) :
    Real.sqrt (∑ p, nrm2 (x p) ^ 2) = nrm2 X := by
  rw [Finset.sum_congr rfl fun p _ => nrm2_sq (x p), sum_normp2 hx]
  rfl

end sums

/-! ### Redistribution -/

section redist
variable {r c : Layout N}

omit [RCLike K] in
theorem redist_spec {runs : List Dist.Run} (h : RunsOk r c runs)
    {src : (p : Fin r.procs) → Fin (r.size p) → K} {V : Fin N → K}
    (hsrc : ∀ p a, src p a = V (r.glob p a)) (j : Fin c.procs) (dst : Fin (c.size j) → K)
    (b : Fin (c.size j)) : redist runs src j dst b = V (c.glob j b) := by
  -- one run writes values of `V`
  have step : ∀ run ∈ runs, ∀ (d : Fin (c.size j) → K),
      (run.dest = j ∧ run.destDisp ≤ b.val ∧ b.val < run.destDisp + run.len →
        (if run.dest = j then if h : run.src < r.procs then putRun run (src ⟨run.src, h⟩) d else d
          else d) b = V (c.glob j b)) ∧
      (d b = V (c.glob j b) →
        (if run.dest = j then if h : run.src < r.procs then putRun run (src ⟨run.src, h⟩) d else d
          else d) b = V (c.glob j b)) := by
    intro run hrun d
    have key : run.dest = j ∧ run.destDisp ≤ b.val ∧ b.val < run.destDisp + run.len →
        (if run.dest = j then if h : run.src < r.procs then putRun run (src ⟨run.src, h⟩) d else d
          else d) b = V (c.glob j b) := by
      rintro ⟨h1, h2, h3⟩
      obtain ⟨hs, hd, h4, h5, h6⟩ := h.valid run hrun (b.val - run.destDisp) (by omega)
      have hj : (⟨run.dest, hd⟩ : Fin c.procs) = j := Fin.ext h1
      rw [if_pos h1, dif_pos hs]
      unfold putRun
      rw [if_pos ⟨h2, h3⟩, dif_pos h4, hsrc, h6]
      have aux : ∀ (q : Fin c.procs) (hq : q = j) (h7 : run.destDisp + (b.val - run.destDisp) < c.size q),
          c.glob q ⟨_, h7⟩ = c.glob j b := by
        intro q hq h7
        subst hq
        congr 1
        exact Fin.ext (by show run.destDisp + (b.val - run.destDisp) = b.val; omega)
      rw [aux _ hj h5]
    refine ⟨key, fun hb => ?_⟩
    by_cases hin : run.dest = j ∧ run.destDisp ≤ b.val ∧ b.val < run.destDisp + run.len
    · exact key hin
    · split_ifs with h1 h2
      · unfold putRun
        rw [if_neg (fun hc => hin ⟨h1, hc⟩)]
        exact hb
      · exact hb
      · exact hb
  -- all runs
  have fold : ∀ (l : List Dist.Run), (∀ x ∈ l, x ∈ runs) → ∀ d : Fin (c.size j) → K,
      ((∃ run ∈ l, run.dest = j ∧ run.destDisp ≤ b.val ∧ b.val < run.destDisp + run.len) ∨
        d b = V (c.glob j b)) → redist l src j d b = V (c.glob j b) := by
    intro l
    induction l with
    | nil =>
      intro _ d hd
      rcases hd with ⟨run, hr, -⟩ | hd
      · cases hr
      · exact hd
    | cons x l ih =>
      intro hl d hd
      obtain ⟨s1, s2⟩ := step x (hl x List.mem_cons_self) d
      refine ih (fun y hy => hl y (List.mem_cons_of_mem _ hy)) _ ?_
      rcases hd with ⟨run, hr, hrun⟩ | hd
      · rcases List.mem_cons.1 hr with rfl | hr
        · exact Or.inr (s1 hrun)
        · exact Or.inl ⟨run, hr, hrun⟩
      · exact Or.inr (s2 hd)
  exact fold runs (fun _ h => h) dst (Or.inl (h.reach j b))

end redist

/-! ### The operations -/

section ops
variable {r c : Layout N} {E : MEnv K} {s : Fam K r c} {g : GSt K N}

theorem Rep.partC (h : Rep s g) (i j) : Part (r.glob i) (s i j).C g.C := h.C i j
theorem Rep.partC2 (h : Rep s g) (i j) : Part (r.glob i) (s i j).C2 g.C2 := h.C2 i j
theorem Rep.partB (h : Rep s g) (i j) : Part (c.glob j) (s i j).B g.B := h.B i j
theorem Rep.partB2 (h : Rep s g) (i j) : Part (c.glob j) (s i j).B2 g.B2 := h.B2 i j

theorem apply_rep (h : Rep s g) (α β : K) (offset block locked : ℕ) :
    Rep (apply α β offset block locked s)
      { g with toSt := Seq.apply α β offset block locked g.toSt } := by
  have hn := h.next
  unfold apply Seq.apply
  cases hg : g.next with
  | bAc =>
    have hB : ∀ i j, Part (c.glob j) (setBlk (locked + offset)
        (∑ i' : Fin r.procs, gemmB α β (locked + offset) block i' (s i' j)) (s i j).B)
        (setBlk (locked + offset) (α • (g.Hᴴ * getBlk (locked + offset) block g.C) +
          β • getBlk (locked + offset) block g.B) g.B) := by
      intro i j
      refine (h.partB i j).setBlk _ fun b k => ?_
      have hpos : 0 < r.procs := Nat.lt_of_le_of_lt (Nat.zero_le _) i.2
      unfold gemmB
      rw [Finset.sum_add_distrib, Matrix.add_apply, Matrix.add_apply, ← Finset.smul_sum,
        Matrix.smul_apply, Matrix.smul_apply, sum_conj_mul (fun i => h.H i j) (fun i => h.partC i j)]
      congr 1
      rw [Matrix.sum_apply, Finset.sum_eq_single (⟨0, hpos⟩ : Fin r.procs)]
      · simp [getBlk, h.B]
      · intro i' _ hi'
        have : i'.val ≠ 0 := fun hc => hi' (Fin.ext hc)
        simp [this]
      · intro hc; exact absurd (Finset.mem_univ _) hc
    constructor <;> intro i j <;> simp only [hn i j, hg]
    · exact h.H i j
    · exact h.C i j
    · exact h.C2 i j
    · exact hB i j
    · exact h.B2 i j
    · exact h.locked i j
    · exact h.isSym i j
    · exact h.fresh i j
  | cAb =>
    have hC : ∀ i j, Part (r.glob i) (setBlk (locked + offset)
        (∑ j' : Fin c.procs, gemmC α β (locked + offset) block j' (s i j')) (s i j).C)
        (setBlk (locked + offset) (α • (g.H * getBlk (locked + offset) block g.B) +
          β • getBlk (locked + offset) block g.C) g.C) := by
      intro i j
      refine (h.partC i j).setBlk _ fun b k => ?_
      have hpos : 0 < c.procs := Nat.lt_of_le_of_lt (Nat.zero_le _) j.2
      unfold gemmC
      rw [Finset.sum_add_distrib, Matrix.add_apply, Matrix.add_apply, ← Finset.smul_sum,
        Matrix.smul_apply, Matrix.smul_apply, sum_mul (fun j => h.H i j) (fun j => h.partB i j)]
      congr 1
      rw [Matrix.sum_apply, Finset.sum_eq_single (⟨0, hpos⟩ : Fin c.procs)]
      · simp [getBlk, h.C]
      · intro i' _ hi'
        have : i'.val ≠ 0 := fun hc => hi' (Fin.ext hc)
        simp [this]
      · intro hc; exact absurd (Finset.mem_univ _) hc
    constructor <;> intro i j <;> simp only [hn i j, hg]
    · exact h.H i j
    · exact hC i j
    · exact h.C2 i j
    · exact h.B i j
    · exact h.B2 i j
    · exact h.locked i j
    · exact h.isSym i j
    · exact h.fresh i j

theorem gather_rep (hE : RunsOk r c E.cRuns) (h : Rep s g) (locked block : ℕ) :
    Rep (asynCxHGatherC E locked block s)
      { g with toSt := Seq.asynCxHGatherC locked block g.toSt } := by
  constructor
  · exact h.H
  · exact h.C
  · exact h.C2
  · intro i j
    exact (h.partB i j).setBlk _ fun b k =>
      sum_conj_mul (fun i => h.H i j) (fun i => h.partC i j) locked block b k
  · intro i j
    exact (h.partB2 i j).writeAt locked block fun k _ b =>
      redist_spec hE (fun p a => h.C2 p j (locked + k) a) j ((s i j).B2 (locked + k)) b
  · exact h.next
  · exact h.locked
  · exact h.isSym
  · exact h.fresh

theorem initVecs_rep (h : Rep s g) (random : Bool) :
    Rep (initVecs E (if random then initRndVecs E s else s))
      ((gOps (E.glob r)).initVecs random g) := by
  have hC : ∀ i j, Part (r.glob i) ((if random then initRndVecs E s else s) i j).C
      (if random then { g.toSt with C := writeAt g.C 0 (E.glob r).base.nevex (E.glob r).rnd }
        else g.toSt).C := by
    intro i j
    cases random
    · exact h.C i j
    · exact (h.partC i j).writeAt _ _ fun k _ a =>
        (assemble_apply r (fun p a => E.gen p (k * r.size p + a)) i a).symm
  have hrest : ∀ i j, ((if random then initRndVecs E s else s) i j).H = (s i j).H ∧
      ((if random then initRndVecs E s else s) i j).C2 = (s i j).C2 ∧
      ((if random then initRndVecs E s else s) i j).B = (s i j).B ∧
      ((if random then initRndVecs E s else s) i j).B2 = (s i j).B2 ∧
      ((if random then initRndVecs E s else s) i j).locked = (s i j).locked ∧
      ((if random then initRndVecs E s else s) i j).isSym = (s i j).isSym ∧
      ((if random then initRndVecs E s else s) i j).fresh = (s i j).fresh := by
    intro i j
    cases random <;> exact ⟨rfl, rfl, rfl, rfl, rfl, rfl, rfl⟩
  have hg : (if random then { g.toSt with C := writeAt g.C 0 (E.glob r).base.nevex (E.glob r).rnd }
        else g.toSt).H = g.H ∧
      (if random then { g.toSt with C := writeAt g.C 0 (E.glob r).base.nevex (E.glob r).rnd }
        else g.toSt).C2 = g.C2 ∧
      (if random then { g.toSt with C := writeAt g.C 0 (E.glob r).base.nevex (E.glob r).rnd }
        else g.toSt).B = g.B ∧
      (if random then { g.toSt with C := writeAt g.C 0 (E.glob r).base.nevex (E.glob r).rnd }
        else g.toSt).B2 = g.B2 ∧
      (if random then { g.toSt with C := writeAt g.C 0 (E.glob r).base.nevex (E.glob r).rnd }
        else g.toSt).locked = g.locked ∧
      (if random then { g.toSt with C := writeAt g.C 0 (E.glob r).base.nevex (E.glob r).rnd }
        else g.toSt).isSym = g.isSym := by
    cases random <;> exact ⟨rfl, rfl, rfl, rfl, rfl, rfl⟩
  obtain ⟨g1, g2, g3, g4, g5, g6⟩ := hg
  constructor <;> intro i j
  · intro a b
    show ((if random then initRndVecs E s else s) i j).H a b = (ite _ _ _ : Seq.St K N).H _ _
    rw [(hrest i j).1, g1]; exact h.H i j a b
  · exact hC i j
  · refine Part.copyCols (hC i j) ?_ _ _
    intro k a
    rw [(hrest i j).2.1, g2]; exact h.C2 i j k a
  · intro k b
    show ((if random then initRndVecs E s else s) i j).B k b = (ite _ _ _ : Seq.St K N).B _ _
    rw [(hrest i j).2.2.1, g3]; exact h.B i j k b
  · intro k b
    show ((if random then initRndVecs E s else s) i j).B2 k b = (ite _ _ _ : Seq.St K N).B2 _ _
    rw [(hrest i j).2.2.2.1, g4]; exact h.B2 i j k b
  · rfl
  · show ((if random then initRndVecs E s else s) i j).locked = (ite _ _ _ : Seq.St K N).locked
    rw [(hrest i j).2.2.2.2.1, g5]; exact h.locked i j
  · show ((if random then initRndVecs E s else s) i j).isSym = (ite _ _ _ : Seq.St K N).isSym
    rw [(hrest i j).2.2.2.2.2.1, g6]; exact h.isSym i j
  · show ((if random then initRndVecs E s else s) i j).fresh = g.fresh
    rw [(hrest i j).2.2.2.2.2.2]; exact h.fresh i j

theorem lanczosDos_rep (h : Rep s g) (idx m : ℕ) (z : ℕ → ℝ) :
    Rep (lanczosDos idx m z s) { g with toSt := Seq.lanczosDos idx m z g.toSt } := by
  have hC2 : ∀ i j, Part (r.glob i) (lanczosDos idx m z s i j).C2
      (Seq.lanczosDos idx m z g.toSt).C2 := fun i j =>
    (h.partC2 i j).setBlk _ fun a k => (h.partC i j).getBlk_mul 0 _ a k
  exact ⟨h.H, fun i j => (hC2 i j).copyCols (h.partC i j) _ _, hC2, h.B, h.B2, h.next, h.locked,
    h.isSym, h.fresh⟩

/-! ### Shift -/

omit [RCLike K] in
/-- A loop in which exactly one step acts on an entry. -/
theorem forRange_once {m n : ℕ} {f : ℕ → Matrix (Fin m) (Fin n) K → Matrix (Fin m) (Fin n) K}
    {a : Fin m} {b : Fin n} {T : K → K} {n0 i0 : ℕ} (hi0 : i0 < n0)
    (h0 : ∀ H, f i0 H a b = T (H a b)) (h : ∀ i < n0, i ≠ i0 → ∀ H, f i H a b = H a b)
    (H : Matrix (Fin m) (Fin n) K) : forRange 0 n0 f H a b = T (H a b) := by
  have key : ∀ k ≤ n0, forRange 0 k f H a b = if i0 < k then T (H a b) else H a b := by
    intro k hk
    induction k with
    | zero => rfl
    | succ k ih =>
      rw [forRange_succ (Nat.zero_le _)]
      by_cases hki : k = i0
      · subst hki
        rw [h0, ih (by omega), if_neg (lt_irrefl _), if_pos (Nat.lt_succ_self _)]
      · rw [h k (by omega) hki, ih (by omega)]
        by_cases h1 : i0 < k
        · rw [if_pos h1, if_pos (by omega)]
        · rw [if_neg h1, if_neg (by omega)]
  rw [key n0 le_rfl, if_pos hi0]

omit [RCLike K] in
theorem forRange_never {m n : ℕ} {f : ℕ → Matrix (Fin m) (Fin n) K → Matrix (Fin m) (Fin n) K}
    {a : Fin m} {b : Fin n} {n0 : ℕ} (h : ∀ i < n0, ∀ H, f i H a b = H a b)
    (H : Matrix (Fin m) (Fin n) K) : forRange 0 n0 f H a b = H a b :=
  forRange_inv (Nat.zero_le _) f (fun _ X => X a b = H a b) rfl
    (fun i X _ h2 hX => (h i h2 X).trans hX)

omit [RCLike K] in
/-- Loops over all local entries, block by block: each entry is treated exactly once, with its global
indices. -/
theorem blocks_loop {r c : Layout N} (i : Fin r.procs) (j : Fin c.procs)
    (T : ℕ → ℕ → K → K)
    (f : ℕ → ℕ → ℕ → ℕ → Matrix (Fin (r.size i)) (Fin (c.size j)) K →
      Matrix (Fin (r.size i)) (Fin (c.size j)) K)
    (hf : ∀ bj bi q p H a b, f bj bi q p H a b =
      if a.val = p + (r.tab i).offsL bi ∧ b.val = q + (c.tab j).offsL bj then
        T (p + (r.tab i).offs bi) (q + (c.tab j).offs bj) (H a b) else H a b)
    (H : Matrix (Fin (r.size i)) (Fin (c.size j)) K) (a : Fin (r.size i)) (b : Fin (c.size j)) :
    forRange 0 (c.tab j).blocks (fun bj H =>
      forRange 0 (r.tab i).blocks (fun bi H =>
        forRange 0 ((c.tab j).lens bj) (fun q H =>
          forRange 0 ((r.tab i).lens bi) (fun p H => f bj bi q p H) H) H) H) H a b =
      T (r.glob i a) (c.glob j b) (H a b) := by
  obtain ⟨⟨bi, p⟩, ⟨hbi, hp, ha⟩, ua⟩ := r.covers i a a.2
  obtain ⟨⟨bj, q⟩, ⟨hbj, hq, hb⟩, ub⟩ := c.covers j b b.2
  dsimp only at hbi hp ha hbj hq hb
  obtain ⟨ha1, ha2⟩ := r.listed i bi hbi p hp
  obtain ⟨hb1, hb2⟩ := c.listed j bj hbj q hq
  have ha3 : (⟨(r.tab i).offsL bi + p, ha1⟩ : Fin (r.size i)) = a := Fin.ext ha
  have hb3 : (⟨(c.tab j).offsL bj + q, hb1⟩ : Fin (c.size j)) = b := Fin.ext hb
  rw [ha3] at ha2
  rw [hb3] at hb2
  have uA : ∀ bi' p', bi' < (r.tab i).blocks → p' < (r.tab i).lens bi' →
      a.val = p' + (r.tab i).offsL bi' → bi' = bi ∧ p' = p := by
    intro bi' p' h1 h2 h3
    have := ua (bi', p') ⟨h1, h2, by show (r.tab i).offsL bi' + p' = _; omega⟩
    exact ⟨congrArg Prod.fst this, congrArg Prod.snd this⟩
  have uB : ∀ bj' q', bj' < (c.tab j).blocks → q' < (c.tab j).lens bj' →
      b.val = q' + (c.tab j).offsL bj' → bj' = bj ∧ q' = q := by
    intro bj' q' h1 h2 h3
    have := ub (bj', q') ⟨h1, h2, by show (c.tab j).offsL bj' + q' = _; omega⟩
    exact ⟨congrArg Prod.fst this, congrArg Prod.snd this⟩
  refine forRange_once (T := T (r.glob i a) (c.glob j b)) hbj ?_ ?_ H
  · intro H
    refine forRange_once (T := T (r.glob i a) (c.glob j b)) hbi ?_ ?_ H
    · intro H
      refine forRange_once (T := T (r.glob i a) (c.glob j b)) hq ?_ ?_ H
      · intro H
        refine forRange_once (T := T (r.glob i a) (c.glob j b)) hp ?_ ?_ H
        · intro H
          rw [hf, if_pos ⟨by omega, by omega⟩, ha2, hb2, Nat.add_comm p, Nat.add_comm q]
        · intro p' hp' hne H
          rw [hf, if_neg fun hc => hne (uA bi p' hbi hp' hc.1).2]
      · intro q' hq' hne H
        refine forRange_never (fun p' hp' H => ?_) H
        rw [hf, if_neg fun hc => hne (uB bj q' hbj hq' hc.2).2]
    · intro bi' hbi' hne H
      refine forRange_never (fun q' hq' H => forRange_never (fun p' hp' H => ?_) H) H
      rw [hf, if_neg fun hc => hne (uA bi' p' hbi' hp' hc.1).1]
  · intro bj' hbj' hne H
    refine forRange_never (fun bi' hbi' H => forRange_never (fun q' hq' H =>
      forRange_never (fun p' hp' H => ?_) H) H) H
    rw [hf, if_neg fun hc => hne (uB bj' q' hbj' hq' hc.2).1]

theorem shiftLocal_eq (i : Fin r.procs) (j : Fin c.procs) (x : K)
    (H : Matrix (Fin (r.size i)) (Fin (c.size j)) K) (a : Fin (r.size i)) (b : Fin (c.size j)) :
    shiftLocal (r.tab i) (c.tab j) x H a b =
      if r.glob i a = c.glob j b then H a b + x else H a b := by
  refine (blocks_loop i j (fun g h y => if h = g then y + x else y) (fun bj bi q p H =>
    if q + (c.tab j).offs bj = p + (r.tab i).offs bi then
      fun a b => if a.val = p + (r.tab i).offsL bi ∧ b.val = q + (c.tab j).offsL bj
        then H a b + x else H a b
    else H) ?_ H a b).trans ?_
  · intro bj bi q p H a b
    by_cases h : q + (c.tab j).offs bj = p + (r.tab i).offs bi
    · refine (congrFun (congrFun (if_pos h) a) b).trans ?_
      simp only [h, if_true]
    · refine (congrFun (congrFun (if_neg h) a) b).trans ?_
      simp only [h, if_false, ite_self]
  · by_cases h : r.glob i a = c.glob j b
    · simp only [h, if_true]
    · rw [if_neg h, if_neg fun hc => h (Fin.ext hc.symm)]

theorem shift_rep (h : Rep s g) (x : ℝ) (b : Bool) :
    Rep (shift (x : K) s) ((gOps (E.glob r)).shift x b g) := by
  constructor <;> intro i j
  · intro a b
    show shiftLocal (r.tab i) (c.tab j) (x : K) (s i j).H a b = shiftH (x : K) g.H _ _
    rw [shiftLocal_eq, shiftH_eq, Matrix.add_apply, Matrix.smul_apply, Matrix.one_apply, h.H]
    split_ifs <;> simp
  · exact h.C i j
  · exact h.C2 i j
  · exact h.B i j
  · exact h.B2 i j
  · show (if (s i j).fresh then NextOp.bAc else (s i j).next) = if g.fresh then NextOp.bAc else g.next
    rw [h.fresh i j, h.next i j]
  · exact h.locked i j
  · exact h.isSym i j
  · rfl

/-! ### Rayleigh-Ritz and residuals -/

theorem rr_rep (hE : RunsOk r c E.cRuns) (h : Rep s g) (block : ℕ) :
    (∀ i j, (rr E block (fun i j => (s i j).locked) s).1 i j =
      (Seq.rr E.base block g.locked g.toSt).1) ∧
    Rep (rr E block (fun i j => (s i j).locked) s).2
      { g with toSt := (Seq.rr E.base block g.locked g.toSt).2 } := by
  have hl : (fun i j => (s i j).locked) = fun (_ : Fin r.procs) (_ : Fin c.procs) => g.locked := by
    funext i j; exact h.locked i j
  rw [hl]
  have hg := gather_rep hE h g.locked block
  have hA : ∀ i, rrMatrix g.locked block (asynCxHGatherC E g.locked block s) i =
      (getBlk g.locked block (Seq.asynCxHGatherC g.locked block g.toSt).B2)ᴴ *
        getBlk g.locked block (Seq.asynCxHGatherC g.locked block g.toSt).B := fun i =>
    sum_gram (fun j => hg.partB2 i j) (fun j => hg.partB i j) _ _ _ _
  have hC : ∀ i j, Part (r.glob i) ((rr E block (fun _ _ => g.locked) s).2 i j).C
      (Seq.rr E.base block g.locked g.toSt).2.C := by
    intro i j
    refine (hg.partC i j).setBlk _ fun a k => ?_
    refine ((hg.partC2 i j).getBlk_mul _ _ a k).trans ?_
    rw [← hA i]
  refine ⟨fun i j => ?_, ⟨hg.H, hC, fun i j => (hC i j).copyCols (hg.partC2 i j) _ _, hg.B, hg.B2,
    hg.next, hg.locked, hg.isSym, hg.fresh⟩⟩
  funext t
  show dite _ _ _ = dite _ _ _
  split_ifs
  · show (E.base.lapack.heevd (rrMatrix g.locked block (asynCxHGatherC E g.locked block s) i)).1 _ = _
    rw [hA i]
  · rfl

omit [RCLike K] in
theorem cols_loop {X : Type*} {n : ℕ} (l u : ℕ) (F : ℕ → (Fin n → K) → Fin n → K) (nrm : (Fin n → K) → X)
    (v0 : ℕ → X) (B0 : ℕ → Fin n → K) :
    forRange 0 u (fun i (q : (ℕ → X) × (ℕ → Fin n → K)) =>
      (Function.update q.1 i (nrm (Function.update q.2 (l + i) (F i (q.2 (l + i))) (l + i))),
        Function.update q.2 (l + i) (F i (q.2 (l + i))))) (v0, B0) =
      (fun t => if t < u then nrm (F t (B0 (l + t))) else v0 t,
        fun k => if l ≤ k ∧ k < l + u then F (k - l) (B0 k) else B0 k) := by
  induction u with
  | zero =>
    refine Prod.ext rfl (funext fun k => ?_)
    show B0 k = ite _ _ _
    rw [if_neg (by omega)]
  | succ u ih =>
    rw [forRange_succ (Nat.zero_le _), ih]
    refine Prod.ext (funext fun t => ?_) (funext fun k => ?_)
    · show Function.update _ u _ t = _
      by_cases ht : t = u
      · subst ht
        rw [Function.update_self, Function.update_self]
        show nrm (F t (ite _ _ _)) = ite _ _ _
        rw [if_neg (by omega), if_pos (Nat.lt_succ_self _)]
      · rw [Function.update_of_ne ht]
        by_cases h1 : t < u
        · simp only [if_pos h1, if_pos (show t < u + 1 by omega)]
        · simp only [if_neg h1, if_neg (show ¬ t < u + 1 by omega)]
    · show Function.update _ (l + u) _ k = _
      by_cases hk : k = l + u
      · subst hk
        rw [Function.update_self]
        show F u (ite _ _ _) = ite _ _ _
        rw [if_neg (by omega), if_pos (by omega), Nat.add_sub_cancel_left]
      · rw [Function.update_of_ne hk]
        by_cases h1 : l ≤ k ∧ k < l + u
        · simp only [if_pos h1, if_pos (show l ≤ k ∧ k < l + (u + 1) by omega)]
        · simp only [if_neg h1, if_neg (show ¬ (l ≤ k ∧ k < l + (u + 1)) by omega)]

theorem resdLocal_eq (ritzv : ℕ → ℝ) (l u : ℕ) {m n : ℕ} (p : Proc K m n) :
    resdLocal ritzv l u p =
      (fun t => if t < u then normp2 ((-(ritzv t : K)) • p.B2 (l + t) + p.B (l + t)) else 0,
        fun k => if l ≤ k ∧ k < l + u then (-(ritzv (k - l) : K)) • p.B2 k + p.B k else p.B k) := by
  refine (cols_loop l u (fun i v => (-(ritzv i : K)) • p.B2 (l + i) + v) normp2 _ _).trans ?_
  refine Prod.ext rfl (funext fun k => ?_)
  show ite _ _ _ = ite _ _ _
  split_ifs with h
  · show (-(ritzv (k - l) : K)) • p.B2 (l + (k - l)) + p.B k = _
    rw [Nat.add_sub_cancel' h.1]
  · rfl

theorem seq_resd_eq (ritzv : ℕ → ℝ) (l u : ℕ) (t : Seq.St K N) :
    Seq.resd ritzv l u t =
      (fun i => if i < u then nrm2 ((-(ritzv i : K)) • (Seq.asynCxHGatherC l u t).B2 (l + i) +
          (Seq.asynCxHGatherC l u t).B (l + i)) else 0,
        { Seq.asynCxHGatherC l u t with
          B := fun k => if l ≤ k ∧ k < l + u then
              (-(ritzv (k - l) : K)) • (Seq.asynCxHGatherC l u t).B2 k +
                (Seq.asynCxHGatherC l u t).B k
            else (Seq.asynCxHGatherC l u t).B k }) := by
  unfold Seq.resd
  generalize Seq.asynCxHGatherC l u t = t1
  have hc := cols_loop l u (fun i v => (-(ritzv i : K)) • t1.B2 (l + i) + v) nrm2 (fun _ => 0) t1.B
  have hr : ∀ n, forRange 0 n (fun i (p : (ℕ → ℝ) × Seq.St K N) =>
      let B := Function.update p.2.B (l + i)
        ((-(ritzv i : K)) • p.2.B2 (l + i) + p.2.B (l + i))
      (Function.update p.1 i (nrm2 (B (l + i))), { p.2 with B := B })) (fun _ => 0, t1) =
      (fun q : (ℕ → ℝ) × (ℕ → Fin N → K) => (q.1, ({ t1 with B := q.2 } : Seq.St K N)))
        (forRange 0 n (fun i (q : (ℕ → ℝ) × (ℕ → Fin N → K)) =>
        (Function.update q.1 i (nrm2 (Function.update q.2 (l + i)
          ((-(ritzv i : K)) • t1.B2 (l + i) + q.2 (l + i)) (l + i))),
          Function.update q.2 (l + i) ((-(ritzv i : K)) • t1.B2 (l + i) + q.2 (l + i))))
          (fun _ => 0, t1.B)) := by
    intro n
    induction n with
    | zero => rfl
    | succ n ih =>
      rw [forRange_succ (Nat.zero_le _), forRange_succ (Nat.zero_le _), ih]
  refine (hr u).trans ?_
  rw [hc]
  refine Prod.ext rfl ?_
  show ({ t1 with B := _ } : Seq.St K N) = { t1 with B := _ }
  congr 1
  funext k
  show ite _ _ _ = ite _ _ _
  split_ifs with h
  · show (-(ritzv (k - l) : K)) • t1.B2 (l + (k - l)) + t1.B k = _
    rw [Nat.add_sub_cancel' h.1]
  · rfl

theorem resd_rep (hE : RunsOk r c E.cRuns) (h : Rep s g) (ritzv : ℕ → ℝ) (fixednev : ℕ) :
    (∀ i j, (resd E ritzv fixednev (fun i j => (s i j).locked) s).1 i j =
      (Seq.resd ritzv g.locked (E.base.nevex - fixednev) g.toSt).1) ∧
    Rep (resd E ritzv fixednev (fun i j => (s i j).locked) s).2
      { g with toSt := (Seq.resd ritzv g.locked (E.base.nevex - fixednev) g.toSt).2 } := by
  have hl : (fun i j => (s i j).locked) = fun (_ : Fin r.procs) (_ : Fin c.procs) => g.locked := by
    funext i j; exact h.locked i j
  rw [hl]
  have hg := gather_rep hE h g.locked (E.base.nevex - fixednev)
  unfold resd
  simp only [resdLocal_eq, seq_resd_eq]
  refine ⟨fun i j => ?_, ⟨hg.H, hg.C, hg.C2, fun i j => ?_, hg.B2, hg.next, hg.locked, hg.isSym,
    hg.fresh⟩⟩
  · funext t
    split_ifs with ht
    · rw [sum_normp2 (L := c) (X := (-(ritzv t : K)) •
        (Seq.asynCxHGatherC g.locked (E.base.nevex - fixednev) g.toSt).B2 (g.locked + t) +
        (Seq.asynCxHGatherC g.locked (E.base.nevex - fixednev) g.toSt).B (g.locked + t))]
      · rfl
      · intro p a
        simp only [Pi.add_apply, Pi.smul_apply]
        rw [hg.B2, hg.B]
    · rfl
  · intro k b
    show (ite _ _ _ : Fin (c.size j) → K) b = (ite _ _ _ : Fin N → K) _
    split_ifs
    · simp only [Pi.add_apply, Pi.smul_apply]
      rw [hg.B2, hg.B]
    · exact hg.B i j k b

/-! ### Orthogonalisation -/

section chol
variable {C : (i : Fin r.procs) → ℕ → Fin (r.size i) → K} {X : ℕ → Fin N → K}

theorem sum_syherk (h : ∀ i, Part (r.glob i) (C i) X) (n : ℕ) :
    ∑ i, syherk (getBlk 0 n (C i)) = gram n X :=
  sum_gram h h 0 n 0 n

theorem cholQR1_rep (h : ∀ i, Part (r.glob i) (C i) X) (n : ℕ) :
    (cholQR1 E n C).1 = (cholQR1c E.base.lapack n X).1 ∧
      ∀ i, Part (r.glob i) ((cholQR1 E n C).2 i) (cholQR1c E.base.lapack n X).2 := by
  unfold cholQR1 cholQR1c
  rw [sum_syherk h]
  rcases E.base.lapack.potrf (gram n X) with ⟨info, A⟩
  dsimp only
  split_ifs
  · exact ⟨rfl, h⟩
  · exact ⟨rfl, fun i => (h i).trsm A⟩

theorem cholQR2_rep (h : ∀ i, Part (r.glob i) (C i) X) (n : ℕ) :
    (cholQR2 E n C).1 = (cholQR2c E.base.lapack n ⟨true, true⟩ X).1 ∧
      ∀ i, Part (r.glob i) ((cholQR2 E n C).2 i) (cholQR2c E.base.lapack n ⟨true, true⟩ X).2 := by
  unfold cholQR2 cholQR2c
  rw [sum_syherk h]
  rcases E.base.lapack.potrf (gram n X) with ⟨info, A⟩
  dsimp only
  by_cases hi : info ≠ 0
  · rw [if_pos hi, if_pos hi]; exact ⟨rfl, h⟩
  · rw [if_neg hi, if_neg hi]
    have h1 : ∀ i, Part (r.glob i) (trsm A (C i)) (trsm A X) := fun i => (h i).trsm A
    rw [sum_syherk h1]
    exact ⟨rfl, fun i => (h1 i).trsm _⟩

theorem shiftedcholQR2_rep (h : ∀ i, Part (r.glob i) (C i) X) (n : ℕ) :
    (shiftedcholQR2 E n C).1 = (shiftedcholQR2c E.base.lapack n ⟨true, false⟩ X).1 ∧
      ∀ i, Part (r.glob i) ((shiftedcholQR2 E n C).2 i)
        (shiftedcholQR2c E.base.lapack n ⟨true, false⟩ X).2 := by
  unfold shiftedcholQR2 shiftedcholQR2c
  rw [sum_syherk h]
  rcases hP : E.base.lapack.potrf (shiftDiag (gram n X)
    (cholShift (N := N) E.base.lapack (gram n X) : K)) with ⟨info, A⟩
  simp only [hP]
  by_cases hi : info ≠ 0
  · rw [if_pos hi, if_pos hi]; exact ⟨rfl, h⟩
  · rw [if_neg hi, if_neg hi]
    have h1 : ∀ i, Part (r.glob i) (trsm A (C i)) (trsm A X) := fun i => (h i).trsm A
    rw [sum_syherk h1]
    rcases hP2 : E.base.lapack.potrf (gram n (trsm A X)) with ⟨info2, A2⟩
    simp only [hP2]
    by_cases hi2 : info2 ≠ 0
    · rw [if_pos hi2, if_pos ⟨trivial, hi2⟩]; exact ⟨rfl, h1⟩
    · rw [if_neg hi2, if_neg fun hc => hi2 hc.2]
      have h2 : ∀ i, Part (r.glob i) (trsm A2 (trsm A (C i))) (trsm A2 (trsm A X)) :=
        fun i => (h1 i).trsm A2
      rw [sum_syherk h2]
      exact ⟨rfl, fun i => (h2 i).trsm _⟩

end chol

theorem setC_rep (h : Rep s g) {C : (i : Fin r.procs) → (j : Fin c.procs) → ℕ → Fin (r.size i) → K}
    {X : ℕ → Fin N → K} (hC : ∀ i j, Part (r.glob i) (C i j) X) :
    Rep (fun i j => { s i j with C := C i j }) { g with C := X } :=
  ⟨h.H, hC, h.C2, h.B, h.B2, h.next, h.locked, h.isSym, h.fresh⟩

theorem hhQR_rep (h : Rep s g) :
    Rep (hhQR E s) ((gQrRoutines (E.glob r) g.locked).hhQR g) := by
  have hV : ∀ j, (fun k => assemble r fun i' => (s i' j).C k) = g.C := by
    intro j
    funext k
    exact assemble_eq r fun p a => h.C p j k a
  refine ⟨h.H, ?_, h.C2, h.B, h.B2, ?_, h.locked, h.isSym, h.fresh⟩
  · intro i j
    refine (h.partC i j).setBlk 0 fun a k => ?_
    rw [← hV j]
    rfl
  · intro i j
    show (if E.scalapack then (s i j).next else _) = if E.scalapack then g.next else _
    rw [h.next i j]

theorem lockVectorCopy_rep (h : Rep s g) {lk : Fin r.procs → Fin c.procs → ℕ} {l : ℕ}
    (hl : ∀ i j, lk i j = l) :
    Rep (lockVectorCopy E lk s) { g with toSt := Seq.lockVectorCopy E.base l g.toSt } := by
  have hC : ∀ i j, Part (r.glob i) (copyCols 0 (lk i j) (s i j).C2 (s i j).C)
      (copyCols 0 l g.C2 g.C) := by
    intro i j
    rw [hl i j]
    exact (h.partC2 i j).copyCols (h.partC i j) _ _
  refine ⟨h.H, hC, ?_, h.B, h.B2, h.next, h.locked, h.isSym, h.fresh⟩
  intro i j
  show Part _ (copyCols (lk i j) (E.base.nevex - lk i j) _ _) _
  rw [hl i j]
  have := hC i j
  rw [hl i j] at this
  exact this.copyCols (h.partC2 i j) _ _

theorem qr_rep (h : Rep s g) (j0 : Fin c.procs) (dc : Bool) (env : Option ℤ) (ab be : Bool) :
    Rep (qrSelect (qrRoutines E j0 fun i j => (s i j).locked) dc env ab be s)
      (qrSelect (gQrRoutines (E.glob r) g.locked) dc env ab be g) := by
  have hlk : ∀ i j, (fun (i : Fin r.procs) (j : Fin c.procs) => (s i j).locked) i j = g.locked :=
    fun i j => h.locked i j
  have lock : ∀ (b : Bool) (s' : Fam K r c) (g' : GSt K N), Rep s' g' →
      Rep ((qrRoutines E j0 fun i j => (s i j).locked).lockCopy b s')
        ((gQrRoutines (E.glob r) g.locked).lockCopy b g') :=
    fun _ s' g' h' => lockVectorCopy_rep h' hlk
  have hh : ∀ (s' : Fam K r c) (g' : GSt K N), Rep s' g' →
      Rep ((qrRoutines E j0 fun i j => (s i j).locked).hhQR s')
        ((gQrRoutines (E.glob r) g.locked).hhQR g') :=
    fun s' g' h' => hhQR_rep h'
  have ch : ∀ q q' : ℤ × _, q.1 = q'.1 → Rep q.2 q'.2 →
      Rep (if q.1 ≠ 0 then (qrRoutines E j0 fun i j => (s i j).locked).lockCopy true
          ((qrRoutines E j0 fun i j => (s i j).locked).hhQR q.2)
        else (qrRoutines E j0 fun i j => (s i j).locked).lockCopy false q.2)
        (if q'.1 ≠ 0 then (gQrRoutines (E.glob r) g.locked).lockCopy true
          ((gQrRoutines (E.glob r) g.locked).hhQR q'.2)
        else (gQrRoutines (E.glob r) g.locked).lockCopy false q'.2) := by
    intro q q' h1 h2
    rw [h1]
    split_ifs
    · exact lock _ _ _ (hh _ _ h2)
    · exact lock _ _ _ h2
  unfold qrSelect
  split_ifs
  · exact lock _ _ _ (hh _ _ h)
  all_goals refine ch _ _ ?_ ?_
  · exact (shiftedcholQR2_rep (fun i => h.partC i j0) E.base.nevex).1
  · exact setC_rep h fun i j => (shiftedcholQR2_rep (fun i => h.partC i j) E.base.nevex).2 i
  · exact (cholQR1_rep (fun i => h.partC i j0) E.base.nevex).1
  · exact setC_rep h fun i j => (cholQR1_rep (fun i => h.partC i j) E.base.nevex).2 i
  · exact (cholQR2_rep (fun i => h.partC i j0) E.base.nevex).1
  · exact setC_rep h fun i j => (cholQR2_rep (fun i => h.partC i j) E.base.nevex).2 i

/-! ### Swap -/

omit [RCLike K] in
theorem swap_eq (a b : ℕ) (s : Fam K r c) : swap a b s = s := by
  funext i j
  have : (swap a b s i j).C = (s i j).C := by
    funext k
    unfold swap
    by_cases hb : k = b
    · subst hb
      by_cases ha : a = k
      · subst ha; simp
      · simp [Function.update_of_ne ha]
    · by_cases ha : k = a
      · subst ha
        simp [Function.update_of_ne hb]
      · simp [Function.update_of_ne hb, Function.update_of_ne ha]
  show ({ s i j with C := (swap a b s i j).C } : Proc K _ _) = s i j
  rw [this]

/-! ### Lanczos -/

/-- Local variables of `mLanczos` on all processes against the global ones. -/
structure LRep (l : LFam K r c) (L : LSt K N) : Prop where
  v0 : ∀ i j, Part (r.glob i) (l i j).v0 L.v0
  v1 : ∀ i j, Part (r.glob i) (l i j).v1 L.v1
  v2 : ∀ i j, Part (r.glob i) (l i j).v2 L.v2
  d : ∀ i j, (l i j).d = L.d
  e : ∀ i j, (l i j).e = L.e
  rbeta : ∀ i j, (l i j).rbeta = L.rbeta
  C : ∀ i j, Part (r.glob i) (l i j).C L.C

theorem lanczosStep_rep (hE : RunsOk c r E.bRuns) (h : Rep s g) (M numvec : ℕ) (store : Bool) (k : ℕ)
    {l : LFam K r c} {L : LSt K N} (hl : LRep l L) :
    LRep (lanczosStep E s M numvec store k l)
      (Verif.lanczosStep axpyOwn g.H M numvec store k L) := by
  have hC : ∀ i j, Part (r.glob i)
      (if store then forRange 0 numvec (fun t C => Function.update C k ((l i j).v1 t)) (l i j).C
        else (l i j).C)
      (if store then forRange 0 numvec (fun i C => Function.update C k (L.v1 i)) L.C else L.C) := by
    intro i j
    split_ifs
    · exact forRange_rel (Part (r.glob i)) _ _
        (fun t _ _ _ _ hp => hp.update k (fun a => hl.v1 i j t a)) (hl.C i j)
    · exact hl.C i j
  have hv2 : ∀ i j, Part (r.glob i) (writeAt (l i j).v2 0 numvec (fun t =>
        redist E.bRuns (fun j' => applyVec s l j' t) i ((l i j).v2 t)))
      (writeAt L.v2 0 numvec (fun t => g.Hᴴ.mulVec (L.v1 t))) := by
    intro i j
    refine (hl.v2 i j).writeAt 0 numvec fun t _ a => ?_
    exact redist_spec hE (fun j' b => sum_conj_mulVec (fun i => h.H i j')
      (fun i' a' => hl.v1 i' j' t a') b) i _ a
  have hal : ∀ j t, ∑ i', -dotc ((l i' j).v1 t) (writeAt (l i' j).v2 0 numvec (fun t =>
        redist E.bRuns (fun j' => applyVec s l j' t) i' ((l i' j).v2 t)) t) =
      -dotc (L.v1 t) (writeAt L.v2 0 numvec (fun t => g.Hᴴ.mulVec (L.v1 t)) t) := by
    intro j t
    rw [Finset.sum_neg_distrib, sum_dotc (fun p a => hl.v1 p j t a) (fun p a => hv2 p j t a)]
  unfold lanczosStep Verif.lanczosStep
  simp only [axpyOwn, hal, neg_neg, hl.rbeta, hl.d, hl.e]
  generalize hv2' : writeAt L.v2 0 numvec (fun t => g.Hᴴ.mulVec (L.v1 t)) = V2 at hv2
  have hw1 : ∀ i j, Part (r.glob i) (writeAt (writeAt (l i j).v2 0 numvec (fun t =>
        redist E.bRuns (fun j' => applyVec s l j' t) i ((l i j).v2 t))) 0 numvec
        (fun t => -dotc (L.v1 t) (V2 t) • (l i j).v1 t + writeAt (l i j).v2 0 numvec (fun t =>
        redist E.bRuns (fun j' => applyVec s l j' t) i ((l i j).v2 t)) t))
      (writeAt V2 0 numvec (fun t => -dotc (L.v1 t) (V2 t) • L.v1 t + V2 t)) := by
    intro i j
    refine (hv2 i j).writeAt 0 numvec fun t _ a => ?_
    simp only [Pi.add_apply, Pi.smul_apply]
    rw [hl.v1 i j t a, hv2 i j t a]
  have hw : ∀ i j, Part (r.glob i) (if k > 0 then writeAt (writeAt (writeAt (l i j).v2 0 numvec (fun t =>
        redist E.bRuns (fun j' => applyVec s l j' t) i ((l i j).v2 t))) 0 numvec
        (fun t => -dotc (L.v1 t) (V2 t) • (l i j).v1 t + writeAt (l i j).v2 0 numvec (fun t =>
        redist E.bRuns (fun j' => applyVec s l j' t) i ((l i j).v2 t)) t)) 0 numvec
        (fun t => (-(L.rbeta t : K)) • (l i j).v0 t + writeAt (writeAt (l i j).v2 0 numvec (fun t =>
        redist E.bRuns (fun j' => applyVec s l j' t) i ((l i j).v2 t))) 0 numvec
        (fun t => -dotc (L.v1 t) (V2 t) • (l i j).v1 t + writeAt (l i j).v2 0 numvec (fun t =>
        redist E.bRuns (fun j' => applyVec s l j' t) i ((l i j).v2 t)) t) t)
      else writeAt (writeAt (l i j).v2 0 numvec (fun t =>
        redist E.bRuns (fun j' => applyVec s l j' t) i ((l i j).v2 t))) 0 numvec
        (fun t => -dotc (L.v1 t) (V2 t) • (l i j).v1 t + writeAt (l i j).v2 0 numvec (fun t =>
        redist E.bRuns (fun j' => applyVec s l j' t) i ((l i j).v2 t)) t))
      (if k > 0 then writeAt (writeAt V2 0 numvec (fun t => -dotc (L.v1 t) (V2 t) • L.v1 t + V2 t)) 0
        numvec (fun t => (-(L.rbeta t : K)) • L.v0 t +
          writeAt V2 0 numvec (fun t => -dotc (L.v1 t) (V2 t) • L.v1 t + V2 t) t)
        else writeAt V2 0 numvec (fun t => -dotc (L.v1 t) (V2 t) • L.v1 t + V2 t)) := by
    intro i j
    split_ifs
    · refine (hw1 i j).writeAt 0 numvec fun t _ a => ?_
      simp only [Pi.add_apply, Pi.smul_apply]
      rw [hl.v0 i j t a, hw1 i j t a]
    · exact hw1 i j
  revert hw
  generalize (if k > 0 then writeAt (writeAt V2 0 numvec (fun t => -dotc (L.v1 t) (V2 t) • L.v1 t + V2 t)) 0
        numvec (fun t => (-(L.rbeta t : K)) • L.v0 t +
          writeAt V2 0 numvec (fun t => -dotc (L.v1 t) (V2 t) • L.v1 t + V2 t) t)
        else writeAt V2 0 numvec (fun t => -dotc (L.v1 t) (V2 t) • L.v1 t + V2 t)) = W
  intro hw
  have hb := fun j t => sqrt_sum_nrm2 (fun p a => hw p j t a)
  simp only [hb]
  by_cases hk : k = M - 1
  · rw [if_pos hk, if_pos hk]
    exact ⟨hl.v0, hl.v1, hw, fun _ _ => rfl, fun _ _ => rfl, fun _ _ => rfl, hC⟩
  · rw [if_neg hk, if_neg hk]
    refine ⟨hl.v1, ?_, hl.v0, fun _ _ => rfl, fun _ _ => rfl, fun _ _ => rfl, hC⟩
    intro i j
    dsimp only
    refine (hw i j).writeAt 0 numvec fun t _ a => ?_
    simp only [Pi.smul_apply]
    rw [hw i j t a]

theorem mLanczos_rep (hE : RunsOk c r E.bRuns) (h : Rep s g) (M numvec : ℕ) (store : Bool) :
    LRep (mLanczos E s M numvec store) (Verif.mLanczos axpyOwn g.H M numvec store g.C) := by
  have h0 : LRep (fun i j =>
      { v0 := fun _ _ => 0
        v1 := fun t => ((1 / Real.sqrt (∑ i', nrm2 ((s i' j).C t) ^ 2) : ℝ) : K) • (s i j).C t
        v2 := fun _ _ => 0, d := fun _ => 0, e := fun _ => 0, rbeta := fun _ => 0
        C := (s i j).C } : LFam K r c)
      { v0 := fun _ _ => 0, v1 := fun i => ((1 / nrm2 (g.C i) : ℝ) : K) • g.C i, v2 := fun _ _ => 0,
        d := fun _ => 0, e := fun _ => 0, rbeta := fun _ => 0, C := g.C } := by
    refine ⟨fun _ _ _ _ => rfl, ?_, fun _ _ _ _ => rfl, fun _ _ => rfl, fun _ _ => rfl,
      fun _ _ => rfl, h.C⟩
    intro i j t a
    dsimp only
    rw [sqrt_sum_nrm2 (fun p a => h.C p j t a)]
    simp only [Pi.smul_apply]
    rw [h.C]
  have h1 := forRange_rel (lo := 0) (hi := M) LRep (lanczosStep E s M numvec store)
    (Verif.lanczosStep axpyOwn g.H M numvec store)
    (fun k l L _ _ hl => lanczosStep_rep hE h M numvec store k hl) h0
  unfold mLanczos Verif.mLanczos
  cases store
  · exact h1
  · exact ⟨h1.v0, h1.v1, h1.v2, h1.d, h1.e, h1.rbeta, fun i j => (h1.v1 i j).copyCols (h1.C i j) _ _⟩

/-! ### Symmetry check -/

theorem forRange_all {n : ℕ} (p : Fin n → Prop) [DecidablePred p] :
    forRange 0 n (fun k ok => if h : k < n then (ok && !decide (p ⟨k, h⟩)) else ok) true = true ↔
      ∀ a, ¬ p a := by
  have key : ∀ m ≤ n, forRange 0 m (fun k ok => if h : k < n then (ok && !decide (p ⟨k, h⟩)) else ok)
      true = true ↔ ∀ a : Fin n, a.val < m → ¬ p a := by
    intro m hm
    induction m with
    | zero => exact ⟨fun _ a ha => absurd ha (Nat.not_lt_zero _), fun _ => rfl⟩
    | succ m ih =>
      rw [forRange_succ (Nat.zero_le _), dif_pos (show m < n by omega), Bool.and_eq_true,
        ih (by omega)]
      constructor
      · rintro ⟨h1, h2⟩ a ha
        by_cases hm : a.val = m
        · have : a = ⟨m, by omega⟩ := Fin.ext hm
          rw [this]
          simpa using h2
        · exact h1 a (by omega)
      · intro h
        exact ⟨fun a ha => h a (by omega), by simpa using h ⟨m, by omega⟩ (Nat.lt_succ_self _)⟩
  exact (key n le_rfl).trans ⟨fun h a => h a a.2, fun h a _ => h a⟩

theorem symCheck_rep (hc : RunsOk r c E.cRuns) (hb : RunsOk c r E.bRuns) (h : Rep s g) :
    symCheck E s = gSymCheck (E.glob r) g := by
  have hp : ∀ (p : Fin r.procs) a, (fun a : Fin (r.size p) => E.probe p a) a =
      (E.glob r).probe (r.glob p a) := fun p a =>
    (assemble_apply r (fun p a => E.probe p a) p a).symm
  have hl : ∀ i, symLocal E s i = true ↔ ∀ a : Fin (r.size i),
      ‖g.Hᴴ.mulVec (E.glob r).probe (r.glob i a) - g.H.mulVec (E.glob r).probe (r.glob i a)‖ ≤
        E.symTol := by
    intro i
    unfold symLocal
    have hw : ∀ a, redist E.bRuns (fun j => ∑ i', (s i' j).Hᴴ.mulVec fun a => E.probe i' a) i
        (fun a : Fin (r.size i) => E.probe i a) a =
        g.Hᴴ.mulVec (E.glob r).probe (r.glob i a) := fun a =>
      redist_spec hb (fun j b => sum_conj_mulVec (fun i => h.H i j) hp b) i _ a
    have hu : ∀ a, (∑ j', (s i j').H.mulVec (redist E.cRuns
          (fun (i : Fin r.procs) (a : Fin (r.size i)) => E.probe i a) j' fun _ => 0)) a =
        g.H.mulVec (E.glob r).probe (r.glob i a) := fun a =>
      sum_mulVec (fun j => h.H i j) (fun j b => redist_spec hc hp j _ b) a
    classical
    refine (forRange_all (fun a => ‖redist E.bRuns (fun j => ∑ i', (s i' j).Hᴴ.mulVec fun a =>
      E.probe i' a) i (fun a : Fin (r.size i) => E.probe i a) a - (∑ j', (s i j').H.mulVec (redist E.cRuns
          (fun (i : Fin r.procs) (a : Fin (r.size i)) => E.probe i a) j' fun _ => 0)) a‖ > E.symTol)).trans ?_
    simp only [hw, hu, not_lt, gt_iff_lt]
  unfold symCheck gSymCheck
  congr 1
  apply propext
  constructor
  · intro hall a
    obtain ⟨p, b, rfl⟩ := r.exists_glob a
    exact (hl p).1 (hall p) b
  · intro hall i
    exact (hl i).2 fun a => hall _

/-! ### The refinement -/

/-- The distributed backend, seen from any process, behaves as the global one. -/
theorem sim (hc : RunsOk r c E.cRuns) (hb : RunsOk c r E.bRuns) (i0 : Fin r.procs) (j0 : Fin c.procs) :
    Sim (opsAt E i0 j0) (gOps (E.glob r) : Chase ℝ (GSt K N)) Rep where
  checkSymmetryEasy := fun s g h => by
    have he := symCheck_rep hc hb h
    refine ⟨he, ⟨h.H, h.C, h.C2, h.B, h.B2, h.next, h.locked, fun _ _ => he, h.fresh⟩⟩
  start := fun s g h => ⟨h.H, h.C, h.C2, h.B, h.B2, h.next, fun _ _ => rfl, h.isSym, h.fresh⟩
  finish := fun _ _ h => h
  initVecs := fun b s g h => initVecs_rep h b
  qr := fun _ _ s g h => qr_rep h j0 _ _ _ _
  lanczos1 := fun m s g h => by
    have hl := mLanczos_rep hb h m 1 false
    refine ⟨?_, h⟩
    show boundOf _ _ _ = lanczosBound _ _ _ _ _
    unfold boundOf lanczosBound
    rw [hl.d, hl.e, hl.rbeta]
    rfl
  lanczosN := fun m numvec s g h => by
    have hl := mLanczos_rep hb h m numvec true
    refine ⟨?_, setC_rep h fun i j => hl.C i j⟩
    show multiOf _ _ _ _ = (lanczosMulti _ _ _ _ _ _).1
    unfold multiOf lanczosMulti
    rw [hl.d, hl.e, hl.rbeta]
    rfl
  lanczosDos := fun i m z s g h => lanczosDos_rep h i m z
  shift := fun x b s g h => shift_rep h x b
  hemm := fun n a b o s g h => by
    have hl : (fun i j => apply (a : K) (b : K) o n (s i j).locked s i j) =
        apply (a : K) (b : K) o n g.locked s := by
      funext i j; rw [h.locked i j]
    show Rep (fun i j => apply (a : K) (b : K) o n (s i j).locked s i j) _
    rw [hl]
    exact apply_rep h _ _ _ _ _
  rr := fun b s g h => ⟨(rr_rep hc h b).1 i0 j0, (rr_rep hc h b).2⟩
  resd := fun f k s g h => ⟨(resd_rep hc h f k).1 i0 j0, (resd_rep hc h f k).2⟩
  lock := fun k s g h => ⟨h.H, h.C, h.C2, h.B, h.B2, h.next, fun i j => by
    show (s i j).locked + k = g.locked + k; rw [h.locked i j], h.isSym, h.fresh⟩
  swap := fun a b s g h => by
    show Rep (swap a b s) g
    rw [swap_eq]; exact h

end ops

end Mpi
end Verif
