/-
Runs that are not aborted are runs with routines that never fail.
-/
import Verif.Backend.Status
import Verif.Backend.LapackExists

namespace Verif

open Matrix
open scoped ComplexOrder

variable {K : Type*} [RCLike K] {N : ℕ}

/-- What LAPACK guarantees in exact arithmetic when a routine may report a failure: the result is right if
`info` is zero.  `potrf` is as in `Lapack.Ok`, its `info` is part of the result. -/
structure Lapack.OkWhen (L : Lapack K) (I : Info K) : Prop where
  potrf : ∀ {n : ℕ} (A : Matrix (Fin n) (Fin n) K), A.IsHermitian →
    ((L.potrf A).1 = 0 ∧ (triu (L.potrf A).2)ᴴ * triu (L.potrf A).2 = A ∧
      ∀ i, (L.potrf A).2 i i ≠ 0) ∨
    (∃ (k : ℕ) (hk : k + 1 ≤ n), (L.potrf A).1 = k + 1 ∧
      (∀ i : Fin n, i.val < k → (L.potrf A).2 i i ≠ 0) ∧
      ¬ (A.submatrix (Fin.castLE hk) (Fin.castLE hk)).PosDef)
  hhqr : ∀ {m n : ℕ} (V : Matrix (Fin m) (Fin n) K), n ≤ m → I.hhqr V = 0 →
    (L.hhqr V)ᴴ * L.hhqr V = 1 ∧ ∃ R : Matrix (Fin n) (Fin n) K, L.hhqr V * triu R = V
  heevd : ∀ {n : ℕ} (A : Matrix (Fin n) (Fin n) K), A.IsHermitian → I.heevd A = 0 →
    (L.heevd A).2ᴴ * (L.heevd A).2 = 1 ∧
    A * (L.heevd A).2 = (L.heevd A).2 * diagonal (fun i => ((L.heevd A).1 i : K)) ∧
    Monotone (L.heevd A).1
  stemr : ∀ (M : ℕ) (d e : ℕ → ℝ), I.stemr M d e = 0 →
    (∀ i j, i ≤ j → j < M → (L.stemr M d e).1 i ≤ (L.stemr M d e).1 j) ∧
    (∀ k l, k < M → l < M → ∑ i ∈ Finset.range M,
      (L.stemr M d e).2 (i + k * M) * (L.stemr M d e).2 (i + l * M) = if k = l then 1 else 0) ∧
    (∀ k i, k < M → i < M →
      d i * (L.stemr M d e).2 (i + k * M)
        + (if i + 1 < M then e i * (L.stemr M d e).2 (i + 1 + k * M) else 0)
        + (if 0 < i then e (i - 1) * (L.stemr M d e).2 (i - 1 + k * M) else 0)
      = (L.stemr M d e).1 k * (L.stemr M d e).2 (i + k * M))

/-- The routines whose status no `assert` looks at never fail. -/
structure Info.Covered (I : Info K) (a : Asserted) : Prop where
  hhqr : a.hhqr = false → ∀ {m n : ℕ} (V : Matrix (Fin m) (Fin n) K), I.hhqr V = 0
  heevd : a.heevd = false → ∀ {n : ℕ} (A : Matrix (Fin n) (Fin n) K), I.heevd A = 0
  stemr : a.stemr = false → ∀ (M : ℕ) (d e : ℕ → ℝ), I.stemr M d e = 0

theorem Info.covered_cpu (I : Info K) : I.Covered .cpu :=
  { hhqr := fun h => Bool.noConfusion h
    heevd := fun h => Bool.noConfusion h
    stemr := fun h => Bool.noConfusion h }

/-- The routines with a right result in place of every failure. -/
noncomputable def Lapack.repaired (L : Lapack K) (I : Info K) : Lapack K :=
  { L with
    hhqr := fun V => if I.hhqr V = 0 then L.hhqr V else (Lapack.ideal K L.randn L.probe L.eps).hhqr V
    heevd := fun A =>
      if I.heevd A = 0 then L.heevd A else (Lapack.ideal K L.randn L.probe L.eps).heevd A
    stemr := fun M d e =>
      if I.stemr M d e = 0 then L.stemr M d e else (Lapack.ideal K L.randn L.probe L.eps).stemr M d e }

theorem Lapack.repaired_ok {L : Lapack K} {I : Info K} (h : L.OkWhen I) : (L.repaired I).Ok where
  potrf := h.potrf
  hhqr := by
    intro m n V hn
    by_cases hi : I.hhqr V = 0
    · have e : (L.repaired I).hhqr V = L.hhqr V := if_pos hi
      rw [e]; exact h.hhqr V hn hi
    · have e : (L.repaired I).hhqr V = (Lapack.ideal K L.randn L.probe L.eps).hhqr V := if_neg hi
      rw [e]; exact (Lapack.ideal_ok L.randn L.probe L.eps).hhqr V hn
  heevd := by
    intro n A hA
    by_cases hi : I.heevd A = 0
    · have e : (L.repaired I).heevd A = L.heevd A := if_pos hi
      rw [e]; exact h.heevd A hA hi
    · have e : (L.repaired I).heevd A = (Lapack.ideal K L.randn L.probe L.eps).heevd A := if_neg hi
      rw [e]; exact (Lapack.ideal_ok L.randn L.probe L.eps).heevd A hA
  stemr := by
    intro M d e
    by_cases hi : I.stemr M d e = 0
    · have e' : (L.repaired I).stemr M d e = L.stemr M d e := if_pos hi
      rw [e']; exact h.stemr M d e hi
    · have e' : (L.repaired I).stemr M d e = (Lapack.ideal K L.randn L.probe L.eps).stemr M d e :=
        if_neg hi
      rw [e']; exact (Lapack.ideal_ok L.randn L.probe L.eps).stemr M d e

/-- With right routines nothing changes. -/
theorem Lapack.Ok.okWhen {L : Lapack K} (h : L.Ok) (I : Info K) : L.OkWhen I :=
  ⟨h.potrf, fun V hn _ => h.hhqr V hn, fun A hA _ => h.heevd A hA, fun M d e _ => h.stemr M d e⟩

section Qr
variable {S : Type*} {r r' : QrRoutines S} {bad : S → Prop}

/-- `QR` does the same with routines that differ only in Householder QRs in states it does not meet. -/
theorem qrSelect_agree (h1 : r.cholQR1 = r'.cholQR1) (h2 : r.cholQR2 = r'.cholQR2)
    (h3 : r.shiftedcholQR2 = r'.shiftedcholQR2) (h4 : r.lockCopy = r'.lockCopy)
    (hh : ∀ s, ¬ bad s → r.hhQR s = r'.hhQR s) {doCholQR : Bool} {env : Option ℤ} {above below : Bool}
    {s : S} (hm : ¬ qrMeets r bad doCholQR env above below s) :
    qrSelect r doCholQR env above below s = qrSelect r' doCholQR env above below s := by
  unfold qrMeets at hm
  unfold qrSelect at hm ⊢
  by_cases hd : cholDisable doCholQR env = 1
  · rw [if_pos hd] at hm ⊢
    rw [if_pos hd, h4, hh s (fun hb => hm (Or.inr hb))]
  · rw [if_neg hd] at hm ⊢
    rw [if_neg hd]
    have key : ∀ f f' : S → ℤ × S, f = f' →
        ¬ (if (f s).1 ≠ 0 then (r.marked bad).lockCopy true ((r.marked bad).hhQR ((f s).2, False))
          else (r.marked bad).lockCopy false ((f s).2, False)).2 →
        (if (f s).1 ≠ 0 then r.lockCopy true (r.hhQR (f s).2) else r.lockCopy false (f s).2) =
        (if (f' s).1 ≠ 0 then r'.lockCopy true (r'.hhQR (f' s).2) else r'.lockCopy false (f' s).2) := by
      rintro f _ rfl hm
      by_cases h0 : (f s).1 ≠ 0
      · rw [if_pos h0] at hm ⊢
        rw [if_pos h0, h4, hh _ (fun hb => hm (Or.inr hb))]
      · rw [if_neg h0, if_neg h0, h4]
    cases above
    · cases below
      · exact key _ _ h2 hm
      · exact key _ _ h1 hm
    · exact key _ _ h3 hm

end Qr

section Lanczos
variable {I : Info K} {a : Asserted} (hc : I.Covered a) (L : Lapack K)
include hc

theorem hhqr_agree {m n : ℕ} {V : Matrix (Fin m) (Fin n) K} (h : ¬ (a.hhqr = true ∧ I.hhqr V ≠ 0)) :
    L.hhqr V = (L.repaired I).hhqr V := by
  refine (if_pos ?_).symm
  by_contra h0
  cases ha : a.hhqr
  · exact h0 (hc.hhqr ha V)
  · exact h ⟨ha, h0⟩

theorem heevd_agree {n : ℕ} {A : Matrix (Fin n) (Fin n) K} (h : ¬ (a.heevd = true ∧ I.heevd A ≠ 0)) :
    L.heevd A = (L.repaired I).heevd A := by
  refine (if_pos ?_).symm
  by_contra h0
  cases ha : a.heevd
  · exact h0 (hc.heevd ha A)
  · exact h ⟨ha, h0⟩

theorem stemr_agree {M : ℕ} {d e : ℕ → ℝ} (h : ¬ (a.stemr = true ∧ I.stemr M d e ≠ 0)) :
    L.stemr M d e = (L.repaired I).stemr M d e := by
  refine (if_pos ?_).symm
  by_contra h0
  cases ha : a.stemr
  · exact h0 (hc.stemr ha M d e)
  · exact h ⟨ha, h0⟩

theorem boundOf_agree {M : ℕ} {m : ℕ} {l : LSt K m} (h : ¬ I.boundFails a M l) :
    Mpi.boundOf L M l = Mpi.boundOf (L.repaired I) M l := by
  unfold Mpi.boundOf
  rw [stemr_agree hc L h]

theorem multiOf_agree {M numvec : ℕ} {m : ℕ} {l : LSt K m} (h : ¬ I.multiFails a M numvec l) :
    Mpi.multiOf L M numvec l = Mpi.multiOf (L.repaired I) M numvec l := by
  have e : ∀ i, i < numvec → L.stemr M (fun k => l.d (i * M + k)) (fun k => l.e (i * M + k)) =
      (L.repaired I).stemr M (fun k => l.d (i * M + k)) (fun k => l.e (i * M + k)) := fun i hi =>
    stemr_agree hc L fun hx => h ⟨hx.1, i, hi, hx.2⟩
  let body : (ℕ → (ℕ → ℝ) × (ℕ → ℝ)) → ℕ → LanczosOut ℝ → LanczosOut ℝ := fun st i o =>
    { o with
      theta := writeAt o.theta (M * i) M (st i).1
      ritzV := (st i).2
      tau := forRange 0 M (fun k t =>
        Function.update t (k + i * M) (|(st i).2 (k * M)| * |(st i).2 (k * M)|)) o.tau }
  let ub : LanczosOut ℝ → ℝ := fun out => forRange 1 numvec (fun i ub =>
    max (max |out.theta (i * M)| |out.theta ((i + 1) * M - 1)| + |l.rbeta i|) ub)
    (max |out.theta 0| |out.theta (M - 1)| + |l.rbeta 0|)
  let fin : LanczosOut ℝ → LanczosOut ℝ := fun out => { out with upperb := ub out }
  have e1 : ∀ L : Lapack K, Mpi.multiOf L M numvec l = fin (forRange 0 numvec
      (body fun i => L.stemr M (fun k => l.d (i * M + k)) (fun k => l.e (i * M + k)))
      { upperb := 0, theta := fun _ => 0, tau := fun _ => 0, ritzV := fun _ => 0 }) := fun _ => rfl
  rw [e1, e1]
  congr 1
  refine forRange_congr _ _ _ fun i o _ hi => ?_
  simp only [body, e i hi]

/-- In terms of the functions of the single-process backends. -/
theorem lanczosBound_agree {pick : ℕ → ℕ} {H : Matrix (Fin N) (Fin N) K} {M : ℕ} {C : ℕ → Fin N → K}
    (h : ¬ I.boundFails a M (mLanczos pick H M 1 false C)) :
    lanczosBound pick L H M C = lanczosBound pick (L.repaired I) H M C :=
  boundOf_agree hc L h

theorem lanczosMulti_agree {pick : ℕ → ℕ} {H : Matrix (Fin N) (Fin N) K} {M numvec : ℕ}
    {C : ℕ → Fin N → K} (h : ¬ I.multiFails a M numvec (mLanczos pick H M numvec true C)) :
    lanczosMulti pick L H M numvec C = lanczosMulti pick (L.repaired I) H M numvec C :=
  Prod.ext (multiOf_agree hc L h) rfl

end Lanczos

section Agree
variable {I : Info K} {a : Asserted} (hc : I.Covered a)
include hc

/-- A call of the sequential backend without a failing assertion does what it does with repaired
routines. -/
theorem Seq.agree (E : Env K) (q : Req ℝ) (s : Seq.St K N) (h : ¬ Seq.fails I a E q s) :
    q.run (Seq.ops E) s = q.run (Seq.ops { E with lapack := E.lapack.repaired I }) s := by
  cases q with
  | qr k cond =>
    refine Prod.ext rfl ?_
    have h' : ¬ qrMeets (Seq.qrRoutines E s.locked)
        (fun s => a.hhqr = true ∧ I.hhqr (getBlk 0 E.nevex s.C) ≠ 0) E.doCholQR E.envDisable
        (open Classical in decide (cond > E.condUpper))
        (open Classical in decide (cond < E.condLower)) s := h
    have hh : ∀ t : Seq.St K N, ¬ (a.hhqr = true ∧ I.hhqr (getBlk 0 E.nevex t.C) ≠ 0) →
        (Seq.qrRoutines E s.locked).hhQR t =
          (Seq.qrRoutines { E with lapack := E.lapack.repaired I } s.locked).hhQR t := by
      intro t ht
      show ({ t with C := setBlk 0 (E.lapack.hhqr (getBlk 0 E.nevex t.C)) t.C } : Seq.St K N) =
        { t with C := setBlk 0 ((E.lapack.repaired I).hhqr (getBlk 0 E.nevex t.C)) t.C }
      rw [hhqr_agree hc E.lapack ht]
    have := qrSelect_agree (r := Seq.qrRoutines E s.locked)
      (r' := Seq.qrRoutines { E with lapack := E.lapack.repaired I } s.locked)
      (bad := fun t => a.hhqr = true ∧ I.hhqr (getBlk 0 E.nevex t.C) ≠ 0) rfl rfl rfl rfl hh h'
    exact this
  | lanczos1 m => exact Prod.ext (lanczosBound_agree hc E.lapack h) rfl
  | lanczosN m numvec =>
    show ((lanczosMulti axpyOwn E.lapack s.H m numvec s.C).1,
      ({ s with C := (lanczosMulti axpyOwn E.lapack s.H m numvec s.C).2 } : Seq.St K N)) =
      ((lanczosMulti axpyOwn (E.lapack.repaired I) s.H m numvec s.C).1,
      ({ s with C := (lanczosMulti axpyOwn (E.lapack.repaired I) s.H m numvec s.C).2 } : Seq.St K N))
    rw [lanczosMulti_agree hc E.lapack h]
  | rr block =>
    let t := Seq.asynCxHGatherC s.locked block s
    have e : ∀ L : Lapack K, Seq.rr { E with lapack := L } block s.locked s =
        (fun x : (Fin block → ℝ) × Matrix (Fin block) (Fin block) K =>
          ((fun i => if h : i < block then x.1 ⟨i, h⟩ else 0 : ℕ → ℝ),
            ({ t with
              C := setBlk s.locked (getBlk s.locked block t.C2 * x.2) t.C
              C2 := copyCols s.locked block (setBlk s.locked (getBlk s.locked block t.C2 * x.2) t.C)
                t.C2 } : Seq.St K N)))
          (L.heevd ((getBlk s.locked block t.B2)ᴴ * getBlk s.locked block t.B)) := fun _ => rfl
    show Seq.rr E block s.locked s =
      Seq.rr { E with lapack := E.lapack.repaired I } block s.locked s
    refine (e E.lapack).trans (Eq.trans ?_ (e (E.lapack.repaired I)).symm)
    rw [heevd_agree hc E.lapack h]
  | _ => rfl

/-- The same for the in-place backends. -/
theorem InPlace.agree (E : Env K) (k : InPlace.Kind) (q : Req ℝ) (s : InPlace.St K N)
    (h : ¬ InPlace.fails I a E k q s) :
    q.run (InPlace.ops E k) s = q.run (InPlace.ops { E with lapack := E.lapack.repaired I } k) s := by
  cases q with
  | qr kk cond =>
    refine Prod.ext rfl ?_
    have h' : ¬ qrMeets (InPlace.qrRoutines E k s.locked)
        (fun s => a.hhqr = true ∧ I.hhqr (getBlk 0 E.nevex s.V1) ≠ 0) E.doCholQR E.envDisable
        (open Classical in decide (cond > E.condUpper))
        (open Classical in decide (cond < E.condLower)) s := h
    have hh : ∀ t : InPlace.St K N, ¬ (a.hhqr = true ∧ I.hhqr (getBlk 0 E.nevex t.V1) ≠ 0) →
        (InPlace.qrRoutines E k s.locked).hhQR t =
          (InPlace.qrRoutines { E with lapack := E.lapack.repaired I } k s.locked).hhQR t := by
      intro t ht
      show ({ InPlace.saveLocked s.locked t with
          V1 := setBlk 0 (E.lapack.hhqr (getBlk 0 E.nevex t.V1)) t.V1 } : InPlace.St K N) =
        { InPlace.saveLocked s.locked t with
          V1 := setBlk 0 ((E.lapack.repaired I).hhqr (getBlk 0 E.nevex t.V1)) t.V1 }
      rw [hhqr_agree hc E.lapack ht]
    have := qrSelect_agree (r := InPlace.qrRoutines E k s.locked)
      (r' := InPlace.qrRoutines { E with lapack := E.lapack.repaired I } k s.locked)
      (bad := fun t => a.hhqr = true ∧ I.hhqr (getBlk 0 E.nevex t.V1) ≠ 0) rfl rfl rfl rfl hh h'
    exact this
  | lanczos1 m => exact Prod.ext (lanczosBound_agree hc E.lapack h) rfl
  | lanczosN m numvec =>
    show ((lanczosMulti k.axpy E.lapack s.H m numvec s.V1).1,
      ({ s with V1 := (lanczosMulti k.axpy E.lapack s.H m numvec s.V1).2 } : InPlace.St K N)) =
      ((lanczosMulti k.axpy (E.lapack.repaired I) s.H m numvec s.V1).1,
      ({ s with V1 := (lanczosMulti k.axpy (E.lapack.repaired I) s.H m numvec s.V1).2 } :
        InPlace.St K N))
    rw [lanczosMulti_agree hc E.lapack h]
  | rr block =>
    let V2 := setBlk s.locked (s.Hᴴ * getBlk s.locked block s.V1) s.V2
    have e : ∀ L : Lapack K, InPlace.rr { E with lapack := L } block s.locked s =
        (fun x : (Fin block → ℝ) × Matrix (Fin block) (Fin block) K =>
          ((fun i => if h : i < block then x.1 ⟨i, h⟩ else 0 : ℕ → ℝ),
            ({ s with
              V1 := setBlk s.locked (getBlk s.locked block s.V1 * x.2) V2
              V2 := s.V1, flipped := !s.flipped
              dRitz := writeAt s.dRitz 0 block fun i => if h : i < block then x.1 ⟨i, h⟩ else 0 } :
              InPlace.St K N)))
          (L.heevd ((getBlk s.locked block V2)ᴴ * getBlk s.locked block s.V1)) := fun _ => rfl
    show InPlace.rr E block s.locked s =
      InPlace.rr { E with lapack := E.lapack.repaired I } block s.locked s
    refine (e E.lapack).trans (Eq.trans ?_ (e (E.lapack.repaired I)).symm)
    rw [heevd_agree hc E.lapack h]
  | finish => cases k <;> rfl
  | initVecs b => cases k <;> rfl
  | resd f m => cases k <;> rfl
  | _ => rfl

end Agree

namespace Mpi
variable {r c : Layout N} {I : Info K} {a : Asserted}

/-- The same parameters with other routines. -/
def MEnv.withLapack (E : MEnv K) (L : Lapack K) : MEnv K := { E with base := { E.base with lapack := L } }

section
variable (hc : I.Covered a)
include hc

theorem hhQR_agree (E : MEnv K) {s : Fam K r c}
    (h : ¬ (a.hhqr = true ∧ ∃ j, I.hhqr (getBlk 0 E.base.nevex fun k =>
      assemble r fun i' => (s i' j).C k) ≠ 0)) :
    hhQR E s = hhQR (E.withLapack (E.base.lapack.repaired I)) s := by
  funext i j
  have e : ∀ L : Lapack K, hhQR (E.withLapack L) s i j =
      { s i j with
        C := setBlk 0 (fun a k => (L.hhqr (getBlk 0 E.base.nevex fun k =>
          assemble r fun i' => (s i' j).C k)) (r.glob i a) k) (s i j).C
        next := if E.scalapack then (s i j).next else .bAc } := fun _ => rfl
  refine (e E.base.lapack).trans (Eq.trans ?_ (e _).symm)
  rw [hhqr_agree hc E.base.lapack fun hx => h ⟨hx.1, j, hx.2⟩]

/-- The same for the distributed backend. -/
theorem agree (E : MEnv K) (i0 : Fin r.procs) (j0 : Fin c.procs) (q : Req ℝ) (s : Fam K r c)
    (h : ¬ fails I a E j0 q s) :
    q.run (opsAt E i0 j0) s =
      q.run (opsAt (E.withLapack (E.base.lapack.repaired I)) i0 j0) s := by
  cases q with
  | qr k cond =>
    refine Prod.ext rfl ?_
    have := qrSelect_agree (r := qrRoutines E j0 fun i j => (s i j).locked)
      (r' := qrRoutines (E.withLapack (E.base.lapack.repaired I)) j0 fun i j => (s i j).locked)
      (bad := fun s => a.hhqr = true ∧ ∃ j, I.hhqr (getBlk 0 E.base.nevex fun k =>
        assemble r fun i' => (s i' j).C k) ≠ 0)
      rfl rfl rfl rfl (fun t ht => hhQR_agree hc E ht) h
    exact this
  | lanczos1 m => exact Prod.ext (boundOf_agree hc E.base.lapack fun hx => h ⟨i0, j0, hx⟩) rfl
  | lanczosN m numvec =>
    exact Prod.ext (multiOf_agree hc E.base.lapack fun hx => h ⟨i0, j0, hx⟩) rfl
  | rr block =>
    let t : Fam K r c := fun i j => asynCxHGatherC E (s i j).locked block s i j
    have ha : ∀ i j, E.base.lapack.heevd (rrMatrix (s i j).locked block t i) =
        (E.base.lapack.repaired I).heevd (rrMatrix (s i j).locked block t i) := fun i j =>
      heevd_agree hc E.base.lapack fun hx => h ⟨hx.1, i, j, hx.2⟩
    let F : ((i : Fin r.procs) → Fin c.procs → (Fin block → ℝ) × Matrix (Fin block) (Fin block) K) →
        (ℕ → ℝ) × Fam K r c := fun x =>
      (fun k => if h : k < block then (x i0 j0).1 ⟨k, h⟩ else 0,
        fun i j =>
          let C := setBlk (s i j).locked (getBlk (s i j).locked block (t i j).C2 * (x i j).2) (t i j).C
          { t i j with C := C, C2 := copyCols (s i j).locked block C (t i j).C2 })
    have e : ∀ L : Lapack K, (Req.rr block).run (opsAt (E.withLapack L) i0 j0) s =
        F fun i j => L.heevd (rrMatrix (s i j).locked block t i) := fun _ => rfl
    refine (e E.base.lapack).trans (Eq.trans ?_ (e _).symm)
    exact congrArg F (funext fun i => funext fun j => ha i j)
  | _ => rfl

end
end Mpi

namespace Mgpu
open Mpi (Layout MEnv Fam)
variable {r c : Layout N} {I : Info K} {a : Asserted}

/-- The same parameters with other routines. -/
def GpuEnv.withLapack (E : GpuEnv K) (L : Lapack K) : GpuEnv K := { E with mpi := E.mpi.withLapack L }

section
variable (hc : I.Covered a)
include hc

/-- `hhQR` as a function of what `Mpi.hhQR` makes of the host buffers. -/
theorem hhQR_agree (E : GpuEnv K) {t : GFam K r c}
    (ht : ¬ (a.hhqr = true ∧ ∃ j, I.hhqr (getBlk 0 E.mpi.base.nevex fun k =>
      Mpi.assemble r fun i' =>
        (if E.aware then (t i' j).downC 0 E.mpi.base.nevex else t i' j).host.C k) ≠ 0)) :
    hhQR E t = hhQR (E.withLapack (E.mpi.base.lapack.repaired I)) t := by
  let s1 : GFam K r c := fun i j =>
    if E.aware then (t i j).downC 0 E.mpi.base.nevex else t i j
  have e1 : Mpi.hhQR E.mpi (fun i j => (s1 i j).host) =
      Mpi.hhQR (E.mpi.withLapack (E.mpi.base.lapack.repaired I)) (fun i j => (s1 i j).host) :=
    Mpi.hhQR_agree hc E.mpi ht
  let F : Fam K r c → GFam K r c := fun x i j =>
    let p : GProc K _ _ := { s1 i j with host := x i j }
    if E.mpi.scalapack then (if E.aware then p.upC 0 E.mpi.base.nevex else p)
    else { p with hh := true }
  exact congrArg F e1

theorem qr_agree (E : GpuEnv K) (i0 : Fin r.procs) (j0 : Fin c.procs) (k : ℕ) (cond : ℝ) (s : GFam K r c)
    (h : ¬ fails I a E j0 (.qr k cond) s) :
    (opsAt E i0 j0).qr k cond s =
      (opsAt (E.withLapack (E.mpi.base.lapack.repaired I)) i0 j0).qr k cond s := by
  have := qrSelect_agree (r := qrRoutines E j0 fun i j => (s i j).host.locked)
    (r' := qrRoutines (E.withLapack (E.mpi.base.lapack.repaired I)) j0
      fun i j => (s i j).host.locked)
    (bad := fun s => a.hhqr = true ∧ ∃ j, I.hhqr (getBlk 0 E.mpi.base.nevex fun k =>
      Mpi.assemble r fun i' =>
        (if E.aware then (s i' j).downC 0 E.mpi.base.nevex else s i' j).host.C k) ≠ 0)
    rfl rfl rfl rfl (fun t ht => hhQR_agree hc E ht) h
  exact this

theorem rr_agree (E : GpuEnv K) (i0 : Fin r.procs) (j0 : Fin c.procs) (block : ℕ) (s : GFam K r c)
    (h : ¬ fails I a E j0 (.rr block) s) :
    (opsAt E i0 j0).rr block s =
      (opsAt (E.withLapack (E.mpi.base.lapack.repaired I)) i0 j0).rr block s := by
  let s1 : GFam K r c := fun i j =>
    asynCxHGatherC E (s i j).host.locked block (fun i j => !(s i j).hh) s i j
  let s2 : GFam K r c := fun i j =>
    staged E (fun p => (p.upB (s i j).host.locked block).upB2 (s i j).host.locked block) s1 i j
  let A : (i : Fin r.procs) → (j : Fin c.procs) → Matrix (Fin block) (Fin block) K := fun i j =>
    Mpi.rrMatrix (s i j).host.locked block (fun i j => (s2 i j).dev) i
  have ha : ∀ i j, E.mpi.base.lapack.heevd (A i j) =
      (E.mpi.base.lapack.repaired I).heevd (A i j) := fun i j =>
    heevd_agree hc E.mpi.base.lapack fun hx => h ⟨hx.1, i, j, hx.2⟩
  let F : ((i : Fin r.procs) → Fin c.procs → (Fin block → ℝ) × Matrix (Fin block) (Fin block) K) →
      (ℕ → ℝ) × GFam K r c := fun x =>
    let w : Fin r.procs → Fin c.procs → ℕ → ℝ := fun i j t =>
      if h : t < block then (x i j).1 ⟨t, h⟩ else 0
    (w i0 j0, fun i j =>
      let lk := E.mpi.base.nevex - block
      let p := staged E (GProc.upC2 lk block) s2 i j
      let p := { p with
        dRitz := writeAt p.dRitz 0 block (w i j)
        dC := setBlk lk (getBlk lk block p.dC2 * (x i j).2) p.dC }
      let p := if E.aware then p else p.downC lk block
      p.put E.aware { p.work E.aware with
        C2 := copyCols (s i j).host.locked block (p.work E.aware).C (p.work E.aware).C2 })
  have e : ∀ L : Lapack K, (opsAt (E.withLapack L) i0 j0).rr block s =
      F fun i j => L.heevd (A i j) := fun _ => rfl
  refine (e E.mpi.base.lapack).trans (Eq.trans ?_ (e _).symm)
  exact congrArg F (funext fun i => funext fun j => ha i j)

/-- The same for the multi-GPU backend. -/
theorem agree (E : GpuEnv K) (i0 : Fin r.procs) (j0 : Fin c.procs) (q : Req ℝ) (s : GFam K r c)
    (h : ¬ fails I a E j0 q s) :
    q.run (opsAt E i0 j0) s =
      q.run (opsAt (E.withLapack (E.mpi.base.lapack.repaired I)) i0 j0) s := by
  cases q with
  | qr k cond => exact congrArg (Prod.mk ()) (qr_agree hc E i0 j0 k cond s h)
  | lanczos1 m =>
    have e := boundOf_agree hc E.mpi.base.lapack (M := m)
      (l := Mpi.mLanczos E.mpi (fun i j => (s i j).work E.aware) m 1 false i0 j0)
      fun hx => h ⟨i0, j0, hx⟩
    exact congrArg (fun x : ℝ => (x, s)) e
  | lanczosN m numvec =>
    have e := multiOf_agree hc E.mpi.base.lapack (M := m) (numvec := numvec)
      (l := Mpi.mLanczos E.mpi (fun i j => (s i j).work E.aware) m numvec true i0 j0)
      fun hx => h ⟨i0, j0, hx⟩
    exact congrArg (fun x : LanczosOut ℝ => (x,
      lift E (fun s i j => { s i j with C := (Mpi.mLanczos E.mpi s m numvec true i j).C }) s)) e
  | rr block => exact rr_agree hc E i0 j0 block s h
  | _ => generalize E.mpi.base.lapack.repaired I = L; rfl

end
end Mgpu
end Verif
