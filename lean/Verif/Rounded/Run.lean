/-
A solve of the sequential backend in arbitrary arithmetic: what happens to the matrix, and from which values the
residuals are computed.
-/
import Verif.Rounded.SeqProof

set_option linter.unusedSectionVars false

namespace Verif

section
variable {R S V : Type*} [Add R] [Sub R] [Mul R] [Div R] [Neg R] [Zero R] [One R] [NatCast R] [LT R] [DecidableLT R]

/-- **C06** for arbitrary arithmetic (partial, see `C06_residuals_partial`): every returned pair has its residual in the
residual array, at the position the pair had before the final sort. -/
theorem C06_residuals_arith_partial (P : Plat R) (ops : Chase R S) (cols : S → ℕ → V)
    (nl : S → ℕ) (ph : Phases S) (Res : R → V → R → Prop) (cfg : Config R) (hP : PermutesIndices P)
    (hb : Bookkeeping ops cols nl ph cfg.N (cfg.nev + cfg.nex)) (hmax : Even cfg.maxDeg)
    (hres : MakesResiduals ops cols nl ph Res (cfg.nev + cfg.nex))
    (ritzv0 resid0 : ℕ → R) (be : S) (hpre : ph.pre be) (out : Outcome R S)
    (hsym : cfg.symCheck = true → (ops.checkSymmetryEasy be).1 = true)
    (h : solve P ops cfg ritzv0 resid0 be = .ok out) (hit : 0 < out.iterations) :
    ∃ σ : Equiv.Perm ℕ, PermOn 0 cfg.nev σ ∧
      ∀ i, i < cfg.nev + cfg.nex → Res (out.ritzv i) (cols out.be i) (out.resid (σ i)) := by
  obtain ⟨be0, st0, st, hbe0, h0, hst, hnr, -, rfl⟩ := solve_ok h hsym
  have hreach := steps_reach (.init h0) hst
  have hpre0 : ph.pre be0 := by
    rw [hbe0]; split_ifs
    · exact hb.check _ hpre
    · exact hpre
  have hend := residuals_at_end hP hb hmax hres hpre0 hreach hit
  obtain ⟨σ, hσ, g1, g2⟩ := finalSort_perm (cols := cols) (nev := cfg.nev) (hb.swap.mono (by omega)) st.ritzv st.be
  refine ⟨σ, hσ, fun i hi => ?_⟩
  dsimp only
  rw [hb.finish, g1, g2]
  exact hend _ ((hσ.mono (Nat.le_refl 0) (by omega)).mem (Nat.zero_le _) hi).2

/-! ### The shifts of a run -/

/-- The numbers added to the diagonal, in the order of the calls. -/
def shiftsOf : List (Call R) → List R
  | [] => []
  | .shift c _ :: t => c :: shiftsOf t
  | _ :: t => shiftsOf t

theorem shiftsOf_append (a b : List (Call R)) : shiftsOf (a ++ b) = shiftsOf a ++ shiftsOf b := by
  induction a with
  | nil => rfl
  | cons c t ih => cases c <;> simp [shiftsOf, ih]

/-- Every number is subtracted and then added again. -/
def pairsOf (xs : List R) : List R := xs.flatMap fun x => [-x, x]

theorem pairsOf_append (a b : List R) : pairsOf (a ++ b) = pairsOf a ++ pairsOf b := by
  simp [pairsOf]

/-- The shifts on a path to a phase. -/
def ShiftsAt (sh : List R) : Phase R → Prop
  | .ready n _ | .sorted n _ | .done n _ => ∃ xs : List R, xs.length = n ∧ sh = pairsOf xs
  | .filtered n _ | .orthed n _ | .projected n _ | .measured n _ => ∃ xs : List R, xs.length = n + 1 ∧ sh = pairsOf xs
  | .shifted n _ x | .mult n _ x => ∃ xs : List R, xs.length = n ∧ sh = pairsOf xs ++ [-x]
  | _ => sh = []

theorem ShiftsAt.next {N nev nex nl : ℕ} {sh : List R} {q q' : Phase R} {c : Call R} (hn : Next N nev nex nl q c q')
    (h : ShiftsAt sh q) : ShiftsAt (sh ++ shiftsOf [c]) q' := by
  induction hn with
  | shift _ =>
    obtain ⟨xs, h1, h2⟩ := h
    exact ⟨xs, h1, by rw [h2]; rfl⟩
  | unshift =>
    rename_i n L x
    obtain ⟨xs, h1, h2⟩ := h
    exact ⟨xs ++ [x], by simp [h1], by rw [h2, pairsOf_append]; simp [shiftsOf, pairsOf]⟩
  | skipDos _ ih => exact ih ⟨[], rfl, h⟩
  | lanczos1 | lanczosDos =>
    have h : sh = [] := h
    exact ⟨[], rfl, by rw [h]; rfl⟩
  | _ => exact (congrArg (ShiftsAt · _) (List.append_nil sh)).mpr h

theorem shiftsAt_path {N nev nex nl : ℕ} {tr : List (Call R)} {q : Phase R} (h : Path N nev nex nl .fresh tr q) :
    ShiftsAt (shiftsOf tr) q := by
  induction h with
  | nil => rfl
  | snoc _ hn ih => rw [shiftsOf_append]; exact ih.next hn

/-- A beginning of a path is a path. -/
theorem path_prefix {N nev nex nl : ℕ} {p q : Phase R} {tr : List (Call R)} (h : Path N nev nex nl p tr q)
    {t : List (Call R)} (ht : t <+: tr) : ∃ q', Path N nev nex nl p t q' := by
  induction h with
  | nil =>
    obtain rfl : t = [] := List.prefix_nil.mp ht
    exact ⟨_, .nil⟩
  | @snoc tr q c q' h hn ih =>
    rcases List.prefix_concat_iff.mp ht with rfl | h'
    · exact ⟨_, .snoc h hn⟩
    · exact ih h'

theorem pairsOf_length (xs : List R) : (pairsOf xs).length = 2 * xs.length := by
  induction xs with
  | nil => rfl
  | cons x t ih =>
    show ([-x, x] ++ pairsOf t).length = _
    rw [List.length_append, ih]
    simp
    ring

/-- When Rayleigh-Ritz is called, complete pairs of shifts have been made, no more than in the whole run. -/
theorem shifts_before_rr {N nev nex nl n L : ℕ} {tr : List (Call R)} (h : Path N nev nex nl .fresh tr (.done n L))
    {t : List (Call R)} {b : ℕ} (ht : t ++ [.rr b] <+: tr) :
    ∃ xs : List R, xs.length ≤ n ∧ shiftsOf t = pairsOf xs ∧ ∀ c ∈ shiftsOf t, c ∈ shiftsOf tr := by
  obtain ⟨u, hu⟩ := ht
  have hle : shiftsOf t <+: shiftsOf tr := by
    rw [← hu, shiftsOf_append, shiftsOf_append, List.append_assoc]
    exact List.prefix_append _ _
  obtain ⟨q', h'⟩ := path_prefix h ⟨u, hu⟩
  obtain ⟨ys, hy, hys⟩ := shiftsAt_path h
  have key : ∃ xs : List R, shiftsOf t = pairsOf xs := by
    generalize hw : t ++ [Call.rr b] = w at h'
    cases h' with
    | nil => simp at hw
    | snoc hp hn =>
      obtain ⟨rfl, e⟩ := List.append_inj' hw rfl
      obtain rfl : Call.rr b = _ := by simpa using e
      generalize hc : Call.rr b = c at hn
      have hs := shiftsAt_path hp
      cases hn with
      | rr _ => exact ⟨_, hs.choose_spec.2⟩
      | skipDos hn => subst hc; cases hn
      | _ => cases hc
  obtain ⟨xs, hxs⟩ := key
  refine ⟨xs, ?_, hxs, fun c hc => hle.subset hc⟩
  have := hle.length_le
  rw [hxs, hys, pairsOf_length, pairsOf_length] at this
  omega

end

namespace Rounded

variable {K R : Type*} {N : ℕ}

/-- The matrix after the additions of `cs` to its diagonal. -/
def afterShifts (A : Arith K R N) (H : Matrix (Fin N) (Fin N) K) (cs : List R) : Matrix (Fin N) (Fin N) K :=
  cs.foldl (fun H c => fun i j => if i = j then A.add (H i j) (A.ofBase c) else H i j) H

theorem shiftH_eq (A : Arith K R N) (c : K) (H : Matrix (Fin N) (Fin N) K) :
    shiftH A c H = fun i j => if i = j then A.add (H i j) c else H i j := by
  have h := forRange_inv (Nat.zero_le N)
    (fun k (H : Matrix (Fin N) (Fin N) K) =>
      (fun i j => if i.val = k ∧ j.val = k then A.add (H i j) c else H i j : Matrix (Fin N) (Fin N) K))
    (fun m H' => ∀ i j : Fin N, H' i j = if i = j ∧ i.val < m then A.add (H i j) c else H i j)
    (s := H) (by intro i j; simp) ?_
  · funext i j
    have := h i j
    unfold shiftH
    rw [this]
    simp
  · intro m H' _ hm ih i j
    show (if i.val = m ∧ j.val = m then A.add (H' i j) c else H' i j) = _
    rw [ih i j]
    by_cases hij : i = j
    · subst hij
      rcases lt_trichotomy i.val m with h | h | h
      · rw [if_neg (by omega), if_pos ⟨rfl, h⟩, if_pos ⟨rfl, by omega⟩]
      · rw [if_pos ⟨h, h⟩, if_neg (by omega), if_pos ⟨rfl, by omega⟩]
      · rw [if_neg (by omega), if_neg (by omega), if_neg (by omega)]
    · have : ¬ (i.val = m ∧ j.val = m) := fun h => hij (Fin.ext (by omega))
      rw [if_neg this, if_neg (fun h => hij h.1), if_neg (fun h => hij h.1)]

theorem afterShifts_append (A : Arith K R N) (H : Matrix (Fin N) (Fin N) K) (cs : List R) (c : R) :
    afterShifts A H (cs ++ [c]) = shiftH A (A.ofBase c) (afterShifts A H cs) := by
  rw [shiftH_eq]
  exact List.foldl_append ..

/-- `ρ` is what `Resd` computes for the value `x` and the vector `v` with the matrix `H`: the norm kernel applied to the
result of the update kernel, applied in turn to a column of the product kernel. -/
def Measured [Neg R] (A : Arith K R N) (H : Matrix (Fin N) (Fin N) K) (x : R) (v : Fin N → K) (ρ : R) : Prop :=
  ∃ (b : ℕ) (X Y : Matrix (Fin N) (Fin b) K) (j : Fin b), (fun i => X i j) = v ∧
    ρ = A.nrm2 (A.axpy (A.ofBase (-x)) v fun i => A.gemm true H A.one A.zero X Y i j)

variable [Add R] [Sub R] [Mul R] [Div R] [Neg R] [Zero R] [One R] [NatCast R] [LT R] [DecidableLT R]
  {A : Arith K R N} {E : Params}

/-- `Resd` computes the residuals of the columns. -/
theorem resd_measured (z : R) (ritzv : ℕ → R) (l u : ℕ) (s : Seq.St K N)
    (hc : ∀ j, l ≤ j → j < l + u → s.C2 j = s.C j) :
    ∀ i, i < u → Measured A s.H (ritzv i) (s.C (l + i)) ((resd A z ritzv l u s).1 i) := by
  set s1 := asynCxHGatherC A l u s with hs1
  have h := forRange_inv (Nat.zero_le u)
    (fun i (p : (ℕ → R) × Seq.St K N) =>
      (Function.update p.1 i (A.nrm2 ((Function.update p.2.B (l + i)
        (A.axpy (A.ofBase (-ritzv i)) (p.2.B2 (l + i)) (p.2.B (l + i)))) (l + i))),
        { p.2 with
          B := Function.update p.2.B (l + i) (A.axpy (A.ofBase (-ritzv i)) (p.2.B2 (l + i)) (p.2.B (l + i))) }))
    (fun m p => p.2.B2 = s1.B2 ∧ (∀ j, l + m ≤ j → p.2.B j = s1.B j) ∧
      ∀ i, i < m → Measured A s.H (ritzv i) (s.C (l + i)) (p.1 i))
    (s := (fun _ => z, s1)) ⟨rfl, fun _ _ => rfl, by omega⟩ ?_
  · exact h.2.2
  · rintro m p - hm ⟨a6, a7, a8⟩
    refine ⟨a6, ?_, ?_⟩
    · intro j hj
      show Function.update p.2.B (l + m) _ j = _
      rw [Function.update_of_ne (by omega)]
      exact a7 j (by omega)
    · intro i hi
      show Measured A s.H (ritzv i) (s.C (l + i)) (Function.update p.1 m _ i)
      by_cases h : i = m
      · subst h
        rw [Function.update_self, Function.update_self, a6, a7 _ le_rfl]
        have g2 : s1.B2 (l + i) = s.C (l + i) := by
          show copyCols l u s.C2 s.B2 (l + i) = _
          rw [copyCols_apply, if_pos ⟨by omega, by omega⟩, hc _ (by omega) (by omega)]
        refine ⟨u, getBlk l u s.C, getBlk l u s.B, ⟨i, hm⟩, rfl, ?_⟩
        rw [g2]
        congr 2
        show setBlk l _ s.B (l + i) = _
        rw [setBlk_mem (by omega) (by omega)]
        funext r
        congr 1
        ext
        simp
      · rw [Function.update_of_ne h]
        exact a8 i (by omega)

/-- The matrix is changed by the shifts only. -/
theorem matrix_keep (H0 : Matrix (Fin N) (Fin N) K) :
    Keeps (traced (ops A E)) (fun p => p.1.H = afterShifts A H0 (shiftsOf p.2)) := by
  have app : ∀ {s : Seq.St K N} {H : Matrix (Fin N) (Fin N) K} {tr : List (Call R)} {c : Call R}, s.H = H →
      shiftsOf [c] = [] → H = afterShifts A H0 (shiftsOf tr) → s.H = afterShifts A H0 (shiftsOf (tr ++ [c])) := by
    intro s H tr c h1 h2 h3
    rw [shiftsOf_append, h2, List.append_nil, h1, h3]
  exact {
    checkSymmetryEasy := fun _ h => app rfl rfl h
    start := fun _ h => app rfl rfl h
    finish := fun _ h => app rfl rfl h
    initVecs := fun b _ h => app (by cases b <;> rfl) rfl h
    qr := fun k c p h => app (by
      obtain ⟨Y, e⟩ := qr_form (A := A) (E := E) k c p.1
      show ((ops A E).qr k c p.1).H = p.1.H
      rw [e]
      rfl) rfl h
    lanczos1 := fun _ _ h => app rfl rfl h
    lanczosN := fun _ _ _ h => app rfl rfl h
    lanczosDos := fun _ _ _ _ h => app rfl rfl h
    shift := fun c b p h => by
      show shiftH A (A.ofBase c) p.1.H = afterShifts A H0 (shiftsOf (p.2 ++ [.shift c b]))
      rw [shiftsOf_append, h]
      exact (afterShifts_append A H0 _ c).symm
    hemm := fun n a b o p h => app (by
      obtain ⟨⟨H, C, B, C2, B2, next, locked, isSym⟩, tr⟩ := p
      cases next <;> rfl) rfl h
    rr := fun _ _ h => app rfl rfl h
    resd := fun f k p h => app (resd_frame (A := A) 0 f p.1.locked (E.nevex - k) p.1).1 rfl h
    lock := fun _ _ h => app rfl rfl h
    swap := fun _ _ _ h => app rfl rfl h }

/-- The stamp of a column names the calls before the Rayleigh-Ritz step that made it. -/
abbrev opsS (A : Arith K R N) (E : Params) :=
  stamped E.nevex (fun s : Seq.St K N × List (Call R) => s.2) (traced (ops A E))

theorem Keeps.stamped {S T : Type*} {o : Chase R S} {J : S → Prop} (h : Keeps o J) (n : ℕ) (now : S → T) :
    Keeps (Verif.stamped n now o) (fun s => J s.1) where
  checkSymmetryEasy := fun _ => h.checkSymmetryEasy _
  start := fun _ => h.start _
  finish := fun _ => h.finish _
  initVecs := fun _ _ => h.initVecs _ _
  qr := fun _ _ _ => h.qr _ _ _
  lanczos1 := fun _ _ => h.lanczos1 _ _
  lanczosN := fun _ _ _ => h.lanczosN _ _ _
  lanczosDos := fun _ _ _ _ => h.lanczosDos _ _ _ _
  shift := fun _ _ _ => h.shift _ _ _
  hemm := fun _ _ _ _ _ => h.hemm _ _ _ _ _
  rr := fun _ _ => h.rr _ _
  resd := fun _ _ _ => h.resd _ _ _
  lock := fun _ _ => h.lock _ _
  swap := fun _ _ _ => h.swap _ _ _

/-- The phases of the stamped recorder. -/
def phS (A : Arith K R N) (E : Params) (H0 : Matrix (Fin N) (Fin N) K) :
    Phases ((Seq.St K N × List (Call R)) × (ℕ → Option (List (Call R)))) where
  pre := fun s => (phases E).pre s.1.1 ∧ s.1.1.H = afterShifts A H0 (shiftsOf s.1.2)
  inv := fun s => (phases E).inv s.1.1 ∧ s.1.1.H = afterShifts A H0 (shiftsOf s.1.2)
  ready := fun s => (phases E).ready s.1.1 ∧ s.1.1.H = afterShifts A H0 (shiftsOf s.1.2)
  synced := fun s => (phases E).synced s.1.1 ∧ s.1.1.H = afterShifts A H0 (shiftsOf s.1.2)

theorem bookkeepingS (H0 : Matrix (Fin N) (Fin N) K) : Bookkeeping (opsS A E) (fun s i => (s.1.1.C i, s.2 i))
    (fun s => s.1.1.locked) (phS A E H0) N E.nevex :=
  ((bookkeeping (A := A) (E := E)).traced.keep (matrix_keep H0)).stamped _

theorem makesResidualsS (H0 : Matrix (Fin N) (Fin N) K) : MakesResiduals (opsS A E) (fun s i => (s.1.1.C i, s.2 i))
    (fun s => s.1.1.locked) (phS A E H0)
    (fun x v ρ => ∃ t, v.2 = some t ∧ Measured A (afterShifts A H0 (shiftsOf t)) x v.1 ρ) E.nevex := by
  rintro f p ⟨hph, hH⟩ hl hf i hi
  have hs := (bookkeeping (A := A) (E := E)).rr p.1.1 hph hl
  obtain ⟨h1, h2, h3⟩ := hs
  refine ⟨p.1.2, ?_, ?_⟩
  · show writeAt p.2 (E.nevex - (E.nevex - p.1.1.locked)) (E.nevex - p.1.1.locked) (fun _ => some p.1.2)
      (p.1.1.locked + i) = some p.1.2
    dsimp only at hl hi
    unfold writeAt
    rw [if_pos (by omega)]
  · have := resd_measured (A := A) 0 f p.1.1.locked (E.nevex - p.1.1.locked)
      ((ops A E).rr (E.nevex - p.1.1.locked) p.1.1).2 (fun j _ hj => h2.2.2 j (by omega)) i hi
    rw [← hH]
    exact this

/-- **Where the residuals come from, in every arithmetic.**  After a solve with at least one round, the residual of every
returned pair is what the kernels compute for its value and its vector with the matrix as it was, after some complete
pairs of shifts, when Rayleigh-Ritz was called in one of the rounds. -/
theorem measured_at_end (P : Plat R) (hP : PermutesIndices P) (cfg : Config R) (hN : cfg.N = N)
    (hsz : cfg.nev + cfg.nex = E.nevex) (hmax : Even cfg.maxDeg) (ritzv0 resid0 : ℕ → R) (s : Seq.St K N)
    (out : Outcome R (Seq.St K N × List (Call R)))
    (h : solve P (traced (ops A E)) cfg ritzv0 resid0 (s, []) = .ok out)
    (hsym : cfg.symCheck = true → A.symCheck s.H = true) (hit : 0 < out.iterations) :
    ∃ σ : Equiv.Perm ℕ, PermOn 0 cfg.nev σ ∧ ∀ i, i < cfg.nev + cfg.nex →
      ∃ xs : List R, xs.length ≤ out.iterations ∧ (∀ c ∈ pairsOf xs, c ∈ shiftsOf out.be.2) ∧
        Measured A (afterShifts A s.H (pairsOf xs)) (out.ritzv i) (out.be.1.C i) (out.resid (σ i)) := by
  have hpath := C57_call_protocol hP ritzv0 resid0 s out h hsym
  have hsim := solve_sim (stamped_sim E.nevex (fun s : Seq.St K N × List (Call R) => s.2) (traced (ops A E)))
    P cfg ritzv0 resid0 (be := ((s, []), fun _ => none)) (be' := (s, [])) rfl
  rw [h] at hsim
  generalize hx : solve P (opsS A E) cfg ritzv0 resid0 ((s, []), fun _ => none) = x at hsim
  cases hsim with
  | @ok o _ hr =>
    obtain ⟨σ, hσ, hm⟩ := C06_residuals_arith_partial P (opsS A E) _ _ (phS A E s.H) _ cfg hP
      (by rw [hsz, hN]; exact bookkeepingS s.H) hmax (by rw [hsz]; exact makesResidualsS s.H) ritzv0 resid0
      ((s, []), fun _ => none)
      ⟨trivial, rfl⟩ o hsym hx (by rw [hr.iterations]; exact hit)
    have htag := (stamps_keep (ops A E) E.nevex).solve hx (by intro i t h; cases h)
    refine ⟨σ, hσ, fun i hi => ?_⟩
    obtain ⟨t, ht, hmt⟩ := hm i hi
    obtain ⟨b, hb⟩ := htag i t ht
    have hbe : o.be.1 = out.be := hr.be
    rw [hbe] at hb hmt
    rw [hr.ritzv, hr.resid] at hmt
    obtain ⟨xs, h1, h2, h3⟩ := shifts_before_rr hpath hb
    rw [h2] at hmt h3
    exact ⟨xs, h1, h3, hmt⟩

/-- The matrix after a solve: every round has subtracted and added a number. -/
theorem matrix_at_end (P : Plat R) (hP : PermutesIndices P) (cfg : Config R) (ritzv0 resid0 : ℕ → R) (s : Seq.St K N)
    (out : Outcome R (Seq.St K N × List (Call R)))
    (h : solve P (traced (ops A E)) cfg ritzv0 resid0 (s, []) = .ok out)
    (hsym : cfg.symCheck = true → A.symCheck s.H = true) :
    ∃ xs : List R, xs.length = out.iterations ∧ shiftsOf out.be.2 = pairsOf xs ∧
      out.be.1.H = afterShifts A s.H (pairsOf xs) := by
  have hpath := C57_call_protocol hP ritzv0 resid0 s out h hsym
  obtain ⟨xs, h1, h2⟩ := shiftsAt_path hpath
  have := (matrix_keep (A := A) (E := E) s.H).solve h rfl
  rw [h2] at this
  exact ⟨xs, h1, h2, this⟩

end Rounded
end Verif
