/-
C97: running out of memory is reported.
-/
import Verif.Memory.Fail
import Verif.Memory.EstimateProps

set_option linter.unusedSectionVars false

namespace Verif.Memory

variable {R : Type*}

/-! ### Specification -/

/-- Every request for memory is granted. -/
def AllGranted (al : Allocator) : List (Req × Bool) → List Req → Prop
  | _, [] => True
  | past, q :: qs => (q.res.isMemory = true → al past q = true) ∧ AllGranted al ((q, true) :: past) qs

/-- Running out of memory is reported: the program goes to its end, and then has all its memory, exactly if it was granted
all of it; otherwise it is stopped. -/
def Reported (al : Allocator) (past : List (Req × Bool)) (qs : List Req) : Prop :=
  (AllGranted al past qs ∧ run al past qs = .returned []) ∨ (¬ AllGranted al past qs ∧ run al past qs = .stopped)

/-- Nobody looks whether the request was refused. -/
def Req.unchecked (q : Req) : Prop := q.res.isMemory = true ∧ q.notice ≠ .throws ∧ q.notice ≠ .exits

/-- Elements of device memory that were granted. -/
def usedDevice (past : List (Req × Bool)) : ℕ := (past.map fun x => if x.2 then x.1.res.deviceElems else 0).sum

/-- A device with room for `cap` elements, from which nothing is released, and a host with enough memory. -/
def gpuWith (cap : ℕ) : Allocator := fun past q =>
  match q.res with
  | .device e => decide (usedDevice past + e ≤ cap)
  | _ => true

/-- A host without page-locked memory left, and a device with enough memory.  (Page-locked memory is what is asked for with
`cudaMallocHost`; a request with `new` is still granted.) -/
def noPinned : Allocator := fun _ q =>
  match q.res with
  | .host _ => decide (q.notice = .throws)
  | _ => true

/-! ### General facts -/

theorem reported_of {al : Allocator} {qs : List Req} (h : ∀ q ∈ qs, q.unchecked → ∀ past, al past q = true)
    (past : List (Req × Bool)) : Reported al past qs := by
  induction qs generalizing past with
  | nil => exact .inl ⟨trivial, rfl⟩
  | cons q t ih =>
    have iht := ih (fun x hx => h x (List.mem_cons_of_mem _ hx)) ((q, true) :: past)
    unfold Reported at iht ⊢
    rw [run, AllGranted]
    by_cases hg : q.res.isMemory = false ∨ al past q = true
    · have hg' : q.res.isMemory = true → al past q = true := by
        rintro hm
        rcases hg with hg | hg
        · rw [hg] at hm; cases hm
        · exact hg
      rw [if_pos hg]
      rcases iht with ⟨a, b⟩ | ⟨a, b⟩
      · exact .inl ⟨⟨hg', a⟩, b⟩
      · exact .inr ⟨fun c => a c.2, b⟩
    · rw [if_neg hg]
      obtain ⟨h1, h2⟩ := not_or.mp hg
      have hm : q.res.isMemory = true := by simpa using h1
      refine .inr ⟨fun c => h2 (c.1 hm), ?_⟩
      have hc : ¬ q.unchecked := fun hu => h2 (h q (by simp) hu past)
      cases hn : q.notice with
      | throws => rfl
      | exits => rfl
      | _ => exact absurd ⟨hm, by rw [hn]; simp, by rw [hn]; simp⟩ hc

/-- A request that nobody looks at, of the kind that makes the program continue, is missing afterwards. -/
theorem run_ignored {al : Allocator} {past : List (Req × Bool)} {r : Res} (hr : r.isMemory = true) (qs : List Req)
    (h : al past ⟨r, .ignored⟩ = false) :
    run al past (⟨r, .ignored⟩ :: qs) = (run al ((⟨r, .ignored⟩, false) :: past) qs).without r := by
  rw [run, if_neg (by simp [hr, h])]

/-- Requests that fit are granted. -/
theorem run_fits {cap : ℕ} {qs : List Req} {past : List (Req × Bool)}
    (h : usedDevice past + (qs.map fun q => q.res.deviceElems).sum ≤ cap) (ps : List Req) :
    ∃ past', usedDevice past' = usedDevice past + (qs.map fun q => q.res.deviceElems).sum ∧
      run (gpuWith cap) past (qs ++ ps) = run (gpuWith cap) past' ps := by
  induction qs generalizing past with
  | nil => exact ⟨past, by simp, rfl⟩
  | cons q t ih =>
    rw [List.map_cons, List.sum_cons] at h ⊢
    have hu : usedDevice ((q, true) :: past) = usedDevice past + q.res.deviceElems := by
      simp [usedDevice]; omega
    obtain ⟨past', h1, h2⟩ := ih (past := (q, true) :: past) (by rw [hu]; omega)
    refine ⟨past', by rw [h1, hu]; omega, ?_⟩
    rw [← h2, List.cons_append, run, if_pos]
    right
    unfold gpuWith
    split
    · rename_i e he
      rw [he] at h
      simp only [Res.deviceElems] at h
      simp; omega
    · rfl

theorem run_all_fit {cap : ℕ} {qs : List Req} {past : List (Req × Bool)}
    (h : usedDevice past + (qs.map fun q => q.res.deviceElems).sum ≤ cap) : run (gpuWith cap) past qs = .returned [] := by
  obtain ⟨past', -, h2⟩ := run_fits h []
  rw [List.append_nil] at h2
  rw [h2, run]

/-- All the rest fits, one matrix does not. -/
theorem run_big {cap big : ℕ} (A B : List Req)
    (h : (A.map fun q => q.res.deviceElems).sum + (B.map fun q => q.res.deviceElems).sum ≤ cap) (hb : cap < big) :
    run (gpuWith cap) [] (A ++ ⟨.device big, .ignored⟩ :: B) = .returned [.device big] := by
  obtain ⟨past, h1, h2⟩ := run_fits (cap := cap) (qs := A) (past := []) (by simp [usedDevice]; omega)
    (⟨.device big, .ignored⟩ :: B)
  have h0 : usedDevice [] = 0 := rfl
  rw [h2, run_ignored rfl _ (by simp [gpuWith]; omega), run_all_fit]
  · rfl
  · have : usedDevice ((⟨.device big, .ignored⟩, false) :: past) = usedDevice past := by simp [usedDevice]
    omega

/-! ### Which requests are not checked -/

theorem mem_ask {n : Notice} {rs : List Res} {q : Req} (h : q ∈ ask n rs) : q.notice = n ∧ q.res ∈ rs := by
  obtain ⟨r, hr, rfl⟩ := List.mem_map.mp h
  exact ⟨rfl, hr⟩

/-- No request is unchecked. -/
def Safe (qs : List Req) : Prop := ∀ q ∈ qs, ¬ q.unchecked

theorem Safe.nil : Safe [] := fun _ h => by cases h

theorem Safe.append {a b : List Req} (ha : Safe a) (hb : Safe b) : Safe (a ++ b) := fun q hq =>
  (List.mem_append.mp hq).elim (ha q) (hb q)

theorem Safe.throws (rs : List Res) : Safe (ask .throws rs) := fun _ hq hu => hu.2.1 (mem_ask hq).1

theorem Safe.matrix (e : ℕ) : Safe (matrixReq 0 e) := Safe.throws [.host e]

theorem Safe.other {r : Res} (h : r.isMemory = false) (k : ℕ) : Safe (ask .granted (List.replicate k r)) := by
  intro q hq hu
  have := List.eq_of_mem_replicate (mem_ask hq).2
  rw [Req.unchecked, this, h] at hu
  exact absurd hu.1 (by simp)

/-- The backends that use no GPU. -/
def Backend.onHost : Backend → Prop
  | .seq | .inplace | .mpi _ => True
  | .cuda | .mgpu _ _ => False

theorem constructReq_safe (E : Env) {b : Backend} (hb : b.onHost) : Safe (constructReq E b) := by
  have hs : Safe (matricesSeqReq E false) :=
    ((((Safe.nil.append Safe.nil).append (Safe.matrix _)).append (Safe.matrix _)).append Safe.nil).append (Safe.matrix _)
  have hl (sc : Bool) : Safe (dlaLostReq E sc) := by
    refine ((Safe.other rfl 6).append ?_).append (Safe.other rfl _)
    split_ifs
    · have := ((Safe.other (r := .context) rfl 1).append (Safe.throws [.host 9])).append (Safe.other (r := .context) rfl 1)
      exact this
    · exact Safe.nil
  have ho : Safe (dlaOwnedReq E false) := by
    unfold dlaOwnedReq
    split_ifs
    · exact Safe.nil
    · contradiction
    · exact Safe.matrix _
  cases b with
  | seq => exact Safe.nil.append ((hs.append (Safe.matrix _)).append (Safe.matrix _))
  | inplace => exact Safe.nil.append hs
  | cuda => exact hb.elim
  | mpi sc =>
    refine (hl sc).append (Safe.append ?_ ho)
    exact (((((((Safe.nil.append Safe.nil).append (Safe.matrix _)).append (Safe.matrix _)).append (Safe.matrix _)).append
      (Safe.matrix _)).append Safe.nil).append (Safe.matrix _)).append (Safe.matrix _)
  | mgpu _ _ => exact hb.elim

theorem mLanczosReq_safe (E : Env) {b : Backend} (hb : b.onHost) (w : ℕ) : Safe (mLanczosReq E b w) := by
  refine (Safe.throws _).append ?_
  cases b with
  | cuda => exact hb.elim
  | mgpu _ _ => exact hb.elim
  | mpi _ => exact (((Safe.matrix _).append (Safe.matrix _)).append (Safe.matrix _)).append (Safe.matrix _)
  | _ => exact ((Safe.matrix _).append (Safe.matrix _)).append (Safe.matrix _)

theorem repeatReq_safe {q : List Req} (h : Safe q) (k : ℕ) : Safe (repeatReq q k) := by
  induction k with
  | zero => exact Safe.nil
  | succ k ih => exact h.append ih

theorem hhQRReq_safe (E : Env) {b : Backend} (hb : b.onHost) (s : Has) : Safe (hhQRReq E b s).1 := by
  have h1 : Safe (geqrfGqrReq E) := Safe.throws _
  have h2 : Safe (pgeqrfPgqrReq E) := Safe.throws _
  have h3 : Safe (allocFullReq E s) := by
    unfold allocFullReq
    split_ifs
    exacts [Safe.nil, Safe.matrix _]
  cases b with
  | seq => exact (Safe.throws _).append h1
  | inplace => exact (Safe.throws _).append h1
  | cuda => exact hb.elim
  | mgpu _ _ => exact hb.elim
  | mpi sc =>
    cases sc
    · exact (Safe.throws _).append (h3.append h1)
    · exact (Safe.throws _).append h2

theorem callReq_safe (E : Env) {b : Backend} (hb : b.onHost) (path : QrPath) (c : Call R) (s : Has) :
    Safe (callReq E b path c s).1 := by
  cases c with
  | qr locked cond =>
    cases path with
    | householder => exact hhQRReq_safe E hb s
    | cholesky sh f =>
      refine Safe.append ?_ (Safe.append ?_ ?_)
      · unfold displayCondReq
        split_ifs
        exacts [Safe.throws _, Safe.nil]
      · unfold shiftSumReq
        split_ifs with h
        · rw [h.2] at hb
          exact hb.elim
        · exact Safe.nil
      · cases f
        exacts [Safe.nil, hhQRReq_safe E hb s]
  | lanczosDos i m =>
    cases b with
    | cuda => exact hb.elim
    | mgpu _ _ => exact hb.elim
    | _ => exact Safe.nil
  | checkSymmetryEasy => cases b <;> exact Safe.throws _
  | lanczos1 m => exact (Safe.throws _).append ((mLanczosReq_safe E hb 1).append ((Safe.throws _).append (Safe.throws _)))
  | lanczosN m w =>
    exact (Safe.throws _).append ((Safe.throws _).append ((mLanczosReq_safe E hb w).append ((Safe.throws _).append
      (repeatReq_safe (Safe.throws _) w))))
  | rr k =>
    cases b with
    | cuda => exact hb.elim
    | mgpu _ _ => exact hb.elim
    | _ => exact Safe.throws _
  | swap i j =>
    cases b with
    | seq => exact Safe.throws _
    | inplace => exact Safe.throws _
    | _ => exact Safe.nil
  | _ => exact Safe.nil

theorem callsReq_safe (E : Env) {b : Backend} (hb : b.onHost) (path : ℕ → QrPath) (tr : List (Call R)) (k : ℕ) (s : Has) :
    Safe (callsReq E b path tr k s).1 := by
  induction tr generalizing k s with
  | nil => exact Safe.nil
  | cons c t ih => exact (callReq_safe E hb _ c s).append (ih _ _)

theorem solvesReq_safe (E : Env) {b : Backend} (hb : b.onHost) (path : ℕ → ℕ → QrPath) (trs : List (List (Call R))) (k : ℕ)
    (s : Has) : Safe (solvesReq E b path trs k s).1 := by
  induction trs generalizing k s with
  | nil => exact Safe.nil
  | cons c t ih => exact (callsReq_safe E hb _ c 0 s).append (ih _ _)

/-! ### C97 -/

/-- The requests considered below are all the memory that the constructor and the solves acquire: they are, in order, the
resources of which C75 and C76 say when they are released. -/
theorem C97_requests (E : Env) (b : Backend) (path : ℕ → ℕ → QrPath) (trs : List (List (Call R))) (h h' : Heap) (o : Obj)
    (e : session E b path trs h = some (o, h')) :
    h'.acquired = (((sessionReq E b path trs).map Req.res).map some).reverse ++ h.acquired :=
  (session_acq E b path trs h o h' e).1

/-- C97 for the backends that use no GPU: whatever memory is refused, and when, the constructor and every solve either get
all the memory they ask for, or are stopped at the first request that is refused. -/
theorem C97_host (E : Env) (b : Backend) (hb : b.onHost) (path : ℕ → ℕ → QrPath) (trs : List (List (Call R)))
    (al : Allocator) : Reported al [] (constructReq E b) ∧ Reported al [] (sessionReq E b path trs) :=
  ⟨reported_of (fun q hq hu => (constructReq_safe E hb q hq hu).elim) [],
    reported_of (fun q hq hu => (((constructReq_safe E hb).append (solvesReq_safe E hb path trs 0 ⟨false, false⟩)) q hq hu).elim) []⟩

/-- What is missing on a GPU: the requests whose status is not looked at must be granted.  Then every other request that is
refused stops the program. -/
theorem C97_gpu_partial (E : Env) (b : Backend) (path : ℕ → ℕ → QrPath) (trs : List (List (Call R))) (al : Allocator)
    (h : ∀ q ∈ sessionReq E b path trs, q.unchecked → ∀ past, al past q = true) :
    Reported al [] (constructReq E b) ∧ Reported al [] (sessionReq E b path trs) :=
  ⟨reported_of (fun q hq => h q (List.mem_append_left _ hq)) [], reported_of h []⟩

instance (q : Req) : Decidable q.unchecked := by unfold Req.unchecked; infer_instance

/-- The requests of a list that are not checked. -/
def unchecked (qs : List Req) : List Res := (qs.filter fun q => decide q.unchecked).map Req.res

theorem unchecked_append (a b : List Req) : unchecked (a ++ b) = unchecked a ++ unchecked b := by
  simp [unchecked]

theorem unchecked_safe {a : List Req} (h : Safe a) : unchecked a = [] := by
  unfold unchecked
  rw [List.filter_eq_nil_iff.mpr fun q hq => by simpa using h q hq]
  rfl

/-- Which requests of the constructors are not checked on a GPU, exactly: all matrices (with one GPU or several), the
three page-locked vectors (one GPU), the diagonal offsets and the sum (several), and the buffer for redistribution if it is
on the device. -/
theorem C97_unchecked (E : Env) :
    unchecked (constructReq E .cuda) = matricesSeq E true ++ [.host E.N, .host E.N, .host E.N] ∧
    ∀ aware scalapack, unchecked (constructReq E (.mgpu aware scalapack)) =
      matricesMpi E (mgpuMode aware) ++ [.device E.diag, .device E.diag, .device 1] ++
        (if aware then dlaOwned E true else []) := by
  refine ⟨rfl, fun aw sc => ?_⟩
  have hl : Safe (dlaLostReq E sc) := fun q hq =>
    constructReq_safe E (b := .mpi sc) trivial q (List.mem_append_left _ hq)
  have ho : unchecked (dlaOwnedReq E aw) = if aw then dlaOwned E true else [] := by
    cases aw
    · exact unchecked_safe fun q hq =>
        constructReq_safe E (b := .mpi sc) trivial q (List.mem_append_right _ (List.mem_append_right _ hq))
    · unfold dlaOwnedReq dlaOwned
      cases E.sameDist <;> rfl
  have h1 : unchecked (ask .exits [.device E.m, .device E.n] ++ ask .granted [.handle]) = [] := rfl
  have h2 : unchecked (matricesMpiReq E (mgpuMode aw)) = matricesMpi E (mgpuMode aw) := by cases aw <;> rfl
  have h3 : unchecked (ask .exits [.device (256 * 32)] ++ ask .granted [.handle, .handle] ++
      ask .exits [.device 1, .device E.work] ++ ask .ignored [.device E.diag, .device E.diag] ++
      ask .granted [.stream, .stream] ++ ask .ignored [.device 1]) = [.device E.diag, .device E.diag, .device 1] := rfl
  rw [constructReq, Backend.lostReq, Backend.ownedReq, unchecked_append, unchecked_append _ (dlaLostReq E sc),
    unchecked_append _ (dlaOwnedReq E aw), unchecked_append (matricesMpiReq E _), unchecked_safe hl, ho, h1, h2, h3]
  rfl

/-- In a call: the matrices of the Lanczos process, and the sum of a shifted orthogonalisation on one GPU. -/
theorem C97_unchecked_call (E : Env) (b : Backend) (hb : ¬ b.onHost) (path : QrPath) (c : Call R) (s : Has) :
    unchecked (callReq E b path c s).1 = match c, path with
      | .lanczos1 _, _ => lanczosMats E 1 b
      | .lanczosN _ w, _ => lanczosMats E w b
      | .qr _ _, .cholesky true _ => if b = .cuda then [.device 1] else []
      | _, _ => [] := by
  have hml (w : ℕ) : unchecked (mLanczosReq E b w) = lanczosMats E w b := by
    rw [mLanczosReq, unchecked_append, unchecked_safe (Safe.throws _)]
    cases b with
    | cuda => rfl
    | mgpu _ _ => rfl
    | _ => exact (hb trivial).elim
  have hh : Safe (hhQRReq E b s).1 := by
    cases b with
    | cuda => exact Safe.nil
    | mgpu _ sc => cases sc; exacts [hhQRReq_safe E (b := .mpi false) trivial s, hhQRReq_safe E (b := .mpi true) trivial s]
    | _ => exact (hb trivial).elim
  cases c with
  | qr locked cond =>
    cases path with
    | householder => exact unchecked_safe hh
    | cholesky sh f =>
      have h1 : Safe (displayCondReq E locked) := by
        unfold displayCondReq
        split_ifs
        exacts [Safe.throws _, Safe.nil]
      have h2 : Safe (if f then hhQRReq E b s else ([], s)).1 := by
        cases f
        exacts [Safe.nil, hh]
      show unchecked (displayCondReq E locked ++ (shiftSumReq b sh ++ (if f then hhQRReq E b s else ([], s)).1)) = _
      rw [unchecked_append, unchecked_append, unchecked_safe h1, unchecked_safe h2]
      cases sh
      · rfl
      · cases b <;> rfl
  | lanczosDos i m =>
    cases b with
    | mgpu aw sc =>
      cases aw
      · rfl
      · show unchecked (lanczosDosReq (.mgpu true sc) i m s).1 = []
        unfold lanczosDosReq
        cases s.ritzVc <;> rfl
    | _ => rfl
  | checkSymmetryEasy => cases b <;> rfl
  | lanczos1 m =>
    show unchecked (ask .throws _ ++ (mLanczosReq E b 1 ++ (ask .throws _ ++ ask .throws _))) = _
    rw [unchecked_append, unchecked_append, unchecked_append, hml, unchecked_safe (Safe.throws _),
      unchecked_safe (Safe.throws _), unchecked_safe (Safe.throws _)]
    exact List.append_nil _
  | lanczosN m w =>
    show unchecked (ask .throws _ ++ (ask .throws _ ++ (mLanczosReq E b w ++ (ask .throws _ ++ repeatReq (stemrReq E) w)))) = _
    rw [unchecked_append, unchecked_append, unchecked_append, unchecked_append, hml, unchecked_safe (Safe.throws _),
      unchecked_safe (Safe.throws _), unchecked_safe (Safe.throws _), unchecked_safe (repeatReq_safe (q := stemrReq E) (Safe.throws _) w)]
    exact List.append_nil _
  | rr k => cases b <;> rfl
  | swap i j => cases b <;> rfl
  | _ => rfl

/-- Elements of the matrix on the device. -/
def matrixElems (E : Env) : Backend → ℕ
  | .mgpu _ _ => E.m * E.n
  | _ => E.N * E.N

/-- C97 is false on a GPU: if the device has room for everything else but not for the matrix, the constructor returns as if
nothing had happened, and the object has no matrix on the device. -/
theorem C97_gpu_refuted (E : Env) (b : Backend) (hb : ¬ b.onHost) (cap : ℕ)
    (h : constructedDevice E b ≤ cap + matrixElems E b) (hm : cap < matrixElems E b) :
    run (gpuWith cap) [] (constructReq E b) = .returned [.device (matrixElems E b)] ∧
      ¬ Reported (gpuWith cap) [] (constructReq E b) := by
  have split (A B : List Req) (e : constructReq E b = A ++ ⟨.device (matrixElems E b), .ignored⟩ :: B) :
      run (gpuWith cap) [] (constructReq E b) = .returned [.device (matrixElems E b)] := by
    have hs : ((constructReq E b).map fun q => q.res.deviceElems).sum = constructedDevice E b := by
      have e1 : ((constructReq E b).map fun q => q.res.deviceElems) =
          ((constructReq E b).map Req.res).map Res.deviceElems := by rw [List.map_map]; rfl
      rw [e1, constructReq_res, ← constructed_device, List.map_append, List.sum_append]
      rfl
    rw [e, List.map_append, List.sum_append, List.map_cons, List.sum_cons] at hs
    change _ + (matrixElems E b + _) = _ at hs
    rw [e]
    exact run_big A B (by omega) hm
  have key : run (gpuWith cap) [] (constructReq E b) = .returned [.device (matrixElems E b)] := by
    cases b with
    | cuda => exact split (ask .granted [.stream, .handle]) _ rfl
    | mgpu aw sc => cases aw <;> exact split (Backend.lostReq E (.mgpu _ sc)) _ rfl
    | _ => exact (hb trivial).elim
  refine ⟨key, ?_⟩
  rintro (⟨-, h2⟩ | ⟨-, h2⟩) <;> rw [key] at h2 <;> simp at h2

/-- The same with page-locked memory of the host: if there is none left, the constructors write through a pointer that was
never set (the matrix of residuals is allocated with `cudaMallocHost`, and then filled with zeros). -/
theorem C97_pinned_refuted (E : Env) (b : Backend) (hb : ¬ b.onHost) :
    run noPinned [] (constructReq E b) = .undefined ∧ ¬ Reported noPinned [] (constructReq E b) := by
  have pass (qs ps : List Req) (hq : ∀ q ∈ qs, q.notice = .throws ∨ ∀ e, q.res ≠ .host e) (past : List (Req × Bool)) :
      ∃ past', run noPinned past (qs ++ ps) = run noPinned past' ps := by
    induction qs generalizing past with
    | nil => exact ⟨past, rfl⟩
    | cons q t ih =>
      obtain ⟨past', h'⟩ := ih (fun x hx => hq x (List.mem_cons_of_mem _ hx)) ((q, true) :: past)
      refine ⟨past', ?_⟩
      rw [← h', List.cons_append, run, if_pos]
      right
      unfold noPinned
      split
      · rename_i e he
        rcases hq q (by simp) with h | h
        · simp [h]
        · exact absurd he (h e)
      · rfl
  have split (A B : List Req) (r : Res) (hr : ∃ e, r = .host e) (e : constructReq E b = A ++ ⟨r, .written⟩ :: B)
      (hA : ∀ q ∈ A, q.notice = .throws ∨ ∀ e, q.res ≠ .host e) : run noPinned [] (constructReq E b) = .undefined := by
    obtain ⟨past', h'⟩ := pass A (⟨r, .written⟩ :: B) hA []
    obtain ⟨k, rfl⟩ := hr
    rw [e, h', run, if_neg (by simp [noPinned, Res.isMemory])]
  have hl (sc : Bool) : ∀ q ∈ dlaLostReq E sc, q.notice = .throws ∨ ∀ e, q.res ≠ .host e := by
    intro q hq
    rcases List.mem_append.mp hq with hq | hq
    · rcases List.mem_append.mp hq with hq | hq
      · exact .inr (by rw [List.eq_of_mem_replicate (mem_ask hq).2]; simp)
      · cases sc
        · simp at hq
        · simp at hq
          rcases hq with rfl | rfl | rfl <;> simp
    · exact .inr (by rw [List.eq_of_mem_replicate (mem_ask hq).2]; simp)
  have hd (d : List ℕ) : ∀ q ∈ ask .ignored (d.map Res.device), q.notice = .throws ∨ ∀ e, q.res ≠ .host e := by
    intro q hq
    obtain ⟨k, -, hk⟩ := List.mem_map.mp (mem_ask hq).2
    exact .inr (by rw [← hk]; simp)
  have key : run noPinned [] (constructReq E b) = .undefined := by
    cases b with
    | cuda =>
      refine split (ask .granted [.stream, .handle] ++ ask .ignored ([E.N * E.N, E.N * E.nevex, E.N * E.nevex,
        E.nevex * E.nevex, E.nevex].map Res.device)) _ (.host E.nevex) ⟨_, rfl⟩ rfl fun q hq => ?_
      rcases List.mem_append.mp hq with hq | hq
      · have := (mem_ask hq).2
        simp at this
        rcases this with h | h <;> exact .inr (by rw [h]; simp)
      · exact hd _ q hq
    | mgpu aw sc =>
      have h0 : ∀ q ∈ Backend.lostReq E (.mgpu aw sc), q.notice = .throws ∨ ∀ e, q.res ≠ .host e := by
        intro q hq
        rcases List.mem_append.mp hq with hq | hq
        · rcases List.mem_append.mp hq with hq | hq
          · have := (mem_ask hq).2
            simp at this
            rcases this with h | h <;> exact .inr (by rw [h]; simp)
          · have := (mem_ask hq).2
            simp at this
            exact .inr (by rw [this]; simp)
        · exact hl sc q hq
      cases aw with
      | false =>
        refine split (Backend.lostReq E (.mgpu false sc) ++ ask .ignored ([E.m * E.n, E.m * E.nevex].map Res.device)) _
          (.host (E.m * E.nevex)) ⟨_, rfl⟩ (by rw [List.append_assoc]; rfl) fun q hq => ?_
        exact (List.mem_append.mp hq).elim (h0 q) (hd _ q)
      | true =>
        refine split (Backend.lostReq E (.mgpu true sc) ++ ask .ignored ([E.m * E.n, E.m * E.nevex, E.m * E.nevex,
          E.n * E.nevex, E.n * E.nevex, E.nevex * E.nevex, E.nevex].map Res.device)) _
          (.host E.nevex) ⟨_, rfl⟩ (by rw [List.append_assoc]; rfl) fun q hq => ?_
        exact (List.mem_append.mp hq).elim (h0 q) (hd _ q)
    | _ => exact (hb trivial).elim
  refine ⟨key, ?_⟩
  rintro (⟨-, h2⟩ | ⟨-, h2⟩) <;> rw [key] at h2 <;> simp at h2

/-- The same during a solve: if the device has no room for the vectors of the Lanczos process any more, the call returns,
having worked with three blocks that do not exist. -/
theorem C97_lanczos_refuted (E : Env) (path : QrPath) (m w : ℕ) (s : Has) (past : List (Req × Bool)) (cap : ℕ)
    (hu : usedDevice past ≤ cap) (hm : cap < usedDevice past + E.N * w) :
    run (gpuWith cap) past (callReq E .cuda path (Call.lanczosN (R := R) m w) s).1 =
      .returned [.device (E.N * w), .device (E.N * w), .device (E.N * w)] := by
  have host (rs : List Res) (h : ∀ r ∈ rs, r.deviceElems = 0) :
      ((ask .throws rs).map fun q => q.res.deviceElems).sum = 0 := by
    rw [List.sum_eq_zero]
    intro x hx
    obtain ⟨q, hq, rfl⟩ := List.mem_map.mp hx
    exact h _ (mem_ask hq).2
  have rep : ∀ k, ((repeatReq (stemrReq E) k).map fun q => q.res.deviceElems).sum = 0 := by
    intro k
    induction k with
    | zero => rfl
    | succ k ih =>
      rw [repeatReq, List.map_append, List.sum_append, ih, stemrReq, host _ (by simp [Res.deviceElems])]
  show run (gpuWith cap) past (ask .throws _ ++ (ask .throws _ ++ (mLanczosReq E .cuda w ++ _))) = _
  obtain ⟨p1, u1, e1⟩ := run_fits (cap := cap) (past := past) (qs := ask .throws
    [.host (w * m), .host (w * m), .host (m * m), .host (w * m), .host (m * m)])
    (by rw [host _ (by simp [Res.deviceElems])]; omega)
    (ask .throws [.host (m * w), .host (m * w), .host w] ++
      (mLanczosReq E .cuda w ++ (ask .throws [.host (2 * m)] ++ repeatReq (stemrReq E) w)))
  rw [host _ (by simp [Res.deviceElems])] at u1
  obtain ⟨p2, u2, e2⟩ := run_fits (cap := cap) (past := p1) (qs := ask .throws [.host (m * w), .host (m * w), .host w])
    (by rw [host _ (by simp [Res.deviceElems])]; omega)
    (mLanczosReq E .cuda w ++ (ask .throws [.host (2 * m)] ++ repeatReq (stemrReq E) w))
  rw [host _ (by simp [Res.deviceElems])] at u2
  obtain ⟨p3, u3, e3⟩ := run_fits (cap := cap) (past := p2) (qs := ask .throws [.host w, .host w, .host w])
    (by rw [host _ (by simp [Res.deviceElems])]; omega)
    (lanczosMatsReq E w .cuda ++ (ask .throws [.host (2 * m)] ++ repeatReq (stemrReq E) w))
  rw [host _ (by simp [Res.deviceElems])] at u3
  rw [e1, e2, mLanczosReq, List.append_assoc, e3]
  have uc (p : List (Req × Bool)) (q : Req) : usedDevice ((q, false) :: p) = usedDevice p := by simp [usedDevice]
  show run (gpuWith cap) p3 (⟨.device (E.N * w), .ignored⟩ :: ⟨.device (E.N * w), .ignored⟩ ::
    ⟨.device (E.N * w), .ignored⟩ :: (ask .throws [.host (2 * m)] ++ repeatReq (stemrReq E) w)) = _
  rw [run_ignored rfl _ (by simp [gpuWith]; omega), run_ignored rfl _ (by simp [gpuWith, uc]; omega),
    run_ignored rfl _ (by simp [gpuWith, uc]; omega), run_all_fit]
  · rfl
  · rw [List.map_append, List.sum_append, rep, host _ (by simp [Res.deviceElems]), uc, uc, uc]
    omega

/-! ### Non-vacuity -/

/-- An allocator that refuses blocks of more than 5000 elements. -/
def small : Allocator := fun _ q => decide (q.res.elems ≤ 5000)

/-- It stops the construction of a sequential solver object for a problem of order 1000, but not for one of order 10. -/
example : run small [] (constructReq exampleEnv .seq) = .stopped ∧
    run small [] (constructReq { exampleEnv with N := 10, nev := 4, nex := 2 } .seq) = .returned [] := by
  decide +kernel

/-- It stops a solve, not the construction, of a matrix of order 60 for a sequence of calls. -/
example : run small [] (constructReq { exampleEnv with N := 60, nev := 30, nex := 10 } .inplace) = .returned [] ∧
    run small [] (sessionReq (R := ℚ) { exampleEnv with N := 60, nev := 30, nex := 10 } .inplace
      (fun _ _ => .householder) [[.lanczosN 25 4, .qr 0 0, .lanczosN 80 4]]) = .stopped := by
  decide +kernel

/-- On a GPU: the status of the workspace is looked at; if only that is refused, the program stops. -/
example : (∀ q ∈ sessionReq (R := ℚ) exampleEnv .cuda (fun _ _ => .householder) [[.lanczosN 25 4, .qr 0 0]],
      q.unchecked → ∀ past : List (Req × Bool), (fun _ q => decide (q.res ≠ .device 8192) : Allocator) past q = true) ∧
    run (fun _ q => decide (q.res ≠ .device 8192)) [] (constructReq exampleEnv .cuda) = .stopped := by
  refine ⟨?_, by decide +kernel⟩
  intro q hq hu past
  have : ∀ q ∈ sessionReq (R := ℚ) exampleEnv .cuda (fun _ _ => .householder) [[.lanczosN 25 4, .qr 0 0]],
      q.res = .device 8192 → q.notice = .exits := by decide +kernel
  simp only [decide_eq_true_eq]
  intro hr
  exact hu.2.2 (this q hq hr)

/-- A matrix of order 1000 does not fit on a device with room for 800000 elements; the rest does.  (On the distributed
backend: a block of 500 by 500.) -/
example : constructedDevice exampleEnv .cuda ≤ 800000 + matrixElems exampleEnv .cuda ∧
    800000 < matrixElems exampleEnv .cuda ∧
    constructedDevice exampleEnv (.mgpu false true) ≤ 240000 + matrixElems exampleEnv (.mgpu false true) ∧
    240000 < matrixElems exampleEnv (.mgpu false true) := by
  decide +kernel

end Verif.Memory
