/-
C19: configuration setters behave as documented.
-/
import Verif.Config.Model
import Mathlib.Order.Bounds.Basic
import Mathlib.Data.Rat.Defs
import Mathlib.Algebra.Group.Nat.Even
import Mathlib.Algebra.Field.Rat
import Mathlib.Data.List.Induction

set_option linter.unusedSectionVars false

namespace Verif
open Config

variable {R : Type*} [Div R] [One R] [NatCast R]

/-- Specification: the last value assigned by a history to one parameter, if any.
`sel` picks the calls that concern the parameter. -/
def lastSet {α : Type*} (sel : Setter R → Option α) (h : List (Setter R)) : Option α :=
  (h.filterMap sel).getLast?

/-- Which value a call assigns to which parameter (the documented meaning of the setters). -/
def selApprox : Setter R → Option Bool | .approx b => some b | _ => none
def selOpt : Setter R → Option Bool | .opt b => some b | _ => none
def selDeg : Setter R → Option ℕ | .deg d => some d | _ => none
def selTol : Setter R → Option R | .tol t => some t | _ => none
def selMaxDeg : Setter R → Option ℕ | .maxDeg d => some d | _ => none
def selDegExtra : Setter R → Option ℕ | .degExtra d => some d | _ => none
def selMaxIter : Setter R → Option ℕ | .maxIter d => some d | _ => none
def selLanczosIter : Setter R → Option ℕ | .lanczosIter d => some d | _ => none
def selNumLanczos : Setter R → Option ℕ | .numLanczos d => some d | _ => none
def selCholQR : Setter R → Option Bool | .cholQR b => some b | _ => none
def selSymCheck : Setter R → Option Bool | .symCheck b => some b | _ => none

private theorem run_snoc (sc : Scalar) (N nev nex : ℕ) (h : List (Setter R)) (x : Setter R) :
    run sc N nev nex (h ++ [x]) = (run sc N nev nex h).call x := by
  simp [run, List.foldl_append]

/-- General principle: a field that is written by `sel` calls (through `wr`) and by no other call
holds the last written value, or its initial value. -/
private theorem field_last {α β : Type*} (sc : Scalar) (N nev nex : ℕ)
    (fld : Config R → β) (sel : Setter R → Option α) (wr : α → β)
    (hw : ∀ cfg x a, sel x = some a → fld (call cfg x) = wr a)
    (hk : ∀ cfg x, sel x = none → fld (call cfg x) = fld cfg) (h : List (Setter R)) :
    fld (run sc N nev nex h) = ((lastSet sel h).elim (fld (mk' sc N nev nex)) wr) := by
  induction h using List.reverseRecOn with
  | nil => simp [run, lastSet]
  | append_singleton h x ih =>
    rw [run_snoc]
    cases hx : sel x with
    | some a => simp [hw _ _ _ hx, lastSet, List.filterMap_append, hx]
    | none => rw [hk _ _ hx, ih]; simp [lastSet, List.filterMap_append, hx]

private theorem elim_getD {α : Type*} (o : Option α) (a : α) : o.elim a id = o.getD a := by
  cases o <;> rfl

private theorem lastSet_none {α : Type*} (h : List (Setter R)) :
    lastSet (fun _ => (none : Option α)) h = none := by
  induction h with
  | nil => rfl
  | cons x h ih => simp [lastSet] at ih ⊢

/-- **C19 (a)** After every history of setter calls each plain parameter holds the value of the last
call of its own setter, or its documented default; no other setter influences it.  `N`, `nev`, `nex`
are those given to the constructor. -/
theorem C19_plain_parameters (sc : Scalar) (N nev nex : ℕ) (h : List (Setter R)) :
    let cfg := run sc N nev nex h
    cfg.N = N ∧ cfg.nev = nev ∧ cfg.nex = nex ∧
    cfg.approx = (lastSet selApprox h).getD false ∧
    cfg.optimization = (lastSet selOpt h).getD true ∧
    cfg.maxIter = (lastSet selMaxIter h).getD 25 ∧
    cfg.degExtra = (lastSet selDegExtra h).getD 2 ∧
    cfg.numLanczos = (lastSet selNumLanczos h).getD 4 ∧
    cfg.cholqr = (lastSet selCholQR h).getD true ∧
    cfg.symCheck = (lastSet selSymCheck h).getD true ∧
    cfg.lanczosIter = (lastSet selLanczosIter h).getD
      (match sc with | .d => 25 | .z => 25 | .s => 12 | .c => 12) ∧
    cfg.tol = (lastSet selTol h).getD
      (match sc with | .d => 1 / 10000000000 | .z => 1 / 10000000000 | .s => 1 / 100000 | .c => 1 / 100000)
    := by
  refine ⟨?_, ?_, ?_, ?_, ?_, ?_, ?_, ?_, ?_, ?_, ?_, ?_⟩
  · have := field_last (R := R) sc N nev nex (·.N) (fun _ => (none : Option ℕ)) id
      (by intro _ _ _ h; cases h) (by intro cfg x _; cases x <;> rfl) h
    rw [this, lastSet_none]; rfl
  · have := field_last (R := R) sc N nev nex (·.nev) (fun _ => (none : Option ℕ)) id
      (by intro _ _ _ h; cases h) (by intro cfg x _; cases x <;> rfl) h
    rw [this, lastSet_none]; rfl
  · have := field_last (R := R) sc N nev nex (·.nex) (fun _ => (none : Option ℕ)) id
      (by intro _ _ _ h; cases h) (by intro cfg x _; cases x <;> rfl) h
    rw [this, lastSet_none]; rfl
  · rw [field_last (R := R) sc N nev nex (·.approx) selApprox id
      (by intro cfg x a h; cases x <;> simp_all [selApprox, call, setApprox])
      (by intro cfg x h; cases x <;> first | rfl | simp [selApprox] at h) h, elim_getD]; rfl
  · rw [field_last (R := R) sc N nev nex (·.optimization) selOpt id
      (by intro cfg x a h; cases x <;> simp_all [selOpt, call, setOpt])
      (by intro cfg x h; cases x <;> first | rfl | simp [selOpt] at h) h, elim_getD]; rfl
  · rw [field_last (R := R) sc N nev nex (·.maxIter) selMaxIter id
      (by intro cfg x a h; cases x <;> simp_all [selMaxIter, call, setMaxIter])
      (by intro cfg x h; cases x <;> first | rfl | simp [selMaxIter] at h) h, elim_getD]; rfl
  · rw [field_last (R := R) sc N nev nex (·.degExtra) selDegExtra id
      (by intro cfg x a h; cases x <;> simp_all [selDegExtra, call, setDegExtra])
      (by intro cfg x h; cases x <;> first | rfl | simp [selDegExtra] at h) h, elim_getD]; rfl
  · rw [field_last (R := R) sc N nev nex (·.numLanczos) selNumLanczos id
      (by intro cfg x a h; cases x <;> simp_all [selNumLanczos, call, setNumLanczos])
      (by intro cfg x h; cases x <;> first | rfl | simp [selNumLanczos] at h) h, elim_getD]; rfl
  · rw [field_last (R := R) sc N nev nex (·.cholqr) selCholQR id
      (by intro cfg x a h; cases x <;> simp_all [selCholQR, call, setCholQR])
      (by intro cfg x h; cases x <;> first | rfl | simp [selCholQR] at h) h, elim_getD]; rfl
  · rw [field_last (R := R) sc N nev nex (·.symCheck) selSymCheck id
      (by intro cfg x a h; cases x <;> simp_all [selSymCheck, call, enableSymCheck])
      (by intro cfg x h; cases x <;> first | rfl | simp [selSymCheck] at h) h, elim_getD]; rfl
  · rw [field_last (R := R) sc N nev nex (·.lanczosIter) selLanczosIter id
      (by intro cfg x a h; cases x <;> simp_all [selLanczosIter, call, setLanczosIter])
      (by intro cfg x h; cases x <;> first | rfl | simp [selLanczosIter] at h) h, elim_getD]
    cases sc <;> rfl
  · rw [field_last (R := R) sc N nev nex (·.tol) selTol id
      (by intro cfg x a h; cases x <;> simp_all [selTol, call, setTol])
      (by intro cfg x h; cases x <;> first | rfl | simp [selTol] at h) h, elim_getD]
    cases sc <;> rfl

/-- Specification of "rounded up to an even number". -/
def IsEvenRoundUp (d r : ℕ) : Prop := IsLeast {k | Even k ∧ d ≤ k} r

theorem isEvenRoundUp_add_mod (d : ℕ) : IsEvenRoundUp d (d + d % 2) := by
  constructor
  · exact ⟨by rw [Nat.even_iff]; omega, by omega⟩
  · rintro k ⟨hk, hd⟩; rw [Nat.even_iff] at hk; omega

/-- **C19 (b)** After every history the filter degree and the maximal degree are the smallest even
numbers not below the last requested values (or below the documented defaults, which are even). -/
theorem C19_degrees_rounded_up (sc : Scalar) (N nev nex : ℕ) (h : List (Setter R)) :
    let cfg := run sc N nev nex h
    IsEvenRoundUp ((lastSet selDeg h).getD
      (match sc with | .d => 20 | .z => 20 | .s => 10 | .c => 10)) cfg.deg ∧
    IsEvenRoundUp ((lastSet selMaxDeg h).getD
      (match sc with | .d => 36 | .z => 36 | .s => 18 | .c => 12)) cfg.maxDeg := by
  constructor
  · rw [field_last (R := R) sc N nev nex (·.deg) selDeg (fun d => d + d % 2)
      (by intro cfg x a h; cases x <;> simp_all [selDeg, call, setDeg])
      (by intro cfg x h; cases x <;> first | rfl | simp [selDeg] at h) h]
    cases lastSet selDeg h with
    | some d => exact isEvenRoundUp_add_mod d
    | none => cases sc <;> exact isEvenRoundUp_add_mod _
  · rw [field_last (R := R) sc N nev nex (·.maxDeg) selMaxDeg (fun d => d + d % 2)
      (by intro cfg x a h; cases x <;> simp_all [selMaxDeg, call, setMaxDeg])
      (by intro cfg x h; cases x <;> first | rfl | simp [selMaxDeg] at h) h]
    cases lastSet selMaxDeg h with
    | some d => exact isEvenRoundUp_add_mod d
    | none => cases sc <;> exact isEvenRoundUp_add_mod _

/-- **C19 (c)** corollary used by the filter: both degrees are always even. -/
theorem C19_degrees_even (sc : Scalar) (N nev nex : ℕ) (h : List (Setter R)) :
    Even (run sc N nev nex h).deg ∧ Even (run sc N nev nex h).maxDeg :=
  ⟨(C19_degrees_rounded_up sc N nev nex h).1.1.1, (C19_degrees_rounded_up sc N nev nex h).2.1.1⟩

/-- Non-trivial instance: a history with repeated and interleaved calls. -/
example : (run (R := ℚ) .c 100 10 5 [.deg 7, .maxDeg 3, .deg 9, .approx true]).deg = 10 ∧
    (run (R := ℚ) .c 100 10 5 [.deg 7, .maxDeg 3, .deg 9, .approx true]).maxDeg = 4 := by decide

end Verif
