/-
C79, continued: the array descriptors of ScaLAPACK, which the wrappers keep in arrays of `std::size_t`
(ChASE-MPI/blas_templates.inc, called `inc`).
-/
import Verif.Blas.Props

namespace Verif
namespace Blas

/-- Conversion of an `int` to `std::size_t` (64 bits). -/
def toSize (x : ℤ) : ℕ := (x % 2 ^ 64).toNat

/-- The integers that DESCINIT gets, in the documented order `M, N, MB, NB, IRSRC, ICSRC, ICTXT, LLD`. -/
structure DescArgs where
  m : ℤ
  n : ℤ
  mb : ℤ
  nb : ℤ
  irsrc : ℤ
  icsrc : ℤ
  ictxt : ℤ
  lld : ℤ
  deriving DecidableEq

/-- `t_descinit`: inc 1471-1492.  `routine` is DESCINIT: what it leaves in `DESC` (nine integers) and in `INFO`. -/
def tDescinit (routine : DescArgs → (ℕ → ℤ) × ℤ) (m n mb nb : ℕ) (irsrc icsrc ictxt : ℤ) (lld : ℕ) : (ℕ → ℕ) × ℤ :=
  let r := routine
    { m := Sizes.toInt m, n := Sizes.toInt n, mb := Sizes.toInt mb, nb := Sizes.toInt nb
      irsrc := irsrc, icsrc := icsrc, ictxt := ictxt, lld := Sizes.toInt lld }
  (fun i => toSize (r.1 i), r.2)

/-- The copy of a descriptor that `t_pgeqrf`, `t_pgqr` and `t_ptranc` pass to the routine: inc 1499-1503 (and the same in
the other instances), 1748-1752 (two of them). -/
def descPassed (desc : ℕ → ℕ) (i : ℕ) : ℤ := Sizes.toInt (desc i)

/-- An integer of 32 bits. -/
def IsInt (x : ℤ) : Prop := -2 ^ 31 ≤ x ∧ x < 2 ^ 31

theorem toInt_toSize {x : ℤ} (h : IsInt x) : Sizes.toInt (toSize x) = x := by
  obtain ⟨h1, h2⟩ := h
  unfold Sizes.toInt toSize
  rw [Int.toNat_of_nonneg (Int.emod_nonneg _ (by norm_num))]
  norm_num at *
  omega

/-- **C79 for descriptors:** if the sizes are below `2^31`, DESCINIT gets the numbers of the caller, each at its place, and
what it returns is exactly what the routines that get the descriptor later receive, in all nine places (the context and
negative values included). -/
theorem C79_descinit (routine : DescArgs → (ℕ → ℤ) × ℤ) (hr : ∀ a i, i < 9 → IsInt ((routine a).1 i))
    (m n mb nb lld : ℕ) (irsrc icsrc ictxt : ℤ) (hm : m < 2 ^ 31) (hn : n < 2 ^ 31) (hmb : mb < 2 ^ 31)
    (hnb : nb < 2 ^ 31) (hl : lld < 2 ^ 31) :
    let asked := routine { m := m, n := n, mb := mb, nb := nb, irsrc := irsrc, icsrc := icsrc, ictxt := ictxt, lld := lld }
    let got := tDescinit routine m n mb nb irsrc icsrc ictxt lld
    (∀ i < 9, descPassed got.1 i = asked.1 i) ∧ got.2 = asked.2 := by
  unfold tDescinit descPassed
  rw [(C79_sizes m).mpr hm, (C79_sizes n).mpr hn, (C79_sizes mb).mpr hmb, (C79_sizes nb).mpr hnb, (C79_sizes lld).mpr hl]
  exact ⟨fun i hi => toInt_toSize (hr _ i hi), rfl⟩

/-- From order `2^31` on DESCINIT is not told the size of the matrix: there is a routine (one that returns what it gets)
that does not receive it. -/
theorem C79_descinit_refuted (m : ℕ) (hm : 2 ^ 31 ≤ m) : ∃ routine : DescArgs → (ℕ → ℤ) × ℤ,
    (∀ a, (routine a).2 = a.m) ∧ (tDescinit routine m 1 1 1 0 0 0 1).2 ≠ m :=
  ⟨fun a => (fun _ => 0, a.m), fun _ => rfl, fun h => absurd ((C79_sizes m).mp h) (by omega)⟩

/-- A routine that stores its arguments where the Users' Guide says: `DTYPE = 1, CTXT, M, N, MB, NB, RSRC, CSRC, LLD`, and
an error code for a bad context. -/
def descExample : DescArgs → (ℕ → ℤ) × ℤ := fun a =>
  (fun i => ([1, a.ictxt, a.m, a.n, a.mb, a.nb, a.irsrc, a.icsrc, a.lld].map fun x => max (-2 ^ 31) (min x (2 ^ 31 - 1))).getD i 0,
    if a.ictxt < 0 then -7 else 0)

/-- The hypotheses are met, also with a negative entry (a process outside the grid has context `-1`). -/
example : (∀ a i, i < 9 → IsInt ((descExample a).1 i)) ∧
    (List.range 9).map (descPassed (tDescinit descExample 1000 100 32 32 0 0 (-1) 500).1) =
      [1, -1, 1000, 100, 32, 32, 0, 0, 500] := by
  refine ⟨fun a i hi => ?_, by decide +kernel⟩
  have key : ∀ x : ℤ, IsInt (max (-2 ^ 31) (min x (2 ^ 31 - 1))) := by
    intro x
    unfold IsInt
    omega
  have hmem : ∀ l : List ℤ, ∀ k, k < l.length →
      IsInt ((l.map fun x => max (-2 ^ 31) (min x (2 ^ 31 - 1))).getD k 0) := by
    intro l k hk
    rw [List.getD_eq_getElem _ _ (by rw [List.length_map]; exact hk), List.getElem_map]
    exact key _
  exact hmem _ i hi

end Blas
end Verif
