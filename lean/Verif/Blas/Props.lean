/-
Property C79: the generic wrappers of BLAS, LAPACK and ScaLAPACK pass to the routine of the scalar type, at every
position, the argument that the routine documents there.
-/
import Verif.Blas.Spec
import Verif.Interface.FortranProps
import Verif.Sizes.Props
import Mathlib.Algebra.BigOperators.Ring.Finset
import Mathlib.Analysis.Complex.Basic

namespace Verif
namespace Blas
open Fortran (Kind Mem load store load_store)

theorem receives_self (p : Role × Kind) : Receives p p :=
  ⟨rfl, fun m a n x hx i hi => load_store p.2 m a n x hx i hi, fun m a n x hx i hi => load_store p.2 m a n x hx i hi⟩

theorem receives_same (l : List (Role × Kind)) : List.Forall₂ Receives l l :=
  List.forall₂_same.mpr fun p _ => receives_self p

/-- An argument that is received as meant has the right name and an element of the right size. -/
theorem Receives.size {p r : Role × Kind} (h : Receives p r) : p.2.size = r.2.size := by
  have h1 := congrArg List.length (h.reads (fun _ => 0) 0 1 (fun _ => List.replicate p.2.size 0)
    (fun _ _ => List.length_replicate) 0 (by omega))
  simpa [load] using h1.symm

/-- The calls that are not right: `t_gesvd` for real types, `t_syherk` for complex types, `t_pgqr` for `float` and
`t_lange` for `double`. -/
def Wrong (op : Op) (t : Ty) : Prop :=
  (op = .gesvd ∧ (t = .s ∨ t = .d)) ∨ (op = .herk ∧ (t = .c ∨ t = .z)) ∨ (op = .pgqr ∧ t = .s) ∨
    (op = .lange ∧ t = .d)

/-- **C79, partial:** every wrapper, for every scalar type it exists for, makes right calls. Missing: the six calls of
`Wrong`, see `C79_herk_partial`, `C79_gesvd_refuted`, `C79_pgqr_refuted` and `C79_lange_refuted`. -/
theorem C79_calls_partial (op : Op) (t : Ty) (hw : wraps op t = true) (h : ¬ Wrong op t) : RightCall op t := by
  refine ⟨rfl, ?_, ?_⟩
  · cases op <;> cases t <;> first | rfl | exact absurd hw (by decide)
  · cases op <;> cases t <;> first
      | exact ⟨_, rfl, receives_same _, rfl⟩
      | exact absurd hw (by decide)
      | exact absurd (by simp [Wrong]) h

/-- Non-vacuity: 70 of the 76 calls, among them matrix products, both QR steps and the dense eigensolver. -/
example : (wraps .gemm .z = true ∧ ¬ Wrong .gemm .z) ∧ (wraps .heevd .c = true ∧ ¬ Wrong .heevd .c) ∧
    (wraps .pgqr .d = true ∧ ¬ Wrong .pgqr .d) ∧ (wraps .stemr .d = true ∧ ¬ Wrong .stemr .d) := by
  simp [Wrong, wraps, Fortran.Scalar.isReal]

/-- The routine reads the real part of a complex number that the wrapper has stored (`re` and `im` are the bytes of the
two parts, the real part comes first). -/
def ReadsRealPart (p r : Role × Kind) : Prop :=
  p.1 = r.1 ∧ p.2.size = 2 * r.2.size ∧ ∀ (mem : Mem) (adr : ℕ) (re im : List UInt8), re.length = r.2.size →
    im.length = r.2.size → load r.2 (store p.2 mem adr 1 fun _ => re ++ im) adr 0 = re

theorem readsRealPart {role : Role} {t : Ty} (ht : t = .c ∨ t = .z) :
    ReadsRealPart (role, t.elt) (role, t.base) := by
  refine ⟨rfl, by rcases ht with rfl | rfl <;> rfl, fun mem adr re im hre him => ?_⟩
  have hs : t.elt.size = 2 * t.base.size := by rcases ht with rfl | rfl <;> rfl
  have hb : 0 < t.base.size := t.base.size_pos
  simp only at hre him ⊢
  apply List.ext_getElem
  · simp [load, hre]
  · intro j h1 h2
    have hj : j < t.base.size := by simpa [load] using h1
    simp only [load, store, List.getElem_map, List.getElem_range]
    rw [if_pos ⟨by omega, by omega⟩]
    have h3 : adr + 0 * t.base.size + j - adr = j := by omega
    rw [h3, Nat.mod_eq_of_lt (by omega), List.getD_eq_getElem _ _ (by simp; omega), List.getElem_append_left h2]

/-- **C79, partial:** `t_syherk` for complex types passes everything as documented except the two factors, which the
routine documents as real numbers: of these it reads the real parts. Missing: an imaginary part of a factor is ignored;
the library only passes 1 and 0. -/
theorem C79_herk_partial (t : Ty) (ht : t = .c ∨ t = .z) :
    (routine .herk t).2 = t ∧ (routine .herk t).1 = meant .herk t ∧
    ∃ s, documented (routine .herk t) = some s ∧
      List.Forall₂ (fun p r => Receives p r ∨ ((r.1 = .alpha ∨ r.1 = .beta) ∧ ReadsRealPart p r))
        (passed .herk t) s.args ∧ declaredResult .herk t = s.result := by
  refine ⟨rfl, by rcases ht with rfl | rfl <;> rfl, ?_⟩
  have h1 : documented (routine .herk t) = some { args := [(.uplo, .char), (.trans, .char), (.n, .int), (.k, .int),
      (.alpha, t.base), (.a, t.elt), (.lda, .int), (.beta, t.base), (.c, t.elt), (.ldc, .int)] } := by
    rcases ht with rfl | rfl <;> rfl
  refine ⟨_, h1, ?_, rfl⟩
  have hr : ∀ p, Receives p p ∨ ((p.1 = Role.alpha ∨ p.1 = Role.beta) ∧ ReadsRealPart p p) :=
    fun p => Or.inl (receives_self p)
  exact .cons (hr _) (.cons (hr _) (.cons (hr _) (.cons (hr _) (.cons (Or.inr ⟨Or.inl rfl, readsRealPart ht⟩)
    (.cons (hr _) (.cons (hr _) (.cons (Or.inr ⟨Or.inr rfl, readsRealPart ht⟩)
    (.cons (hr _) (.cons (hr _) .nil)))))))))

/-- Non-vacuity of `ReadsRealPart`: the bytes of 1 + 2 i in single precision; the routine reads 1. -/
example : load .f32 (store .c32 (fun _ => 0) 100 1 fun _ => [0, 0, 0x80, 0x3f] ++ [0, 0, 0, 0x40]) 100 0
    = [0, 0, 0x80, 0x3f] :=
  (readsRealPart (role := .alpha) (t := .c) (Or.inl rfl)).2.2 _ _ [0, 0, 0x80, 0x3f] [0, 0, 0, 0x40] rfl rfl

/-- What happens to the status of a call: the routine stores it (`status`, four bytes) where its last argument points
to, then the wrapper reads its own variable `info`. `adr` are the addresses of the objects of the wrapper. -/
def statusSeen (op : Op) (t : Ty) (s : Sig) (adr : Role → ℕ) (mem : Mem) (status : List UInt8) :
    Option (List UInt8) :=
  ((passed op t)[s.args.length - 1]?).map fun p => load .int (store .int mem (adr p.1) 1 fun _ => status) (adr .info) 0

/-- The wrappers with a status other than the wrong ones see it. -/
theorem C79_status (op : Op) (t : Ty) (hw : wraps op t = true) (h : ¬ Wrong op t) (s : Sig)
    (hs : documented (routine op t) = some s) (hi : s.args.getLast? = some (.info, .int)) (adr : Role → ℕ) (mem : Mem)
    (status : List UInt8) (hl : status.length = 4) : statusSeen op t s adr mem status = some status := by
  obtain ⟨-, -, s', hs', hf, -⟩ := C79_calls_partial op t hw h
  obtain rfl : s' = s := by rw [hs] at hs'; exact (Option.some.inj hs').symm
  rw [List.getLast?_eq_getElem?] at hi
  obtain ⟨h1, h2⟩ := List.getElem?_eq_some_iff.mp hi
  have h3 : s'.args.length - 1 < (passed op t).length := by rw [hf.length_eq]; exact h1
  have h4 := (List.forall₂_iff_get.mp hf).2 _ h3 h1
  have h5 : (passed op t)[s'.args.length - 1].1 = .info := by
    have := h4.role
    simp only [List.get_eq_getElem] at this
    rw [this, h2]
  rw [statusSeen, List.getElem?_eq_getElem h3, Option.map_some, h5,
    load_store .int mem _ 1 (fun _ => status) (fun _ _ => hl) 0 (by omega)]

/-- Non-vacuity: the Cholesky factorisation, where the status decides which QR is used. -/
example (adr : Role → ℕ) (mem : Mem) : ∃ s, documented (routine .potrf .z) = some s ∧
    statusSeen .potrf .z s adr mem [3, 0, 0, 0] = some [3, 0, 0, 0] :=
  ⟨_, rfl, C79_status .potrf .z rfl (by simp [Wrong]) _ rfl rfl adr mem _ rfl⟩

/-- **C79 is refuted** for the singular value decomposition of real matrices: the routine documents 14 arguments and
gets 15; it stores its status in the first element of `rwork`, and the variable `info`, which the wrapper never
initialises, keeps its old content. So the following `assert (info == 0)` fails or not independently of the status. -/
theorem C79_gesvd_refuted (t : Ty) (ht : t = .s ∨ t = .d) :
    ¬ RightCall .gesvd t ∧
    ∃ s, documented (routine .gesvd t) = some s ∧ s.args.length = 14 ∧ (passed .gesvd t).length = 15 ∧
      s.args[13]? = some (.info, .int) ∧ (passed .gesvd t)[13]? = some (.rwork, t.base) ∧
      ∀ (adr : Role → ℕ) (mem : Mem) (status : List UInt8), status.length = 4 →
        (adr .rwork + 4 ≤ adr .info ∨ adr .info + 4 ≤ adr .rwork) →
        statusSeen .gesvd t s adr mem status = some (load .int mem (adr .info) 0) := by
  have h0 : ∃ s, documented (routine .gesvd t) = some s ∧ s.args.length = 14 ∧ s.args[13]? = some (.info, .int) := by
    rcases ht with rfl | rfl <;> exact ⟨_, rfl, rfl, rfl⟩
  obtain ⟨s, hs, hl, h13⟩ := h0
  have hp : (passed .gesvd t).length = 15 ∧ (passed .gesvd t)[13]? = some (.rwork, t.base) := ⟨rfl, rfl⟩
  refine ⟨?_, s, hs, hl, hp.1, h13, hp.2, ?_⟩
  · rintro ⟨-, -, s', hs', hf, -⟩
    obtain rfl : s' = s := by rw [hs] at hs'; exact (Option.some.inj hs').symm
    have := hf.length_eq
    omega
  · intro adr mem status _ hd
    rw [statusSeen, hl, hp.2, Option.map_some]
    congr 1
    unfold load store
    refine List.map_congr_left fun j hj => ?_
    have hj' : j < 4 := by simpa [Kind.size] using hj
    rw [if_neg (by simp only [Kind.size]; omega)]

/-- Non-vacuity: `rwork` at address 1000, `info` at address 2000 with content 7: the routine succeeds, the wrapper
reads 7. -/
example : ∃ s, documented (routine .gesvd .d) = some s ∧
    statusSeen .gesvd .d s (fun r => if r = .info then 2000 else 1000) (fun a => if a = 2000 then 7 else 0) [0, 0, 0, 0]
      = some [7, 0, 0, 0] := by
  obtain ⟨-, s, hs, -, -, -, -, h⟩ := C79_gesvd_refuted .d (Or.inr rfl)
  exact ⟨s, hs, (h _ _ _ rfl (Or.inl (by decide))).trans (by decide)⟩

/-- **C79 is refuted** for `t_pgqr` in single precision: at the place of `K`, the number of reflectors, the routine gets
the number of columns. The two are equal in the only call of the library (chase_mpidla.hpp 1073). -/
theorem C79_pgqr_refuted : ¬ RightCall .pgqr .s ∧ (passed .pgqr .s)[2]? = some (.n, .int) ∧
    ∃ s, documented (routine .pgqr .s) = some s ∧ s.args[2]? = some (.k, .int) := by
  refine ⟨?_, rfl, _, rfl, rfl⟩
  rintro ⟨-, -, s, hs, hf, -⟩
  obtain rfl := Option.some.inj hs
  have h := (List.forall₂_iff_get.mp hf).2 2 (by decide) (by decide)
  exact absurd h.role (by decide)

/-- **C79 is refuted** for `t_lange` in double precision: the routine returns eight bytes, of which the wrapper takes
four. For a value whose low half is zero (as for every number with at most 20 bits after the first) it takes 0.  The
library does not call `t_lange`. -/
theorem C79_lange_refuted : ¬ RightCall .lange .d ∧ declaredResult .lange .d = some .f32 ∧
    (∃ s, documented (routine .lange .d) = some s ∧ s.result = some .f64) ∧
    ∀ (mem : Mem) (adr : ℕ) (lo hi : List UInt8), lo.length = 4 → hi.length = 4 →
      load .f32 (store .f64 mem adr 1 fun _ => lo ++ hi) adr 0 = lo := by
  refine ⟨?_, rfl, ⟨_, rfl, rfl⟩, fun mem adr lo hi hlo hhi => ?_⟩
  · rintro ⟨-, -, s, hs, -, hr⟩
    obtain rfl := Option.some.inj hs
    exact absurd hr (by decide)
  · apply List.ext_getElem
    · simp [load, hlo, Kind.size]
    · intro j h1 h2
      have hj : j < 4 := by omega
      simp only [load, store, List.getElem_map, List.getElem_range, Kind.size]
      rw [if_pos ⟨by omega, by omega⟩]
      have h3 : adr + 0 * 4 + j - adr = j := by omega
      rw [h3, Nat.mod_eq_of_lt (by omega), List.getD_eq_getElem _ _ (by simp; omega), List.getElem_append_left h2]

/-- The size `x` that a routine is told is the caller's if it is below `2^31`, and never if it is not. -/
theorem C79_sizes (x : ℕ) : Sizes.toInt x = x ↔ x < 2 ^ 31 := by
  constructor
  · intro h
    have := Sizes.toInt_lt x
    omega
  · exact Sizes.toInt_of_lt

/-- The operation passed to a product is the one asked for: `N`, `T` and `C` for `CblasNoTrans` = 3, `CblasTrans` = 2 and
`CblasConjTrans` = 1; no other value is translated. -/
theorem C79_trans (op : ℤ) (ch : Char) :
    transChar op = some ch ↔ (op = 3 ∧ ch = 'N') ∨ (op = 2 ∧ ch = 'T') ∨ (op = 1 ∧ ch = 'C') := by
  unfold transChar
  dsimp only
  split_ifs with h1 h2 h3
  · subst h1; simp [eq_comm]
  · subst h2; simp [eq_comm]
  · subst h3; simp [eq_comm]
  · simp [h1, h2, h3]

/-- The workspaces that a wrapper passes, in both of its calls, have at least the elements that the routine uses,
whatever sizes below `2^31` it has reported. Not for `t_lange`, which passes no workspace. -/
theorem C79_workspace (op : Op) (h : op ≠ .lange) (m n lw lr li : ℕ) (hlw : lw < 2 ^ 31) (hlr : lr < 2 ^ 31)
    (hli : li < 2 ^ 31) (ph : Phase) (r : Role) :
    documentedUse op m n (sizeArg ph lw) (sizeArg ph lr) (sizeArg ph li) r ≤ ownLength op m n lw lr li ph r := by
  have use : ∀ l : ℕ, l < 2 ^ 31 →
      (if Sizes.toInt l = -1 then 1 else (Sizes.toInt l).toNat) ≤ (Sizes.toInt l).toNat := by
    intro l hl
    rw [Sizes.toInt_of_lt hl, if_neg (by omega)]
  have h1 := use lw hlw
  have h2 := use lr hlr
  have h3 := use li hli
  unfold documentedUse ownLength
  rw [if_neg h]
  cases ph <;> simp only [sizeArg] <;> split_ifs <;> simp_all

/-- Non-vacuity and exactness: a query with one element, then a call with all of the 1000 elements reported. -/
example : documentedUse .geqrf 500 20 (sizeArg .query 1000) (sizeArg .query 0) (sizeArg .query 0) .work = 1 ∧
    documentedUse .geqrf 500 20 (sizeArg .compute 1000) (sizeArg .compute 0) (sizeArg .compute 0) .work = 1000 ∧
    documentedUse .gesvd 500 20 (sizeArg .compute 1000) (sizeArg .compute 0) (sizeArg .compute 0) .rwork = 100 := by
  decide

/-- `t_dot` for complex numbers computes the inner product, conjugate-linear in the first vector. -/
theorem C79_dot (n incx incy : ℕ) (x y : ℕ → ℂ) :
    dotLoop n incx incy x y = ∑ i ∈ Finset.range n, (starRingEnd ℂ) (x (i * incx)) * y (i * incy) := by
  unfold dotLoop
  induction n with
  | zero => rfl
  | succ n ih => rw [forRange_succ (Nat.zero_le n), ih, Finset.sum_range_succ]; rfl

/-- `t_norm_p2` computes the square of the norm: of a real vector … -/
theorem C79_norm_real (n : ℕ) (x : ℕ → ℝ) : normP2 (fun a : ℝ => a * a) n x = ∑ i ∈ Finset.range n, x i ^ 2 := by
  unfold normP2
  induction n with
  | zero => rfl
  | succ n ih => rw [forRange_succ (Nat.zero_le n), ih, Finset.sum_range_succ, pow_two]

/-- … and of a complex vector. -/
theorem C79_norm_complex (n : ℕ) (x : ℕ → ℂ) :
    normP2 (fun a : ℂ => Complex.normSq a) n x = ∑ i ∈ Finset.range n, ‖x i‖ ^ 2 := by
  unfold normP2
  induction n with
  | zero => rfl
  | succ n ih => rw [forRange_succ (Nat.zero_le n), ih, Finset.sum_range_succ, ← Complex.normSq_eq_norm_sq (x n)]

end Blas
end Verif
