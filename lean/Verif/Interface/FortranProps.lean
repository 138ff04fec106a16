/-
Property C69: a Fortran program that calls a routine of the module `chase_diag` gives to the C function what the
function reads, and reads from its arrays what the function has written.
-/
import Verif.Interface.Fortran
import Mathlib.Tactic.Linarith
import Mathlib.Tactic.Ring
import Mathlib.Data.List.Forall2
import Mathlib.Data.List.GetD

namespace Verif
namespace Fortran

theorem Kind.size_pos (k : Kind) : 0 < k.size := by cases k <;> decide

/-- What is assigned to an array is what is read from it, with the same kind of element. -/
theorem load_store (k : Kind) (m : Mem) (a n : ℕ) (x : ℕ → List UInt8) (hx : ∀ i < n, (x i).length = k.size)
    (i : ℕ) (hi : i < n) : load k (store k m a n x) a i = x i := by
  have hk := k.size_pos
  apply List.ext_getElem
  · simp [load, hx i hi]
  · intro j h1 h2
    have hj : j < k.size := by simpa [load] using h1
    have h3 : i * k.size + j < n * k.size :=
      calc i * k.size + j < i * k.size + k.size := by omega
        _ = (i + 1) * k.size := by ring
        _ ≤ n * k.size := Nat.mul_le_mul_right _ hi
    have h4 : a + i * k.size + j - a = j + i * k.size := by omega
    simp only [load, store, List.getElem_map, List.getElem_range]
    rw [if_pos ⟨by omega, by omega⟩, h4, Nat.add_mul_div_right _ _ hk, Nat.add_mul_mod_self_right,
      Nat.div_eq_of_lt hj, Nat.mod_eq_of_lt hj, Nat.zero_add, List.getD_eq_getElem _ _ h2]

/-- Elements behind those assigned keep their old contents. -/
theorem load_behind (k l : Kind) (m : Mem) (a n : ℕ) (x : ℕ → List UInt8) (i : ℕ)
    (hi : n * k.size ≤ i * l.size) : load l (store k m a n x) a i = load l m a i := by
  unfold load store
  refine List.map_congr_left fun j _ => ?_
  rw [if_neg (by omega)]

/-- **C69.** The two sides of an argument agree: whatever elements one side assigns, the other side reads. -/
structure Agrees (f c : Role × Kind) : Prop where
  role : f.1 = c.1
  toC : ∀ (m : Mem) (a n : ℕ) (x : ℕ → List UInt8), (∀ i < n, (x i).length = f.2.size) →
    ∀ i < n, load c.2 (store f.2 m a n x) a i = x i
  toFortran : ∀ (m : Mem) (a n : ℕ) (x : ℕ → List UInt8), (∀ i < n, (x i).length = c.2.size) →
    ∀ i < n, load f.2 (store c.2 m a n x) a i = x i

/-- The routine passes all its arguments as the C function takes them. -/
def Sound (op : Op) (t : Scalar) : Prop :=
  List.Forall₂ Agrees (fSide op t) (cSide op t)

/-- The routines whose declarations differ: the two distributed initialisations for complex single precision, and
reading and writing complex matrices. -/
def Differs (op : Op) (t : Scalar) : Prop :=
  (t = .c ∧ (op = .pinit ∨ op = .pinitCyclic)) ∨
    ((t = .c ∨ t = .z) ∧ (op = .wrtHam ∨ op = .readHam))

theorem agrees_self (f : Role × Kind) : Agrees f f :=
  ⟨rfl, fun m a n x hx i hi => load_store f.2 m a n x hx i hi, fun m a n x hx i hi => load_store f.2 m a n x hx i hi⟩

/-- **C69, partial:** all routines but these six. Missing: the six, see `C69_values_refuted` and `C69_file_refuted`. -/
theorem C69_partial (op : Op) (t : Scalar) (h : ¬ Differs op t) : Sound op t := by
  have h1 : fSide op t = cSide op t := by
    cases op <;> cases t <;> first | rfl | exact absurd (by simp [Differs]) h
  unfold Sound
  rw [h1]
  exact List.forall₂_same.mpr fun f _ => agrees_self f

/-- Non-vacuity: 30 of the 36 routines, among them the initialisation for double precision. -/
example : ¬ Differs .pinitCyclic .d ∧ ¬ Differs .init .c ∧ ¬ Differs .readHam .s := by simp [Differs]

/-- What the Fortran program reads as element `i` of the values in the two wrong initialisations: the bytes of the
*two* values `2 i` and `2 i + 1` of the C function, one behind the other. -/
theorem values_pair (m : Mem) (a n : ℕ) (x : ℕ → List UInt8) (hx : ∀ i < n, (x i).length = 4) (i : ℕ)
    (hi : 2 * i + 1 < n) : load .f64 (store .f32 m a n x) a i = x (2 * i) ++ x (2 * i + 1) := by
  rw [← load_store .f32 m a n x hx (2 * i) (by omega), ← load_store .f32 m a n x hx (2 * i + 1) hi]
  generalize store .f32 m a n x = m'
  have h1 : ∀ j, m' (a + i * 8 + j) = m' (a + 2 * i * 4 + j) := fun j => by congr 1; ring
  have h2 : ∀ j, m' (a + i * 8 + (4 + j)) = m' (a + (2 * i + 1) * 4 + j) := fun j => by congr 1; ring
  simp only [load, Kind.size, List.range_succ, List.range_zero, List.nil_append, List.map_cons,
    List.map_nil, List.cons_append]
  rw [← h1 0, ← h1 1, ← h1 2, ← h1 3, ← h2 0, ← h2 1, ← h2 2, ← h2 3]

/-- **C69 is refuted** for the initialisations of complex single precision: the Fortran program's `ritzv(1)` is not a
function of the smallest eigenvalue. Whatever the values `n ≥ 2`, another second value gives another `ritzv(1)`; and
an array of `n` Fortran elements is only changed in its first half. -/
theorem C69_values_refuted (op : Op) (hop : op = .pinit ∨ op = .pinitCyclic) :
    (fSide op .c)[8]? = some (.ritzv, .f64) ∧ (cSide op .c)[8]? = some (.ritzv, .f32) ∧ ¬ Sound op .c ∧
    (∀ (m : Mem) (a n : ℕ) (x y : ℕ → List UInt8), 2 ≤ n → (∀ i < n, (x i).length = 4) →
      (∀ i < n, (y i).length = 4) → x 0 = y 0 → x 1 ≠ y 1 →
      load .f64 (store .f32 m a n x) a 0 ≠ load .f64 (store .f32 m a n y) a 0) ∧
    (∀ (m : Mem) (a n : ℕ) (x : ℕ → List UInt8) (i : ℕ), n ≤ 2 * i →
      load .f64 (store .f32 m a n x) a i = load .f64 m a i) := by
  have key : ∀ (m : Mem) (a n : ℕ) (x y : ℕ → List UInt8), 2 ≤ n → (∀ i < n, (x i).length = 4) →
      (∀ i < n, (y i).length = 4) → x 0 = y 0 → x 1 ≠ y 1 →
      load .f64 (store .f32 m a n x) a 0 ≠ load .f64 (store .f32 m a n y) a 0 := by
    intro m a n x y hn hx hy h0 h1 he
    rw [values_pair m a n x hx 0 (by omega), values_pair m a n y hy 0 (by omega)] at he
    exact h1 (List.append_inj he (by rw [hx _ (by omega), hy _ (by omega)])).2
  refine ⟨by rcases hop with rfl | rfl <;> rfl, by rcases hop with rfl | rfl <;> rfl, fun hs => ?_, key,
    fun m a n x i hi => load_behind .f32 .f64 m a n x i (by show n * 4 ≤ i * 8; omega)⟩
  have hf : (fSide op .c)[8]? = some (.ritzv, .f64) := by rcases hop with rfl | rfl <;> rfl
  have hc : (cSide op .c)[8]? = some (.ritzv, .f32) := by rcases hop with rfl | rfl <;> rfl
  obtain ⟨h1, hf⟩ := List.getElem?_eq_some_iff.mp hf
  obtain ⟨h2, hc⟩ := List.getElem?_eq_some_iff.mp hc
  have ha := (List.forall₂_iff_get.mp hs).2 8 h1 h2
  simp only [List.get_eq_getElem] at ha
  rw [hf, hc] at ha
  have h3 := congrArg List.length (ha.toFortran (fun _ => 0) 0 1 (fun _ => [0, 0, 0, 0]) (fun _ _ => rfl) 0 (by omega))
  simp [load, Kind.size] at h3

/-- **C69 is refuted** for reading and writing complex matrices: the Fortran side declares an array of reals, of half
the size of the C function's elements, so a complex array does not have the type of the argument. -/
theorem C69_file_refuted (op : Op) (hop : op = .wrtHam ∨ op = .readHam) (t : Scalar) (ht : t = .c ∨ t = .z) :
    ∃ kf kc, (fSide op t)[1]? = some (.h, kf) ∧ (cSide op t)[1]? = some (.h, kc) ∧ kc = t.elt ∧
      2 * kf.size = kc.size ∧ ¬ Sound op t := by
  refine ⟨fileElt t, t.elt, by rcases hop with rfl | rfl <;> rfl, by rcases hop with rfl | rfl <;> rfl, rfl,
    by rcases ht with rfl | rfl <;> rfl, fun hs => ?_⟩
  have hf : (fSide op t)[1]? = some (.h, fileElt t) := by rcases hop with rfl | rfl <;> rfl
  have hc : (cSide op t)[1]? = some (.h, t.elt) := by rcases hop with rfl | rfl <;> rfl
  obtain ⟨h1, hf⟩ := List.getElem?_eq_some_iff.mp hf
  obtain ⟨h2, hc⟩ := List.getElem?_eq_some_iff.mp hc
  have ha := (List.forall₂_iff_get.mp hs).2 1 h1 h2
  simp only [List.get_eq_getElem] at ha
  rw [hf, hc] at ha
  have h3 := congrArg List.length (ha.toC (fun _ => 0) 0 1 (fun _ => List.replicate (fileElt t).size 0)
    (fun _ _ => List.length_replicate) 0 (by omega))
  rcases ht with rfl | rfl <;> simp [load, Kind.size, fileElt, Scalar.elt] at h3

/-- The first value of the Fortran program for the C values 1.0 and 2.0 (little endian): it has the bytes of neither. -/
example : load .f64 (store .f32 (fun _ => 0) 100 2
      (fun i => if i = 0 then [0, 0, 128, 63] else [0, 0, 0, 64])) 100 0 = [0, 0, 128, 63, 0, 0, 0, 64] := by
  rw [values_pair _ _ _ _ (fun i _ => by split_ifs <;> rfl) 0 (by omega)]
  rfl

end Fortran
end Verif
