/-
Property C70: arrays of the sizes that the documentation of the C and Fortran interfaces asks for are large
enough.  For the array of the values it is not (interface/chase_c.cpp 518, 537, ..., interface/chase_f.f90 25, ...
and docs/usage.rst: "an array of size `nev`").
-/
import Verif.Bounds.GpuProps

namespace Verif
namespace Bounds

variable {R S : Type*} [Add R] [Sub R] [Mul R] [Div R] [Neg R] [Zero R] [One R] [NatCast R] [LT R] [DecidableLT R]
  {P : Plat R} {ops : Chase R S} {cfg : Config R} {ritzv0 resid0 : ℕ → R} {s : S}
  {out : Outcome R (S × List (Call R))}

/-- A call writes `n` elements of the user's array of values, from position `off` on. -/
def WritesValues (touch : ℕ → Call R → List Access) (locked : ℕ) (c : Call R) (off n : ℕ) : Prop :=
  vec .ritzv off n ∈ touch locked c

/-- Every backend whose `RR` writes `block` values behind the locked ones writes, in every solve of at least one
round, the element `nev + nex - 1` of the user's array. -/
theorem values_written (hP : PermutesIndices P)
    (h : solve P (traced ops) cfg ritzv0 resid0 (s, []) = .ok out)
    (hsym : cfg.symCheck = true → (ops.checkSymmetryEasy s).1 = true)
    (hn : 0 < cfg.nev + cfg.nex) (hit : out.iterations ≠ 0) (touch : ℕ → Call R → List Access)
    (hrr : ∀ L b, WritesValues touch L (.rr b) L b) (l0 : ℕ) :
    ∃ k c, out.be.2[k]? = some c ∧ ∃ a ∈ touch (lockedAfter (out.be.2.take k) l0) c, a.buf = .ritzv ∧
      ∀ z : Sizes, z.ritzv < cfg.nev + cfg.nex → ¬ a.Fits z := by
  have hpath := C57_call_protocol hP ritzv0 resid0 s out h hsym
  rcases path_rr hpath with ⟨b, hb⟩ | h1
  · obtain ⟨k, hk⟩ := List.mem_iff_getElem?.mp hb
    obtain ⟨hal, hL⟩ : lockedAfter (out.be.2.take k) l0 + b = cfg.nev + cfg.nex ∧
        lockedAfter (out.be.2.take k) l0 < cfg.nev := (path_allowed hn l0 hpath).2 k _ hk
    refine ⟨k, _, hk, _, hrr _ _, rfl, fun z hz hf => ?_⟩
    have h2 := hf (b - 1) (by show b - 1 < b; omega) 0 Nat.one_pos
    have h3 : lockedAfter (out.be.2.take k) l0 + (b - 1) + 0 * b < z.ritzv := h2
    omega
  · exact absurd h1 hit

/-- The sizes of the interface documentation: as the backend asks for, but `nev` elements for the values. -/
def documented (z : Sizes) (nev : ℕ) : Sizes := { z with ritzv := nev }

/-- **C70 is refuted**, the sequential backend: with an array of `nev` values, as documented, every solve of at least
one round writes behind its end if `nex > 0`. -/
theorem C70_seq_refuted (hP : PermutesIndices P)
    (h : solve P (traced ops) cfg ritzv0 resid0 (s, []) = .ok out)
    (hsym : cfg.symCheck = true → (ops.checkSymmetryEasy s).1 = true)
    (hx : 0 < cfg.nex) (hit : out.iterations ≠ 0) (ldh l0 : ℕ) :
    ∃ k c, out.be.2[k]? = some c ∧
      ∃ a ∈ Seq.touch (Seq.make cfg.N cfg.nev cfg.nex ldh) (cfg.nev + cfg.nex)
        (lockedAfter (out.be.2.take k) l0) c, a.buf = .ritzv ∧
        ¬ a.Fits (documented (Seq.make cfg.N cfg.nev cfg.nex ldh).sizes cfg.nev) := by
  obtain ⟨k, c, hk, a, ha, hb, hf⟩ := values_written hP h hsym (by omega) hit
    (Seq.touch (Seq.make cfg.N cfg.nev cfg.nex ldh) (cfg.nev + cfg.nex))
    (fun L b => by unfold WritesValues Seq.touch; simp) l0
  exact ⟨k, c, hk, a, ha, hb, hf _ (by show cfg.nev < _; omega)⟩

/-- **C70 is refuted**, the backend in place. -/
theorem C70_inplace_refuted (hP : PermutesIndices P)
    (h : solve P (traced ops) cfg ritzv0 resid0 (s, []) = .ok out)
    (hsym : cfg.symCheck = true → (ops.checkSymmetryEasy s).1 = true)
    (hx : 0 < cfg.nex) (hit : out.iterations ≠ 0) (ldh l0 : ℕ) (V1 V2 : Buf) :
    ∃ k c, out.be.2[k]? = some c ∧
      ∃ a ∈ InPlace.touch (InPlace.make cfg.N cfg.nev cfg.nex ldh) V1 V2 (cfg.nev + cfg.nex)
        (lockedAfter (out.be.2.take k) l0) c, a.buf = .ritzv ∧
        ¬ a.Fits (documented (InPlace.make cfg.N cfg.nev cfg.nex ldh).sizes cfg.nev) := by
  obtain ⟨k, c, hk, a, ha, hb, hf⟩ := values_written hP h hsym (by omega) hit
    (InPlace.touch (InPlace.make cfg.N cfg.nev cfg.nex ldh) V1 V2 (cfg.nev + cfg.nex))
    (fun L b => by unfold WritesValues InPlace.touch; simp) l0
  exact ⟨k, c, hk, a, ha, hb, hf _ (by show cfg.nev < _; omega)⟩

/-- **C70 is refuted**, every process of the distributed CPU backend. -/
theorem C70_mpi_refuted (hP : PermutesIndices P)
    (h : solve P (traced ops) cfg ritzv0 resid0 (s, []) = .ok out)
    (hsym : cfg.symCheck = true → (ops.checkSymmetryEasy s).1 = true)
    (hx : 0 < cfg.nex) (hit : out.iterations ≠ 0) (l0 : ℕ) (D : Mpi.Dims) :
    ∃ k c, out.be.2[k]? = some c ∧
      ∃ a ∈ Mpi.touch D (lockedAfter (out.be.2.take k) l0) c, a.buf = .ritzv ∧
        ¬ a.Fits (documented D.sizes cfg.nev) := by
  obtain ⟨k, c, hk, a, ha, hb, hf⟩ := values_written hP h hsym (by omega) hit (Mpi.touch D)
    (fun L b => by unfold WritesValues Mpi.touch; simp) l0
  exact ⟨k, c, hk, a, ha, hb, hf _ (by show cfg.nev < _; omega)⟩

/-- **C70 is refuted**, the single-GPU backend (host side). -/
theorem C70_cuda_refuted (hP : PermutesIndices P)
    (h : solve P (traced ops) cfg ritzv0 resid0 (s, []) = .ok out)
    (hsym : cfg.symCheck = true → (ops.checkSymmetryEasy s).1 = true)
    (hx : 0 < cfg.nex) (hit : out.iterations ≠ 0) (ldh l0 : ℕ) (V1 V2 : Buf) :
    ∃ k c, out.be.2[k]? = some c ∧
      ∃ a ∈ (Cuda.touch (Cuda.make cfg.N cfg.nev cfg.nex ldh) V1 V2 (cfg.nev + cfg.nex)
        (lockedAfter (out.be.2.take k) l0) c).host, a.buf = .ritzv ∧
        ¬ a.Fits (documented (Cuda.make cfg.N cfg.nev cfg.nex ldh).host cfg.nev) := by
  obtain ⟨k, c, hk, a, ha, hb, hf⟩ := values_written hP h hsym (by omega) hit
    (fun L c => (Cuda.touch (Cuda.make cfg.N cfg.nev cfg.nex ldh) V1 V2 (cfg.nev + cfg.nex) L c).host)
    (fun L b => by unfold WritesValues Cuda.touch; simp) l0
  exact ⟨k, c, hk, a, ha, hb, hf _ (by show cfg.nev < _; omega)⟩

/-- **C70 is refuted**, every process of the multi-GPU backend (host side), in both builds. -/
theorem C70_mgpu_refuted (hP : PermutesIndices P)
    (h : solve P (traced ops) cfg ritzv0 resid0 (s, []) = .ok out)
    (hsym : cfg.symCheck = true → (ops.checkSymmetryEasy s).1 = true)
    (hx : 0 < cfg.nex) (hit : out.iterations ≠ 0) (l0 : ℕ) (D : Mpi.Dims) (aware : Bool) (z : Sizes) :
    ∃ k c, out.be.2[k]? = some c ∧
      ∃ a ∈ Mgpu.touchHost D aware (lockedAfter (out.be.2.take k) l0) c, a.buf = .ritzv ∧
        ¬ a.Fits (documented z cfg.nev) := by
  obtain ⟨k, c, hk, a, ha, hb, hf⟩ := values_written hP h hsym (by omega) hit (Mgpu.touchHost D aware)
    (fun L b => by unfold WritesValues Mgpu.touchHost; simp) l0
  exact ⟨k, c, hk, a, ha, hb, hf _ (by show cfg.nev < _; omega)⟩

/-- Non-vacuity: the run of the examples of C42 makes two rounds with one extra column. -/
example : Toy.okAnd (fun out => out.iterations == 2)
      (solve Toy.plat (traced (Toy.ops Toy.vals1 Toy.res1 true)) Toy.cfg1 (fun _ => 0) (fun _ => 0)
        (Toy.start, [])) = true ∧ 0 < Toy.cfg1.nex ∧ PermutesIndices Toy.plat :=
  ⟨by rw [Toy.solve_eq_solveE]; decide +kernel, by decide, Toy.plat_sorts.permutes⟩

end Bounds
end Verif
