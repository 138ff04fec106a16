/-
C63 for the backends of the library: the bound of the Lanczos runs is at least every Ritz value they
return (C20), so the first round of a solve with random start vectors runs on a proper interval.
-/
import Verif.Backend.LanczosProps
import Verif.Backend.InPlace
import Verif.Backend.MpiSpec
import Verif.Solver.IntervalProps

namespace Verif

variable {K : Type*} [RCLike K] {N : ℕ} {L : Lapack K}

/-- The Lanczos runs of a backend are those of `mLanczos` with the eigensolver `L` on some matrix and some
start columns. -/
def RunsLanczos {S : Type*} (ops : Chase ℝ S) (N : ℕ) (L : Lapack K) : Prop :=
  ∀ m numvec s, ∃ (p : ℕ → ℕ) (H : Matrix (Fin N) (Fin N) K) (C : ℕ → Fin N → K),
    (ops.lanczosN m numvec s).1 = (lanczosMulti p L H m numvec C).1

/-- **C63** for the backends of the library, in exact arithmetic: in the first round of a solve with
random start vectors the filter runs on `lambda ≤ lower ≤ upper`, whatever the matrix. -/
theorem C63_first_round_backends {S : Type*} (P : Plat ℝ) (hP : SortsIndices P) (hL : L.Ok)
    (ops : Chase ℝ S) (hops : RunsLanczos ops N L) (cfg : Config ℝ) (ritzv0 resid0 : ℕ → ℝ) (be : S)
    (st : St ℝ S) (happ : cfg.approx = false) (h : Reach P ops cfg ritzv0 resid0 be st)
    (h0 : st.iteration = 0) (I : Interval ℝ) (hI : FilterRuns P ops cfg st I) :
    I.lambda ≤ I.lower ∧ I.lower ≤ I.upper := by
  obtain ⟨p, H, C, e⟩ := hops (min (cfg.nev + cfg.nex) (min (cfg.N / 2) cfg.lanczosIter)) cfg.numLanczos
    (ops.qr 0 1 (ops.initVecs true (ops.start be)))
  obtain ⟨h1, h2, -⟩ := C63_first_round_random P hP ops cfg ritzv0 resid0 be st happ _ rfl _ rfl (by
    intro j hj
    rw [e]
    set m := min (cfg.nev + cfg.nex) (min (cfg.N / 2) cfg.lanczosIter) with hm
    have hm0 : 0 < m := Nat.pos_of_ne_zero fun hz => by rw [hz, Nat.mul_zero] at hj; omega
    have := multi_theta_bound p hL H m cfg.numLanczos C (j / m) (j % m)
      (Nat.div_lt_of_lt_mul (by rwa [Nat.mul_comm])) (Nat.mod_lt _ hm0)
    rw [Nat.div_add_mod] at this
    have h3 := le_abs_self ((lanczosMulti p L H m cfg.numLanczos C).1.theta j)
    have h4 := abs_nonneg ((mLanczos p H m cfg.numLanczos true C).rbeta (j / m))
    linarith) h h0 I hI
  exact ⟨h1, h2⟩

/-- The shared-memory backend, the in-place one and the description of the distributed ones on global data
meet the hypothesis. -/
example (E : Env K) : RunsLanczos (Seq.ops (N := N) E) N E.lapack := fun _ _ s => ⟨axpyOwn, s.H, s.C, rfl⟩

example (E : Env K) (k : InPlace.Kind) : RunsLanczos (InPlace.ops (N := N) E k) N E.lapack :=
  fun _ _ s => ⟨k.axpy, s.H, s.V1, rfl⟩

example (G : Mpi.GEnv K N) : RunsLanczos (Mpi.gOps G) N G.base.lapack :=
  fun _ _ s => ⟨axpyOwn, s.H, s.C, rfl⟩

end Verif
