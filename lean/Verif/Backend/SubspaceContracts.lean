/-
The backends of the library keep the contract on the search space (`SpaceContract`).
-/
import Verif.Backend.Subspace
import Verif.Backend.MpiSolve

open Polynomial

namespace Verif

variable {K : Type*} [RCLike K] {N : ℕ}

/-- The single-process backend. -/
theorem Seq.spaceContract {E : Env K} (hL : E.lapack.Ok) (hn : E.nevex ≤ N)
    {H0 : Matrix (Fin N) (Fin N) K} (hH : H0.IsHermitian) :
    SpaceContract (Seq.ops (N := N) E) Seq.St.C Seq.St.locked (Seq.phases E H0) E.nevex H0 where
  swap_cols := fun _ _ _ => Or.inl rfl
  filter_cols := by
    rintro n deg av degrees lambda lower upper s s' ⟨h1, h2, -, -, -⟩ hdeg hs hd h hτ j hj1 hj2
    obtain ⟨-, -, -, a, -⟩ := Seq.filter_spec (by rw [h1]; exact hH) h2 hs hd hdeg h
    rw [a hτ j hj1 hj2, h1]
  qr_span := by
    rintro k c s ⟨-, -, h3, h4, h5⟩ hli
    obtain ⟨-, -, -, -, -, -, -, a⟩ := Seq.qr_spec hL hn k c s h3 h5 h4
    exact a hli
  rr_span := by
    rintro s ⟨h1, h2, h3, h4, h5⟩ _
    have e : s.locked + (E.nevex - s.locked) = E.nevex := by omega
    obtain ⟨-, -, -, -, -, -, a, -, -⟩ := Seq.rr_spec hL s (by rw [h1]; exact hH)
      (l := s.locked) (b := E.nevex - s.locked) (by rw [e]; exact h5)
      (fun j _ hj => h4 j (by omega))
    rw [e] at a
    exact a
  rr_galerkin := by
    rintro s ⟨h1, h2, h3, h4, h5⟩ _ i j hi hj
    have e : s.locked + (E.nevex - s.locked) = E.nevex := by omega
    obtain ⟨-, -, -, -, -, -, -, a, -⟩ := Seq.rr_spec hL s (by rw [h1]; exact hH)
      (l := s.locked) (b := E.nevex - s.locked) (by rw [e]; exact h5)
      (fun j _ hj => h4 j (by omega))
    rw [h1] at a
    exact a i j hi hj
  rr_asc := by
    rintro s ⟨h1, h2, h3, h4, h5⟩ i j hij hj
    have e : s.locked + (E.nevex - s.locked) = E.nevex := by omega
    obtain ⟨-, -, -, -, -, -, -, -, a⟩ := Seq.rr_spec hL s (by rw [h1]; exact hH)
      (l := s.locked) (b := E.nevex - s.locked) (by rw [e]; exact h5)
      (fun j _ hj => h4 j (by omega))
    exact a i j hij hj
  ortho := fun _ h => h.2.2.2.2
  resd := Seq.makesResiduals hL hH

/-- The distributed backends, seen on the whole search space, with any QR and any computation of the
residuals that do the same. -/
theorem Mpi.spaceContractWith {G : Mpi.GEnv K N} {q : ℕ → ℝ → Mpi.GSt K N → Mpi.GSt K N}
    {d : (ℕ → ℝ) → ℕ → Mpi.GSt K N → (ℕ → ℝ) × Mpi.GSt K N} (hq : Mpi.QrLike G q)
    (hd : Mpi.ResdLike G d) (hL : G.base.lapack.Ok) (hn : G.base.nevex ≤ N)
    {H0 : Matrix (Fin N) (Fin N) K} (hH : H0.IsHermitian) :
    SpaceContract (Mpi.gOpsWith G q d) Mpi.GSt.cols Mpi.GSt.nl (Mpi.gPhases G H0) G.base.nevex H0 := by
  have hc := Seq.spaceContract hL hn hH
  exact
    { swap_cols := fun _ _ _ => Or.inr rfl
      filter_cols := fun n deg av degrees lambda lower upper g g' hi hdeg hs hd' h hτ =>
        hc.filter_cols n deg av degrees lambda lower upper g.toSt g'.toSt hi hdeg hs hd'
          (Mpi.gFilter hi.2.1 h) hτ
      qr_span := by
        rintro k c g ⟨h1, h2, h3, h4, h5⟩ hli
        obtain ⟨Y, hY, e⟩ := hq k c g h2
        obtain ⟨-, -, -, -, -, -, -, a⟩ := Seq.lockCopy_spec g.toSt hY h3 h5 h4 _ rfl
        have e' : (Mpi.gOpsWith G q d).qr k c g = _ := e
        rw [e']
        exact a hli
      rr_span := fun g h hl => hc.rr_span g.toSt h hl
      rr_galerkin := fun g h hl => hc.rr_galerkin g.toSt h hl
      rr_asc := Mpi.gMakesAscendingWith hL hH
      ortho := fun g h => hc.ortho g.toSt h
      resd := Mpi.gMakesResidualsWith hd hL hH }

/-- The distributed CPU and GPU backends, seen on the whole search space. -/
theorem Mpi.spaceContract {G : Mpi.GEnv K N} (hL : G.base.lapack.Ok) (hn : G.base.nevex ≤ N)
    {H0 : Matrix (Fin N) (Fin N) K} (hH : H0.IsHermitian) :
    SpaceContract (Mpi.gOps G) Mpi.GSt.cols Mpi.GSt.nl (Mpi.gPhases G H0) G.base.nevex H0 :=
  Mpi.spaceContractWith (Mpi.gQr_like hL hn) Mpi.gResd_like hL hn hH

/-- The in-place backends, with Householder QR where the shifted Cholesky QR can fail halfway. -/
theorem InPlace.spaceContract {E : Env K} {k : InPlace.Kind} (hL : E.lapack.Ok)
    (hε : 0 ≤ E.lapack.eps) (hn : E.nevex ≤ N) {H0 : Matrix (Fin N) (Fin N) K} (hH : H0.IsHermitian) :
    SpaceContract (InPlace.safeOps (N := N) E k) InPlace.St.V1 InPlace.St.locked
      (InPlace.phases E k H0) E.nevex H0 where
  swap_cols := fun _ _ _ => Or.inl rfl
  filter_cols := by
    rintro n deg av degrees lambda lower upper s s' ⟨h1, -, -, -⟩ hdeg hs hd h hτ j hj1 hj2
    have h' : filter (InPlace.ops (N := N) E k) n (E.nevex - s.locked) deg degrees E.nevex s.locked
      lambda lower upper s = .ok (av, s') := h
    obtain ⟨-, -, -, -, a, -⟩ := InPlace.filter_spec hs hd hdeg h'
    rw [a hτ j hj1 hj2, h1]
  qr_span := by
    rintro m c s ⟨-, -, h3, h5⟩ hli
    have e : (InPlace.safeOps (N := N) E k).qr m c s = (InPlace.ops E k).qr m c s :=
      InPlace.safeQr_agree m c s fun hb => hb.2.2 hli
    rw [e]
    obtain ⟨-, -, -, -, -, -, -, -, a⟩ := InPlace.qr_spec (k := k) hL hε hn m c s
      (Or.inr (Or.inr hli)) h3 h5
    exact a hli
  rr_span := by
    rintro s ⟨h1, h2, h3, h4, h5⟩ _
    have e : s.locked + (E.nevex - s.locked) = E.nevex := by omega
    obtain ⟨-, -, -, -, -, -, a, -, -, -⟩ := InPlace.rr_spec hL s (by rw [h1]; exact hH)
      (l := s.locked) (b := E.nevex - s.locked) (by rw [e]; exact h5) h4
    rw [e] at a
    exact a
  rr_galerkin := by
    rintro s ⟨h1, h2, h3, h4, h5⟩ _ i j hi hj
    have e : s.locked + (E.nevex - s.locked) = E.nevex := by omega
    obtain ⟨-, -, -, -, -, -, -, a, -, -⟩ := InPlace.rr_spec hL s (by rw [h1]; exact hH)
      (l := s.locked) (b := E.nevex - s.locked) (by rw [e]; exact h5) h4
    rw [h1] at a
    exact a i j hi hj
  rr_asc := by
    rintro s ⟨h1, h2, h3, h4, h5⟩ i j hij hj
    have e : s.locked + (E.nevex - s.locked) = E.nevex := by omega
    obtain ⟨-, -, -, -, -, -, -, -, a, -⟩ := InPlace.rr_spec hL s (by rw [h1]; exact hH)
      (l := s.locked) (b := E.nevex - s.locked) (by rw [e]; exact h5) h4
    exact a i j hij hj
  ortho := fun _ h => h.2.2.2
  resd := InPlace.makesResiduals hL hH

end Verif
