/-
C95: the driver program does what its command line says.
-/
import Verif.Examples.Driver
import Mathlib.Tactic.SplitIfs
import Mathlib.Algebra.Order.Field.Rat
import Mathlib.Data.List.Induction

namespace Verif
namespace Examples
namespace Driver

variable {R : Type}

/-! ### Specification -/

/-- What the command line says about an option: its last value, the default if there is none. -/
def asked {A : Type} (sel : Arg R → Option A) (default : A) (args : List (Arg R)) : A :=
  ((args.filterMap sel).getLast?).getD default

/-- The first letter of an option, in upper case. -/
def letter (s : String) (c : Char) : Prop := ∃ a l, s.toList = a :: l ∧ a.toUpper = c

section Options
/-- The options of the command line by name. -/
def isN : Arg R → Option ℕ | .n x => some x | _ => none
@[inherit_doc isN] def isDouble : Arg R → Option Bool | .double x => some x | _ => none
@[inherit_doc isN] def isComplex : Arg R → Option Bool | .complex x => some x | _ => none
@[inherit_doc isN] def isNev : Arg R → Option ℕ | .nev x => some x | _ => none
@[inherit_doc isN] def isNex : Arg R → Option ℕ | .nex x => some x | _ => none
@[inherit_doc isN] def isDeg : Arg R → Option ℕ | .deg x => some x | _ => none
@[inherit_doc isN] def isMaxDeg : Arg R → Option ℕ | .maxDeg x => some x | _ => none
@[inherit_doc isN] def isMaxIter : Arg R → Option ℕ | .maxIter x => some x | _ => none
@[inherit_doc isN] def isBgn : Arg R → Option ℕ | .bgn x => some x | _ => none
@[inherit_doc isN] def isEnd : Arg R → Option ℕ | .last x => some x | _ => none
@[inherit_doc isN] def isSpin : Arg R → Option String | .spin x => some x | _ => none
@[inherit_doc isN] def isKpoint : Arg R → Option ℕ | .kpoint x => some x | _ => none
@[inherit_doc isN] def isTol : Arg R → Option R | .tol x => some x | _ => none
@[inherit_doc isN] def isPathIn : Arg R → Option String | .pathIn x => some x | _ => none
@[inherit_doc isN] def isMode : Arg R → Option String | .mode x => some x | _ => none
@[inherit_doc isN] def isOpt : Arg R → Option String | .opt x => some x | _ => none
@[inherit_doc isN] def isPathEigp : Arg R → Option String | .pathEigp x => some x | _ => none
@[inherit_doc isN] def isSequence : Arg R → Option Bool | .sequence x => some x | _ => none
@[inherit_doc isN] def isLanczosIter : Arg R → Option ℕ | .lanczosIter x => some x | _ => none
@[inherit_doc isN] def isNumLanczos : Arg R → Option ℕ | .numLanczos x => some x | _ => none
@[inherit_doc isN] def isGen : Arg R → Option Bool | .isMatGen x => some x | _ => none
@[inherit_doc isN] def isDmax : Arg R → Option R | .dmax x => some x | _ => none
@[inherit_doc isN] def isMbsize : Arg R → Option ℕ | .mbsize x => some x | _ => none
@[inherit_doc isN] def isNbsize : Arg R → Option ℕ | .nbsize x => some x | _ => none
@[inherit_doc isN] def isDim0 : Arg R → Option ℤ | .dim0 x => some x | _ => none
@[inherit_doc isN] def isDim1 : Arg R → Option ℤ | .dim1 x => some x | _ => none
@[inherit_doc isN] def isIrsrc : Arg R → Option ℤ | .irsrc x => some x | _ => none
@[inherit_doc isN] def isIcsrc : Arg R → Option ℤ | .icsrc x => some x | _ => none
@[inherit_doc isN] def isMajor : Arg R → Option String | .major x => some x | _ => none
@[inherit_doc isN] def isLegacy : Arg R → Option Bool | .legacy x => some x | _ => none
end Options

/-- The numbers of the problems asked for. -/
def askedProblems (args : List (Arg R)) : List ℕ :=
  if asked isSequence false args then
    List.range' (asked isBgn 2 args) (asked isEnd 2 args + 1 - asked isBgn 2 args)
  else [1]

/-- The configuration asked for problem `i`; degrees are made even, as documented. -/
def askedConfig [Div R] [One R] [NatCast R] (args : List (Arg R)) (opt : Bool) (i : ℕ) : Config R where
  N := asked isN 0 args
  nev := asked isNev 0 args
  nex := asked isNex 25 args
  approx := asked isSequence false args && i != asked isBgn 2 args
  maxIter := asked isMaxIter 25 args
  tol := asked isTol (1 / ((10000000000 : ℕ) : R)) args
  deg := asked isDeg 20 args + asked isDeg 20 args % 2
  optimization := opt
  maxDeg := asked isMaxDeg 36 args + asked isMaxDeg 36 args % 2
  degExtra := 2
  lanczosIter := asked isLanczosIter 25 args
  numLanczos := asked isNumLanczos 4 args
  cholqr := true
  symCheck := true

/-- The file of problem `i`. -/
def askedFile (args : List (Arg R)) (i : ℕ) : String :=
  if asked isSequence false args then
    if asked isLegacy false args then asked isPathIn "d" args ++ "gmat  1 " ++ pad ' ' i ++ ".bin"
    else asked isPathIn "d" args ++ "mat_" ++ asked isSpin "d" args ++ "_" ++ pad '0' (asked isKpoint 0 args) ++ "_" ++
      pad '0' i ++ ".bin"
  else asked isPathIn "d" args

/-- The required options are there. -/
def Complete (args : List (Arg R)) : Prop :=
  (∃ x, .n x ∈ args) ∧ (∃ x, .nev x ∈ args) ∧ (∃ x, .pathIn x ∈ args)

/-! ### Proof -/

theorem foldl_asked {A B : Type} {f : B → Arg R → B} {π : B → A} {sel : Arg R → Option A}
    (h : ∀ c a, π (f c a) = (sel a).getD (π c)) (c : B) (args : List (Arg R)) :
    π (args.foldl f c) = asked sel (π c) args := by
  unfold asked
  induction args using List.reverseRecOn with
  | nil => rfl
  | append_singleton l a ih =>
    rw [List.foldl_append, List.foldl_cons, List.foldl_nil, h, ih, List.filterMap_append]
    cases e : sel a with
    | none => simp [List.filterMap_cons, e]
    | some x => simp [List.filterMap_cons, e]

/-- The configuration of the driver, from the command line. -/
def askedConf [Div R] [One R] [NatCast R] (cyclic : Bool) (args : List (Arg R)) : Conf R where
  N := asked isN 0 args
  nev := asked isNev 0 args
  nex := asked isNex 25 args
  deg := asked isDeg 20 args
  bgn := asked isBgn 2 args
  last := asked isEnd 2 args
  maxIter := asked isMaxIter 25 args
  maxDeg := asked isMaxDeg 36 args
  tol := asked isTol (1 / ((10000000000 : ℕ) : R)) args
  sequence := asked isSequence false args
  pathIn := asked isPathIn "d" args
  mode := if cyclic then asked (fun a => (isMode a).or (isMajor a)) "C" args else asked isMode "A" args
  opt := asked isOpt "S" args
  pathEigp := asked isPathEigp "" args
  kpoint := asked isKpoint 0 args
  legacy := asked isLegacy false args
  spin := asked isSpin "d" args
  iscomplex := asked isComplex true args
  isdouble := asked isDouble true args
  isMatGen := asked isGen false args
  dmax := asked isDmax ((100 : ℕ) : R) args
  lanczosIter := asked isLanczosIter 25 args
  numLanczos := asked isNumLanczos 4 args
  mbsize := if cyclic then asked isMbsize 400 args else 400
  nbsize := if cyclic then asked isNbsize 400 args else 400
  dim0 := if cyclic then asked isDim0 0 args else 0
  dim1 := if cyclic then asked isDim1 0 args else 0
  irsrc := if cyclic then asked isIrsrc 0 args else 0
  icsrc := if cyclic then asked isIcsrc 0 args else 0
  major := ""

variable [Div R] [One R] [NatCast R]

omit [Div R] [One R] [NatCast R] in
theorem asked_none {A : Type} (d : A) (args : List (Arg R)) : asked (fun _ => none) d args = d := by
  unfold asked
  rw [List.filterMap_eq_nil_iff.mpr (fun _ _ => rfl)]; rfl

theorem parsed (cyclic : Bool) (args : List (Arg R)) :
    args.foldl (assign cyclic) (declare cyclic) = askedConf cyclic args := by
  have ext : ∀ c d : Conf R, c = d ↔ (c.N = d.N ∧ c.nev = d.nev ∧ c.nex = d.nex ∧ c.deg = d.deg ∧ c.bgn = d.bgn ∧
      c.last = d.last ∧ c.maxIter = d.maxIter ∧ c.maxDeg = d.maxDeg ∧ c.tol = d.tol ∧ c.sequence = d.sequence ∧
      c.pathIn = d.pathIn ∧ c.mode = d.mode ∧ c.opt = d.opt ∧ c.pathEigp = d.pathEigp ∧ c.kpoint = d.kpoint ∧
      c.legacy = d.legacy ∧ c.spin = d.spin ∧ c.iscomplex = d.iscomplex ∧ c.isdouble = d.isdouble ∧
      c.isMatGen = d.isMatGen ∧ c.dmax = d.dmax ∧ c.lanczosIter = d.lanczosIter ∧ c.numLanczos = d.numLanczos ∧
      c.mbsize = d.mbsize ∧ c.nbsize = d.nbsize ∧ c.dim0 = d.dim0 ∧ c.dim1 = d.dim1 ∧ c.irsrc = d.irsrc ∧
      c.icsrc = d.icsrc ∧ c.major = d.major) := fun c d => by cases c; cases d; simp
  rw [ext]
  have only : ∀ {A : Type} (π : Conf R → A) (sel : Arg R → Option A) (d : A),
      (∀ c a, π (assign cyclic c a) = if cyclic then (sel a).getD (π c) else π c) → π (declare cyclic) = d →
      π (args.foldl (assign cyclic) (declare cyclic)) = if cyclic then asked sel d args else d := by
    intro A π sel d h hd
    subst hd
    cases cyclic with
    | true => exact foldl_asked (sel := sel) (fun c a => by rw [h]; rfl) _ _
    | false => exact (foldl_asked (sel := fun _ => none) (fun c a => by rw [h]; rfl) _ _).trans (asked_none _ _)
  refine ⟨foldl_asked (π := Conf.N) (sel := isN) (fun c a => by cases a <;> rfl) _ _,
    foldl_asked (π := Conf.nev) (sel := isNev) (fun c a => by cases a <;> rfl) _ _,
    foldl_asked (π := Conf.nex) (sel := isNex) (fun c a => by cases a <;> rfl) _ _,
    foldl_asked (π := Conf.deg) (sel := isDeg) (fun c a => by cases a <;> rfl) _ _,
    foldl_asked (π := Conf.bgn) (sel := isBgn) (fun c a => by cases a <;> rfl) _ _,
    foldl_asked (π := Conf.last) (sel := isEnd) (fun c a => by cases a <;> rfl) _ _,
    foldl_asked (π := Conf.maxIter) (sel := isMaxIter) (fun c a => by cases a <;> rfl) _ _,
    foldl_asked (π := Conf.maxDeg) (sel := isMaxDeg) (fun c a => by cases a <;> rfl) _ _,
    foldl_asked (π := Conf.tol) (sel := isTol) (fun c a => by cases a <;> rfl) _ _,
    foldl_asked (π := Conf.sequence) (sel := isSequence) (fun c a => by cases a <;> rfl) _ _,
    foldl_asked (π := Conf.pathIn) (sel := isPathIn) (fun c a => by cases a <;> rfl) _ _,
    ?_,
    foldl_asked (π := Conf.opt) (sel := isOpt) (fun c a => by cases a <;> rfl) _ _,
    foldl_asked (π := Conf.pathEigp) (sel := isPathEigp) (fun c a => by cases a <;> rfl) _ _,
    foldl_asked (π := Conf.kpoint) (sel := isKpoint) (fun c a => by cases a <;> rfl) _ _,
    foldl_asked (π := Conf.legacy) (sel := isLegacy) (fun c a => by cases a <;> rfl) _ _,
    foldl_asked (π := Conf.spin) (sel := isSpin) (fun c a => by cases a <;> rfl) _ _,
    foldl_asked (π := Conf.iscomplex) (sel := isComplex) (fun c a => by cases a <;> rfl) _ _,
    foldl_asked (π := Conf.isdouble) (sel := isDouble) (fun c a => by cases a <;> rfl) _ _,
    foldl_asked (π := Conf.isMatGen) (sel := isGen) (fun c a => by cases a <;> rfl) _ _,
    foldl_asked (π := Conf.dmax) (sel := isDmax) (fun c a => by cases a <;> rfl) _ _,
    foldl_asked (π := Conf.lanczosIter) (sel := isLanczosIter) (fun c a => by cases a <;> rfl) _ _,
    foldl_asked (π := Conf.numLanczos) (sel := isNumLanczos) (fun c a => by cases a <;> rfl) _ _,
    only Conf.mbsize isMbsize 400 (fun c a => by cases a <;> cases cyclic <;> rfl) rfl,
    only Conf.nbsize isNbsize 400 (fun c a => by cases a <;> cases cyclic <;> rfl) rfl,
    only Conf.dim0 isDim0 0 (fun c a => by cases a <;> cases cyclic <;> rfl) rfl,
    only Conf.dim1 isDim1 0 (fun c a => by cases a <;> cases cyclic <;> rfl) rfl,
    only Conf.irsrc isIrsrc 0 (fun c a => by cases a <;> cases cyclic <;> rfl) rfl,
    only Conf.icsrc isIcsrc 0 (fun c a => by cases a <;> cases cyclic <;> rfl) rfl,
    (foldl_asked (π := Conf.major) (sel := fun _ => none) (fun c a => by cases a <;> rfl) _ _).trans (asked_none _ _)⟩
  cases cyclic with
  | true =>
    exact foldl_asked (π := Conf.mode) (sel := fun a => (isMode a).or (isMajor a)) (fun c a => by cases a <;> rfl) _ _
  | false => exact foldl_asked (π := Conf.mode) (sel := isMode) (fun c a => by cases a <;> rfl) _ _

omit [Div R] [One R] [NatCast R] in
theorem not_missing {args : List (Arg R)} (h : Complete args) : missing args = false := by
  obtain ⟨⟨a, ha⟩, ⟨b, hb⟩, ⟨c, hc⟩⟩ := h
  unfold missing
  rw [List.any_eq_true.mpr ⟨_, ha, rfl⟩, List.any_eq_true.mpr ⟨_, hb, rfl⟩, List.any_eq_true.mpr ⟨_, hc, rfl⟩]
  rfl

theorem firstUpper_letter {s : String} {c : Char} (h : letter s c) : firstUpper s = some (String.ofList [c]) := by
  obtain ⟨a, l, e, rfl⟩ := h
  unfold firstUpper
  rw [e]; rfl

omit [Div R] [One R] [NatCast R] in
/-- The loop solves all its problems if the files have the right sizes. -/
theorem solveLoop_map (cyclic : Bool) (fileSize : String → ℕ) (sc : Scalar) (conf : Conf R) (bgn : ℕ) (is : List ℕ)
    (hfit : ∀ i ∈ is, fits fileSize sc conf i = true) (hs : is.Pairwise (· < ·)) (hb : ∀ i ∈ is, bgn ≤ i)
    (cfg : Config R) (happ : cfg.approx = true → conf.sequence = true ∧ ∀ i ∈ is, bgn < i) :
    solveLoop cyclic fileSize sc conf bgn is cfg = is.map fun i =>
      { cfg := { cfg with approx := conf.sequence && i != bgn }, source := source cyclic conf i,
        zeroed := i == bgn || !conf.sequence } := by
  induction is generalizing cfg with
  | nil => rfl
  | cons i is ih =>
    have hlt := List.pairwise_cons.mp hs
    have e : (if (i == bgn || !conf.sequence) = true then cfg else cfg.setApprox true) =
        { cfg with approx := conf.sequence && i != bgn } := by
      split_ifs with h
      · have : cfg.approx = (conf.sequence && i != bgn) := ?_
        · rw [← this]
        cases hc : cfg.approx with
        | true =>
          obtain ⟨h1, h2⟩ := happ hc
          have := h2 i List.mem_cons_self
          simp [h1] at h ⊢
          omega
        | false => simp at h ⊢; intro h1; rcases h with h | h <;> simp_all
      · simp at h
        simp [Config.setApprox, h]
    show (if fits fileSize sc conf i = true then _ else _) = _
    rw [if_pos (hfit i List.mem_cons_self)]
    simp only [e, List.map_cons]
    rw [ih (fun j hj => hfit j (List.mem_cons_of_mem _ hj)) hlt.2 (fun j hj => hb j (List.mem_cons_of_mem _ hj)) _
      (fun h => ?_)]
    simp at h
    refine ⟨h.1, fun j hj => ?_⟩
    have := hlt.1 j hj
    have := hb i List.mem_cons_self
    omega

theorem doChase_ok (cyclic : Bool) (fileSize : String → ℕ) (dimsCreate : ℤ × ℤ) (sc : Scalar) (conf : Conf R)
    (hf : ∀ i ∈ (if conf.sequence then List.range' conf.bgn (conf.last + 1 - conf.bgn) else [1]),
      fits fileSize sc conf i = true) :
    (doChase cyclic fileSize dimsCreate sc conf).solves =
      (if conf.sequence then List.range' conf.bgn (conf.last + 1 - conf.bgn) else [1]).map fun i =>
        { cfg := { configure sc conf with approx := conf.sequence && i != conf.bgn }, source := source cyclic conf i,
          zeroed := !(conf.sequence && i != conf.bgn) } := by
  unfold doChase
  dsimp only
  cases hs : conf.sequence with
  | true =>
    simp only [hs, if_true] at hf ⊢
    rw [solveLoop_map _ _ _ _ _ _ hf (List.pairwise_lt_range' (s := conf.bgn) (n := conf.last + 1 - conf.bgn) (step := 1))
      (fun i hi => (List.mem_range'_1.mp hi).1) _ (fun h => absurd h (by simp [configure, Config.mk', Config.setMaxIter, Config.setMaxDeg, Config.setNumLanczos, Config.setLanczosIter, Config.setOpt, Config.setDeg, Config.setTol]))]
    refine List.map_congr_left fun i _ => ?_
    simp [hs, bne, Bool.not_not]
  | false =>
    simp only [hs, if_false, Bool.false_eq_true] at hf ⊢
    rw [solveLoop_map _ _ _ _ _ (List.range' 1 (1 + 1 - 1)) (fun i hi => hf i hi) (List.pairwise_lt_range' (s := 1) (n := 1 + 1 - 1) (step := 1))
      (fun i hi => (List.mem_range'_1.mp hi).1) _ (fun h => absurd h (by simp [configure, Config.mk', Config.setMaxIter, Config.setMaxDeg, Config.setNumLanczos, Config.setLanczosIter, Config.setOpt, Config.setDeg, Config.setTol]))]
    simp [hs]

theorem main_ok (cyclic : Bool) (fileSize : String → ℕ) (dimsCreate : ℤ × ℤ) (args : List (Arg R)) (hreq : Complete args)
    (hd : asked isDouble true args = true) (hbe : asked isBgn 2 args ≤ asked isEnd 2 args)
    (hm : letter (askedConf cyclic args).mode 'R' ∨
      letter (askedConf cyclic args).mode 'A' ∧ asked isPathEigp "" args ≠ "") {opt : Bool}
    (ho : letter (asked isOpt "S" args) (if opt then 'S' else 'N'))
    (hf : asked isGen false args = false → ∀ i ∈ askedProblems args, fileSize (askedFile args i) =
      asked isN 0 args * asked isN 0 args * (if asked isComplex true args then 16 else 8)) :
    main cyclic fileSize dimsCreate args = .exits 0 (some
      { scalar := if asked isComplex true args && !asked isGen false args then .z else .d
        N := asked isN 0 args, nev := asked isNev 0 args, nex := asked isNex 25 args
        cyclic := distribution cyclic dimsCreate (askedConf cyclic args)
        solves := (askedProblems args).map fun i =>
          { cfg := askedConfig args opt i
            source := if asked isGen false args then if cyclic then .nothing else .generated (asked isDmax ((100 : ℕ) : R) args)
              else .file (askedFile args i)
            zeroed := !(asked isSequence false args && i != asked isBgn 2 args) } }) := by
  unfold main
  rw [not_missing hreq, if_neg (by decide), parsed]
  unfold checked
  obtain ⟨mc, hmc, hm'⟩ : ∃ mc, letter (askedConf cyclic args).mode mc ∧
      (mc = 'R' ∨ mc = 'A' ∧ asked isPathEigp "" args ≠ "") := by
    rcases hm with h | ⟨h, h'⟩
    · exact ⟨_, h, Or.inl rfl⟩
    · exact ⟨_, h, Or.inr ⟨rfl, h'⟩⟩
  rw [firstUpper_letter hmc, firstUpper_letter (s := (askedConf cyclic args).opt) ho]
  dsimp only
  rw [if_neg (show ¬ (askedConf cyclic args).last < (askedConf cyclic args).bgn from Nat.not_lt.mpr hbe),
    if_neg (by rcases hm' with rfl | ⟨rfl, _⟩ <;> decide), if_neg (by cases opt <;> decide), if_neg (by
      rintro ⟨h1, h2⟩
      rcases hm' with rfl | ⟨rfl, h⟩
      · exact absurd h2 (by decide)
      · exact h h1)]
  have hopt : (String.ofList [if opt then 'S' else 'N'] == "S") = opt := by cases opt <;> decide
  cases hg : asked isGen false args with
  | true =>
    rw [if_pos (show (askedConf cyclic args).isMatGen = true from hg)]
    dsimp only
    rw [if_pos (show (askedConf cyclic args).isdouble = true from hd), if_neg (by decide)]
    congr 2
    rw [show ∀ c : Conf R, doChase cyclic fileSize dimsCreate .d c = { doChase cyclic fileSize dimsCreate .d c with
      solves := (doChase cyclic fileSize dimsCreate .d c).solves } from fun _ => rfl, doChase_ok _ _ _ _ _ fun i _ => by
        unfold fits
        rw [Bool.or_eq_true]
        exact Or.inl hg]
    unfold doChase
    rw [Run.mk.injEq]
    refine ⟨by simp, rfl, rfl, rfl, rfl, List.map_congr_left fun i _ => ?_⟩
    rw [Solve.mk.injEq]
    refine ⟨?_, ?_, rfl⟩
    · unfold configure askedConfig
      dsimp only
      rw [hopt]
      rfl
    · unfold source
      dsimp only
      rw [if_pos (show (askedConf cyclic args).isMatGen = true from hg)]
      rfl
  | false =>
    rw [if_neg (show ¬ (askedConf cyclic args).isMatGen = true from fun h => absurd (hg.symm.trans h) (by decide))]
    dsimp only
    rw [if_pos (show (askedConf cyclic args).isdouble = true from hd)]
    congr 2
    generalize hsc : (if (askedConf cyclic args).iscomplex = true then Scalar.z else Scalar.d) = sc
    have hby : bytes sc = if asked isComplex true args then 16 else 8 := by
      rw [← hsc]
      show bytes (if asked isComplex true args = true then Scalar.z else Scalar.d) = _
      split_ifs <;> rfl
    rw [show ∀ c : Conf R, doChase cyclic fileSize dimsCreate sc c = { doChase cyclic fileSize dimsCreate sc c with
      solves := (doChase cyclic fileSize dimsCreate sc c).solves } from fun _ => rfl, doChase_ok _ _ _ _ _ fun i hi => by
        unfold fits
        rw [Bool.or_eq_true]
        refine Or.inr (beq_iff_eq.mpr ?_)
        rw [hby]
        exact (hf hg i hi).symm]
    unfold doChase
    rw [Run.mk.injEq]
    refine ⟨by
      rw [← hsc]
      show (if asked isComplex true args = true then Scalar.z else Scalar.d) = _
      cases asked isComplex true args <;> rfl, rfl, rfl, rfl, rfl, List.map_congr_left fun i _ => ?_⟩
    rw [Solve.mk.injEq]
    refine ⟨?_, ?_, rfl⟩
    · unfold configure askedConfig
      dsimp only
      rw [hopt]
      rfl
    · unfold source
      dsimp only
      rw [if_neg (show ¬ (askedConf cyclic args).isMatGen = true from fun h => absurd (hg.symm.trans h) (by decide))]
      rfl

omit [Div R] [One R] [NatCast R] in
theorem solveLoop_mode (cyclic : Bool) (fileSize : String → ℕ) (sc : Scalar) (conf : Conf R) (m : String) (bgn : ℕ)
    (is : List ℕ) (cfg : Config R) : solveLoop cyclic fileSize sc { conf with mode := m } bgn is cfg =
      solveLoop cyclic fileSize sc conf bgn is cfg := by
  induction is generalizing cfg with
  | nil => rfl
  | cons i is ih =>
    unfold solveLoop
    simp only [ih]
    rfl

theorem doChase_mode (cyclic : Bool) (fileSize : String → ℕ) (dimsCreate : ℤ × ℤ) (sc : Scalar) (conf : Conf R)
    (m : String) : doChase cyclic fileSize dimsCreate sc { conf with mode := m } =
      doChase cyclic fileSize dimsCreate sc conf := by
  unfold doChase
  rw [Run.mk.injEq]
  exact ⟨rfl, rfl, rfl, rfl, rfl, solveLoop_mode ..⟩

theorem up_A : firstUpper "A" = some "A" := by decide
theorem up_C : firstUpper "C" = some "C" := by decide
theorem up_R : firstUpper "R" = some "R" := by decide
theorem up_S : firstUpper "S" = some "S" := by decide

theorem checked_reject (cyclic : Bool) (fileSize : String → ℕ) (dimsCreate : ℤ × ℤ) (conf : Conf R) {m o : String}
    (hm : firstUpper conf.mode = some m) (ho : firstUpper conf.opt = some o)
    (h : m ≠ "R" ∧ m ≠ "A" ∨ conf.pathEigp = "" ∧ m = "A") :
    checked cyclic fileSize dimsCreate conf = .exits (-1) none := by
  unfold checked
  rw [hm, ho]
  dsimp only
  split_ifs <;> first | rfl | (exfalso; tauto)

theorem checked_accept (cyclic : Bool) (fileSize : String → ℕ) (dimsCreate : ℤ × ℤ) (conf : Conf R)
    (hm : firstUpper conf.mode = some "R") (ho : firstUpper conf.opt = some "S") (hb : conf.bgn ≤ conf.last) :
    checked cyclic fileSize dimsCreate conf = if conf.isdouble then
      .exits 0 (some (doChase cyclic fileSize dimsCreate (if conf.iscomplex && !conf.isMatGen then .z else .d)
        { conf with mode := "R", opt := "S", iscomplex := conf.iscomplex && !conf.isMatGen }))
      else .exits 0 none := by
  unfold checked
  rw [hm, ho]
  dsimp only
  rw [if_neg (Nat.not_lt.mpr hb), if_neg (by decide), if_neg (by decide), if_neg (by simp)]
  cases hg : conf.isMatGen <;> simp

/-! ### The theorems -/

/-- **C95** (partial), builds without block-cyclic distribution: if the required options are given, the values are legal,
and the files have the sizes of the matrices, then the driver solves the problems asked for, in order, with the
configuration asked for; the first starts from random vectors, the others of a sequence from the solution of the one
before.  Missing: approximate vectors from `--path_eigp` (`C95_mode_refuted`). -/
theorem C95_block_partial (fileSize : String → ℕ) (dimsCreate : ℤ × ℤ) (args : List (Arg R)) (hreq : Complete args)
    (hd : asked isDouble true args = true) (hbe : asked isBgn 2 args ≤ asked isEnd 2 args)
    (hm : letter (asked isMode "A" args) 'R' ∨ letter (asked isMode "A" args) 'A' ∧ asked isPathEigp "" args ≠ "")
    {opt : Bool} (ho : letter (asked isOpt "S" args) (if opt then 'S' else 'N'))
    (hf : asked isGen false args = false → ∀ i ∈ askedProblems args, fileSize (askedFile args i) =
      asked isN 0 args * asked isN 0 args * (if asked isComplex true args then 16 else 8)) :
    main false fileSize dimsCreate args = .exits 0 (some
      { scalar := if asked isComplex true args && !asked isGen false args then .z else .d
        N := asked isN 0 args, nev := asked isNev 0 args, nex := asked isNex 25 args
        cyclic := none
        solves := (askedProblems args).map fun i =>
          { cfg := askedConfig args opt i
            source := if asked isGen false args then .generated (asked isDmax ((100 : ℕ) : R) args)
              else .file (askedFile args i)
            zeroed := !(asked isSequence false args && i != asked isBgn 2 args) } }) :=
  main_ok false fileSize dimsCreate args hreq hd hbe hm ho hf

/-- **C95** (partial), builds with block-cyclic distribution: the same with the distribution asked for, but only if
`--mode`, given after any `--major`, is legal, the matrix is read from a file, `--icsrc` is `--irsrc`, and the processes
are to be numbered by rows (`--major` is not `C`: `C95_major_refuted`). -/
theorem C95_cyclic_partial (fileSize : String → ℕ) (dimsCreate : ℤ × ℤ) (args : List (Arg R)) (hreq : Complete args)
    (hd : asked isDouble true args = true) (hbe : asked isBgn 2 args ≤ asked isEnd 2 args)
    (hm : letter (asked (fun a => (isMode a).or (isMajor a)) "C" args) 'R' ∨
      letter (asked (fun a => (isMode a).or (isMajor a)) "C" args) 'A' ∧ asked isPathEigp "" args ≠ "")
    {opt : Bool} (ho : letter (asked isOpt "S" args) (if opt then 'S' else 'N')) (hg : asked isGen false args = false)
    (hf : ∀ i ∈ askedProblems args, fileSize (askedFile args i) =
      asked isN 0 args * asked isN 0 args * (if asked isComplex true args then 16 else 8))
    (hsrc : asked isIcsrc 0 args = asked isIrsrc 0 args) (hmaj : asked isMajor "C" args ≠ "C") :
    ∃ c : Cyclic, main true fileSize dimsCreate args = .exits 0 (some
      { scalar := if asked isComplex true args then .z else .d
        N := asked isN 0 args, nev := asked isNev 0 args, nex := asked isNex 25 args
        cyclic := some c
        solves := (askedProblems args).map fun i =>
          { cfg := askedConfig args opt i, source := .file (askedFile args i)
            zeroed := !(asked isSequence false args && i != asked isBgn 2 args) } }) ∧
      c.mbsize = asked isMbsize 400 args ∧ c.nbsize = asked isNbsize 400 args ∧
      (asked isDim0 0 args ≠ 0 → asked isDim1 0 args ≠ 0 → c.dims = (asked isDim0 0 args, asked isDim1 0 args)) ∧
      c.irsrc = asked isIrsrc 0 args ∧ c.icsrc = asked isIcsrc 0 args ∧
      (c.major = "C" ↔ asked isMajor "C" args = "C") := by
  refine ⟨⟨asked isMbsize 400 args, asked isNbsize 400 args, if asked isDim0 0 args = 0 ∨ asked isDim1 0 args = 0 then
      dimsCreate else (asked isDim0 0 args, asked isDim1 0 args), "", asked isIrsrc 0 args, asked isIrsrc 0 args⟩,
    ?_, rfl, rfl, fun h0 h1 => ?_, rfl, hsrc.symm, ?_⟩
  · rw [main_ok true fileSize dimsCreate args hreq hd hbe hm ho (fun _ => hf)]
    simp only [hg, Bool.not_false, Bool.and_true, Bool.false_eq_true, if_false]
    rfl
  · exact if_neg (by tauto)
  · exact ⟨fun h => absurd h (by decide : ("" : String) ≠ "C"), fun h => absurd h hmaj⟩

/-- **C95 is refuted**: whether random or approximate start vectors are asked for makes no difference. -/
theorem C95_mode_refuted (cyclic : Bool) (fileSize : String → ℕ) (dimsCreate : ℤ × ℤ) (args : List (Arg R)) (p : String)
    (hp : p ≠ "") :
    main cyclic fileSize dimsCreate (args ++ [.pathEigp p, .mode "A"]) =
      main cyclic fileSize dimsCreate (args ++ [.pathEigp p, .mode "R"]) := by
  have hmis : missing (args ++ [.pathEigp p, .mode "A"]) = missing (args ++ [.pathEigp p, .mode "R"]) := by
    unfold missing
    simp only [List.any_append, List.any_cons, List.any_nil]
  unfold main
  rw [hmis, List.foldl_append, List.foldl_append]
  simp only [List.foldl_cons, List.foldl_nil, assign]
  congr 1
  generalize args.foldl (assign cyclic) (declare cyclic) = conf
  unfold checked
  rw [show firstUpper "A" = some "A" by decide, show firstUpper "R" = some "R" by decide]
  dsimp only
  cases firstUpper conf.opt with
  | none => rfl
  | some opt =>
    dsimp only
    rw [if_neg (show ¬ (("A" : String) ≠ "R" ∧ ("A" : String) ≠ "A") by decide),
      if_neg (show ¬ (("R" : String) ≠ "R" ∧ ("R" : String) ≠ "A") by decide), if_neg (show ¬ (p = "" ∧ _) from fun h => hp h.1),
      if_neg (show ¬ (p = "" ∧ ("R" : String) = "A") from fun h => hp h.1)]
    split_ifs <;> first
      | rfl
      | exact congrArg (fun r => Outcome.exits 0 (some r)) (doChase_mode _ _ _ _ _ "R").symm

/-- **C95 is refuted** for the defaults: with the required options only, nothing is solved, in both builds. -/
theorem C95_defaults_refuted (cyclic : Bool) (fileSize : String → ℕ) (dimsCreate : ℤ × ℤ) (N nev : ℕ) (p : String) :
    main cyclic fileSize dimsCreate ([.n N, .nev nev, .pathIn p] : List (Arg R)) = .exits (-1) none := by
  show checked _ _ _ _ = _
  cases cyclic with
  | true => exact checked_reject _ _ _ _ (m := "C") (o := "S") up_C up_S (Or.inl (by decide))
  | false => exact checked_reject _ _ _ _ (m := "A") (o := "S") up_A up_S (Or.inr ⟨rfl, rfl⟩)

/-- **C95 is refuted** for the block-cyclic builds: whatever is asked for, the numbering of the processes is the empty text
(which the library takes for numbering by rows), and the first process column is the first process row.  The option
`--major=C` ends the program. -/
theorem C95_major_refuted (fileSize : String → ℕ) (dimsCreate : ℤ × ℤ) (args : List (Arg R)) :
    (∀ s run, main true fileSize dimsCreate args = .exits s (some run) →
      ∃ c, run.cyclic = some c ∧ c.major = "" ∧ c.icsrc = asked isIrsrc 0 args) ∧
    ∀ s run, main true fileSize dimsCreate (args ++ [.major "C"]) ≠ .exits s (some run) := by
  constructor
  · intro s run h
    unfold main at h
    rw [parsed] at h
    split_ifs at h
    · cases h
    · unfold checked at h
      split at h
      · dsimp only at h
        split_ifs at h <;> cases h <;> exact ⟨_, rfl, rfl, rfl⟩
      · cases h
  · intro s run h
    unfold main at h
    rw [List.foldl_append] at h
    simp only [List.foldl_cons, List.foldl_nil, assign] at h
    split_ifs at h
    · cases h
    · cases ho : firstUpper (args.foldl (assign true) (declare true)).opt with
      | some o =>
        have := (checked_reject true fileSize dimsCreate { args.foldl (assign true) (declare true) with mode := "C" }
          (m := "C") (o := o) up_C ho (Or.inl (by decide))).symm.trans h
        cases this
      | none =>
        unfold checked at h
        rw [show firstUpper _ = none from ho] at h
        split at h
        · rename_i h'; cases h'
        · cases h

/-- **C95 is refuted** for the status of the program: a file of a wrong size, and single precision, end with status 0
although nothing was solved. -/
theorem C95_status_refuted (cyclic : Bool) (fileSize : String → ℕ) (dimsCreate : ℤ × ℤ) (N nev : ℕ) (p : String) :
    (fileSize p ≠ N * N * 16 → ∃ run, main cyclic fileSize dimsCreate
        ([.n N, .nev nev, .pathIn p, .mode "R"] : List (Arg R)) = .exits 0 (some run) ∧ run.solves = []) ∧
      main cyclic fileSize dimsCreate ([.n N, .nev nev, .pathIn p, .mode "R", .double false] : List (Arg R)) =
        .exits 0 none := by
  constructor
  · intro h
    refine ⟨_, (checked_accept cyclic fileSize dimsCreate
      { (declare cyclic : Conf R) with N := N, nev := nev, pathIn := p, mode := "R" } up_R up_S
      (Nat.le_refl 2)).trans (if_pos rfl), ?_⟩
    show (if fits fileSize .z _ 1 = true then _ else _) = _
    rw [if_neg]
    intro hf
    exact h (beq_iff_eq.mp (show (N * N * 16 == fileSize p) = true from hf)).symm
  · exact (checked_accept cyclic fileSize dimsCreate
      { (declare cyclic : Conf R) with N := N, nev := nev, pathIn := p, mode := "R", isdouble := false } up_R
      up_S (Nat.le_refl 2)).trans (if_neg Bool.false_ne_true)

/-- **C95** for the status of the program (partial): it ends with status 0 without having run the solver only if single
precision is asked for, and with status 1 if a required option is missing. -/
theorem C95_status_partial (cyclic : Bool) (fileSize : String → ℕ) (dimsCreate : ℤ × ℤ) (args : List (Arg R)) :
    (main cyclic fileSize dimsCreate args = .exits 0 none → asked isDouble true args = false) ∧
      ((args.filterMap isN = [] ∨ args.filterMap isNev = [] ∨ args.filterMap isPathIn = []) →
        main cyclic fileSize dimsCreate args = .exits 1 none) := by
  constructor
  · intro h
    unfold main at h
    rw [parsed] at h
    split_ifs at h
    · cases h
    · unfold checked at h
      split at h
      · dsimp only at h
        split_ifs at h
        all_goals first
          | cases h; done
          | rename_i h6; exact Bool.eq_false_iff.mpr h6
      · cases h
  · intro h
    have hm : missing args = true := by
      unfold missing
      simp only [List.filterMap_eq_nil_iff] at h
      rcases h with h | h | h
      all_goals
        simp only [Bool.or_eq_true, Bool.not_eq_true', List.any_eq_false]
      · refine Or.inl (Or.inl fun a ha => ?_)
        have := h a ha
        cases a <;> simp_all [isN]
      · refine Or.inl (Or.inr fun a ha => ?_)
        have := h a ha
        cases a <;> simp_all [isNev]
      · refine Or.inr fun a ha => ?_
        have := h a ha
        cases a <;> simp_all [isPathIn]
    unfold main
    rw [if_pos hm]

/-- Non-vacuity: both happen, with status 0 and with a missing option. -/
example : main (R := ℚ) false (fun _ => 0) (1, 1) [.n 4, .nev 1, .pathIn "a", .mode "R", .double false] = .exits 0 none ∧
    ([.n 4, .nev 1] : List (Arg ℚ)).filterMap isPathIn = [] :=
  ⟨(C95_status_refuted false (fun _ => 0) (1, 1) 4 1 "a").2, rfl⟩

/-- **C95 is refuted** for generated matrices in the block-cyclic builds: the solver is run on an array that nobody has
assigned. -/
theorem C95_generated_refuted (fileSize : String → ℕ) (dimsCreate : ℤ × ℤ) (N nev : ℕ) (p : String) :
    ∃ run, main true fileSize dimsCreate ([.n N, .nev nev, .pathIn p, .isMatGen true, .mode "R"] : List (Arg R)) =
      .exits 0 (some run) ∧ run.solves.map Solve.source = [.nothing] :=
  ⟨_, (checked_accept true fileSize dimsCreate
    { (declare true : Conf R) with N := N, nev := nev, pathIn := p, mode := "R", isMatGen := true } up_R up_S
    (Nat.le_refl 2)).trans (if_pos rfl), rfl⟩

/-! ### Cases that meet the hypotheses -/

/-- The command line for a sequence in the documentation (docs/example/io.rst 50). -/
def docs : List (Arg ℚ) :=
  [.pathIn "dir/", .n 1000, .nev 100, .nex 40, .legacy true, .mode "R", .bgn 2, .last 10, .sequence true]

example : ∃ run, main false (fun _ => 16000000) (1, 1) docs = .exits 0 (some run) ∧ run.solves.length = 9 :=
  ⟨_, C95_block_partial (fun _ => 16000000) (1, 1) docs ⟨⟨1000, by simp [docs]⟩, ⟨100, by simp [docs]⟩, ⟨"dir/", by simp [docs]⟩⟩
    rfl (by decide) (Or.inl ⟨'R', [], rfl, rfl⟩) (opt := true) ⟨'S', [], rfl, rfl⟩ (fun _ i _ => rfl), by decide⟩

example : askedFile docs 3 = "dir/gmat  1  3.bin" := by decide
example : askedFile docs 10 = "dir/gmat  1 10.bin" := by decide

/-- A block-cyclic run as asked for. -/
def docsCyclic : List (Arg ℚ) :=
  [.pathIn "m.bin", .n 1000, .nev 100, .major "R", .irsrc 1, .icsrc 1, .dim0 2, .dim1 3, .mode "R"]

example : ∃ c run, main true (fun _ => 16000000) (3, 2) docsCyclic = .exits 0 (some run) ∧ run.cyclic = some c ∧
    c.dims = (2, 3) := by
  obtain ⟨c, h, _, _, hd, _⟩ := C95_cyclic_partial (fun _ => 16000000) (3, 2) docsCyclic
    ⟨⟨1000, by simp [docsCyclic]⟩, ⟨100, by simp [docsCyclic]⟩, ⟨"m.bin", by simp [docsCyclic]⟩⟩
    rfl (by decide) (Or.inl ⟨'R', [], rfl, rfl⟩) (opt := true) ⟨'S', [], rfl, rfl⟩ rfl (fun i _ => rfl) rfl (by decide)
  exact ⟨c, _, h, rfl, hd (by decide) (by decide)⟩

/-- `C95_major_refuted`: the first process column asked for is 1, the one used is 0. -/
example : asked isIrsrc 0 ([.n 10, .nev 1, .pathIn "m.bin", .mode "R", .icsrc 1] : List (Arg ℚ)) = 0 ∧
    ∃ run, main true (fun _ => 1600) (2, 2) ([.n 10, .nev 1, .pathIn "m.bin", .mode "R", .icsrc 1] : List (Arg ℚ)) =
      .exits 0 (some run) :=
  ⟨rfl, _, (checked_accept true (fun _ => 1600) (2, 2)
    { (declare true : Conf ℚ) with N := 10, nev := 1, pathIn := "m.bin", mode := "R", icsrc := 1 } up_R up_S
    (Nat.le_refl 2)).trans (if_pos rfl)⟩

end Driver
end Examples
end Verif
