import Verif.Nameres.ResolvePaths
import Verif.Ide.ImportsExamples

/-! C67: examples, and where a name in scope or a fallback changes what a fully qualified path means. -/

namespace Verif.Ide
open Verif.Parser (Green)
open Verif.Syntax Verif.Nameres Verif.Nameres.Full
open Verif.Ide.Usages (parseOf)

abbrev Walk := Nat → List Ns → List Char → List Elem → List (Entry × Option ItemScope)

/-- Two files of one package that knows the address `token`. -/
def twoFiles (a b : List Char) (walk : Walk) : Names where
  tree := fun f => (parseOf (if f = 0 then a else b)).1
  package := fun _ => 0
  friend := fun _ _ => none
  builtins := fun _ _ => false
  framework := ["std".toList]
  addresses := fun n => if n = "token".toList then some "0x5".toList else none
  files := fun _ => [0, 1]
  specs := fun _ _ => []
  walk := walk
  fields := fun _ _ => []

/-- Nothing is in scope. -/
def noWalk : Walk := fun _ _ _ _ => []

/-- Everything is in scope. -/
def everyWalk : Walk := fun _ ns n _ => ns.map fun x => (⟨n, x, 0, []⟩, none)

/-- What the path of a use speck of the first file resolves to (use_speck_entries.rs:31–46). -/
def importTarget (w : Names) : Target := fun u =>
  match down [Elem.root (w.tree 0)] u.path.reverse with
  | some (s :: anc) => ((nodeChild s .PATH).bind fun p => single (resolvePath w 3 0 none (p :: s :: anc))).map fun e => (e.ns, e.file, e.path)
  | _ => none

/-- The imports of the first file are in scope. -/
def importWalk (a b : List Char) : Walk := fun file ns n site =>
  (baseWalk (oneFile a) onlyImports (importTarget (twoFiles a b noWalk)) file ns n site).map (·, none)

theorem sane_two {a b : List Char} (ha : (parseOf a).1.kind = .SOURCE_FILE) (hb : (parseOf b).1.kind = .SOURCE_FILE) (walk : Walk) :
    Sane (twoFiles a b walk) where
  source := by
    intro f
    show (parseOf (if f = 0 then a else b)).1.kind = _
    split <;> assumption
  once := by intro f; show [0, 1].Nodup; decide
  specs := by intro f m g s h; cases h
  specsOnce := by intro f m; exact List.nodup_nil

def tokenUse : List Char := "module 0x9::k{use token::token;fun t(){token::token::f()}}".toList
def tokenDef : List Char := "module token::token{public fun f(){}}".toList
def stdUse : List Char := "module 0x9::k{use 0x42::std::vector;}".toList
def stdDef : List Char := "module std::vector{}".toList

/-- A path through a named address means nothing when a module with the name of the address is imported. -/
theorem C67_named_fails : (parseOf tokenUse).2 = true ∧ (parseOf tokenDef).2 = true ∧
    resolvePath (twoFiles tokenUse tokenDef noWalk) 5 0 none (nodeIn tokenUse .PATH 2) = [(⟨['f'], .FUNCTION, 1, [6, 0]⟩, none)] ∧
    resolvePath (twoFiles tokenUse tokenDef (importWalk tokenUse tokenDef)) 5 0 none (nodeIn tokenUse .PATH 2) = [] := by
  decide +kernel

/-- A `use` of an item of a module that does not exist means a module of another address, if an address has the name of the missing
module. -/
theorem C67_use_fails : (parseOf stdUse).2 = true ∧ (parseOf stdDef).2 = true ∧ ∀ walk,
    (∀ n f m c, ¬ ModuleAt (twoFiles stdUse stdDef walk) 0 (.value "0x42".toList) n f m c) ∧
    resolvePath (twoFiles stdUse stdDef noWalk) 5 0 none (nodeIn stdUse .PATH 0) = [(⟨"vector".toList, .MODULE, 1, [0]⟩, none)] := by
  refine ⟨by decide +kernel, by decide +kernel, fun walk => ⟨?_, by decide +kernel⟩⟩
  intro n f m c h
  have hw := sane_two (a := stdUse) (b := stdDef) (by decide +kernel) (by decide +kernel) walk
  have h0 : modulesAsEntries (twoFiles stdUse stdDef walk) 0 (.value "0x42".toList) = [] := by
    show modulesAsEntries (twoFiles stdUse stdDef noWalk) 0 (.value "0x42".toList) = []
    decide +kernel
  have h1 := (mem_modulesAsEntries hw 0 (.value "0x42".toList) ⟨n, .MODULE, f, m.path⟩).2 ⟨f, m, c, h, rfl, rfl, rfl⟩
  rw [h0] at h1
  cases h1

/-! ### Cases of the theorems -/

/-- The path is `address::module::name`, with a number or a name for the address. -/
def isThree (number : Bool) : List Elem → Bool
  | [] => false
  | p :: anc => match nodeChild p .PATH with
    | none => false
    | some q => match nodeChild q .PATH with
      | none => false
      | some a => isNode .PATH p && !anc.any (isNode .USE_GROUP) && !anc.isEmpty && (nodeChild a .PATH).isNone &&
        decide ((pathAddress a).isSome = number) && (refName p).isSome && (refName q).isSome && (number || (refName a).isSome)

theorem isThree_shape {number : Bool} {site : List Elem} (h : isThree number site = true) :
    ∃ p q a anc n mn, site = p :: anc ∧ Is .PATH p ∧ (∀ e ∈ anc, ¬ Is .USE_GROUP e) ∧ anc ≠ [] ∧ nodeChild p .PATH = some q ∧
      nodeChild q .PATH = some a ∧ nodeChild a .PATH = none ∧ refName p = some n ∧ refName q = some mn ∧
      (number = true → ∃ x, pathAddress a = some x) ∧ (number = false → pathAddress a = none ∧ ∃ an, refName a = some an) := by
  cases site with
  | nil => cases h
  | cons p anc =>
    unfold isThree at h
    dsimp only at h
    cases hp : nodeChild p .PATH with
    | none => rw [hp] at h; cases h
    | some q =>
      cases hq : nodeChild q .PATH with
      | none => rw [hp] at h; dsimp only at h; rw [hq] at h; cases h
      | some a =>
        rw [hp] at h
        dsimp only at h
        rw [hq] at h
        simp only [Bool.and_eq_true, Bool.not_eq_true', decide_eq_true_eq, Bool.or_eq_true, List.any_eq_false, Option.isNone_iff_eq_none,
          Option.isSome_iff_exists, isNode_iff, List.isEmpty_eq_false_iff] at h
        obtain ⟨⟨⟨⟨⟨⟨⟨h1, h2⟩, h3⟩, h4⟩, h5⟩, ⟨n, h6⟩⟩, ⟨mn, h7⟩⟩, h8⟩ := h
        refine ⟨p, q, a, anc, n, mn, rfl, h1, h2, h3, hp, hq, h4, h6, h7, ?_, ?_⟩
        · rintro rfl; exact Option.isSome_iff_exists.1 h5
        · rintro rfl
          refine ⟨by simpa using h5, ?_⟩
          rcases h8 with h8 | h8
          · cases h8
          · exact h8

theorem no_speck {anc : List Elem} (h : anc.all (fun e => decide (e.kind ≠ .USE_SPECK)) = true) : ∀ e ∈ anc, e.kind ≠ .USE_SPECK := by
  intro e he
  simpa using List.all_eq_true.1 h e he

def valueUse : List Char := "module 0x9::k{fun t(){0x1::m::f();0x1::m::g();0x1::m::E::V;}}".toList
def valueDef : List Char := "module 0x01::m{public fun f(){}struct f{}fun g(){}public enum E{V,W}}".toList

def namedUse : List Char := "module 0x9::k{use token::coin::f;use token::coin::{f as g};fun t(){token::coin::f()}}".toList
def namedDef : List Char := "address token{module coin{public fun f(){}}}".toList

/-- Whatever is in scope, `0x1::m::f` in a call is the public function `f`, and `0x1::m::g` the private function `g`, which may not
be used there; `0x1::m::E::V` is the variant. -/
theorem value_case : resolvePath (twoFiles valueUse valueDef everyWalk) 2 0 none (nodeIn valueUse .PATH 0) =
      [(⟨['f'], .FUNCTION, 1, [6, 0]⟩, none)] ∧
    resolvePath (twoFiles valueUse valueDef everyWalk) 2 0 none (nodeIn valueUse .PATH 3) =
      [(⟨['g'], .FUNCTION, 1, [8, 0]⟩, some (.priv .Private))] ∧
    resolvePath (twoFiles valueUse valueDef everyWalk) 3 0 none (nodeIn valueUse .PATH 6) =
      [(⟨['V'], .ENUM_VARIANT, 1, [1, 5, 9, 0]⟩, none)] := by
  decide +kernel

theorem value_sane : Sane (twoFiles valueUse valueDef everyWalk) := sane_two (by decide +kernel) (by decide +kernel) _

theorem named_sane (walk : Walk) : Sane (twoFiles namedUse namedDef walk) := sane_two (by decide +kernel) (by decide +kernel) _

/-- The hypotheses of `C67_value` hold for `0x1::m::f` and `0x1::m::g`. -/
example : ∀ i ∈ [0, 3], ∃ p q a x anc n mn f m c, nodeIn valueUse .PATH i = p :: anc ∧ nodeChild p .PATH = some q ∧
    nodeChild q .PATH = some a ∧ pathAddress a = some x ∧
    OnlyModule (twoFiles valueUse valueDef everyWalk) ⟨0, q, p :: anc⟩ (.value (addressText x)) mn f m c ∧
    ∃ e, Chosen (isCallPath (p :: anc)) (Member (twoFiles valueUse valueDef everyWalk) f m n (pathNamespaces anc)) e := by
  intro i hi
  obtain ⟨p, q, a, anc, n, mn, h0, h1, h2, h3, h4, h5, h6, h7, h8, h9, -⟩ := isThree_shape (number := true)
    (show isThree true (nodeIn valueUse .PATH i) = true by revert i; decide +kernel)
  obtain ⟨x, hx⟩ := h9 rfl
  have hu : ∀ e ∈ anc, e.kind ≠ .USE_SPECK := no_speck (by
    have : (nodeIn valueUse .PATH i).tail.all (fun e => decide (e.kind ≠ .USE_SPECK)) = true := by clear h0; revert i; decide +kernel
    rw [h0] at this
    exact this)
  have hres : ∃ y ∈ resolvePath (twoFiles valueUse valueDef everyWalk) 2 0 none (nodeIn valueUse .PATH i), True := by
    rcases List.mem_cons.1 hi with rfl | hi
    · rw [value_case.1]; exact ⟨_, List.mem_singleton.2 rfl, trivial⟩
    · rw [List.mem_singleton.1 hi, value_case.2.1]; exact ⟨_, List.mem_singleton.2 rfl, trivial⟩
  obtain ⟨⟨e, r⟩, hy, -⟩ := hres
  rw [h0] at hy
  obtain ⟨f, m, c, hm, hc, -⟩ := (C67_value value_sane (fuel := 0) h1 h2 hu h3 h4 h5 h6 hx h7 h8 e r).1 hy
  exact ⟨p, q, a, x, anc, n, mn, f, m, c, h0, h4, h5, hx, hm, e, hc⟩

/-- The path is `address::module`. -/
def isTwo : List Elem → Bool
  | [] => false
  | q :: anc => match nodeChild q .PATH with
    | none => false
    | some a => !anc.any (isNode .USE_GROUP) && !anc.isEmpty && (nodeChild a .PATH).isNone && (refName q).isSome

theorem isTwo_shape {site : List Elem} (h : isTwo site = true) :
    ∃ q a anc mn, site = q :: anc ∧ (∀ e ∈ anc, ¬ Is .USE_GROUP e) ∧ anc ≠ [] ∧ nodeChild q .PATH = some a ∧ nodeChild a .PATH = none ∧
      refName q = some mn := by
  cases site with
  | nil => cases h
  | cons q anc =>
    unfold isTwo at h
    dsimp only at h
    cases hq : nodeChild q .PATH with
    | none => rw [hq] at h; cases h
    | some a =>
      rw [hq] at h
      simp only [Bool.and_eq_true, Bool.not_eq_true', List.any_eq_false, Option.isNone_iff_eq_none, Option.isSome_iff_exists, isNode_iff,
        List.isEmpty_eq_false_iff] at h
      obtain ⟨⟨⟨h1, h2⟩, h3⟩, ⟨mn, h4⟩⟩ := h
      exact ⟨q, a, anc, mn, rfl, h1, h2, hq, h3, h4⟩

/-- The hypotheses of `C67_module` hold for `0x1::m` in an expression, and there is such a module. -/
example : ∃ q a anc mn A, nodeIn valueUse .PATH 1 = q :: anc ∧ ModuleAddress q anc a A ∧
    ∃ f m c, ModuleAt (twoFiles valueUse valueDef everyWalk) 0 A mn f m c := by
  obtain ⟨q, a, anc, mn, h0, h1, h2, h3, h4, h5⟩ := isTwo_shape (show isTwo (nodeIn valueUse .PATH 1) = true by decide +kernel)
  have hx : ∃ x, pathAddress a = some x := by
    have h : ((nodeIn valueUse .PATH 1).head?.bind fun q => (nodeChild q .PATH).bind pathAddress).isSome = true := by decide +kernel
    rw [h0] at h
    simp only [List.head?_cons, Option.bind_some, h3] at h
    exact Option.isSome_iff_exists.1 h
  obtain ⟨x, hx⟩ := hx
  have hr : (⟨['m'], .MODULE, 1, [0]⟩, none) ∈ resolvePath (twoFiles valueUse valueDef everyWalk) 1 0 none (nodeIn valueUse .PATH 1) := by
    decide +kernel
  rw [h0] at hr
  obtain ⟨m, c, hm, -⟩ := (C67_module value_sane (fuel := 0) h1 h2 h3 h4 (.value hx) h5 _).1 ⟨_, hr⟩
  exact ⟨q, a, anc, mn, _, h0, .value hx, _, m, c, hm⟩

/-- And for `token::coin` in a `use`. -/
example : ∃ q a anc mn A, nodeIn namedUse .PATH 1 = q :: anc ∧ ModuleAddress q anc a A ∧
    ∃ f m c, ModuleAt (twoFiles namedUse namedDef everyWalk) 0 A mn f m c := by
  obtain ⟨q, a, anc, mn, h0, h1, h2, h3, h4, h5⟩ := isTwo_shape (show isTwo (nodeIn namedUse .PATH 1) = true by decide +kernel)
  have hx : pathAddress a = none ∧ ∃ an, refName a = some an := by
    have h : ((nodeIn namedUse .PATH 1).head?.bind fun q => (nodeChild q .PATH).map fun a => ((pathAddress a).isNone, (refName a).isSome)) =
      some (true, true) := by decide +kernel
    rw [h0] at h
    simp only [List.head?_cons, Option.bind_some, h3, Option.map_some, Option.some.injEq, Prod.mk.injEq] at h
    exact ⟨Option.isNone_iff_eq_none.1 h.1, Option.isSome_iff_exists.1 h.2⟩
  obtain ⟨hx, an, han⟩ := hx
  have hr : (⟨"coin".toList, .MODULE, 1, [4, 0]⟩, none) ∈ resolvePath (twoFiles namedUse namedDef everyWalk) 1 0 none (nodeIn namedUse .PATH 1) := by
    decide +kernel
  have hk : rootParentKind (nodeIn namedUse .PATH 1) = some .USE_SPECK := by decide +kernel
  rw [h0] at hr hk
  have hA : ModuleAddress q anc a (.named an) := .named hx han (.inl hk)
  obtain ⟨m, c, hm, -⟩ := (C67_module (named_sane _) (fuel := 0) h1 h2 h3 h4 hA h5 _).1 ⟨_, hr⟩
  exact ⟨q, a, anc, mn, _, h0, hA, _, m, c, hm⟩

/-- The hypotheses of `C67_named_partial` hold for `token::coin::f` in an expression. -/
example : ∃ p q a anc n mn an f m c, nodeIn namedUse .PATH 6 = p :: anc ∧ nodeChild p .PATH = some q ∧ nodeChild q .PATH = some a ∧
    refName a = some an ∧ single (resolvePath (twoFiles namedUse namedDef noWalk) 0 0 none (a :: q :: p :: anc)) = none ∧
    OnlyModule (twoFiles namedUse namedDef noWalk) ⟨0, q, p :: anc⟩ (.named an) mn f m c ∧
    ∃ e, Chosen (isCallPath (p :: anc)) (Member (twoFiles namedUse namedDef noWalk) f m n (pathNamespaces anc)) e := by
  obtain ⟨p, q, a, anc, n, mn, h0, h1, h2, h3, h4, h5, h6, h7, h8, -, h9⟩ := isThree_shape (number := false)
    (show isThree false (nodeIn namedUse .PATH 6) = true by decide +kernel)
  obtain ⟨hx, an, han⟩ := h9 rfl
  have hu : ∀ e ∈ anc, e.kind ≠ .USE_SPECK := no_speck (by
    have : (nodeIn namedUse .PATH 6).tail.all (fun e => decide (e.kind ≠ .USE_SPECK)) = true := by decide +kernel
    rw [h0] at this
    exact this)
  have hr : (⟨['f'], .FUNCTION, 1, [4, 4, 0]⟩, none) ∈ resolvePath (twoFiles namedUse namedDef noWalk) 2 0 none (nodeIn namedUse .PATH 6) := by
    decide +kernel
  have hnamed : (twoFiles namedUse namedDef noWalk).named an = true := by
    have h : ((nodeIn namedUse .PATH 6).head?.bind fun p => (nodeChild p .PATH).bind fun q => (nodeChild q .PATH).bind refName).map
      (twoFiles namedUse namedDef noWalk).named = some true := by decide +kernel
    rw [h0] at h
    simpa [h4, h5, han] using h
  rw [h0] at hr
  obtain ⟨f, m, c, hm, hc, -⟩ := (C67_named_partial (named_sane noWalk) (fuel := 0) h1 h2 hu h3 h4 h5 h6 hx han h7 h8 hnamed rfl _ _).1 hr
  exact ⟨p, q, a, anc, n, mn, an, f, m, c, h0, h4, h5, han, rfl, hm, _, hc⟩

/-- The only usable module of the name at the address, at the qualifier of the path. -/
def moduleBefore (w : Names) (A : Address) (mn : List Char) : List Elem → Option Entry
  | [] => none
  | p :: anc => (nodeChild p .PATH).bind fun q =>
    single (withVis w ⟨0, q, p :: anc⟩ ((modulesAsEntries w 0 A).filter fun e => decide (e.name = mn)))

theorem moduleBefore_only {w : Names} (hw : Sane w) {A : Address} {mn : List Char} {p q : Elem} {anc : List Elem} {e : Entry}
    (hq : nodeChild p .PATH = some q) (h : moduleBefore w A mn (p :: anc) = some e) :
    ∃ m c, OnlyModule w ⟨0, q, p :: anc⟩ A mn e.file m c := by
  unfold moduleBefore at h
  dsimp only at h
  rw [hq] at h
  obtain ⟨m, c, h1, -⟩ := (single_modules hw (ctx := ⟨0, q, p :: anc⟩) e).1 h
  exact ⟨m, c, h1⟩

/-- The hypotheses of `C67_use_partial` hold for `use token::coin::f`. -/
example : ∃ p q a s anc n mn A f m c, nodeIn namedUse .PATH 0 = p :: s :: anc ∧ nodeChild p .PATH = some q ∧ nodeChild q .PATH = some a ∧
    Is .USE_SPECK s ∧ Begins a A ∧ OnlyModule (twoFiles namedUse namedDef everyWalk) ⟨0, q, p :: s :: anc⟩ A mn f m c ∧
    ∃ e, Chosen false (ModuleCandidate (twoFiles namedUse namedDef everyWalk) true n (nsImportable ++ nsModules) f m) e := by
  obtain ⟨p, q, a, anc, n, mn, h0, h1, h2, h3, h4, h5, h6, h7, h8, -, h9⟩ := isThree_shape (number := false)
    (show isThree false (nodeIn namedUse .PATH 0) = true by decide +kernel)
  obtain ⟨hx, an, han⟩ := h9 rfl
  cases anc with
  | nil => exact absurd rfl h3
  | cons s anc =>
    have hs : Is .USE_SPECK s := by
      have h : ((nodeIn namedUse .PATH 0)[1]?.map (isNode .USE_SPECK)) = some true := by decide +kernel
      rw [h0] at h
      simpa [isNode_iff] using h
    have hr : (⟨['f'], .FUNCTION, 1, [4, 4, 0]⟩, none) ∈
        resolvePath (twoFiles namedUse namedDef everyWalk) 2 0 none (nodeIn namedUse .PATH 0) := by decide +kernel
    have hnames : ((nodeIn namedUse .PATH 0).head?.bind fun p => (nodeChild p .PATH).map fun q => (refName q, (nodeChild q .PATH).bind refName)) =
        some (some "coin".toList, some "token".toList) := by decide +kernel
    have hone : moduleBefore (twoFiles namedUse namedDef everyWalk) (.named "token".toList) "coin".toList (nodeIn namedUse .PATH 0) =
        some ⟨"coin".toList, .MODULE, 1, [4, 0]⟩ := by decide +kernel
    rw [h0] at hr hnames hone
    simp only [List.head?_cons, Option.bind_some, h4, Option.map_some, h8, h5, han, Option.some.injEq, Prod.mk.injEq] at hnames
    obtain ⟨rfl, rfl⟩ := hnames
    obtain ⟨m, c, hm⟩ := moduleBefore_only (named_sane _) h4 hone
    have hA : Begins a (.named "token".toList) := .named hx han
    have := (C67_use_partial (named_sane _) (fuel := 0) h1 hs (fun e he => h2 e (List.mem_cons_of_mem _ he)) h4 h5 h6 hA h7 h8 hm _ _).1 hr
    exact ⟨p, q, a, s, anc, n, _, _, _, m, c, h0, h4, h5, hs, hA, hm, _, this.1⟩

/-- The path is a part of a group after `address::module`. -/
def isGroup : List Elem → Bool
  | p :: t :: g :: s :: anc => match nodeChild s .PATH with
    | none => false
    | some q => match nodeChild q .PATH with
      | none => false
      | some a => isNode .USE_GROUP g && !isNode .USE_GROUP t && isNode .USE_SPECK s && !anc.any (isNode .USE_GROUP) &&
        (nodeChild a .PATH).isNone && (pathAddress a).isNone && decide (refName a = some "token".toList) && (refName p).isSome &&
        decide (refName q = some "coin".toList)
  | _ => false

theorem isGroup_shape {site : List Elem} (h : isGroup site = true) :
    ∃ p t g s anc q a n, site = p :: t :: g :: s :: anc ∧ nodeChild s .PATH = some q ∧ nodeChild q .PATH = some a ∧ Is .USE_GROUP g ∧
      ¬ Is .USE_GROUP t ∧ Is .USE_SPECK s ∧ (∀ e ∈ anc, ¬ Is .USE_GROUP e) ∧ nodeChild a .PATH = none ∧ pathAddress a = none ∧
      refName a = some "token".toList ∧ refName p = some n ∧ refName q = some "coin".toList := by
  unfold isGroup at h
  split at h
  · rename_i p t g s anc
    cases hq : nodeChild s .PATH with
    | none => rw [hq] at h; cases h
    | some q =>
      rw [hq] at h
      dsimp only at h
      cases ha : nodeChild q .PATH with
      | none => rw [ha] at h; cases h
      | some a =>
        rw [ha] at h
        simp only [Bool.and_eq_true, Bool.not_eq_true', List.any_eq_false, Option.isNone_iff_eq_none, Option.isSome_iff_exists, isNode_iff,
          decide_eq_true_eq] at h
        obtain ⟨⟨⟨⟨⟨⟨⟨⟨h1, h2⟩, h3⟩, h4⟩, h5⟩, h6⟩, h7⟩, ⟨n, h8⟩⟩, h9⟩ := h
        refine ⟨p, t, g, s, anc, q, a, n, rfl, hq, ha, h1, ?_, h3, h4, h5, h6, h7, h8, h9⟩
        intro h
        rw [(isNode_iff _ _).2 h] at h2
        cases h2
  · cases h

/-- The hypotheses of `C67_group_partial` hold for `f` in `use token::coin::{f as g}`. -/
example : ∃ p t g s anc q a n A f m c, nodeIn namedUse .PATH 5 = p :: ([t] ++ g :: s :: anc) ∧ nodeChild s .PATH = some q ∧
    nodeChild q .PATH = some a ∧ Begins a A ∧ OnlyModule (twoFiles namedUse namedDef everyWalk) ⟨0, q, s :: anc⟩ A "coin".toList f m c ∧
    ∃ e, Chosen false (ModuleCandidate (twoFiles namedUse namedDef everyWalk) true n (nsImportable ++ nsModules) f m) e := by
  obtain ⟨p, t, g, s, anc, q, a, n, h0, h1, h2, h3, h4, h5, h6, h7, h8, h9, h10, h11⟩ :=
    isGroup_shape (show isGroup (nodeIn namedUse .PATH 5) = true by decide +kernel)
  have hr : (⟨['f'], .FUNCTION, 1, [4, 4, 0]⟩, none) ∈
      resolvePath (twoFiles namedUse namedDef everyWalk) 2 0 none (nodeIn namedUse .PATH 5) := by decide +kernel
  have hc : isCallPath (nodeIn namedUse .PATH 5) = false := by decide +kernel
  have hone : moduleBefore (twoFiles namedUse namedDef everyWalk) (.named "token".toList) "coin".toList ((nodeIn namedUse .PATH 5).drop 3) =
      some ⟨"coin".toList, .MODULE, 1, [4, 0]⟩ := by decide +kernel
  rw [h0] at hr hc hone
  obtain ⟨m, c, hm⟩ := moduleBefore_only (named_sane _) h1 hone
  have hA : Begins a (.named "token".toList) := .named h8 h9
  have := (C67_group_partial (named_sane _) (fuel := 0) (inner := [t]) h3 (by simpa using h4) h5 h6 h1 h2 h7 hA h10 h11 hm _ _).1 hr
  have h12 := this.1
  rw [show p :: ([t] ++ g :: s :: anc) = p :: t :: g :: s :: anc from rfl, hc] at h12
  exact ⟨p, t, g, s, anc, q, a, n, _, _, m, c, h0, h1, h2, hA, hm, _, h12⟩

/-- The hypotheses of `C67_variant` hold for `0x1::m::E::V`. -/
example : ∃ p t q a x anc n tn mn f m c i, nodeIn valueUse .PATH 6 = p :: anc ∧ nodeChild p .PATH = some t ∧ nodeChild t .PATH = some q ∧
    nodeChild q .PATH = some a ∧ pathAddress a = some x ∧ refName p = some n ∧
    OnlyModule (twoFiles valueUse valueDef everyWalk) ⟨0, q, t :: p :: anc⟩ (.value (addressText x)) mn f m c ∧
    OnlyEnum (twoFiles valueUse valueDef everyWalk) ⟨0, t, p :: anc⟩ f m tn i := by
  cases hs : nodeIn valueUse .PATH 6 with
  | nil => exact absurd hs (by decide +kernel)
  | cons p anc =>
    have h : (match nodeIn valueUse .PATH 6 with
      | [] => false
      | p :: anc => isNode .PATH p && !anc.isEmpty && !anc.any (isNode .USE_GROUP) && anc.all (fun e => decide (e.kind ≠ .USE_SPECK)) &&
        (refName p).isSome && match nodeChild p .PATH with
        | none => false
        | some t => isThree true (t :: p :: anc)) = true := by decide +kernel
    rw [hs] at h
    dsimp only at h
    cases ht : nodeChild p .PATH with
    | none => rw [ht] at h; simp at h
    | some t =>
      rw [ht] at h
      simp only [Bool.and_eq_true, Bool.not_eq_true', List.any_eq_false, Option.isSome_iff_exists, isNode_iff,
        List.isEmpty_eq_false_iff] at h
      obtain ⟨⟨⟨⟨⟨h1, h2⟩, h3⟩, h4⟩, ⟨n, h5⟩⟩, h6⟩ := h
      obtain ⟨t', q, a, anc', tn, mn, g0, g1, g2, g3, g4, g5, g6, g7, g8, g9, -⟩ := isThree_shape h6
      cases g0
      obtain ⟨x, hx⟩ := g9 rfl
      have hr := value_case.2.2
      rw [hs] at hr
      obtain ⟨f, m, c, k1, i, k2, -⟩ := (C67_variant value_sane (fuel := 0) h1 g1 h3 (no_speck h4) h2 ht g4 g5 g6 hx h5 g7 g8 _ _).1
        (by rw [hr]; exact List.mem_singleton.2 rfl)
      exact ⟨p, t, q, a, x, anc, n, tn, mn, f, m, c, i, rfl, ht, g4, g5, hx, h5, k1, k2⟩

end Verif.Ide
