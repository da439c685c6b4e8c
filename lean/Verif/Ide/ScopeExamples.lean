import Verif.Nameres.ResolveScope
import Verif.Ide.ResolveExamples

/-! C67: examples for paths that begin with a name in scope. -/

namespace Verif.Ide
open Verif.Parser (Green)
open Verif.Syntax Verif.Nameres Verif.Nameres.Full
open Verif.Ide.Usages (parseOf)

/-- The items of modules are in scope (resolve_scopes.rs, the part for modules). -/
def itemsInScope : Rest := { onlyImports with scope := fun e => if e.kind = .MODULE then importableEntries 0 e else [] }

/-- The items of the module and its imports are in scope. -/
def fileWalk (a b : List Char) : Walk := fun file ns n site =>
  (baseWalk (oneFile a) itemsInScope (importTarget (twoFiles a b noWalk)) file ns n site).map (·, none)

/-- The files of `twoFiles`, with the names of `E` and `token` taken for addresses. -/
def inScope (a b : List Char) : Names := { twoFiles a b (fileWalk a b) with
  addresses := fun n => if n = "token".toList ∨ n = "E".toList then some "0x5".toList else none }

def variantUse : List Char := "module 0x9::k{enum E{V}enum D{W}fun token(){}fun t(){E::V;D::W;token()}}".toList
def shortUse : List Char := "module 0x9::k{use token::coin;use token::coin as c;fun t(){coin::f();c::f();}}".toList

/-- If an address has the name of an enum, the variants of the enum mean nothing after its name. -/
theorem C67_short_variant_fails : (parseOf variantUse).2 = true ∧
    resolvePath (inScope variantUse []) 5 0 none (nodeIn variantUse .PATH 1) = [(⟨['E'], .ENUM, 0, [6, 0]⟩, none)] ∧
    resolvePath (inScope variantUse []) 5 0 none (nodeIn variantUse .PATH 0) = [] ∧
    resolvePath (inScope variantUse []) 5 0 none (nodeIn variantUse .PATH 2) = [(⟨['W'], .ENUM_VARIANT, 0, [1, 3, 7, 0]⟩, none)] := by
  decide +kernel

/-! ### Cases of the theorems -/

def around (k : SyntaxKind) (anc : List Elem) : Bool := anc.any fun e => decide (e.kind = k)

theorem around_spec {k : SyntaxKind} {anc : List Elem} (h : around k anc = false) : ∀ e ∈ anc, e.kind ≠ k := by
  intro e he
  simpa using List.any_eq_false.1 h e he

def isPlain : List Elem → Bool
  | [] => false
  | p :: anc => (nodeChild p .PATH).isNone && (pathAddress p).isNone && !anc.any (isNode .USE_GROUP) && !around .USE_SPECK anc &&
    !around .FRIEND anc && decide (rootParentKind (p :: anc) ≠ some .MODULE_SPEC) && (shorthandField (p :: anc)).isNone && !anc.isEmpty

theorem isPlain_spec {p : Elem} {anc : List Elem} (h : isPlain (p :: anc) = true) : Plain p anc := by
  unfold isPlain at h
  simp only [Bool.and_eq_true, Bool.not_eq_true', Option.isNone_iff_eq_none, List.any_eq_false, isNode_iff, decide_eq_true_eq,
    List.isEmpty_eq_false_iff] at h
  obtain ⟨⟨⟨⟨⟨⟨⟨h1, h2⟩, h3⟩, h4⟩, h5⟩, h6⟩, h7⟩, h8⟩ := h
  exact ⟨h1, h2, h3, around_spec h4, around_spec h5, h6, h7, h8⟩

/-- The conditions of `C67_plain` and `C67_plain_sound` hold for the call of `token`, which is also the name of an address. -/
example : ∃ p anc e s, nodeIn variantUse .PATH 4 = p :: anc ∧ Plain p anc ∧ refName p = some "token".toList ∧
    (inScope variantUse []).walk 0 (pathNamespaces anc) "token".toList (p :: anc) = [(e, s)] ∧
    (placeAt (inScope variantUse []).toWorld e).map (fun x => x.elem.kind) = some .FUN := by
  cases h : nodeIn variantUse .PATH 4 with
  | nil => exact absurd h (by decide +kernel)
  | cons p anc =>
    have h1 : isPlain (nodeIn variantUse .PATH 4) = true := by decide +kernel
    have h2 : (nodeIn variantUse .PATH 4).head?.bind refName = some "token".toList := by decide +kernel
    have h3 : (inScope variantUse []).walk 0 (pathNamespaces (nodeIn variantUse .PATH 4).tail) "token".toList (nodeIn variantUse .PATH 4) =
      [(⟨"token".toList, .FUNCTION, 0, [8, 0]⟩, none)] := by decide +kernel
    rw [h] at h1 h2 h3
    exact ⟨p, anc, _, _, rfl, isPlain_spec h1, h2, h3, by decide +kernel⟩

def isShort : List Elem → Bool
  | [] => false
  | p :: anc => !anc.any (isNode .USE_GROUP) && !around .USE_SPECK anc && !around .FRIEND anc &&
    decide (rootParentKind (p :: anc) ≠ some .MODULE_SPEC) && !anc.isEmpty && (refName p).isSome && match nodeChild p .PATH with
    | none => false
    | some q => (nodeChild q .PATH).isNone && (pathAddress q).isNone && (refName q).isSome

theorem isShort_spec {p : Elem} {anc : List Elem} (h : isShort (p :: anc) = true) :
    (∀ e ∈ anc, ¬ Is .USE_GROUP e) ∧ (∀ e ∈ anc, e.kind ≠ .USE_SPECK) ∧ (∀ e ∈ anc, e.kind ≠ .FRIEND) ∧
      rootParentKind (p :: anc) ≠ some .MODULE_SPEC ∧ anc ≠ [] ∧ ∃ n q mn, refName p = some n ∧ nodeChild p .PATH = some q ∧
      nodeChild q .PATH = none ∧ pathAddress q = none ∧ refName q = some mn := by
  unfold isShort at h
  dsimp only at h
  cases hq : nodeChild p .PATH with
  | none => rw [hq] at h; simp at h
  | some q =>
    rw [hq] at h
    simp only [Bool.and_eq_true, Bool.not_eq_true', Option.isNone_iff_eq_none, List.any_eq_false, isNode_iff, decide_eq_true_eq,
      List.isEmpty_eq_false_iff, Option.isSome_iff_exists] at h
    obtain ⟨⟨⟨⟨⟨⟨h1, h2⟩, h3⟩, h4⟩, h5⟩, ⟨n, h6⟩⟩, ⟨h7, h8⟩, ⟨mn, h9⟩⟩ := h
    exact ⟨h1, around_spec h2, around_spec h3, h4, h5, n, q, mn, h6, rfl, h7, h8, h9⟩

theorem short_sane : Sane (inScope shortUse namedDef) := by
  have h := sane_two (a := shortUse) (b := namedDef) (by decide +kernel) (by decide +kernel) (fileWalk shortUse namedDef)
  exact ⟨h.source, h.once, h.specs, h.specsOnce⟩

/-- The conditions of `C67_short` hold for `c::f` with `use token::coin as c`. -/
example : ∃ p q anc n mn f m c A, nodeIn shortUse .PATH 6 = p :: anc ∧ nodeChild p .PATH = some q ∧ refName p = some n ∧ refName q = some mn ∧
    Is .MODULE m ∧ Declares (Elem.root ((inScope shortUse namedDef).tree f)) m c A ∧
    single (resolvePath (inScope shortUse namedDef) 1 0 none (q :: p :: anc)) = some ⟨['c'], .MODULE, f, m.path⟩ := by
  cases h : nodeIn shortUse .PATH 6 with
  | nil => exact absurd h (by decide +kernel)
  | cons p anc =>
    have h1 : isShort (nodeIn shortUse .PATH 6) = true := by decide +kernel
    have h2 : (match nodeIn shortUse .PATH 6 with
      | [] => none
      | p :: anc => (nodeChild p .PATH).bind fun q => single (resolvePath (inScope shortUse namedDef) 1 0 none (q :: p :: anc))) =
        some ⟨['c'], .MODULE, 1, [4, 0]⟩ := by decide +kernel
    rw [h] at h1 h2
    obtain ⟨-, -, -, -, -, n, q, mn, g1, g2, -, -, g3⟩ := isShort_spec h1
    dsimp only at h2
    rw [g2] at h2
    have h3 : (⟨"coin".toList, .MODULE, 1, [4, 0]⟩ : Entry) ∈ modulesAsEntries (inScope shortUse namedDef) 0 (.named "token".toList) := by
      decide +kernel
    obtain ⟨f, m, c, ⟨-, k1, -, A, k2, -⟩, -, k3, k4⟩ := (mem_modulesAsEntries short_sane 0 _ _).1 h3
    dsimp only at k3 k4
    subst k3
    exact ⟨p, q, anc, n, mn, 1, m, c, A, rfl, g2, g1, g3, k1, k2, by rw [← k4]; exact h2⟩

/-- The conditions of `C67_short_variant_partial` hold for `D::W`. -/
example : ∃ p q anc n en i c, nodeIn variantUse .PATH 2 = p :: anc ∧ nodeChild p .PATH = some q ∧ refName p = some n ∧ refName q = some en ∧
    (inScope variantUse []).named en = false ∧ trailingColons (p :: anc) = false ∧ Is .ENUM i ∧ Chain ((inScope variantUse []).tree 0) (i :: c) ∧
    single (resolvePath (inScope variantUse []) 1 0 none (q :: p :: anc)) = some ⟨['D'], .ENUM, 0, i.path⟩ := by
  cases h : nodeIn variantUse .PATH 2 with
  | nil => exact absurd h (by decide +kernel)
  | cons p anc =>
    have h1 : isShort (nodeIn variantUse .PATH 2) = true := by decide +kernel
    have h2 : (match nodeIn variantUse .PATH 2 with
      | [] => none
      | p :: anc => (nodeChild p .PATH).bind fun q => single (resolvePath (inScope variantUse []) 1 0 none (q :: p :: anc))) =
        some ⟨['D'], .ENUM, 0, [7, 0]⟩ := by decide +kernel
    have h3 : (match nodeIn variantUse .PATH 2 with
      | [] => none
      | p :: anc => (nodeChild p .PATH).bind refName) = some ['D'] ∧ trailingColons (nodeIn variantUse .PATH 2) = false := by decide +kernel
    rw [h] at h1 h2 h3
    obtain ⟨-, -, -, -, -, n, q, mn, g1, g2, -, -, g3⟩ := isShort_spec h1
    dsimp only at h2 h3
    rw [g2] at h2 h3
    simp only [Option.bind_some, g3] at h3
    have hmn : mn = ['D'] := Option.some.inj h3.1
    subst hmn
    cases hd : down [Elem.root ((inScope variantUse []).tree 0)] [0, 7] with
    | none => exact absurd hd (by decide +kernel)
    | some l =>
      cases l with
      | nil =>
        have : ((down [Elem.root ((inScope variantUse []).tree 0)] [0, 7]).map List.length) = some 3 := by decide +kernel
        rw [hd] at this
        cases this
      | cons i c =>
        have h4 : ((down [Elem.root ((inScope variantUse []).tree 0)] [0, 7]).bind List.head?).map (fun i => (isNode .ENUM i, i.path)) =
          some (true, [7, 0]) := by decide +kernel
        rw [hd] at h4
        simp only [Option.bind_some, List.head?_cons, Option.map_some, Option.some.injEq, Prod.mk.injEq] at h4
        refine ⟨p, q, anc, n, ['D'], i, c, rfl, g2, g1, g3, by decide +kernel, h3.2, (isNode_iff _ _).1 h4.1, ?_, by rw [h4.2]; exact h2⟩
        exact Up.down .top hd

end Verif.Ide
