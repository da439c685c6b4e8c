import Verif.Nameres.ResolvePaths
import Verif.Ide.ImportsExamples

/-! C66: what a use statement imports, and under which name. -/

namespace Verif.Ide
open Verif.Parser (Green)
open Verif.Syntax Verif.Nameres Verif.Nameres.Full
open Verif.Ide.Usages (parseOf)

/-! ### Specification -/

/-- The name that a speck gives to what it imports: its alias, or else the name that it has anyway. -/
inductive GivenName (speck : Elem) (plain : List Char) : List Char → Prop where
  | plain : (∀ a, nodeChild speck .USE_ALIAS = some a → nodeChild a .NAME = none) → GivenName speck plain plain
  | other {a n t} : nodeChild speck .USE_ALIAS = some a → nodeChild a .NAME = some n → tokenChild n .IDENT = some t →
      GivenName speck plain t.green.text

/-- The path is `address::module`. -/
def ModulePath (q : Elem) (m : List Char) : Prop :=
  ∃ a A, nodeChild q .PATH = some a ∧ nodeChild a .PATH = none ∧ Begins a A ∧ refName q = some m

/-- What one speck after `address::module` imports: the module for `Self`, otherwise an item. -/
def Brings (speck : Elem) (m n : List Char) (name : List Char) (type : UseType) : Prop :=
  (n = "Self".toList ∧ type = .SelfModule ∧ GivenName speck m name) ∨ (n ≠ "Self".toList ∧ type = .Item ∧ GivenName speck n name)

/-- What a use statement imports. -/
inductive Import (root : Elem) : Elem → List Char → UseType → Prop where
  | module {q m name} : nodeChild root .USE_GROUP = none → nodeChild root .PATH = some q → ModulePath q m → GivenName root m name →
      Import root root name .Module
  | item {p q m n name type} : nodeChild root .USE_GROUP = none → nodeChild root .PATH = some p → nodeChild p .PATH = some q →
      ModulePath q m → refName p = some n → Brings root m n name type → Import root root name type
  | group {g q m c p n name type} : nodeChild root .USE_GROUP = some g → nodeChild root .PATH = some q → ModulePath q m →
      c ∈ g.children → Is .USE_SPECK c → nodeChild c .PATH = some p → refName p = some n → Brings c m n name type → Import root c name type

/-! ### Proofs -/

theorem alias_given {speck : Elem} (h : ∀ a n, nodeChild speck .USE_ALIAS = some a → nodeChild a .NAME = some n → (tokenChild n .IDENT).isSome)
    (plain name : List Char) : GivenName speck plain name ↔ name = (aliasName speck).getD plain := by
  unfold aliasName
  cases ha : nodeChild speck .USE_ALIAS with
  | none =>
    simp only [Option.bind_none, Option.map_none, Option.getD_none]
    constructor
    · intro h
      cases h with
      | plain => rfl
      | other h1 => rw [ha] at h1; cases h1
    · rintro rfl
      exact .plain (by intro a h; rw [ha] at h; cases h)
  | some a =>
    cases hn : nodeChild a .NAME with
    | none =>
      simp only [Option.bind_some, hn, Option.map_none, Option.getD_none]
      constructor
      · intro h
        cases h with
        | plain => rfl
        | other h1 h2 => rw [ha] at h1; cases h1; rw [hn] at h2; cases h2
      · rintro rfl
        exact .plain (by intro b h; rw [ha] at h; cases h; exact hn)
    | some n =>
      obtain ⟨t, ht⟩ := Option.isSome_iff_exists.1 (h a n ha hn)
      simp only [Option.bind_some, hn, Option.map_some, Option.getD_some, ht]
      constructor
      · intro h
        cases h with
        | plain h1 => rw [h1 a ha] at hn; cases hn
        | other h1 h2 h3 => rw [ha] at h1; cases h1; rw [hn] at h2; cases h2; rw [ht] at h3; cases h3; rfl
      · rintro rfl
        exact .other ha hn ht

/-- The parser writes an identifier into every name. -/
def NamesFull (speck : Elem) : Prop :=
  ∀ a n, nodeChild speck .USE_ALIAS = some a → nodeChild a .NAME = some n → (tokenChild n .IDENT).isSome

theorem kind_of_module {named : List Char → Bool} {q : Elem} {m : List Char} {root : Elem} {anc : List Elem} (hr : Is .USE_SPECK root)
    (hg : groupAround (root :: anc) = none) (hq : ModulePath q m) :
    ∃ s A, pathKind named (q :: root :: anc) = some (.qualified s nsModules (.module A)) := by
  obtain ⟨a, A, h1, h2, h3, -⟩ := hq
  cases h3 with
  | value hx => exact ⟨_, _, kind_module hg (by simp) h1 h2 hx⟩
  | named hx hn =>
    have hk := kind_named (named := named) hg (by simp) h1 h2 hx hn
    have hroot : rootParentKind (q :: root :: anc) = some .USE_SPECK := by
      have : isNode .PATH root = false := by simp [isNode, hr.2]
      unfold rootParentKind
      rw [rootPath, this]
      simp [hr.2]
    rw [if_pos (.inl hroot)] at hk
    exact ⟨_, _, hk⟩

/-- What the analysis takes a finished use statement to import is what it says. -/
theorem C66_imports (w : Project) (file : Nat) {stmt root : Elem} {anc : List Elem} (hs : Is .USE_STMT stmt)
    (hg : ∀ e ∈ anc, ¬ Is .USE_GROUP e) (hroot : nodeChild stmt .USE_SPECK = some root) (hfull : NamesFull root)
    (hfulls : ∀ g c, nodeChild root .USE_GROUP = some g → c ∈ g.children → NamesFull c)
    (hpath : ∃ q m, nodeChild root .PATH = some q ∧ ((ModulePath q m ∨ (nodeChild root .USE_GROUP = none ∧ ∃ q', nodeChild q .PATH = some q' ∧
      ModulePath q' m ∧ (refName q).isSome)))) :
    ∃ us, stmtUseItems w file stmt anc = some us ∧
      ∀ u, u ∈ us ↔ ∃ c, Import root c u.name u.type ∧ u.file = file ∧ u.path = c.path ∧ u.scope = w.scope file stmt := by
  have hrk : Is .USE_SPECK root := (nodeChild_mem hroot).2
  have hga : groupAround (root :: stmt :: anc) = none := groupAround_none (by
    intro e he
    simp only [List.mem_cons] at he
    rcases he with rfl | rfl | he
    · intro h; have := h.2.symm.trans hrk.2; cases this
    · intro h; have := h.2.symm.trans hs.2; cases this
    · exact hg e he)
  obtain ⟨q, m, hq, hcase⟩ := hpath
  unfold stmtUseItems
  dsimp only
  rw [hroot]
  dsimp only
  cases hgr : nodeChild root .USE_GROUP with
  | some g =>
    dsimp only
    refine ⟨_, rfl, ?_⟩
    have hq' : ModulePath q m := by
      rcases hcase with h | ⟨h, -⟩
      · exact h
      · rw [hgr] at h; cases h
    obtain ⟨s, A, hk⟩ := kind_of_module (named := w.named) hrk hga hq'
    have hm : refName q = some m := by obtain ⟨_, _, _, _, _, h⟩ := hq'; exact h
    intro u
    simp only [List.mem_filterMap, List.mem_filter, isNode_iff]
    constructor
    · rintro ⟨c, ⟨hc1, hc2⟩, hc3⟩
      refine ⟨c, ?_⟩
      unfold childUseItem at hc3
      dsimp only at hc3
      rw [hq] at hc3
      dsimp only at hc3
      rw [hm] at hc3
      dsimp only at hc3
      cases hcp : nodeChild c .PATH with
      | none => rw [hcp] at hc3; cases hc3
      | some p =>
        rw [hcp] at hc3
        simp only [Option.bind_some] at hc3
        cases hcn : refName p with
        | none => rw [hcn] at hc3; cases hc3
        | some n =>
          rw [hcn] at hc3
          dsimp only at hc3
          have hgiven := alias_given (hfulls g c hgr hc1)
          split at hc3
          · rename_i hself
            cases hc3
            exact ⟨.group hgr hq hq' hc1 hc2 hcp hcn (.inl ⟨hself, rfl, (hgiven _ _).2 rfl⟩), rfl, rfl, rfl⟩
          · rename_i hself
            rw [hk] at hc3
            cases hc3
            exact ⟨.group hgr hq hq' hc1 hc2 hcp hcn (.inr ⟨hself, rfl, (hgiven _ _).2 rfl⟩), rfl, rfl, rfl⟩
    · rintro ⟨c, himp, h1, h2, h3⟩
      obtain ⟨ufile, upath, uname, utype, uscope⟩ := u
      dsimp only at himp h1 h2 h3
      cases himp with
      | module h => rw [hgr] at h; cases h
      | item h => rw [hgr] at h; cases h
      | @group g' q2 m2 _ p n _ _ k1 k2 k3 k4 k5 k6 k7 k8 =>
        rw [hgr] at k1; cases k1
        rw [hq] at k2; cases k2
        have hm2 : m2 = m := by
          obtain ⟨_, _, _, _, _, h⟩ := k3
          exact Option.some.inj (h.symm.trans hm)
        subst hm2
        refine ⟨c, ⟨k4, k5⟩, ?_⟩
        have hgiven := alias_given (hfulls g c hgr k4)
        unfold childUseItem
        dsimp only
        rw [hq]
        dsimp only
        rw [hm]
        dsimp only
        rw [k6]
        simp only [Option.bind_some, k7]
        rcases k8 with ⟨h4, h5, h6⟩ | ⟨h4, h5, h6⟩
        · rw [if_pos (show n = selfName from h4), h1, h2, h3, h5, (hgiven _ _).1 h6]
        · rw [if_neg (show n ≠ selfName from h4), hk, h1, h2, h3, h5, (hgiven _ _).1 h6]
  | none =>
    dsimp only
    rw [hq]
    dsimp only
    have hgiven := alias_given hfull
    rcases hcase with hq' | ⟨-, q', hq2, hq', hn⟩
    · obtain ⟨s, A, hk⟩ := kind_of_module (named := w.named) hrk hga hq'
      have hm : refName q = some m := by obtain ⟨_, _, _, _, _, h⟩ := hq'; exact h
      rw [hm]
      dsimp only
      rw [hk]
      dsimp only
      refine ⟨_, rfl, ?_⟩
      intro u
      rw [List.mem_singleton]
      constructor
      · rintro rfl
        exact ⟨root, .module hgr hq hq' ((hgiven _ _).2 rfl), rfl, rfl, rfl⟩
      · rintro ⟨c, himp, h1, h2, h3⟩
        obtain ⟨ufile, upath, uname, utype, uscope⟩ := u
        dsimp only at himp h1 h2 h3
        cases himp with
        | module k1 k2 k3 k4 =>
          rw [hq] at k2; cases k2
          have := k3.choose_spec.choose_spec.2.2.2.symm.trans hm
          cases this
          rw [h1, h2, h3, (hgiven _ _).1 k4]
        | item k1 k2 k3 k4 =>
          rw [hq] at k2; cases k2
          obtain ⟨a, A, g1, g2, -⟩ := hq'
          rw [g1] at k3; cases k3
          obtain ⟨b, B, g3, -⟩ := k4
          rw [g2] at g3; cases g3
        | group k1 => rw [hgr] at k1; cases k1
    · obtain ⟨n, hn⟩ := Option.isSome_iff_exists.1 hn
      have hm : refName q' = some m := by obtain ⟨_, _, _, _, _, h⟩ := hq'; exact h
      have hk := kind_item (named := w.named) hga (by simp) hq2 hq'.choose_spec.choose_spec.1
      rw [hn]
      dsimp only
      rw [hk]
      simp only [List.head?_cons, Option.bind_some, hm]
      have hsolve : ∀ u : UseItem, (∃ c, Import root c u.name u.type ∧ u.file = file ∧ u.path = c.path ∧ u.scope = w.scope file stmt) ↔
          Brings root m n u.name u.type ∧ u.file = file ∧ u.path = root.path ∧ u.scope = w.scope file stmt := by
        intro u
        constructor
        · rintro ⟨c, himp, h1, h2, h3⟩
          generalize hname : u.name = name at himp
          generalize htype : u.type = type at himp
          cases himp with
          | module k1 k2 k3 k4 =>
            rw [hq] at k2; cases k2
            obtain ⟨a, A, g1, g2, -⟩ := k3
            rw [hq2] at g1; cases g1
            obtain ⟨b, B, g3, -⟩ := hq'
            rw [g2] at g3; cases g3
          | item k1 k2 k3 k4 k5 k6 =>
            rw [hq] at k2; cases k2
            rw [hq2] at k3; cases k3
            rw [hn] at k5; cases k5
            have := k4.choose_spec.choose_spec.2.2.2.symm.trans hm
            cases this
            exact ⟨k6, h1, h2, h3⟩
          | group k1 => rw [hgr] at k1; cases k1
        · rintro ⟨h0, h1, h2, h3⟩
          exact ⟨root, .item hgr hq hq2 hq' hn h0, h1, h2, h3⟩
      by_cases hself : n = selfName
      · rw [if_pos hself]
        refine ⟨_, rfl, ?_⟩
        intro u
        rw [List.mem_singleton, hsolve]
        constructor
        · rintro rfl
          exact ⟨.inl ⟨hself, rfl, (hgiven _ _).2 rfl⟩, rfl, rfl, rfl⟩
        · rintro ⟨⟨-, h5, h6⟩ | ⟨h4, -⟩, h1, h2, h3⟩
          · obtain ⟨ufile, upath, uname, utype, uscope⟩ := u
            dsimp only at h1 h2 h3 h5 h6
            rw [h1, h2, h3, h5, (hgiven _ _).1 h6]
          · exact absurd hself h4
      · rw [if_neg hself]
        refine ⟨_, rfl, ?_⟩
        intro u
        rw [List.mem_singleton, hsolve]
        constructor
        · rintro rfl
          exact ⟨.inr ⟨hself, rfl, (hgiven _ _).2 rfl⟩, rfl, rfl, rfl⟩
        · rintro ⟨⟨h4, -⟩ | ⟨-, h5, h6⟩, h1, h2, h3⟩
          · exact absurd h4 hself
          · obtain ⟨ufile, upath, uname, utype, uscope⟩ := u
            dsimp only at h1 h2 h3 h5 h6
            rw [h1, h2, h3, h5, (hgiven _ _).1 h6]

/-! ### Cases -/

/-- What the use statements of the first module of a text import. -/
def importsIn (text : String) : List (List Char × UseType) :=
  match nodeIn text.toList .MODULE 0 with
  | [] => []
  | m :: _ => (useItems (oneFile text.toList) 0 m).map fun u => (u.name, u.type)

example : importsIn "module 0x1::m{use 0x1::a;use 0x1::b as c;use std::d::e;use std::d::f as g;use 0x1::h::Self;use 0x1::i::Self as j;}" =
    [("a".toList, .Module), ("c".toList, .Module), ("e".toList, .Item), ("g".toList, .Item), ("h".toList, .SelfModule),
      ("j".toList, .SelfModule)] ∧
    importsIn "module 0x1::m{use 0x1::a::{b,c as d,Self};use std::e::{Self as f};}" =
    [("b".toList, .Item), ("d".toList, .Item), ("a".toList, .SelfModule), ("f".toList, .SelfModule)] := by
  decide +kernel

def fullNames (speck : Elem) : Bool := match nodeChild speck .USE_ALIAS with
  | none => true
  | some a => match nodeChild a .NAME with
    | none => true
    | some n => (tokenChild n .IDENT).isSome

def isModulePath (q : Elem) : Bool := match nodeChild q .PATH with
  | none => false
  | some a => (nodeChild a .PATH).isNone && (pathAddress a).isSome && (refName q).isSome

/-- The conditions of `C66_imports`, for a statement with its ancestors. -/
def stmtReady : List Elem → Bool
  | [] => false
  | stmt :: anc => isNode .USE_STMT stmt && !anc.any (isNode .USE_GROUP) && match nodeChild stmt .USE_SPECK with
    | none => false
    | some root => fullNames root && (match nodeChild root .USE_GROUP with | none => true | some g => g.children.all fullNames) &&
      match nodeChild root .PATH with
      | none => false
      | some q => isModulePath q || ((nodeChild root .USE_GROUP).isNone && (refName q).isSome && match nodeChild q .PATH with
        | none => false
        | some q' => isModulePath q')

theorem fullNames_spec {c : Elem} (h : fullNames c = true) : NamesFull c := by
  intro a n h1 h2
  unfold fullNames at h
  rw [h1] at h
  dsimp only at h
  rw [h2] at h
  exact h

theorem isModulePath_spec {q : Elem} (h : isModulePath q = true) : ∃ m, ModulePath q m := by
  unfold isModulePath at h
  cases hq : nodeChild q .PATH with
  | none => rw [hq] at h; cases h
  | some a =>
    rw [hq] at h
    simp only [Bool.and_eq_true, Option.isNone_iff_eq_none, Option.isSome_iff_exists] at h
    obtain ⟨⟨h1, x, h2⟩, m, h3⟩ := h
    exact ⟨m, a, _, hq, h1, .value h2, h3⟩

theorem stmtReady_spec (w : Project) (file : Nat) {stmt : Elem} {anc : List Elem} (h : stmtReady (stmt :: anc) = true) :
    ∃ root us, nodeChild stmt .USE_SPECK = some root ∧ stmtUseItems w file stmt anc = some us ∧
      ∀ u, u ∈ us ↔ ∃ c, Import root c u.name u.type ∧ u.file = file ∧ u.path = c.path ∧ u.scope = w.scope file stmt := by
  unfold stmtReady at h
  dsimp only at h
  cases hroot : nodeChild stmt .USE_SPECK with
  | none => rw [hroot] at h; simp at h
  | some root =>
    rw [hroot] at h
    dsimp only at h
    cases hq : nodeChild root .PATH with
    | none => rw [hq] at h; simp at h
    | some q =>
      rw [hq] at h
      simp only [Bool.and_eq_true, Bool.not_eq_true', List.any_eq_false, isNode_iff, Bool.or_eq_true, Option.isNone_iff_eq_none] at h
      obtain ⟨⟨h1, h2⟩, ⟨h3, h4⟩, h5⟩ := h
      refine ⟨root, ?_⟩
      obtain ⟨us, h6, h7⟩ := C66_imports w file h1 h2 hroot (fullNames_spec h3) (by
        intro g c hg hc
        rw [hg] at h4
        exact fullNames_spec (List.all_eq_true.1 h4 c hc)) (by
        rcases h5 with h5 | ⟨⟨h5, h6⟩, h7⟩
        · obtain ⟨m, h6⟩ := isModulePath_spec h5
          exact ⟨q, m, hq, .inl h6⟩
        · cases hq2 : nodeChild q .PATH with
          | none => rw [hq2] at h7; cases h7
          | some q' =>
            rw [hq2] at h7
            obtain ⟨m, h8⟩ := isModulePath_spec h7
            exact ⟨q, m, hq, .inr ⟨h5, q', hq2, h8, h6⟩⟩)
      exact ⟨us, rfl, h6, h7⟩

def threeUses : List Char := "module 0x1::m{use 0x1::b as c;use 0x2::d::f as g;use 0x1::a::{b,c as d,Self};}".toList

/-- The conditions of `C66_imports` hold for each of these statements. -/
example : ∀ i ∈ [0, 1, 2], stmtReady (nodeIn threeUses .USE_STMT i) = true := by decide +kernel

/-- An import that is used only in the specification of its module in another file is not reported. -/
def specFile : List Char := "module 0x1::m{use 0x1::n;}".toList
def specOther : List Char := "spec 0x1::m{spec f{n::g();}}".toList
def withSpecFile : Project where
  tree := fun f => (parseOf (if f = 0 then specFile else specOther)).1
  declared := fun _ => false
  named := fun _ => false
  siblings := fun f _ => if f = 0 then [(1, nodeIn specOther .MODULE_SPEC 0)] else [(0, nodeIn specFile .MODULE 0)]

example : (parseOf specFile).2 = true ∧ (parseOf specOther).2 = true ∧
    (combinedUseItems withSpecFile 1 (nodeIn specOther .MODULE_SPEC 0)).map UseItem.name = [['n']] ∧
    unusedUseItems withSpecFile 0 (nodeIn specFile .MODULE 0) = some [] := by
  decide +kernel

end Verif.Ide
