import Verif.Ide.AutoImportText
import Verif.Ide.AutoImportOffers
import Verif.Ide.AutoImportPlace
import Verif.Ide.RenameMore

/-! C69: what "Add import" does to the file. -/

namespace Verif.Nameres.AutoImport
open Verif.Parser (Green Piece NewName AsciiBreaks)
open Verif.Syntax Verif.Editor
open Verif.Lexer (blen blen_append Graphemes)
open Verif.TextEdit.TreeDiff (Solid Below)
open Verif.Nameres.Full (Is isNode_iff nodeChild_mem)
open Verif.Ide (useStmts)

/-! ### Specification -/

/-- The new statement goes after the last `use`; without one, after the brace. -/
inductive Anchor (o : Elem) : Elem → Prop where
  | use {l x r} : o.children = l ++ x :: r → Is .USE_STMT x → (∀ y ∈ r, ¬ Is .USE_STMT y) → Anchor o x
  | brace {l x r} : o.children = l ++ x :: r → (∀ y ∈ o.children, ¬ Is .USE_STMT y) → isToken .L_CURLY x = true →
      (∀ y ∈ l, isToken .L_CURLY y = false) → Anchor o x

/-- The path of the module in a `use` statement. -/
inductive ModuleOf (s : Elem) : Elem → Prop where
  | group {r p g} : nodeChild s .USE_SPECK = some r → nodeChild r .PATH = some p → nodeChild r .USE_GROUP = some g → ModuleOf s p
  | module {r p q} : nodeChild s .USE_SPECK = some r → nodeChild r .PATH = some p → nodeChild r .USE_GROUP = none →
      nodeChild p .PATH = some q → nodeChild q .PATH = none → ModuleOf s p
  | item {r p q a} : nodeChild s .USE_SPECK = some r → nodeChild r .PATH = some p → nodeChild r .USE_GROUP = none →
      nodeChild p .PATH = some q → nodeChild q .PATH = some a → ModuleOf s q

/-- The element has the attribute, with nothing after its name. -/
def Marked (name : String) (g : Green) : Prop :=
  ∃ a ∈ nodesOf .ATTR g, ∃ i ∈ nodesOf .ATTR_ITEM a, nodesOf .INITIALIZER i = [] ∧ nodesOf .ATTR_ITEM_LIST i = [] ∧
    ∃ p, (nodesOf .PATH i).head? = some p ∧ p.text = name.toList

/-- A statement that imports from the module, and is for tests or not. -/
structure Imports (module : Text) (test : Bool) (s : Elem) : Prop where
  use : Is .USE_STMT s
  module : ∃ p, ModuleOf s p ∧ p.green.text = module
  verify : ¬ Marked "verify_only" s.green
  test : Marked "test_only" s.green ↔ test = true

/-! ### The parts -/

theorem marked_iff (name : String) (g : Green) : nameOnlyAttr name g = true ↔ Marked name g := by
  unfold nameOnlyAttr Marked Nameres.pathText
  simp only [List.any_eq_true, List.mem_filter, List.mem_flatMap, Bool.and_eq_true, List.isEmpty_iff, decide_eq_true_eq, Option.map_eq_some_iff]
  constructor
  · rintro ⟨i, ⟨⟨a, ha, hi⟩, h1, h2⟩, h3⟩
    exact ⟨a, ha, i, hi, h1, h2, h3⟩
  · rintro ⟨a, ha, i, hi, h1, h2, h3⟩
    exact ⟨i, ⟨⟨a, ha, hi⟩, h1, h2⟩, h3⟩

theorem modulePath_iff (s p : Elem) : modulePath s = some p ↔ ModuleOf s p := by
  unfold modulePath speckKind
  constructor
  · intro h
    simp only [Option.map_eq_some_iff, Option.bind_eq_some_iff] at h
    obtain ⟨k, ⟨r, hr, q, hq, hk⟩, rfl⟩ := h
    cases hg : nodeChild r .USE_GROUP with
    | some g =>
      rw [hg] at hk
      cases hk
      exact .group hr hq hg
    | none =>
      rw [hg] at hk
      simp only [Option.map_eq_some_iff] at hk
      obtain ⟨x, hx, rfl⟩ := hk
      cases hy : nodeChild x .PATH with
      | none => simp only [Option.isNone_none, if_true]; exact .module hr hq hg hx hy
      | some y => simp only [Option.isNone_some, Bool.false_eq_true, if_false]; exact .item hr hq hg hx hy
  · intro h
    cases h with
    | group h1 h2 h3 => simp [h1, h2, h3]
    | module h1 h2 h3 h4 h5 => simp [h1, h2, h3, h4, h5]
    | item h1 h2 h3 h4 h5 => simp [h1, h2, h3, h4, h5]

theorem imports_iff (o : Elem) (module : Text) (test : Bool) (s : Elem) :
    (s ∈ (useStmts o).filter fun s => (modulePath s).any (fun p => decide (p.green.text = module)) &&
      !nameOnlyAttr "verify_only" s.green && (nameOnlyAttr "test_only" s.green == test)) ↔ s ∈ o.children ∧ Imports module test s := by
  have h1 : ∀ name g, nameOnlyAttr name g = false ↔ ¬ Marked name g := by
    intro name g
    rw [← marked_iff, Bool.not_eq_true]
  have h2 : (nameOnlyAttr "test_only" s.green == test) = true ↔ (Marked "test_only" s.green ↔ test = true) := by
    rw [← marked_iff]
    cases nameOnlyAttr "test_only" s.green <;> cases test <;> simp
  unfold useStmts
  simp only [List.mem_filter, isNode_iff, Bool.and_eq_true, Option.any_eq_true, decide_eq_true_eq, Bool.not_eq_true', h1, modulePath_iff, h2]
  constructor
  · rintro ⟨⟨h3, h4⟩, ⟨h5, h6⟩, h7⟩
    exact ⟨h3, h4, h5, h6, h7⟩
  · rintro ⟨h3, h4, h5, h6, h7⟩
    exact ⟨⟨h3, h4⟩, ⟨h5, h6⟩, h7⟩

theorem existing_none {o : Elem} {module : Text} {test : Bool} : existing o module test = none ↔ ∀ s ∈ o.children, ¬ Imports module test s := by
  unfold existing
  rw [List.getLast?_eq_none_iff, List.eq_nil_iff_forall_not_mem]
  simp only [imports_iff, not_and]

theorem find_split {α} {p : α → Bool} {l pre post : List α} {x : α} (h : l = pre ++ x :: post) (hx : p x = true)
    (hp : ∀ y ∈ pre, p y = false) : l.find? p = some x := by
  rw [h, List.find?_append, List.find?_eq_none.2 (by simpa using hp), Option.none_or, List.find?_cons_of_pos hx]

theorem anchor_eq {o x : Elem} {anc : List Elem} (h : Anchor o x) : anchor (o :: anc) = some (x :: o :: anc) := by
  unfold anchor
  have ho : Site.elem (o :: anc) = o := rfl
  rw [ho]
  cases h with
  | @use l _ r h1 h2 h3 =>
    have : (useStmts o).getLast? = some x := by
      unfold useStmts
      rw [h1, List.filter_append, List.filter_cons_of_pos ((isNode_iff _ _).2 h2)]
      have : r.filter (isNode .USE_STMT) = [] := by
        rw [List.filter_eq_nil_iff]
        intro y hy
        rw [isNode_iff]
        exact h3 y hy
      rw [this]
      simp
    rw [this]
    rfl
  | @brace l _ r h1 h2 h3 h4 =>
    have : useStmts o = [] := by
      unfold useStmts
      rw [List.filter_eq_nil_iff]
      intro y hy
      rw [isNode_iff]
      exact h2 y hy
    rw [this]
    simp [tokenChild, find_split h1 h3 h4]

theorem Anchor.mem {o x : Elem} (h : Anchor o x) : x ∈ o.children := by
  cases h with
  | use h1 _ _ => rw [h1]; simp
  | brace h1 _ _ _ => rw [h1]; simp

theorem addImport_eq {g : List Char → Nat} (hg : Graphemes g) (hb : AsciiBreaks g) (debug : Bool) (tree : Green) (owner : Site) {a b : Text}
    {A : Green} (h : Lead a A) (hb' : NewName b) {c : Option Text} (hc : ∀ x ∈ c, NewName x) (test : Bool) :
    addImport (parser g debug) tree owner (a :: b :: c.toList) test =
      addFor (parser g debug) tree owner (pathTo A b) (c.map itemRef) test := by
  unfold addImport
  rw [importPath_eq hg hb debug h hb' hc]
  cases h <;> cases c <;> computed

/-! ### A new statement -/

/-- The text of the new statement. -/
def stmtText (ind : Text) (test : Bool) (path : Text) : Text :=
  (if test then "#[test_only]\n".toList ++ ind else []) ++ "use ".toList ++ path ++ [';']

theorem stmtTree_text {a b : Text} {A : Green} (h : Lead a A) (c : Option Text) (ind : Text) (test : Bool) :
    (stmtTree (if test then some ind else none) (full A b c)).text = stmtText ind test (fullText a b c) := by
  have ht := full_text (b := b) h c
  have hs : (Green.node .USE_SPECK [full A b c]).text = fullText a b c := by simp [Green.text_node, ht]
  cases test with
  | false =>
    simp only [stmtTree, stmtText, Bool.false_eq_true, if_false, Green.text_node, List.map_cons, List.map_nil, Green.text_tok, ht]
    generalize fullText a b c = x
    simp
  | true =>
    simp only [stmtTree, stmtText, if_true, testOnlyAttr, nameSeg, Green.text_node, List.map_cons, List.map_nil, Green.text_tok, ht]
    generalize fullText a b c = x
    simp

theorem addFor_new {g : List Char → Nat} (hg : Graphemes g) (hb : AsciiBreaks g) (debug : Bool) {tree : Green} {o x : Elem} {anc : List Elem}
    {a b : Text} {A : Green} (h : Lead a A) (hb' : NewName b) {c : Option Text} (hc : ∀ y ∈ c, NewName y) (test : Bool)
    (hx : Anchor o x) (hno : ∀ s ∈ o.children, ¬ Imports (fullText a b none) test s) :
    addImport (parser g debug) tree (o :: anc) (a :: b :: c.toList) test =
      .edit [.insert (.after (x :: o :: anc)) ([.tok .WHITESPACE ('\n' :: indentText tree o),
        stmtTree (if test then some (indentText tree o) else none) (full A b c)] ++
          if needsNewline (x :: o :: anc) then [.tok .WHITESPACE ['\n']] else [])] := by
  rw [addImport_eq hg hb debug tree _ h hb' hc]
  have ho : Site.elem (o :: anc) = o := rfl
  unfold addFor
  rw [ho, show (pathTo A b).text = fullText a b none from full_text h none, existing_none.2 hno]
  dsimp only
  rw [newStmt_eq hg hb debug h hb' hc]
  dsimp only
  unfold addStmt
  rw [anchor_eq hx, ho]

/-- Where the items are: a module, a module specification or a script of the file, perhaps in an address block. -/
structure Owner (tree : Green) (o : Elem) (anc : List Elem) : Prop where
  chain : Chain tree (o :: anc)
  kind : holdsItems o = true
  outer : ∀ e ∈ anc, e.kind = .SOURCE_FILE ∨ e.kind = .ADDRESS_DEF

theorem Owner.known {tree : Green} {o x : Elem} {anc : List Elem} (h : Owner tree o anc) (hx : Anchor o x) : Known tree (x :: o :: anc) := by
  refine ⟨.child h.chain hx.mem, ?_⟩
  have hk : o.kind = .MODULE ∨ o.kind = .MODULE_SPEC ∨ o.kind = .SCRIPT := by
    have := h.kind
    simp only [holdsItems, isNode, Bool.or_eq_true, Bool.and_eq_true, decide_eq_true_eq] at this
    tauto
  have hout : ∀ e ∈ anc, e.kind ≠ .MODULE ∧ e.kind ≠ .MODULE_SPEC ∧ e.kind ≠ .SCRIPT ∧ e.kind ≠ .USE_STMT := by
    intro e he
    rcases h.outer e he with h | h <;> (rw [h]; decide)
  unfold Editor.Unique
  dsimp only
  have he : Site.elem (x :: o :: anc) = x := rfl
  rw [he]
  cases hx with
  | use _ h2 _ =>
    rw [h2.1]
    simp only [Bool.false_eq_true, if_false, List.tail_cons]
    intro e hm hh
    rw [he, h2.2] at hh
    rcases List.mem_cons.1 hm with rfl | hm
    · rcases hk with hk | hk | hk <;> (rw [hk] at hh; cases hh.1)
    · exact (hout e hm).2.2.2 hh.1
  | brace _ _ h3 _ =>
    have : x.green.isTok = true := by
      unfold isToken at h3
      simp only [Bool.and_eq_true] at h3
      exact h3.1
    rw [this]
    simp only [if_true, List.tail_cons]
    intro e hm hh
    have := hout e hm
    have ho : Site.elem (o :: anc) = o := rfl
    rw [ho] at hh
    rcases hk with hk | hk | hk <;> (rw [hk] at hh; simp_all)

/-- The white space after the new statement: none if what follows starts with white space with two line breaks. -/
def lineAfter (r : List Piece) : Text := match r.head? with
  | some p => if p.kind = .WHITESPACE ∧ 2 ≤ p.text.count '\n' then [] else ['\n']
  | none => ['\n']

theorem newline_text {x : Elem} {anc : List Elem} {r : List Piece} (h : nextToken (x :: anc) = r.head?.map fun p => (p.kind, p.text)) :
    texts (if needsNewline (x :: anc) then [.tok .WHITESPACE ['\n']] else []) = lineAfter r := by
  cases hr : r.head? with
  | none =>
    have h1 : needsNewline (x :: anc) = true := by unfold needsNewline; rw [h, hr]; rfl
    have h2 : lineAfter r = ['\n'] := by unfold lineAfter; rw [hr]
    rw [h1, h2]
    rfl
  | some p =>
    by_cases hp : p.kind = .WHITESPACE ∧ 2 ≤ p.text.count '\n'
    · have h1 : needsNewline (x :: anc) = false := by
        have h2 : 1 < p.text.count '\n' := hp.2
        unfold needsNewline
        rw [h, hr]
        simp [hp.1, h2]
      have h2 : lineAfter r = [] := by unfold lineAfter; rw [hr]; exact if_pos hp
      rw [h1, h2]
      rfl
    · have h1 : needsNewline (x :: anc) = true := by
        unfold needsNewline
        rw [h, hr]
        simp only [Option.map_some, Bool.not_eq_true', Bool.and_eq_false_iff, decide_eq_false_iff_not]
        by_cases h1 : p.kind = .WHITESPACE
        · exact .inr fun h2 => hp ⟨h1, h2⟩
        · exact .inl h1
      have h2 : lineAfter r = ['\n'] := by unfold lineAfter; rw [hr]; exact if_neg hp
      rw [h1, h2]
      rfl

/-- **C69.** When nothing is imported from the module yet, the file gets one statement, `use a::m;` or `use a::m::n;`, on a line of its
own after the last `use` or after the brace, and nothing else in it changes. Missing: addresses that are written as other numbers than
`0x1`; names that are words of the grammar. -/
theorem C69_new_partial {g : List Char → Nat} (hg : Graphemes g) (hb : AsciiBreaks g) (debug : Bool) {tree : Green} {o x : Elem}
    {anc : List Elem} {a b : Text} {A : Green} (h : Lead a A) (hb' : NewName b) {c : Option Text} (hc : ∀ y ∈ c, NewName y) (test : Bool)
    (hs : Solid tree) (ho : Owner tree o anc) (hx : Anchor o x) (hno : ∀ s ∈ o.children, ¬ Imports (fullText a b none) test s) :
    ∃ cs new l r, addImport (parser g debug) tree (o :: anc) (a :: b :: c.toList) test = .edit cs ∧ finish tree cs = .done new ∧
      tree.leaves = l ++ r ∧ blen (leafText l) = x.stop ∧
      encode new.text = encode (leafText l ++ ('\n' :: indentText tree o ++ stmtText (indentText tree o) test (fullText a b c) ++ lineAfter r) ++
        leafText r) := by
  have hk := ho.known hx
  have hadd := addFor_new hg hb debug (tree := tree) (anc := anc) h hb' hc test hx hno
  obtain ⟨l, r, h1, h2, h3⟩ := chain_leaves hk.chain hs
  have hstop : blen (leafText (l ++ x.green.leaves)) = x.stop := by
    rw [leafText_append, blen_append, ← h2]
    rfl
  have hsound : ∀ ns, Sound tree (.insert (.after (x :: o :: anc)) ns) := by
    intro ns
    refine ⟨fun e he => (by cases he), fun e he => ?_, fun e he => (by cases he)⟩
    cases he
    exact ⟨hk, by simp⟩
  obtain ⟨new, es, h4, h5, -, h6⟩ := C68_all hs (cs := [.insert (.after (x :: o :: anc)) ([.tok .WHITESPACE ('\n' :: indentText tree o),
        stmtTree (if test then some (indentText tree o) else none) (full A b c)] ++
          if needsNewline (x :: o :: anc) then [.tok .WHITESPACE ['\n']] else [])]) (by
    intro c hc
    rw [List.mem_singleton] at hc
    subst hc
    exact hsound _) (List.pairwise_singleton _ _)
  refine ⟨_, new, l ++ x.green.leaves, r, hadd, h4, h1, hstop, ?_⟩
  rw [List.map_singleton, List.perm_singleton] at h5
  rw [h5] at h6
  have htext : tree.text = leafText (l ++ x.green.leaves) ++ leafText r := by
    rw [← leafText_append, ← h1]; rfl
  have hoff : (Change.insert (.after (x :: o :: anc)) ([.tok .WHITESPACE ('\n' :: indentText tree o),
        stmtTree (if test then some (indentText tree o) else none) (full A b c)] ++
          if needsNewline (x :: o :: anc) then [.tok .WHITESPACE ['\n']] else [])).text =
      ⟨x.stop, x.stop, encode ('\n' :: indentText tree o ++ stmtText (indentText tree o) test (fullText a b c) ++ lineAfter r)⟩ := by
    have e1 : ∀ u v : List Green, texts (u ++ v) = texts u ++ texts v := by intro u v; simp [texts]
    have e2 : ∀ u v : Green, texts [u, v] = u.text ++ v.text := by intro u v; simp [texts]
    unfold Change.text
    dsimp only
    rw [e1, newline_text h3, e2, Green.text_tok, stmtTree_text h]
    rfl
  rw [hoff] at h6
  simp only [TextEdit.Spec.splice, Nat.sub_zero] at h6
  rw [htext, ← hstop, Ide.Rename.take_at, Ide.Rename.drop_at] at h6
  rw [h6]
  simp only [TextEdit.TreeDiff.encode_append]

/-! ### What the new statement means -/

/-- The address that the first part of the path stands for. -/
inductive Leads : Text → Green → Address → Prop where
  | name {a} : NewName a → Leads a (nameSeg a) (.named a)
  | one : Leads "0x1".toList (valueSeg "0x1".toList) (.value "0x1".toList)

theorem Leads.lead {a : Text} {A : Green} {ad : Address} (h : Leads a A ad) : Lead a A := by
  cases h with
  | name h => exact .name h
  | one => exact .one

/-- The parts of the path of the new statement. -/
structure Parts (u s p q : Elem) : Prop where
  speck : nodeChild u .USE_SPECK = some s
  path : nodeChild s .PATH = some p
  qualifier : nodeChild p .PATH = some q

theorem nameRef_text (pth : List Nat) (st : Nat) (a : Text) : nameRefText ⟨pth, st, .node .NAME_REF [.tok .IDENT a]⟩ = a := by
  show (Green.tok .IDENT a).text = a
  exact Green.text_tok _ _

theorem refName_one (pth : List Nat) (st : Nat) (a : Text) : refName ⟨pth, st, .node .PATH [nameSeg a]⟩ = some a :=
  congrArg some (nameRef_text _ _ _)

theorem refName_qualified (pth : List Nat) (st : Nat) (cs : List Green) (a : Text) :
    refName ⟨pth, st, .node .PATH [.node .PATH cs, colons, nameSeg a]⟩ = some a :=
  congrArg some (nameRef_text _ _ _)

/-- **C69.** Wherever the new statement for an item stands, it imports the items of that name of the module at that address, provided
that there is one such module that may be used there (see `C67_use_fails` for when there is none). -/
theorem C69_item_partial {w : Names} (hw : Full.Sane w) {fuel file : Nat} {expected : Option (Nat × Elem)} {a b c : Text} {A : Green}
    {ad : Address} (h : Leads a A ad) {u : Elem} {anc : List Elem} {t : Option Text} (hu : u.green = stmtTree t (full A b (some c)))
    (hanc : ∀ e ∈ anc, ¬ Is .USE_GROUP e) : ∃ s p q, Parts u s p q ∧ ∀ f m mc, Full.OnlyModule w ⟨file, q, p :: s :: u :: anc⟩ ad b f m mc →
      ∀ e r, (e, r) ∈ resolvePath w (fuel + 2) file expected (p :: s :: u :: anc) ↔
        Full.Chosen false (Full.ModuleCandidate w true c (nsImportable ++ nsModules) f m) e ∧
          r = isVisible w.toWorld e.ns none (placeAt w.toWorld e) ⟨file, p, s :: u :: anc⟩ := by
  obtain ⟨path, start, green⟩ := u
  dsimp only at hu
  subst hu
  generalize hU : (⟨path, start, stmtTree t (full A b (some c))⟩ : Elem) = u
  have hug : ¬ Is .USE_GROUP u := by
    subst hU
    intro h'
    have := h'.2
    cases t <;> cases this
  have hs : ∃ s, nodeChild u .USE_SPECK = some s ∧ s.green = .node .USE_SPECK [full A b (some c)] := by
    subst hU
    cases t with
    | none => exact ⟨_, rfl, rfl⟩
    | some t => exact ⟨_, rfl, rfl⟩
  obtain ⟨⟨sp, ss, sg⟩, hs, hsg⟩ := hs
  dsimp only at hsg
  subst hsg
  refine ⟨_, ⟨0 :: sp, ss, full A b (some c)⟩, ⟨0 :: 0 :: sp, ss, pathTo A b⟩, ⟨hs, rfl, rfl⟩, ?_⟩
  intro f m mc hmod e r
  have hq : nodeChild ⟨0 :: 0 :: sp, ss, pathTo A b⟩ .PATH = some ⟨0 :: 0 :: 0 :: sp, ss, .node .PATH [A]⟩ := rfl
  have ha : nodeChild ⟨0 :: 0 :: 0 :: sp, ss, .node .PATH [A]⟩ .PATH = none := by cases h <;> rfl
  have hA : Full.Begins ⟨0 :: 0 :: 0 :: sp, ss, .node .PATH [A]⟩ ad := by
    cases h with
    | name h => exact .named rfl (refName_one _ _ _)
    | one => exact .value (x := ⟨[0, 0, 0, 0, 0] ++ sp, ss, .node .PATH_ADDRESS [.node .VALUE_ADDRESS [.tok .INT_NUMBER "0x1".toList]]⟩) rfl
  exact Full.C67_use_partial hw (fuel := fuel) (expected := expected) ⟨rfl, rfl⟩ ⟨rfl, rfl⟩ (by
    intro e he
    rcases List.mem_cons.1 he with rfl | he
    · exact hug
    · exact hanc e he) rfl hq ha hA (refName_qualified _ _ _ _) (refName_qualified _ _ _ _) hmod e r

/-- Wherever the new statement for a module stands, it imports the modules of that name at that address. -/
theorem C69_module {w : Names} (hw : Full.Sane w) {fuel file : Nat} {expected : Option (Nat × Elem)} {a b : Text} {A : Green}
    {ad : Address} (h : Leads a A ad) {u : Elem} {anc : List Elem} {t : Option Text} (hu : u.green = stmtTree t (full A b none))
    (hanc : ∀ e ∈ anc, ¬ Is .USE_GROUP e) : ∃ s q a', Parts u s q a' ∧
      ∀ e, (∃ r, (e, r) ∈ resolvePath w (fuel + 1) file expected (q :: s :: u :: anc)) ↔
        ∃ m c, Full.ModuleAt w file ad b e.file m c ∧ e = ⟨b, .MODULE, e.file, m.path⟩ := by
  obtain ⟨path, start, green⟩ := u
  dsimp only at hu
  subst hu
  generalize hU : (⟨path, start, stmtTree t (full A b none)⟩ : Elem) = u
  have hug : ¬ Is .USE_GROUP u := by
    subst hU
    intro h'
    have := h'.2
    cases t <;> cases this
  have hs : ∃ s, nodeChild u .USE_SPECK = some s ∧ s.green = .node .USE_SPECK [full A b none] := by
    subst hU
    cases t with
    | none => exact ⟨_, rfl, rfl⟩
    | some t => exact ⟨_, rfl, rfl⟩
  obtain ⟨⟨sp, ss, sg⟩, hs, hsg⟩ := hs
  dsimp only at hsg
  subst hsg
  refine ⟨_, ⟨0 :: sp, ss, pathTo A b⟩, ⟨0 :: 0 :: sp, ss, .node .PATH [A]⟩, ⟨hs, rfl, rfl⟩, ?_⟩
  intro e
  have ha : nodeChild ⟨0 :: 0 :: sp, ss, .node .PATH [A]⟩ .PATH = none := by cases h <;> rfl
  have hA : Full.ModuleAddress ⟨0 :: sp, ss, pathTo A b⟩ (⟨sp, ss, .node .USE_SPECK [full A b none]⟩ :: u :: anc)
      ⟨0 :: 0 :: sp, ss, .node .PATH [A]⟩ ad := by
    cases h with
    | name h => exact .named rfl (refName_one _ _ _) (.inl rfl)
    | one => exact .value (x := ⟨[0, 0, 0, 0] ++ sp, ss, .node .PATH_ADDRESS [.node .VALUE_ADDRESS [.tok .INT_NUMBER "0x1".toList]]⟩) rfl
  exact Full.C67_module hw (fuel := fuel) (expected := expected) (by
    intro e he
    rcases List.mem_cons.1 he with rfl | he
    · intro h'; cases h'.2
    · rcases List.mem_cons.1 he with rfl | he
      · exact hug
      · exact hanc e he) (by simp) rfl ha hA (refName_qualified _ _ _ _) e

/-! ### A statement for the module is there already -/

/-- The alias in a use speck. -/
inductive Alias (r : Elem) : Option Text → Prop where
  | none : nodeChild r .USE_ALIAS = none → Alias r none
  | some {a n} : nodeChild r .USE_ALIAS = some a → nodeChild a .NAME = some n → Alias r (some n.green.text)

/-- A use speck of a group that is a name, perhaps with an alias. -/
inductive Named (r : Elem) : Text × Option Text → Prop where
  | mk {p ref k t a} : nodeChild r .USE_GROUP = none → nodeChild r .PATH = some p → nodeChild p .PATH = none →
      pathNameRef p = some ref → ref.green.children = [.tok k t] → Alias r a → Named r (t, a)

/-- The use speck of the statement, the path of the module and what the statement imports from it, with aliases. -/
inductive Listed (s : Elem) : Elem → Elem → List (Text × Option Text) → Prop where
  | module {r p q a} : nodeChild s .USE_SPECK = some r → nodeChild r .PATH = some p → nodeChild r .USE_GROUP = none →
      nodeChild p .PATH = some q → nodeChild q .PATH = none → Alias r a → Listed s r p [("Self".toList, a)]
  | item {r p q x ref k t a} : nodeChild s .USE_SPECK = some r → nodeChild r .PATH = some p → nodeChild r .USE_GROUP = none →
      nodeChild p .PATH = some q → nodeChild q .PATH = some x → pathNameRef p = some ref → ref.green.children = [.tok k t] → Alias r a →
      Listed s r q [(t, a)]
  | group {r p g names} : nodeChild s .USE_SPECK = some r → nodeChild r .PATH = some p → nodeChild r .USE_GROUP = some g →
      List.Forall₂ Named (g.children.filter (isNode .USE_SPECK)) names → Listed s r p names

/-- A name with its alias. -/
def withAlias (x : Text × Option Text) : Text := x.1 ++ match x.2 with
  | none => []
  | some a => " as ".toList ++ a

theorem alias_eq {r : Elem} {a : Option Text} (h : Alias r a) : groupNames.aliasText (nodeChild r .USE_ALIAS) = a := by
  cases h with
  | none h => rw [h]; rfl
  | some h1 h2 => rw [h1]; simp [groupNames.aliasText, h2]

theorem firstText_eq {r : Elem} {k : SyntaxKind} {t : Text} (h : r.green.children = [.tok k t]) : firstText r = t := by
  unfold firstText
  rw [h]

theorem groupName_eq {r : Elem} {x : Text × Option Text} (h : Named r x) :
    ∃ y, groupName r = some y ∧ (firstText y.1, groupNames.aliasText y.2) = x := by
  cases h with
  | @mk p ref k t a h1 h2 h3 h4 h5 h6 =>
    refine ⟨(ref, nodeChild r .USE_ALIAS), ?_, ?_⟩
    · unfold groupName
      rw [h2, Option.bind_some, h1, h3, h4]
      rfl
    · rw [firstText_eq h5, alias_eq h6]

theorem groupNames_eq {rs : List Elem} {names : List (Text × Option Text)} (h : List.Forall₂ Named rs names) :
    (rs.filterMap groupName).map (fun n => (firstText n.1, groupNames.aliasText n.2)) = names := by
  induction h with
  | nil => rfl
  | cons h1 _ ih =>
    obtain ⟨y, h2, h3⟩ := groupName_eq h1
    rw [List.filterMap_cons, h2, List.map_cons, ih, h3]

theorem listed_names {s r p : Elem} {names : List (Text × Option Text)} (h : Listed s r p names) (new : Text) :
    nodeChild s .USE_SPECK = some r ∧ ∃ k, speckKind r = some k ∧ groupNames new k = (p, names ++ [(new, none)]) := by
  cases h with
  | module h1 h2 h3 h4 h5 h6 =>
    refine ⟨h1, .module p (nodeChild r .USE_ALIAS), ?_, ?_⟩
    · simp [speckKind, h2, h3, h4, h5]
    · rw [groupNames, alias_eq h6]
      rfl
  | @item p' _ x ref k t a h1 h2 h3 h4 h5 h6 h7 h8 =>
    refine ⟨h1, .item p (some ref) (nodeChild r .USE_ALIAS), ?_, ?_⟩
    · simp [speckKind, h2, h3, h4, h5, h6]
    · simp [groupNames, alias_eq h8, firstText_eq h7]
  | @group _ g _ h1 h2 h3 h4 =>
    refine ⟨h1, .group p ((g.children.filter (isNode .USE_SPECK)).filterMap groupName), ?_, ?_⟩
    · simp [speckKind, h2, h3]
    · rw [groupNames, groupNames_eq h4]

theorem joinComma_eq (ts : List Text) : joinComma ts = (", ".toList).intercalate ts := by
  match ts with
  | [] => rfl
  | [t] => simp [joinComma, List.intercalate]
  | t :: u :: us =>
    rw [joinComma, joinComma_eq (u :: us)]
    · simp [List.intercalate, List.intersperse]
    · simp

theorem nameWithAlias_eq (x : Text × Option Text) : nameWithAlias x = withAlias x := by
  obtain ⟨n, a⟩ := x
  cases a <;> simp [nameWithAlias, withAlias]

/-- The last statement for the module. -/
structure LastImport (o : Elem) (module : Text) (test : Bool) (s : Elem) : Prop where
  split : ∃ l r, o.children = l ++ s :: r ∧ ∀ y ∈ r, ¬ Imports module test y
  imports : Imports module test s

theorem existing_last {o s : Elem} {module : Text} {test : Bool} (h : LastImport o module test s) : existing o module test = some s := by
  obtain ⟨⟨l, r, h1, h2⟩, h3⟩ := h
  have key : ∀ y, y ∈ o.children → ((isNode .USE_STMT y && ((modulePath y).any (fun p => decide (p.green.text = module)) &&
      !nameOnlyAttr "verify_only" y.green && (nameOnlyAttr "test_only" y.green == test))) = true ↔ Imports module test y) := by
    intro y hy
    have := imports_iff o module test y
    unfold useStmts at this
    rw [List.mem_filter, List.mem_filter] at this
    rw [Bool.and_eq_true]
    constructor
    · rintro ⟨h4, h5⟩
      exact (this.1 ⟨⟨hy, h4⟩, h5⟩).2
    · intro h4
      have := this.2 ⟨hy, h4⟩
      exact ⟨this.1.2, this.2⟩
  unfold existing useStmts
  rw [List.filter_filter, h1, List.filter_append, List.filter_cons_of_pos]
  · have : r.filter (fun a => ((modulePath a).any (fun p => decide (p.green.text = module)) &&
      !nameOnlyAttr "verify_only" a.green && (nameOnlyAttr "test_only" a.green == test)) && isNode .USE_STMT a) = [] := by
      rw [List.filter_eq_nil_iff]
      intro y hy h4
      rw [Bool.and_comm] at h4
      exact h2 y hy ((key y (by rw [h1]; simp [hy])).1 h4)
    rw [this]
    simp
  · rw [Bool.and_comm]
    exact (key s (by rw [h1]; simp)).2 h3

/-- **C69.** If there is a statement for the module, then the last one becomes a group of what it imports and of the new name, in this
order and with the aliases: its use speck is replaced by what the parser has for that text. -/
theorem C69_group {g : List Char → Nat} (hg : Graphemes g) (hb : AsciiBreaks g) (debug : Bool) {tree : Green} {o s r p : Elem}
    {anc : List Elem} {a b : Text} {A : Green} (h : Lead a A) (hb' : NewName b) {c : Option Text} (hc : ∀ y ∈ c, NewName y) (test : Bool)
    (hs : LastImport o (fullText a b none) test s) {names : List (Text × Option Text)} (hl : Listed s r p names) :
    addImport (parser g debug) tree (o :: anc) (a :: b :: c.toList) test =
      match make (parser g debug) .USE_SPECK (itemText ("use ".toList ++ p.green.text ++ "::{".toList ++
        (", ".toList).intercalate ((names ++ [(c.getD "Self".toList, none)]).map withAlias) ++ ['}'])) with
      | none => .panic
      | some u => .edit [.replace (r :: s :: o :: anc) (some u)] := by
  rw [addImport_eq hg hb debug tree _ h hb' hc]
  have ho : Site.elem (o :: anc) = o := rfl
  unfold addFor
  rw [ho, show (pathTo A b).text = fullText a b none from full_text h none, existing_last hs]
  dsimp only
  refine Eq.trans (congrArg (addGroupItem (parser g debug) (s :: o :: anc)) (a₂ := c.getD "Self".toList) (by cases c <;> rfl)) ?_
  obtain ⟨h1, k, h2, h3⟩ := listed_names hl (c.getD "Self".toList)
  unfold addGroupItem Ide.Organize.rootSpeck
  have hse : Site.elem (s :: o :: anc) = s := rfl
  rw [hse, h1, Option.map_some]
  dsimp only
  have hre : Site.elem (r :: s :: o :: anc) = r := rfl
  rw [hre, h2]
  dsimp only
  rw [h3]
  unfold groupText
  rw [joinComma_eq, List.map_congr_left fun x _ => nameWithAlias_eq x]
  split <;> simp_all

theorem Listed.parts {s r p : Elem} {names : List (Text × Option Text)} (h : Listed s r p names) :
    nodeChild s .USE_SPECK = some r ∧ ModuleOf s p := by
  cases h with
  | module h1 h2 h3 h4 h5 _ => exact ⟨h1, .module h1 h2 h3 h4 h5⟩
  | item h1 h2 h3 h4 h5 _ _ _ => exact ⟨h1, .item h1 h2 h3 h4 h5⟩
  | group h1 h2 h3 _ => exact ⟨h1, .group h1 h2 h3⟩

theorem LastImport.module {o s p : Elem} {m : Text} {test : Bool} (h : LastImport o m test s) (hp : ModuleOf s p) : p.green.text = m := by
  obtain ⟨q, hq, ht⟩ := h.imports.module
  have h1 := (modulePath_iff s p).2 hp
  rw [(modulePath_iff s q).2 hq] at h1
  cases h1
  exact ht

theorem Owner.speck {tree : Green} {o s r : Elem} {anc : List Elem} (h : Owner tree o anc) (hm : s ∈ o.children) (hk : s.kind = .USE_STMT)
    (hr : nodeChild s .USE_SPECK = some r) : Known tree (r :: s :: o :: anc) := by
  obtain ⟨h1, h2⟩ := Full.nodeChild_mem hr
  refine ⟨.child (.child h.chain hm) h1, ?_⟩
  unfold Editor.Unique
  dsimp only
  have he : Site.elem (r :: s :: o :: anc) = r := rfl
  rw [he, h2.1]
  simp only [Bool.false_eq_true, if_false, List.tail_cons]
  intro e hm' hh
  rw [he, h2.2] at hh
  rcases List.mem_cons.1 hm' with rfl | hm'
  · rw [hk] at hh
    cases hh.1
  rcases List.mem_cons.1 hm' with rfl | hm'
  · have := h.kind
    simp only [holdsItems, isNode, Bool.or_eq_true, Bool.and_eq_true, decide_eq_true_eq] at this
    rw [hh.1] at this
    simp at this
  · rcases h.outer e hm' with h | h <;> (rw [h] at hh; cases hh.1)

/-- Replacing the use speck of a statement changes nothing else in the file. -/
theorem replaced {tree : Green} {o s r : Elem} {anc : List Elem} (hs : Solid tree) (ho : Owner tree o anc) (hm : s ∈ o.children)
    (hk : s.kind = .USE_STMT) (hr : nodeChild s .USE_SPECK = some r) (u : Green) :
    ∃ new a b, finish tree [.replace (r :: s :: o :: anc) (some u)] = .done new ∧ tree.leaves = a ++ r.green.leaves ++ b ∧
      blen (leafText a) = r.start ∧ encode new.text = encode (leafText a ++ u.text ++ leafText b) := by
  have hkn := ho.speck hm hk hr
  obtain ⟨l, r', h1, h2, -⟩ := chain_leaves hkn.chain hs
  obtain ⟨new, es, h4, h5, -, h6⟩ := C68_all hs (cs := [.replace (r :: s :: o :: anc) (some u)]) (by
    intro c hc
    rw [List.mem_singleton] at hc
    subst hc
    refine ⟨fun e he => ?_, fun e he => (by cases he), fun e he => (by cases he)⟩
    cases he
    exact ⟨hkn, by simp⟩) (List.pairwise_singleton _ _)
  refine ⟨new, l, r', h4, h1, h2.symm, ?_⟩
  rw [List.map_singleton, List.perm_singleton] at h5
  rw [h5] at h6
  have htext : tree.text = leafText l ++ (r.green.text ++ leafText r') := by
    show leafText tree.leaves = _
    rw [h1, leafText_append, leafText_append, List.append_assoc]
    rfl
  have hoff : (Change.replace (r :: s :: o :: anc) (some u)).text = ⟨r.start, r.stop, encode u.text⟩ := by
    unfold Change.text
    simp [texts, Site.elem]
  rw [hoff] at h6
  simp only [TextEdit.Spec.splice, Nat.sub_zero] at h6
  have hstop : r.stop = blen (leafText l ++ r.green.text) := by
    rw [blen_append, ← h2]
    rfl
  rw [htext, h2, Ide.Rename.take_at, hstop, ← List.append_assoc, Ide.Rename.drop_at] at h6
  rw [h6]
  simp only [TextEdit.TreeDiff.encode_append]

/-- **C69.** If the parser can read the group, then the statement that is there takes in the new name and nothing else in the file
changes. Missing: that the parser reads every group. -/
theorem C69_group_partial {g : List Char → Nat} (hg : Graphemes g) (hb : AsciiBreaks g) (debug : Bool) {tree : Green} {o s r p : Elem}
    {anc : List Elem} {a b : Text} {A : Green} (h : Lead a A) (hb' : NewName b) {c : Option Text} (hc : ∀ y ∈ c, NewName y) (test : Bool)
    (ht : Solid tree) (ho : Owner tree o anc) (hs : LastImport o (fullText a b none) test s) {names : List (Text × Option Text)}
    (hl : Listed s r p names) {u : Green}
    (hu : make (parser g debug) .USE_SPECK (itemText ("use ".toList ++ p.green.text ++ "::{".toList ++
        (", ".toList).intercalate ((names ++ [(c.getD "Self".toList, none)]).map withAlias) ++ ['}'])) = some u) :
    ∃ cs new x y, addImport (parser g debug) tree (o :: anc) (a :: b :: c.toList) test = .edit cs ∧ finish tree cs = .done new ∧
      tree.leaves = x ++ r.green.leaves ++ y ∧ blen (leafText x) = r.start ∧ encode new.text = encode (leafText x ++ u.text ++ leafText y) := by
  have h1 := C69_group hg hb debug (tree := tree) (anc := anc) h hb' hc test hs hl
  rw [hu] at h1
  have hm : s ∈ o.children := by
    obtain ⟨l, r, h2, -⟩ := hs.split
    rw [h2]
    simp
  obtain ⟨new, x, y, h2, h3, h4, h5⟩ := replaced ht ho hm hs.imports.use.2 hl.parts.1 u
  exact ⟨_, new, x, y, h1, h2, h3, h4, h5⟩

/-- What a statement of one name imports: the module itself or one item. -/
inductive Pair : Text → Option Text → Prop where
  | items {c d} : NewName c → NewName d → Pair c (some d)
  | item {d} : NewName d → Pair "Self".toList (some d)
  | module {c} : NewName c → Pair c none

theorem make_group {g : List Char → Nat} (hg : Graphemes g) (hb : AsciiBreaks g) (debug : Bool) {a b c : Text} {A : Green} (h : Lead a A)
    (hb' : NewName b) {d : Option Text} (hd : Pair c d) :
    make (parser g debug) .USE_SPECK (itemText ("use ".toList ++ pairText a b c (d.getD "Self".toList))) =
      some (pairSpeck A b c (d.getD "Self".toList)) := by
  cases hd with
  | items h1 h2 => exact make_pair hg hb debug h hb' h1 h2
  | item h1 => exact make_self hg hb debug h hb' h1
  | module h1 => exact make_with_self hg hb debug h hb' h1

/-- **C69.** `use a::m;` becomes `use a::m::{Self, d};`, `use a::m::c;` becomes `use a::m::{c, d};` and, if the module is what is to be
imported, `use a::m::{c, Self};`; nothing else in the file changes. Missing: as for new statements. -/
theorem C69_pair_partial {g : List Char → Nat} (hg : Graphemes g) (hb : AsciiBreaks g) (debug : Bool) {tree : Green} {o s r p : Elem}
    {anc : List Elem} {a b c : Text} {A : Green} (h : Lead a A) (hb' : NewName b) {d : Option Text} (hd : Pair c d) (test : Bool)
    (ht : Solid tree) (ho : Owner tree o anc) (hs : LastImport o (fullText a b none) test s) (hl : Listed s r p [(c, none)]) :
    ∃ cs new x y, addImport (parser g debug) tree (o :: anc) (a :: b :: d.toList) test = .edit cs ∧ finish tree cs = .done new ∧
      tree.leaves = x ++ r.green.leaves ++ y ∧ blen (leafText x) = r.start ∧
      encode new.text = encode (leafText x ++ (a ++ "::".toList ++ b ++ "::{".toList ++ c ++ ", ".toList ++ d.getD "Self".toList ++ ['}']) ++
        leafText y) := by
  have hp := hs.module hl.parts.2
  have hu := make_group hg hb debug h hb' hd
  have e : ∀ (u v w x c d k q : Text), u ++ (a ++ (x ++ (b ++ (v ++ (c ++ (w ++ (d ++ k))))))) =
      u ++ (a ++ (x ++ b)) ++ v ++ (w.intercalate [c, d]) ++ k := by
    intro u v w x c d k q
    simp [List.intercalate, List.intersperse]
  have hd' : ∀ y ∈ d, NewName y := by
    intro y hy
    cases hd with
    | items h1 h2 => cases hy; exact h2
    | item h1 => cases hy; exact h1
    | module h1 => cases hy
  have ew : ([(c, none)] ++ [(d.getD "Self".toList, none)]).map withAlias = [c, d.getD "Self".toList] := by
    simp [withAlias]
  have h1 := C69_group_partial hg hb debug h hb' hd' test ht ho hs hl (u := pairSpeck A b c (d.getD "Self".toList)) (by
    rw [hp, ew, ← hu]
    congr 2
    exact (e _ _ _ _ _ _ _ []).symm)
  obtain ⟨cs, new, x, y, h2, h3, h4, h5, h6⟩ := h1
  refine ⟨cs, new, x, y, h2, h3, h4, h5, ?_⟩
  rw [h6, pairSpeck_text h]
  unfold pairText
  simp only [List.append_assoc]

/-! ### From the fix to the file -/

/-- A module, a module specification or a script. -/
def Holds (e : Elem) : Prop := Is .MODULE e ∨ Is .MODULE_SPEC e ∨ Is .SCRIPT e

theorem holds_iff (e : Elem) : holdsItems e = true ↔ Holds e := by
  simp only [holdsItems, Holds, Bool.or_eq_true, isNode_iff, or_assoc]

theorem dropWhile_split {α : Type} {p : α → Bool} {l r : List α} {x : α} (h : l.dropWhile p = x :: r) :
    l = l.takeWhile p ++ x :: r ∧ p x = false := by
  refine ⟨by rw [← h, List.takeWhile_append_dropWhile], ?_⟩
  have := List.head_dropWhile_not (p := p) (l := l) (by rw [h]; simp)
  simpa [h] using this

/-- **C69.** The statement goes to the nearest module, module specification or script around the name. It is for tests only when the name
is in a test and the module is not. Missing: nodes that share their kind and range with another node (see `C42_collision_fails`). -/
theorem C69_where_partial {P : Text → Option Green} {w : Names} {file : Nat} {p : Elem} {anc : List Elem} {F : List (List Text × Fix)}
    (hF : fixes P w file (p :: anc) = some F) : ∃ l o r, anc = l ++ o :: r ∧ Holds o ∧ (∀ e ∈ l, ¬ Holds e) ∧
      (Chain (w.tree file) (p :: anc) → p.green.isTok = false → OnlyPtr (w.tree file) p anc → OnlyPtr (w.tree file) o r →
        ∃ test : Bool, (test = true ↔ Nearest (o :: r) .Main ∧ Nearest (p :: anc) .Test) ∧
          ∀ name x, (name, x) ∈ F → x = addImport P (w.tree file) (o :: r) name test) := by
  unfold fixes at hF
  cases ho : offered w file (p :: anc) with
  | none => rw [ho] at hF; cases hF
  | some L =>
    rw [ho, Option.bind_some] at hF
    cases hi : itemsOwner (p :: anc) with
    | none => rw [hi] at hF; cases hF
    | some s =>
      rw [hi] at hF
      simp only [Option.bind_some, List.head?_cons, Option.map_some, Option.some.injEq] at hF
      obtain ⟨o, r, hd, rfl⟩ : ∃ o r, anc.dropWhile (fun e => !holdsItems e) = o :: r ∧ s = o :: r := by
        unfold itemsOwner at hi
        rw [List.tail_cons] at hi
        cases hd : anc.dropWhile (fun e => !holdsItems e) with
        | nil => rw [hd] at hi; cases hi
        | cons o r =>
          rw [hd] at hi
          cases hi
          exact ⟨o, r, rfl, rfl⟩
      obtain ⟨h1, h2⟩ := dropWhile_split hd
      have ho' : Holds o := (holds_iff o).1 (by simpa using h2)
      refine ⟨_, o, r, h1, ho', ?_, ?_⟩
      · intro e he hh
        have := (List.all_eq_true.1 (List.all_takeWhile (p := fun e => !holdsItems e) (l := anc))) e he
        rw [(holds_iff e).2 hh] at this
        cases this
      · intro hc ht h3 h4
        have hoc : Chain (w.tree file) (o :: r) := by
          rw [h1] at hc
          exact chain_suffix (l := p :: _) hc
        have hot : o.green.isTok = false := by
          rcases ho' with h | h | h <;> exact h.1
        refine ⟨forTests (w.tree file) p o, ?_, ?_⟩
        · unfold forTests
          rw [Bool.and_eq_true, decide_eq_true_eq, decide_eq_true_eq, C42_nearest_partial _ _ _ hoc hot h4, C42_nearest_partial _ _ _ hc ht h3]
        · intro name x hx
          rw [← hF, List.mem_map] at hx
          obtain ⟨n, -, hn⟩ := hx
          cases hn
          rfl

end Verif.Nameres.AutoImport
