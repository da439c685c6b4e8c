import Verif.Ide.SymbolsProps
import Verif.Ide.OutlineProps
import Verif.Nameres.ResolveProps

/-! C71: what is in the index, and the answers to a search for workspace symbols. -/

namespace Verif.Symbols
open Verif Verif.Syntax Verif.Nameres
open Verif.Parser (Green Piece)
open Verif.Nameres.AutoImport (addressIdent)
open Verif.Nameres.Full (Is isNode_iff nodeChild_mem locate chain_eq InSpecBlock mem_itemsOfKind mem_specDecls allModules_module)
open Verif.Outline (LspKind lspKind symbolKind NameOf ShownAs nodeChild_spec nodeChild_of shown_of)
open Verif.Ide.Usages (Parsed parseOf parseOf_parsed)

/-! ### Specification -/

/-- The items of a module, each with the nodes between it and the module: constants, types, schemas, functions, specification
functions and lemmas, and the functions and lemmas that `spec module` blocks declare. -/
inductive ItemOf (m : Elem) : Elem → List Elem → Prop where
  | item {i} : i ∈ m.children → Is .CONST i ∨ Is .ENUM i ∨ Is .STRUCT i ∨ Is .SCHEMA i ∨ Is .FUN i ∨ Is .SPEC_FUN i → ItemOf m i []
  | lemma_ {l i} : l ∈ m.children → Is .SPEC_LEMMA l → nodeChild l .LEMMA = some i → ItemOf m i [l]
  | block {s b i} : s ∈ m.children → Is .ITEM_SPEC s → (∃ t ∈ s.children, isToken .MODULE_KW t = true) →
      nodeChild s .BLOCK_EXPR = some b → i ∈ b.children → Is .SPEC_INLINE_FUN i ∨ Is .LEMMA i → ItemOf m i [b, s]

/-- The list of the named fields: the first list of fields, if it has named fields. -/
def FieldList (e l : Elem) : Prop :=
  ∃ pre post, e.children = pre ++ l :: post ∧ Is .NAMED_FIELD_LIST l ∧ ∀ x ∈ pre, ¬ Is .NAMED_FIELD_LIST x ∧ ¬ Is .TUPLE_FIELD_LIST x

/-- The declarations that can be searched for: modules, items of modules, fields of structs and variants, and variants. All of them
have names. -/
inductive Declared (g : Green) : List Elem → Prop where
  | top {m n} : m ∈ (Elem.root g).children → Is .MODULE m → NameOf m n → Declared g [m, Elem.root g]
  | inner {d m n} : d ∈ (Elem.root g).children → Is .ADDRESS_DEF d → m ∈ d.children → Is .MODULE m → NameOf m n →
      Declared g [m, d, Elem.root g]
  | item {m c i p n} : Declared g (m :: c) → Is .MODULE m → ItemOf m i p → NameOf i n → Declared g (i :: (p ++ m :: c))
  | field {s c l f n} : Declared g (s :: c) → Is .STRUCT s ∨ Is .VARIANT s → FieldList s l → f ∈ l.children → Is .NAMED_FIELD f →
      NameOf f n → Declared g (f :: l :: s :: c)
  | variant {e c l v n} : Declared g (e :: c) → Is .ENUM e → nodeChild e .VARIANT_LIST = some l → v ∈ l.children → Is .VARIANT v →
      NameOf v n → Declared g (v :: l :: e :: c)

/-- The node is the one that contains declarations. -/
def holds (e : Elem) : Bool := isNode .MODULE e || isNode .STRUCT e || isNode .ENUM e || isNode .VARIANT e

/-- The name of what a declaration is in: the address for a module, and the module or type or variant around it for others. -/
def containerOf : List Elem → Option (List Char)
  | [] => none
  | e :: anc => if isNode .MODULE e then (moduleAddress (e :: anc)).map addressIdent else (anc.find? holds).bind nameText

/-- The answer says where the declaration is and what it is. -/
def Answers (x : Nat × List Elem) (a : Answer) : Prop :=
  ∃ e anc n, x.2 = e :: anc ∧ NameOf e n ∧ a.name = n.green.text ∧ ShownAs e.kind (anc.head?.map Elem.kind) a.kind ∧ a.file = x.1 ∧
    a.range = (n.start, n.stop)

/-- The declaration has a name that is shown for the query. -/
def Wanted (query : List Char) (c : List Elem) : Prop := ∃ e anc n, c = e :: anc ∧ NameOf e n ∧ Shown query n.green.text

/-- Declarations are in the order of their names in lower case. -/
def NamesLe (x y : Nat × List Elem) : Prop :=
  ∀ e anc n e' anc' n', x.2 = e :: anc → y.2 = e' :: anc' → NameOf e n → NameOf e' n' →
    n.green.text.map (fun c => c.toLower.toNat) ≤ n'.green.text.map fun c => c.toLower.toNat

/-! ### Names are ASCII -/

open Verif.Parser Verif.Lexer in
theorem leaf_ident {ps ls : List Piece} (hf : ∀ p ∈ ps, Fine p) (h : Regroups ps ls) : ∀ x ∈ ls, x.kind = .IDENT →
    ∀ c ∈ x.text, c.toNat < 128 := by
  intro x hx hk
  have small : ∀ c : Char, isLetter c = true ∨ c = '_' ∨ isDigit c = true → c.toNat < 128 := by
    intro c hc
    have le : ∀ {a b : Char}, a ≤ b → a.toNat ≤ b.toNat := by
      intro a b h
      exact UInt32.le_iff_toNat_le.1 (Char.le_def.1 h)
    rcases hc with hc | rfl | hc
    · simp only [isLetter, Bool.or_eq_true, Bool.and_eq_true, decide_eq_true_eq] at hc
      rcases hc with ⟨_, h⟩ | ⟨_, h⟩
      · exact lt_of_le_of_lt (le h) (by decide)
      · exact lt_of_le_of_lt (le h) (by decide)
    · decide
    · simp only [isDigit, Bool.and_eq_true, decide_eq_true_eq] at hc
      exact lt_of_le_of_lt (le hc.2) (by decide)
  rcases Verif.Syntax.leaf_group h x hx with ⟨-, h1⟩ | ⟨run, h1, h2, h3⟩
  · rw [hk] at h1; exact absurd h1 (by decide)
  · rw [hk] at h2
    generalize hkk : SyntaxKind.IDENT = k at h2
    cases h2 with
    | same t =>
      obtain ⟨rest, hd⟩ := (hf t (h1 t (by simp))).described
      obtain ⟨⟨c, cs, h4, h5, h6⟩, -⟩ := hd.ident hkk.symm
      rw [h3]
      simp only [List.map_cons, List.map_nil, List.flatten_cons, List.flatten_nil, List.append_nil]
      rw [h4]
      intro d hd
      rcases List.mem_cons.1 hd with rfl | hd
      · exact small _ (by tauto)
      · exact small _ (h6 d hd)
    | operator k w run h4 =>
      subst hkk
      have : ∀ y ∈ Verif.Parser.operators, y.1 ≠ .IDENT := by decide
      exact absurd rfl (this _ h4)
    | word k w t h4 =>
      subst hkk
      have : ∀ y ∈ Verif.Parser.contextual, y.1 ≠ .IDENT := by decide
      exact absurd rfl (this _ h4)
    | name t ht =>
      obtain ⟨rest, hd⟩ := (hf t (h1 t (by simp))).described
      rw [h3]
      simp only [List.map_cons, List.map_nil, List.flatten_cons, List.flatten_nil, List.append_nil]
      rcases ht with ht | ht
      · rw [(hd.keyword ['_'] (by rw [ht]; decide)).1]; decide
      · rw [(hd.keyword "friend".toList (by rw [ht]; decide +kernel)).1]; decide +kernel
    | wildcard => cases hkk

open Verif.Parser in
theorem parsed_ident {g : Green} (hp : Parsed g) {n : Elem} {l : List Elem} (hn : Chain g (n :: l)) (hk : n.kind = .NAME) :
    ∃ w, n.green = .node .NAME [.tok .IDENT w] ∧ ∀ c ∈ w, c.toNat < 128 := by
  obtain ⟨gr, debug, text, fuel, errs, h1, h2, h3, h4⟩ := hp
  obtain ⟨w, hw⟩ := (Verif.Syntax.C72_names h1 h2 h3 h4 hn).1 hk
  refine ⟨w, hw, ?_⟩
  rcases parseText_spec h1 h2 debug text h3 with ⟨h5, -⟩ | ⟨raw, ps, hr, hps, -, hfine, ⟨cs, e, h5, h6⟩ | ⟨w, h5, -⟩⟩
  · rw [h4] at h5; cases h5
  · rw [h4] at h5
    cases h5
    have hm := Verif.Ide.Extend.chain_leaves hn ⟨.IDENT, w⟩ (by rw [hw]; simp [Green.leaves, Green.leavesList])
    rw [Green.leaves] at hm
    exact leaf_ident hfine h6 ⟨.IDENT, w⟩ hm rfl
  · rw [h4] at h5; cases h5

/-! ### The collector -/

theorem nameText_parsed {g : Green} (hp : Parsed g) {e : Elem} {l : List Elem} (h : Chain g (e :: l)) {n : Elem} (hn : NameOf e n) :
    nameText e = some n.green.text ∧ (∀ c ∈ n.green.text, c.toNat < 128) ∧
      ∃ t, (nodeChild e .NAME).bind (fun n => tokenChild n .IDENT) = some t ∧ t.start = n.start ∧ t.stop = n.stop := by
  have h1 := nodeChild_of hn
  obtain ⟨h2, h3⟩ := nodeChild_mem h1
  obtain ⟨w, h4, h5⟩ := parsed_ident hp (.child h h2) h3.2
  have h6 : tokenChild n .IDENT = some ⟨0 :: n.path, n.start, .tok .IDENT w⟩ := by
    simp [tokenChild, Elem.children, h4, placed, Green.children, isToken, Elem.kind, Green.kind, Green.isTok]
  have h7 : n.green.text = w := by simp [h4, Green.text, Green.leaves, Green.leavesList]
  refine ⟨?_, by rwa [h7], ⟨0 :: n.path, n.start, .tok .IDENT w⟩, by rw [h1]; exact h6, rfl, ?_⟩
  · rw [nameText, h1, Option.map_some, h6, h7]
    simp [Green.text, Green.leaves]
  · simp only [Elem.stop, Green.len]
    rw [h7]
    simp [Green.text, Green.leaves]

theorem nameText_some {e : Elem} : (nameText e).isSome ↔ ∃ n, NameOf e n := by
  unfold nameText
  rw [Option.isSome_map]
  constructor
  · intro h
    obtain ⟨n, hn⟩ := Option.isSome_iff_exists.1 h
    exact ⟨n, nodeChild_spec hn⟩
  · rintro ⟨n, hn⟩
    rw [nodeChild_of hn]
    rfl

theorem fieldList_iff (e f : Elem) : f ∈ namedFields e ↔ ∃ l, FieldList e l ∧ f ∈ l.children ∧ Is .NAMED_FIELD f := by
  unfold namedFields
  have key : ∀ l, (e.children.find? (fun c => isNode .NAMED_FIELD_LIST c || isNode .TUPLE_FIELD_LIST c) = some l ∧
      isNode .NAMED_FIELD_LIST l = true) ↔ FieldList e l := by
    intro l
    rw [List.find?_eq_some_iff_append]
    constructor
    · rintro ⟨⟨-, pre, post, h2, h3⟩, h4⟩
      refine ⟨pre, post, h2, (isNode_iff _ _).1 h4, fun x hx => ?_⟩
      have := h3 x hx
      simpa [← isNode_iff] using this
    · rintro ⟨pre, post, h2, h3, h4⟩
      have h5 := (isNode_iff _ _).2 h3
      refine ⟨⟨by simp [h5], pre, post, h2, fun x hx => ?_⟩, h5⟩
      have := h4 x hx
      simpa [← isNode_iff] using this
  constructor
  · intro h
    split at h
    · next l hl =>
      split at h
      · next hk =>
        obtain ⟨h1, h2⟩ := List.mem_filter.1 h
        exact ⟨l, (key l).1 ⟨hl, hk⟩, h1, (isNode_iff _ _).1 h2⟩
      · cases h
    · cases h
  · rintro ⟨l, h1, h2, h3⟩
    obtain ⟨h4, h5⟩ := (key l).2 h1
    rw [h4]
    dsimp only
    rw [if_pos h5]
    exact List.mem_filter.2 ⟨h2, (isNode_iff _ _).2 h3⟩

theorem variants_iff (e v : Elem) : v ∈ variants e ↔ ∃ l, nodeChild e .VARIANT_LIST = some l ∧ v ∈ l.children ∧ Is .VARIANT v := by
  unfold variants
  cases nodeChild e .VARIANT_LIST with
  | none => simp
  | some l => simp [isNode_iff]

theorem items_iff (m i : Elem) : i ∈ namedItems m ↔ ∃ p, ItemOf m i p := by
  unfold namedItems
  simp only [List.mem_append, mem_specDecls, mem_itemsOfKind, List.mem_filterMap]
  constructor
  · rintro ((((((((h | h) | h) | h) | h) | h) | ⟨⟨s, h1, h2, h3, b, h4, h5⟩, h6⟩) | ⟨l, ⟨h1, h2⟩, h3⟩) | ⟨⟨s, h1, h2, h3, b, h4, h5⟩, h6⟩)
    · exact ⟨_, .item h.1 (.inl h.2)⟩
    · exact ⟨_, .item h.1 (.inr (.inl h.2))⟩
    · exact ⟨_, .item h.1 (.inr (.inr (.inl h.2)))⟩
    · exact ⟨_, .item h.1 (.inr (.inr (.inr (.inl h.2))))⟩
    · exact ⟨_, .item h.1 (.inr (.inr (.inr (.inr (.inl h.2)))))⟩
    · exact ⟨_, .item h.1 (.inr (.inr (.inr (.inr (.inr h.2)))))⟩
    · exact ⟨_, .block h1 h2 h3 h4 h5 (.inl h6)⟩
    · exact ⟨_, .lemma_ h1 h2 h3⟩
    · exact ⟨_, .block h1 h2 h3 h4 h5 (.inr h6)⟩
  · rintro ⟨p, h⟩
    cases h with
    | item h1 h2 => rcases h2 with h | h | h | h | h | h <;> simp [h1, h]
    | lemma_ h1 h2 h3 => exact .inl (.inr ⟨_, ⟨h1, h2⟩, h3⟩)
    | block h1 h2 h3 h4 h5 h6 =>
      rcases h6 with h6 | h6
      · exact .inl (.inl (.inr ⟨⟨_, h1, h2, h3, _, h4, h5⟩, h6⟩))
      · exact .inr ⟨⟨_, h1, h2, h3, _, h4, h5⟩, h6⟩

theorem modules_iff (root m : Elem) (c : List Elem) : m :: c ∈ allModules root ↔
    (c = [root] ∧ m ∈ root.children ∧ Is .MODULE m) ∨
    ∃ d, c = [d, root] ∧ d ∈ root.children ∧ Is .ADDRESS_DEF d ∧ m ∈ d.children ∧ Is .MODULE m := by
  unfold allModules
  simp only [List.mem_append, List.mem_map, List.mem_filter, List.mem_flatMap, isNode_iff]
  constructor
  · rintro (⟨x, h1, h2⟩ | ⟨d, h1, x, h2, h3⟩)
    · cases h2; exact .inl ⟨rfl, h1⟩
    · cases h3; exact .inr ⟨d, rfl, h1.1, h1.2, h2⟩
  · rintro (⟨rfl, h1⟩ | ⟨d, rfl, h1, h2, h3⟩)
    · exact .inl ⟨m, h1, rfl⟩
    · exact .inr ⟨d, ⟨h1, h2⟩, m, h3, rfl⟩

/-- The symbol of a declaration. -/
def Stands (file : Nat) (c : List Elem) (s : FileSymbol) : Prop :=
  ∃ e anc, c = e :: anc ∧ nameText e = some s.name ∧ s.file = file ∧ s.path = e.path ∧ s.container = containerOf c

theorem mem_own (file : Nat) (o : Option (List Char)) (e : Elem) (s : FileSymbol) :
    s ∈ own file o e ↔ nameText e = some s.name ∧ s.file = file ∧ s.path = e.path ∧ s.container = o := by
  unfold own
  cases nameText e with
  | none => simp
  | some n =>
    obtain ⟨a, b, c, d⟩ := s
    simp [eq_comm]

theorem ItemOf.kind {m i : Elem} {p : List Elem} (h : ItemOf m i p) : ¬ Is .MODULE i ∧ ¬ Is .VARIANT i ∧ ¬ Is .NAMED_FIELD i ∧
    ∀ x ∈ p, holds x = false := by
  cases h with
  | item _ h2 =>
    refine ⟨?_, ?_, ?_, by simp⟩ <;>
      (intro h; rcases h2 with h2 | h2 | h2 | h2 | h2 | h2 <;> exact absurd (h.2.symm.trans h2.2) (by decide))
  | lemma_ _ h2 h3 =>
    have h4 := (nodeChild_mem h3).2
    refine ⟨?_, ?_, ?_, ?_⟩
    · intro h; exact absurd (h.2.symm.trans h4.2) (by decide)
    · intro h; exact absurd (h.2.symm.trans h4.2) (by decide)
    · intro h; exact absurd (h.2.symm.trans h4.2) (by decide)
    · simp [holds, isNode, h2.2]
  | block _ h2 _ h4 _ h6 =>
    have h4 := (nodeChild_mem h4).2
    refine ⟨?_, ?_, ?_, ?_⟩
    · intro h; rcases h6 with h6 | h6 <;> exact absurd (h.2.symm.trans h6.2) (by decide)
    · intro h; rcases h6 with h6 | h6 <;> exact absurd (h.2.symm.trans h6.2) (by decide)
    · intro h; rcases h6 with h6 | h6 <;> exact absurd (h.2.symm.trans h6.2) (by decide)
    · simp [holds, isNode, h2.2, h4.2]

theorem container_item {m i : Elem} {p c : List Elem} (h : ItemOf m i p) (hm : Is .MODULE m) :
    containerOf (i :: (p ++ m :: c)) = nameText m := by
  have h1 : isNode .MODULE i = false := by
    rw [Bool.eq_false_iff, Ne, isNode_iff]; exact h.kind.1
  have h2 : holds m = true := by simp [holds, (isNode_iff _ _).2 hm]
  have h3 : (p ++ m :: c).find? holds = some m := by
    rw [List.find?_append, List.find?_eq_none.2 (by simpa using h.kind.2.2.2)]
    simp [h2]
  simp [containerOf, h1, h3]

theorem container_part {e l x : Elem} {c : List Elem} {k k' : SyntaxKind} (hx : Is k x) (hk : k ≠ .MODULE) (hl : Is k' l)
    (hk' : k' ≠ .MODULE ∧ k' ≠ .STRUCT ∧ k' ≠ .ENUM ∧ k' ≠ .VARIANT) (he : Is .STRUCT e ∨ Is .ENUM e ∨ Is .VARIANT e) :
    containerOf (x :: l :: e :: c) = nameText e := by
  have h1 : isNode .MODULE x = false := by simp [isNode, hx.2, hk]
  have h2 : holds l = false := by simp [holds, isNode, hl.2, hk']
  have h3 : holds e = true := by
    rcases he with h | h | h <;> simp [holds, (isNode_iff _ _).2 h]
  simp [containerOf, h1, h2, h3]

theorem collectVariant_iff (file : Nat) (n : List Char) (v : Elem) (s : FileSymbol) :
    s ∈ collectVariant file n v ↔ s ∈ own file (some n) v ∨ ∃ f ∈ namedFields v, (nameText v).isSome ∧ s ∈ own file (nameText v) f := by
  unfold collectVariant
  cases h : nameText v with
  | none => simp [own, h]
  | some a => simp [List.mem_flatMap]

theorem collectItem_iff (file : Nat) (o : Option (List Char)) (e : Elem) (s : FileSymbol) :
    s ∈ collectItem file o e ↔ s ∈ own file o e ∨ ((nameText e).isSome ∧
      ((Is .STRUCT e ∧ ∃ f ∈ namedFields e, s ∈ own file (nameText e) f) ∨
       (Is .ENUM e ∧ ∃ v ∈ variants e, s ∈ own file (nameText e) v ∨ ∃ f ∈ namedFields v, (nameText v).isSome ∧ s ∈ own file (nameText v) f))) := by
  unfold collectItem
  cases h : nameText e with
  | none => simp [own, h]
  | some n =>
    simp only [List.mem_append, Option.isSome_some, true_and]
    have h1 : s ∈ (if isNode .STRUCT e then (namedFields e).flatMap (own file (some n)) else []) ↔
        Is .STRUCT e ∧ ∃ f ∈ namedFields e, s ∈ own file (some n) f := by
      rw [← isNode_iff]
      split <;> simp_all
    have h2 : s ∈ (if isNode .ENUM e then (variants e).flatMap (collectVariant file n) else []) ↔
        Is .ENUM e ∧ ∃ v ∈ variants e, s ∈ own file (some n) v ∨ ∃ f ∈ namedFields v, (nameText v).isSome ∧ s ∈ own file (nameText v) f := by
      rw [← isNode_iff]
      split
      · next hh => simp only [List.mem_flatMap, collectVariant_iff, hh, true_and]
      · simp_all
    rw [h1, h2]
    exact or_comm

theorem collected (g : Green) (file : Nat) (s : FileSymbol) :
    s ∈ (allModules (Elem.root g)).flatMap (collectModule file) ↔ ∃ c, Declared g c ∧ Stands file c s := by
  rw [List.mem_flatMap]
  have hmod : ∀ {m c}, m :: c ∈ allModules (Elem.root g) → (∃ n, NameOf m n) → Declared g (m :: c) := by
    rintro m c h ⟨n, hn⟩
    rcases (modules_iff _ _ _).1 h with ⟨rfl, h1, h2⟩ | ⟨d, rfl, h1, h2, h3, h4⟩
    · exact .top h1 h2 hn
    · exact .inner h1 h2 h3 h4 hn
  have named : ∀ {e : Elem} {n}, nameText e = some n → ∃ n, NameOf e n := fun h => nameText_some.1 (by rw [h]; rfl)
  have fields : ∀ {e : Elem} {c f}, Declared g (e :: c) → Is .STRUCT e ∨ Is .VARIANT e → f ∈ namedFields e →
      s ∈ own file (nameText e) f → ∃ c, Declared g c ∧ Stands file c s := by
    intro e c f hd hk hf hs
    obtain ⟨l, h1, h2, h3⟩ := (fieldList_iff e f).1 hf
    obtain ⟨h4, h5, h6, h7⟩ := (mem_own ..).1 hs
    obtain ⟨n, hn⟩ := named h4
    refine ⟨_, .field hd hk h1 h2 h3 hn, f, _, rfl, h4, h5, h6, ?_⟩
    obtain ⟨pre, post, h8, h9, -⟩ := h1
    rw [h7, container_part h3 (by decide) h9 (by decide) (by tauto)]
  constructor
  · rintro ⟨c, hc, hs⟩
    cases c with
    | nil => simp [collectModule] at hs
    | cons m c =>
      unfold collectModule at hs
      dsimp only at hs
      cases hm : nameText m with
      | none => rw [hm] at hs; simp at hs
      | some n =>
        rw [hm] at hs
        have hd := hmod hc (named hm)
        have hk := allModules_module hc
        rcases List.mem_append.1 hs with hs | hs
        · rcases (collectItem_iff ..).1 hs with h | ⟨-, ⟨h, -⟩ | ⟨h, -⟩⟩
          · obtain ⟨h4, h5, h6, h7⟩ := (mem_own ..).1 h
            refine ⟨_, hd, m, c, rfl, h4, h5, h6, ?_⟩
            rw [h7, containerOf, if_pos ((isNode_iff _ _).2 hk)]
          · exact absurd (h.2.symm.trans hk.2) (by decide)
          · exact absurd (h.2.symm.trans hk.2) (by decide)
        · obtain ⟨i, hi, hs⟩ := List.mem_flatMap.1 hs
          obtain ⟨p, hp⟩ := (items_iff m i).1 hi
          rcases (collectItem_iff ..).1 hs with h | ⟨h0, h⟩
          · obtain ⟨h4, h5, h6, h7⟩ := (mem_own ..).1 h
            obtain ⟨n', hn'⟩ := named h4
            exact ⟨_, .item hd hk hp hn', i, _, rfl, h4, h5, h6, by rw [h7, container_item hp hk, hm]⟩
          · obtain ⟨n', hn'⟩ := nameText_some.1 h0
            have hdi := Declared.item hd hk hp hn'
            rcases h with ⟨h1, f, hf, h2⟩ | ⟨h1, v, hv, h2⟩
            · exact fields hdi (.inl h1) hf h2
            · obtain ⟨l, hl, hvl, hvk⟩ := (variants_iff i v).1 hv
              rcases h2 with h2 | ⟨f, hf, h3, h4⟩
              · obtain ⟨h4, h5, h6, h7⟩ := (mem_own ..).1 h2
                obtain ⟨n2, hn2⟩ := named h4
                refine ⟨_, .variant hdi h1 hl hvl hvk hn2, v, _, rfl, h4, h5, h6, ?_⟩
                rw [h7, container_part hvk (by decide) (nodeChild_mem hl).2 (by decide) (.inr (.inl h1))]
              · obtain ⟨n2, hn2⟩ := nameText_some.1 h3
                exact fields (.variant hdi h1 hl hvl hvk hn2) (.inr hvk) hf h4
  · rintro ⟨c, hd, e, anc, rfl, h4, h5, h6, h7⟩
    -- the module around it
    have inModule : ∀ {m c}, Declared g (m :: c) → Is .MODULE m → m :: c ∈ allModules (Elem.root g) ∧ ∃ n, nameText m = some n := by
      intro m c h hk
      generalize hx : m :: c = x at h
      cases h with
      | top h1 h2 h3 =>
        cases hx
        exact ⟨(modules_iff ..).2 (.inl ⟨rfl, h1, h2⟩), Option.isSome_iff_exists.1 (nameText_some.2 ⟨_, h3⟩)⟩
      | inner h1 h2 h3 h4 h5 =>
        cases hx
        exact ⟨(modules_iff ..).2 (.inr ⟨_, rfl, h1, h2, h3, h4⟩), Option.isSome_iff_exists.1 (nameText_some.2 ⟨_, h5⟩)⟩
      | item _ _ h => cases hx; exact absurd hk h.kind.1
      | field _ _ _ _ h => cases hx; exact absurd (hk.2.symm.trans h.2) (by decide)
      | variant _ _ _ _ h => cases hx; exact absurd (hk.2.symm.trans h.2) (by decide)
    -- everything of an item is collected with its module
    have ofItem : ∀ {m c i p n}, Declared g (m :: c) → Is .MODULE m → ItemOf m i p → nameText m = some n →
        s ∈ collectItem file (some n) i → ∃ x ∈ allModules (Elem.root g), s ∈ collectModule file x := by
      intro m c i p n h hk hp hn hs
      refine ⟨_, (inModule h hk).1, ?_⟩
      unfold collectModule
      dsimp only
      rw [hn]
      exact List.mem_append_right _ (List.mem_flatMap.2 ⟨i, (items_iff m i).2 ⟨p, hp⟩, hs⟩)
    -- a declaration that is an enum or a struct is an item
    have anItem : ∀ {i c}, Declared g (i :: c) → Is .STRUCT i ∨ Is .ENUM i → ∃ m c' p n, Declared g (m :: c') ∧ Is .MODULE m ∧
        ItemOf m i p ∧ nameText m = some n := by
      intro i c h hk
      have no : ∀ k, k ≠ .STRUCT → k ≠ .ENUM → ¬ Is k i := by
        intro k h1 h2 h3
        rcases hk with hk | hk
        · exact h1 (h3.2.symm.trans hk.2)
        · exact h2 (h3.2.symm.trans hk.2)
      generalize hx : i :: c = x at h
      cases h with
      | top h1 h2 h3 => cases hx; exact absurd h2 (no _ (by decide) (by decide))
      | inner h1 h2 h3 h4 h5 => cases hx; exact absurd h4 (no _ (by decide) (by decide))
      | item h1 h2 h3 h4 =>
        cases hx
        obtain ⟨n, hn⟩ := (inModule h1 h2).2
        exact ⟨_, _, _, n, h1, h2, h3, hn⟩
      | field _ _ _ _ h => cases hx; exact absurd h (no _ (by decide) (by decide))
      | variant _ _ _ _ h => cases hx; exact absurd h (no _ (by decide) (by decide))
    have isNamed : ∀ {e : Elem} {c}, Declared g (e :: c) → (nameText e).isSome := by
      intro e c h
      generalize hx : e :: c = x at h
      cases h <;> cases hx <;> exact nameText_some.2 ⟨_, by assumption⟩
    generalize hx : e :: anc = x at hd
    cases hd with
    | top h1 h2 h3 =>
      cases hx
      refine ⟨_, (modules_iff ..).2 (.inl ⟨rfl, h1, h2⟩), ?_⟩
      unfold collectModule
      dsimp only
      rw [h4]
      refine List.mem_append_left _ ((collectItem_iff ..).2 (.inl ((mem_own ..).2 ⟨h4, h5, h6, ?_⟩)))
      rw [h7, containerOf, if_pos ((isNode_iff _ _).2 h2)]
    | inner h1 h2 h3 hk h5' =>
      cases hx
      refine ⟨_, (modules_iff ..).2 (.inr ⟨_, rfl, h1, h2, h3, hk⟩), ?_⟩
      unfold collectModule
      dsimp only
      rw [h4]
      refine List.mem_append_left _ ((collectItem_iff ..).2 (.inl ((mem_own ..).2 ⟨h4, h5, h6, ?_⟩)))
      rw [h7, containerOf, if_pos ((isNode_iff _ _).2 hk)]
    | item h1 h2 h3 _ =>
      cases hx
      obtain ⟨n, hn⟩ := (inModule h1 h2).2
      refine ofItem h1 h2 h3 hn ((collectItem_iff ..).2 (.inl ((mem_own ..).2 ⟨h4, h5, h6, ?_⟩)))
      rw [h7, container_item h3 h2, hn]
    | @field t c' l f n h1 h2 h3 hf h8 _ =>
      cases hx
      have hl : Is .NAMED_FIELD_LIST l := by obtain ⟨_, _, _, h, _⟩ := h3; exact h
      have hown : s ∈ own file (nameText t) e :=
        (mem_own ..).2 ⟨h4, h5, h6, by rw [h7, container_part h8 (by decide) hl (by decide) (by tauto)]⟩
      have hmem := (fieldList_iff t e).2 ⟨l, h3, hf, h8⟩
      rcases h2 with h2 | h2
      · obtain ⟨m, c2, p, n2, a1, a2, a3, a4⟩ := anItem h1 (.inl h2)
        exact ofItem a1 a2 a3 a4 ((collectItem_iff ..).2 (.inr ⟨isNamed h1, .inl ⟨h2, e, hmem, hown⟩⟩))
      · generalize hy : t :: c' = y at h1
        have hnt : (nameText t).isSome := isNamed (hy ▸ h1)
        cases h1 with
        | top _ h => cases hy; exact absurd (h2.2.symm.trans h.2) (by decide)
        | inner _ _ _ h => cases hy; exact absurd (h2.2.symm.trans h.2) (by decide)
        | item _ _ h => cases hy; exact absurd h2 h.kind.2.1
        | field _ _ _ _ h => cases hy; exact absurd (h2.2.symm.trans h.2) (by decide)
        | variant b1 b2 b3 b4 b5 b6 =>
          cases hy
          obtain ⟨m, c2, p, n2, a1, a2, a3, a4⟩ := anItem b1 (.inr b2)
          exact ofItem a1 a2 a3 a4 ((collectItem_iff ..).2 (.inr ⟨isNamed b1, .inr ⟨b2, t, (variants_iff _ _).2 ⟨_, b3, b4, b5⟩,
            .inr ⟨e, hmem, hnt, hown⟩⟩⟩))
    | variant b1 b2 b3 b4 b5 b6 =>
      cases hx
      obtain ⟨m, c2, p, n2, a1, a2, a3, a4⟩ := anItem b1 (.inr b2)
      refine ofItem a1 a2 a3 a4 ((collectItem_iff ..).2 (.inr ⟨isNamed b1, .inr ⟨b2, e, (variants_iff _ _).2 ⟨_, b3, b4, b5⟩,
            .inl ((mem_own ..).2 ⟨h4, h5, h6, ?_⟩)⟩⟩))
      rw [h7, container_part b5 (by decide) (nodeChild_mem b3).2 (by decide) (.inr (.inl b2))]

theorem mem_insertNew (l : List FileSymbol) (s x : FileSymbol) : x ∈ insertNew l s ↔ x ∈ l ∨ x = s := by
  unfold insertNew
  split
  · next h => exact ⟨.inl, fun h' => h'.elim id fun e => e ▸ h⟩
  · simp

theorem fold_insertNew (l acc : List FileSymbol) (ha : acc.Nodup) :
    (l.foldl insertNew acc).Nodup ∧ ∀ x, x ∈ l.foldl insertNew acc ↔ x ∈ acc ∨ x ∈ l := by
  induction l generalizing acc with
  | nil => simp [ha]
  | cons s l ih =>
    have : (insertNew acc s).Nodup := by
      unfold insertNew
      split
      · exact ha
      · next h => exact List.nodup_append.2 ⟨ha, by simp, by rintro x hx y hy rfl; rw [List.mem_singleton] at hy; exact h (hy ▸ hx)⟩
    obtain ⟨h1, h2⟩ := ih _ this
    refine ⟨h1, fun x => ?_⟩
    rw [List.foldl_cons, h2, mem_insertNew, List.mem_cons]
    tauto

theorem declared_chain {g : Green} {c : List Elem} (h : Declared g c) :
    ∃ e anc n, c = e :: anc ∧ Chain g (e :: anc) ∧ NameOf e n ∧ e.green.isTok = false ∧ Outline.namedElement e.kind = true := by
  induction h with
  | top h1 h2 h3 => exact ⟨_, _, _, rfl, .child .top h1, h3, h2.1, by rw [h2.2]; rfl⟩
  | inner h1 h2 h3 h4 h5 => exact ⟨_, _, _, rfl, .child (.child .top h1) h3, h5, h4.1, by rw [h4.2]; rfl⟩
  | item h1 h2 h3 h4 ih =>
    obtain ⟨e, anc, n, he, hc, -⟩ := ih
    cases he
    cases h3 with
    | item a b =>
      refine ⟨_, _, _, rfl, .child hc a, h4, ?_⟩
      rcases b with b | b | b | b | b | b <;> exact ⟨b.1, by rw [b.2]; rfl⟩
    | lemma_ a b c =>
      obtain ⟨d1, d2⟩ := nodeChild_mem c
      exact ⟨_, _, _, rfl, .child (.child hc a) d1, h4, d2.1, by rw [d2.2]; rfl⟩
    | block a b _ d e f =>
      refine ⟨_, _, _, rfl, .child (.child (.child hc a) (nodeChild_mem d).1) e, h4, ?_⟩
      rcases f with b | b <;> exact ⟨b.1, by rw [b.2]; rfl⟩
  | field h1 h2 h3 h4 h5 h6 ih =>
    obtain ⟨e, anc, n, he, hc, -⟩ := ih
    cases he
    obtain ⟨pre, post, a, -⟩ := h3
    exact ⟨_, _, _, rfl, .child (.child hc (by rw [a]; simp)) h4, h6, h5.1, by rw [h5.2]; rfl⟩
  | variant h1 h2 h3 h4 h5 h6 ih =>
    obtain ⟨e, anc, n, he, hc, -⟩ := ih
    cases he
    exact ⟨_, _, _, rfl, .child (.child hc (nodeChild_mem h3).1) h4, h6, h5.1, by rw [h5.2]; rfl⟩

/-- Symbols for the same place are the same. -/
theorem stands_unique {tree : Nat → Green} {f f' : Nat} {c c' : List Elem} {s s' : FileSymbol} (hd : Declared (tree f) c)
    (hd' : Declared (tree f') c') (hs : Stands f c s) (hs' : Stands f' c' s') (h1 : s.file = s'.file) (h2 : s.path = s'.path) :
    s = s' ∧ c = c' := by
  obtain ⟨e, anc, rfl, a1, a2, a3, a4⟩ := hs
  obtain ⟨e', anc', rfl, b1, b2, b3, b4⟩ := hs'
  obtain rfl : f = f' := by rw [← a2, ← b2, h1]
  obtain ⟨_, _, _, he, hc, -⟩ := declared_chain hd
  cases he
  obtain ⟨_, _, _, he, hc', -⟩ := declared_chain hd'
  cases he
  have h3 := locate hc
  rw [← a3, h2, b3, locate hc'] at h3
  cases h3
  refine ⟨?_, rfl⟩
  obtain ⟨x, y, z, w⟩ := s
  obtain ⟨x', y', z', w'⟩ := s'
  simp only at a1 a2 a3 a4 b1 b2 b3 b4 h1 h2
  rw [a1] at b1
  cases b1
  rw [h1, h2, a4, b4]

/-- **C71 (index).** The index of a package has exactly the declarations in its files that have a name, each once, with the name and the
place of the declaration and the name of what it is in. -/
theorem C71_index (tree : Nat → Green) (files : List Nat) :
    (∀ s, s ∈ packageSymbols tree files ↔ ∃ f ∈ files, ∃ c, Declared (tree f) c ∧ Stands f c s) ∧
    (packageSymbols tree files).Pairwise fun s s' => (s.file, s.path) ≠ (s'.file, s'.path) := by
  obtain ⟨h1, h2⟩ := fold_insertNew (files.flatMap fun f => (allModules (Elem.root (tree f))).flatMap (collectModule f)) [] List.nodup_nil
  have hm : ∀ s, s ∈ packageSymbols tree files ↔ ∃ f ∈ files, ∃ c, Declared (tree f) c ∧ Stands f c s := by
    intro s
    unfold packageSymbols
    rw [h2, List.mem_flatMap]
    simp only [List.not_mem_nil, false_or, collected]
  refine ⟨hm, List.Pairwise.imp_of_mem ?_ h1⟩
  intro s s' hs hs' hne he
  obtain ⟨f, -, c, a, b⟩ := (hm s).1 hs
  obtain ⟨f', -, c', a', b'⟩ := (hm s').1 hs'
  rw [Prod.mk.injEq] at he
  exact hne (stands_unique a a' b b' he.1 he.2).1

/-! ### The answers -/

/-- The place of a symbol. -/
def placeOf (tree : Nat → Green) (s : FileSymbol) : Nat × List Elem :=
  (s.file, (down [Elem.root (tree s.file)] s.path.reverse).getD [])

theorem placeOf_eq {tree : Nat → Green} {f : Nat} {c : List Elem} {s : FileSymbol} (hd : Declared (tree f) c) (hs : Stands f c s) :
    placeOf tree s = (f, c) := by
  obtain ⟨e, anc, rfl, a1, rfl, a3, a4⟩ := hs
  obtain ⟨_, _, _, he, hc, -⟩ := declared_chain hd
  cases he
  unfold placeOf
  rw [a3, locate hc]
  rfl

theorem answer_eq {tree : Nat → Green} {builtins : Option Nat} {f : Nat} {c : List Elem} {s : FileSymbol} (hp : Parsed (tree f))
    (hd : Declared (tree f) c) (hs : Stands f c s) :
    (builtins = some f → answer tree builtins s = none) ∧
    (builtins ≠ some f → ∃ a, answer tree builtins s = some a ∧ Answers (f, c) a) := by
  obtain ⟨e, anc, rfl, a1, rfl, a3, a4⟩ := hs
  obtain ⟨_, _, n, he, hc, hn, ht, hk⟩ := declared_chain hd
  cases he
  obtain ⟨b1, b2, t, b3, b4, b5⟩ := nameText_parsed hp hc hn
  unfold answer
  refine ⟨fun h => if_pos h, fun h => ?_⟩
  rw [if_neg h, a3, locate hc]
  dsimp only
  rw [hk, ht]
  refine ⟨_, if_pos rfl, e, anc, n, rfl, hn, ?_, shown_of hk _, rfl, ?_⟩
  · rw [a1] at b1; exact Option.some.inj b1
  · dsimp only
    rw [b3]
    dsimp only
    rw [b4, b5]

theorem answers_of {tree : Nat → Green} {builtins : Option Nat} (l : List FileSymbol)
    (h : ∀ s ∈ l, Parsed (tree s.file) ∧ ∃ c, Declared (tree s.file) c ∧ Stands s.file c s) :
    List.Forall₂ Answers ((l.filter fun s => decide (builtins ≠ some s.file)).map (placeOf tree)) (l.filterMap (answer tree builtins)) := by
  induction l with
  | nil => exact .nil
  | cons s l ih =>
    have ih := ih fun s hs => h s (List.mem_cons_of_mem _ hs)
    obtain ⟨hp, c, hd, hs⟩ := h s (List.mem_cons_self ..)
    obtain ⟨h1, h2⟩ := answer_eq (builtins := builtins) hp hd hs
    by_cases hb : builtins = some s.file
    · rw [List.filter_cons_of_neg (by simpa using hb), List.filterMap_cons_none (h1 hb)]
      exact ih
    · obtain ⟨a, h3, h4⟩ := h2 hb
      rw [List.filter_cons_of_pos (by simpa using hb), List.filterMap_cons_some h3, List.map_cons, placeOf_eq hd hs]
      exact .cons h4 ih

/-- **C71 (answers).** A search in a workspace whose files have been parsed does not panic. Its answers are, in the order of the names in
lower case, the declarations of all packages whose names the query matches, each once, except those of the built-in file: with the
name, the kind, the file and the range of the name. At most as many as the limit are given: 128 if none is set. -/
theorem C71_answers {lower : List Char → List Char} (hl : Lowers lower)
    {union : List (List (List Nat × Nat)) → List (List Nat × List (Nat × Nat))} (hu : ∀ ins, IsUnion ins (union ins))
    {tree : Nat → Green} {packages : List (List Nat)} (hp : ∀ p ∈ packages, ∀ f ∈ p, Parsed (tree f))
    (hd : packages.Pairwise List.Disjoint) (hf : ∀ p ∈ packages, (packageSymbols tree p).length < 2 ^ 32)
    (builtins : Option Nat) (env : Option Nat) (query : List Char) :
    ∃ res cs, workspaceSymbols lower union tree builtins packages env query = some res ∧ cs.Nodup ∧ cs.Pairwise NamesLe ∧
      (∀ f c, (f, c) ∈ cs ↔ (∃ p ∈ packages, f ∈ p) ∧ builtins ≠ some f ∧ Declared (tree f) c ∧ Wanted query c) ∧
      (env = none → List.Forall₂ Answers (cs.take 128) res) ∧ (env = some 0 → List.Forall₂ Answers cs res) ∧
      ∀ n, env = some (n + 1) → List.Forall₂ Answers (cs.take (n + 1)) res := by
  classical
  have hmem : ∀ p ∈ packages, ∀ s, s ∈ packageSymbols tree p → s.file ∈ p ∧ Parsed (tree s.file) ∧
      ∃ c, Declared (tree s.file) c ∧ Stands s.file c s := by
    intro p hpp s hs
    obtain ⟨f, hfp, c, h1, h2⟩ := ((C71_index tree p).1 s).1 hs
    have : s.file = f := by obtain ⟨_, _, _, _, h, _⟩ := h2; exact h
    subst this
    exact ⟨hfp, hp p hpp _ hfp, c, h1, h2⟩
  have name_eq : ∀ {f c s e anc n}, Parsed (tree f) → Declared (tree f) c → Stands f c s → c = e :: anc → NameOf e n →
      s.name = n.green.text ∧ Ascii s := by
    intro f c s e anc n h1 h2 h3 h4 h5
    subst h4
    obtain ⟨_, _, h6, a, -⟩ := h3
    cases h6
    obtain ⟨_, _, _, h6, hc, -⟩ := declared_chain h2
    cases h6
    obtain ⟨b1, b2, -⟩ := nameText_parsed h1 hc h5
    rw [a] at b1
    have := Option.some.inj b1
    exact ⟨this, by unfold Ascii; rw [this]; exact b2⟩
  obtain ⟨syms, h1, h2, h3⟩ := C71_search hl hu (packages.map (packageSymbols tree)) (by simpa using hf)
    (by
      intro p hp' s hs
      obtain ⟨q, hq, rfl⟩ := List.mem_map.1 hp'
      obtain ⟨-, a, c, b, d⟩ := hmem q hq s hs
      obtain ⟨e, anc, n, he, -, hn, -⟩ := declared_chain b
      exact (name_eq a b d he hn).2) query
  have hsym : ∀ s, s ∈ syms ↔ (∃ p ∈ packages, s ∈ packageSymbols tree p) ∧ Shown query s.name := by
    intro s
    rw [h2.mem_iff, List.mem_filter, List.mem_flatten]
    simp
  have hgood : ∀ s ∈ syms, Parsed (tree s.file) ∧ ∃ c, Declared (tree s.file) c ∧ Stands s.file c s := by
    intro s hs
    obtain ⟨⟨p, hp1, hp2⟩, -⟩ := (hsym s).1 hs
    exact (hmem p hp1 s hp2).2
  have hnodup : syms.Pairwise fun s s' => s ≠ s' := by
    have : (packages.map (packageSymbols tree)).flatten.Nodup := by
      rw [List.nodup_flatten]
      refine ⟨?_, ?_⟩
      · intro l hl
        obtain ⟨p, -, rfl⟩ := List.mem_map.1 hl
        exact (C71_index tree p).2.imp fun h e => h (by rw [e])
      · rw [List.pairwise_map]
        refine List.Pairwise.imp_of_mem ?_ hd
        intro p q hpm hqm hdis s hs hs'
        exact hdis (hmem p hpm s hs).1 (hmem q hqm s hs').1
    exact (h2.nodup_iff.2 (this.filter _))
  have hall := answers_of (builtins := builtins) syms hgood
  refine ⟨_, (syms.filter fun s => decide (builtins ≠ some s.file)).map (placeOf tree), by unfold workspaceSymbols; rw [h1]; rfl, ?_, ?_, ?_, ?_⟩
  · unfold List.Nodup
    rw [List.pairwise_map]
    refine List.Pairwise.imp_of_mem ?_ (hnodup.filter _)
    intro s s' hs hs' hne he
    obtain ⟨-, c, a1, a2⟩ := hgood s (List.mem_filter.1 hs).1
    obtain ⟨-, c', b1, b2⟩ := hgood s' (List.mem_filter.1 hs').1
    rw [placeOf_eq a1 a2, placeOf_eq b1 b2] at he
    have e1 := congrArg Prod.fst he
    have e2 := congrArg Prod.snd he
    dsimp only at e1 e2
    subst e2
    obtain ⟨e, anc, rfl, x1, x2, x3, x4⟩ := id a2
    obtain ⟨e', anc', hx, y1, y2, y3, y4⟩ := id b2
    cases hx
    exact hne (stands_unique a1 b1 a2 b2 e1 (by rw [x3, y3])).1
  · rw [List.pairwise_map]
    refine List.Pairwise.imp_of_mem ?_ (h3.filter _)
    intro s s' hs hs' hle e anc n e' anc' n' he he' hn hn'
    obtain ⟨p, c, a1, a2⟩ := hgood s (List.mem_filter.1 hs).1
    obtain ⟨q, c', b1, b2⟩ := hgood s' (List.mem_filter.1 hs').1
    rw [placeOf_eq a1 a2] at he
    rw [placeOf_eq b1 b2] at he'
    rw [← (name_eq p a1 a2 he hn).1, ← (name_eq q b1 b2 he' hn').1]
    exact hle
  · intro f c
    rw [List.mem_map]
    constructor
    · rintro ⟨s, hs, he⟩
      obtain ⟨hs, hb⟩ := List.mem_filter.1 hs
      obtain ⟨p, c', a1, a2⟩ := hgood s hs
      obtain ⟨⟨q, hq1, hq2⟩, hsh⟩ := (hsym s).1 hs
      rw [placeOf_eq a1 a2] at he
      cases he
      obtain ⟨e, anc, n, he, -, hn, -⟩ := declared_chain a1
      exact ⟨⟨q, hq1, (hmem q hq1 s hq2).1⟩, by simpa using hb, a1, e, anc, n, he, hn, (name_eq p a1 a2 he hn).1 ▸ hsh⟩
    · rintro ⟨⟨p, hp1, hp2⟩, hb, hdc, e, anc, n, he, hn, hsh⟩
      obtain ⟨e', anc', n', he', hc, hn', -⟩ := declared_chain hdc
      subst he
      cases he'
      obtain ⟨b1, b2, -⟩ := nameText_parsed (hp p hp1 f hp2) hc hn
      have hst : Stands f (e :: anc) ⟨n.green.text, f, e.path, containerOf (e :: anc)⟩ := ⟨e, anc, rfl, b1, rfl, rfl, rfl⟩
      refine ⟨_, List.mem_filter.2 ⟨(hsym _).2 ⟨⟨p, hp1, ((C71_index tree p).1 _).2 ⟨f, hp2, _, hdc, hst⟩⟩, hsh⟩, by simpa using hb⟩, ?_⟩
      exact placeOf_eq hdc hst
  · refine ⟨?_, ?_, ?_⟩
    · rintro rfl
      exact List.forall₂_take 128 hall
    · rintro rfl
      exact hall
    · rintro n rfl
      exact List.forall₂_take (n + 1) hall

end Verif.Symbols
