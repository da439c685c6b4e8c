import Verif.Ide.Rename
import Verif.Ide.UsagesOnce
import Verif.Parser.Relex

/-! C63: what renaming does to the text of every file. -/

namespace Verif.Ide.Rename
open Verif Verif.TextEdit Verif.Syntax
open Verif.Parser (Green Piece texts relabelPieces Spot NewName parseText Aims Renamable)
open Verif.Lexer (blen blen_append isNameChar Graphemes)
open Verif.Ide.Usages hiding texts
open Verif.Nameres (childOf)

/-- The name is not one side of a shorthand, neither of a literal nor of a pattern, and the new name does not make one of it. -/
structure PlainUse (new : List Char) (n : Elem) (anc : List Elem) : Prop where
  literal : ∀ field ∈ anc, field.kind = .STRUCT_LIT_FIELD → (nodeChild field .NAME_REF).isSome = true
  value : ∀ p, anc.head? = some p → p.kind = .STRUCT_LIT_FIELD → ∀ e ∈ p.children, e.kind ∈ exprKinds → e.green.text ≠ new
  bound : ∀ p, anc.head? = some p → p.kind = .STRUCT_PAT_FIELD → ∀ i ∈ p.children, ∀ nm ∈ i.children, nameText nm ≠ new
  pattern : n.kind = .NAME → ∀ i p up, anc = i :: p :: up → i.kind = .IDENT_PAT → p.kind ≠ .STRUCT_PAT_FIELD

theorem nodeChild_mem {p c : Elem} {k : SyntaxKind} (h : nodeChild p k = some c) : c ∈ p.children ∧ c.kind = k := by
  unfold nodeChild at h
  have h1 := List.find?_some h
  refine ⟨List.mem_of_find?_eq_some h, ?_⟩
  simp only [isNode, Bool.and_eq_true, decide_eq_true_eq] at h1
  exact h1.2

theorem childOf_mem {p c : Elem} {ks : List SyntaxKind} (h : childOf p ks = some c) : c ∈ p.children ∧ c.kind ∈ ks := by
  unfold childOf at h
  have h1 := List.find?_some h
  have h2 := List.mem_of_find?_eq_some h
  simp only [Bool.and_eq_true, List.contains_iff_mem] at h1
  exact ⟨h2, h1.2⟩

theorem litField_plain {new : List Char} {n : Elem} {anc : List Elem} (h : PlainUse new n anc) :
    litField (n :: anc) ≠ some .shorthand ∧ ∀ e, litField (n :: anc) = some (.full (some e)) → e.green.text ≠ new := by
  unfold litField
  cases anc with
  | nil => simp
  | cons p up =>
    dsimp only
    by_cases h1 : p.kind = .STRUCT_LIT_FIELD
    · rw [if_pos h1]
      refine ⟨by simp, ?_⟩
      intro e he
      simp only [Option.some.injEq, LitField.full.injEq] at he
      obtain ⟨h2, h3⟩ := childOf_mem he
      exact h.value p rfl h1 e h2 h3
    · rw [if_neg h1]
      by_cases h2 : p.kind = .PATH_SEGMENT
      · rw [if_pos h2]
        split
        · rename_i e field rest heq
          split
          · rename_i hc
            have hm : field ∈ p :: up := by
              have : field ∈ up.dropWhile fun e => decide (e.kind = .PATH) := by rw [heq]; simp
              exact List.mem_cons_of_mem _ ((List.dropWhile_suffix _).subset this)
            have := h.literal field hm hc.2.1
            rw [Option.isNone_iff_eq_none.1 hc.2.2] at this
            cases this
          · simp
        · simp
      · rw [if_neg h2]; simp

theorem usageChanges_plain {kind : Kind} {new : List Char} {r : Reference} {n : Elem} {anc : List Elem} (hr : r.node = n :: anc)
    (hkind : n.kind = .NAME ∨ n.kind = .NAME_REF) (h : PlainUse new n anc) : usageChanges kind new r = [⟨r.range.1, r.range.2, encode new⟩] := by
  obtain ⟨h1, h2⟩ := litField_plain h
  unfold usageChanges
  rw [hr]
  dsimp only
  suffices hs : (if n.kind = .NAME_REF then refEdit kind new (n :: anc) else nameEdit new (n :: anc)) = none by rw [hs]; rfl
  by_cases hk : n.kind = .NAME_REF
  · rw [if_pos hk]
    unfold refEdit
    dsimp only
    split
    · rename_i e he
      rw [if_neg (h2 e he)]
    · rfl
    · rename_i he
      exact absurd he h1
    · cases anc with
      | nil => rfl
      | cons p up =>
        dsimp only
        split
        · rename_i hk
          split
          · rename_i f i hf hi
            split
            · rename_i nm hnm
              rw [if_neg]
              rintro ⟨-, hn⟩
              exact h.bound p rfl hk i (nodeChild_mem hi).1 nm (nodeChild_mem hnm).1 hn
            · rfl
          · rfl
        · rfl
  · rw [if_neg hk]
    unfold nameEdit
    split
    · rename_i x i p up heq
      cases heq
      split
      · rename_i hc
        exact absurd hc.2 (h.pattern (hkind.resolve_right hk) i p up rfl hc.1)
      · rfl
    · rfl

/-! ### The leaves that are replaced -/

theorem leaves_unique {a b l1 l2 : List Piece} {p q : Piece} (h : a ++ p :: b = l1 ++ q :: l2)
    (hl : blen (texts a) = blen (texts l1)) (hne : ∀ x ∈ a ++ p :: b, x.text ≠ []) : a = l1 ∧ p = q ∧ b = l2 := by
  induction a generalizing l1 with
  | nil =>
    cases l1 with
    | nil => simpa using h
    | cons x l1 =>
      rw [List.nil_append, List.cons_append, List.cons.injEq] at h
      have h1 := Syntax.blen_pos (hne p (by simp))
      rw [h.1] at h1
      simp only [Parser.texts_cons, blen_append] at hl
      simp only [texts, List.map_nil, List.flatten_nil, blen] at hl
      omega
  | cons y a ih =>
    cases l1 with
    | nil =>
      rw [List.nil_append, List.cons_append, List.cons.injEq] at h
      have h1 := Syntax.blen_pos (hne y (by simp))
      simp only [Parser.texts_cons, blen_append] at hl
      simp only [texts, List.map_nil, List.flatten_nil, blen] at hl
      omega
    | cons x l1 =>
      rw [List.cons_append, List.cons_append, List.cons.injEq] at h
      obtain ⟨rfl, h⟩ := h
      simp only [Parser.texts_cons, blen_append] at hl
      obtain ⟨rfl, h2, h3⟩ := ih h (by omega) fun z hz => hne z (by simp at hz ⊢; tauto)
      exact ⟨rfl, h2, h3⟩

/-- The name of a node with one child. -/
theorem single {g : Green} {tok n : Elem} {anc : List Elem} (h : Chain g (tok :: n :: anc)) (h1 : n.children.length = 1) :
    n.start = tok.start ∧ n.stop = tok.stop := by
  cases h with
  | child hup hm =>
    have htok := (Elem.mem_children hm).2.2.2.2
    unfold Elem.children at hm h1
    cases hg : n.green with
    | tok k t => rw [hg] at htok; cases htok
    | node k cs =>
      rw [hg] at hm h1
      cases cs with
      | nil => cases hm
      | cons c cs =>
        cases cs with
        | cons d cs => simp [placed, Green.children] at h1
        | nil =>
          simp only [Green.children, placed, List.mem_singleton] at hm
          subst hm
          refine ⟨rfl, ?_⟩
          unfold Elem.stop
          rw [hg]
          simp [Green.len, Green.text, Green.leaves, Green.leavesList]

theorem wordEnd {name : List Char} (h : Lexer.IsName name) : ∃ d, name.getLast? = some d ∧ isNameChar d = true := by
  obtain ⟨c, cs, rfl, hc1, hc2⟩ := h
  refine ⟨_, List.getLast?_eq_some_getLast (by simp), ?_⟩
  rw [Lexer.isNameChar_iff]
  rcases List.mem_cons.1 (List.getLast_mem (l := c :: cs) (by simp)) with h | h
  · rw [h]; tauto
  · exact hc2 _ h

/-! ### The theorem -/

/-- What is renamed: at the offset `q` of the file `f` there is a name of the scope that refers to the item, or the name in its
definition, which is the one at `range` in `file`. -/
inductive Target (w : World) (item : NodeId) (name : List Char) (scope : Scope) (file : Nat) (range : Nat × Nat) (f q : Nat) : Prop where
  | use (t n : Elem) (anc : List Elem) : Chain (w.tree f) (t :: n :: anc) → t.green.isTok = true → t.green.text = name →
      Refers w item f (n :: anc) → Covers scope f t.start → t.start = q → Target w item name scope file range f q
  | definition : f = file → range.1 = q → Target w item name scope file range f q

/-- The definition has its name at that range. -/
def NameAt (g : Green) (name : List Char) (range : Nat × Nat) : Prop :=
  ∃ t n anc, Chain g (t :: n :: anc) ∧ t.green.isTok = true ∧ t.green.text = name ∧ n.kind = .NAME ∧ range = (n.start, n.stop)

theorem refers_kind {w : World} (hw : w.Sorted) {item : NodeId} {f : Nat} {n : Elem} {anc : List Elem} (h : Refers w item f (n :: anc)) :
    n.kind = .NAME ∨ n.kind = .NAME_REF := by
  obtain ⟨k1, k2⟩ := hw f n anc
  rcases h with h | ⟨f, h⟩ | ⟨p, h⟩ | ⟨p, h⟩ | ⟨p, h⟩
  · exact .inr (k1 (by rw [h]; simp))
  · exact .inr (k1 (by rw [h]; simp))
  · exact .inr (k1 (by rw [h]; simp))
  · exact .inl (k2 (by rw [h]; simp))
  · exact .inl (k2 (by rw [h]; simp))

variable {w : World} {item : NodeId} {name new : List Char} {scope : Scope} {file : Nat} {range : Nat × Nat}
  {φ : Nat → Nat → Option (List Char)}

/-- What the theorems assume of the files and the names. -/
structure Setting (w : World) (item : NodeId) (name new : List Char) (scope : Scope) (file : Nat) (range : Nat × Nat)
    (φ : Nat → Nat → Option (List Char)) : Prop where
  sorted : w.Sorted
  word : Lexer.IsName name
  files : (scope.map Prod.fst).Nodup
  parsed : ∀ f, Parsed (w.tree f)
  defined : NameAt (w.tree file) name range
  spots : ∀ f q, Target w item name scope file range f q → Spot (w.tree f).text q
  uses : ∀ f t n anc, Chain (w.tree f) (t :: n :: anc) → t.green.isTok = true → t.green.text = name →
    Refers w item f (n :: anc) → PlainUse new n anc
  map : ∀ f q y, φ f q = some y ↔ y = new ∧ Target w item name scope file range f q

variable (H : Setting w item name new scope file range φ)
include H

theorem Setting.nonempty (f : Nat) : ∀ p ∈ (w.tree f).leaves, p.text ≠ [] := by
  obtain ⟨g, debug, text, fuel, errs, hg, hb, hf, h⟩ := H.parsed f
  rcases Parser.parseText_spec hg hb debug text hf with ⟨h1, -⟩ | ⟨raw, ps, h1, h2, h3, h4, ⟨cs, e, h5, h6⟩ | ⟨w, h5, -⟩⟩
  · rw [h] at h1; cases h1
  · rw [h] at h5
    injection h5 with h5
    intro p hp
    rw [h5, Green.leaves] at hp
    exact Extend.regroups_ne h6 (fun p hp => (h4 p hp).ne) _ hp
  · rw [h] at h5; cases h5

/-- A target is a whole leaf. -/
theorem Setting.leaf {f q : Nat} (h : Target w item name scope file range f q) :
    ∃ l1 l2, (w.tree f).leaves = l1 ++ ⟨.IDENT, name⟩ :: l2 ∧ q = blen (texts l1) := by
  have key : ∀ t n anc, Chain (w.tree f) (t :: n :: anc) → t.green.isTok = true → t.green.text = name →
      n.kind = .NAME ∨ n.kind = .NAME_REF → ∃ l1 l2, (w.tree f).leaves = l1 ++ ⟨.IDENT, name⟩ :: l2 ∧ t.start = blen (texts l1) := by
    intro t n anc hc htok htext hk
    obtain ⟨l1, l2, h1, h2⟩ := chain_leaves_at hc
    cases hc with
    | child hup hm =>
      have hid := ((H.parsed f).plain n anc hup hk).2 t hm (htext ▸ H.word)
      cases hg : t.green with
      | node k cs => rw [hg] at htok; cases htok
      | tok k x =>
        unfold Elem.kind at hid
        rw [hg] at hid h1 htext
        rw [Green.leaves] at h1
        change k = .IDENT at hid
        rw [Green.text_tok] at htext
        subst hid htext
        exact ⟨l1, l2, by rw [h1]; simp, h2⟩
  rcases h with ⟨t, n, anc, h1, h2, h3, h4, h5, rfl⟩ | ⟨rfl, rfl⟩
  · exact key t n anc h1 h2 h3 (refers_kind H.sorted h4)
  · obtain ⟨t, n, anc, h1, h2, h3, h4, h5⟩ := H.defined
    rw [h5]
    dsimp only
    have h6 : n.children.length = 1 := by
      cases h1 with
      | child hup hm => exact ((H.parsed _).plain n anc hup (.inl h4)).1
    rw [(single h1 h6).1]
    exact key t n anc h1 h2 h3 (.inl h4)

/-- The change of a target. -/
theorem Setting.mem_changes (f : Nat) (c : Change) : c ∈ leafChanges (φ f) 0 (w.tree f).leaves ↔
    Target w item name scope file range f c.start ∧ c = ⟨c.start, c.start + blen name, encode new⟩ := by
  rw [mem_leafChanges]
  constructor
  · rintro ⟨a, p, b, y, h1, h2, h3, h4, h5⟩
    obtain ⟨rfl, ht⟩ := (H.map f _ y).1 h4
    obtain ⟨l1, l2, h6, h7⟩ := H.leaf ht
    have hne := H.nonempty f
    rw [h1] at hne h6
    obtain ⟨-, rfl, -⟩ := leaves_unique h6 (by omega) hne
    refine ⟨ht, ?_⟩
    obtain ⟨s, e, x⟩ := c
    dsimp only at *
    rw [h3, h5]
  · rintro ⟨ht, hc⟩
    obtain ⟨l1, l2, h6, h7⟩ := H.leaf ht
    refine ⟨l1, ⟨.IDENT, name⟩, l2, new, h6, by omega, by rw [hc], (H.map f _ _).2 ⟨rfl, ht⟩, by rw [hc]⟩

theorem Setting.gaps (f : Nat) : Gaps (leafChanges (φ f) 0 (w.tree f).leaves) := by
  have hpos : 0 < blen name := by
    obtain ⟨c, cs, rfl, -⟩ := H.word
    exact Syntax.blen_pos (by simp)
  refine ⟨?_, ?_⟩
  · intro c hc
    have := ((H.mem_changes f c).1 hc).2
    rw [this]
    dsimp only
    omega
  · refine (leafChanges_ordered (φ f) 0 _).imp_of_mem ?_
    intro c d hc hd hcd
    rcases Nat.lt_or_eq_of_le hcd with h | h
    · exact h
    · exfalso
      obtain ⟨hc1, hc2⟩ := (H.mem_changes f c).1 hc
      obtain ⟨hd1, -⟩ := (H.mem_changes f d).1 hd
      obtain ⟨l1, l2, h6, h7⟩ := H.leaf hc1
      have htext : (w.tree f).text = (texts l1 ++ name) ++ texts l2 := by
        unfold Green.text
        rw [h6]
        simp [texts]
      have hsp := H.spots f _ hd1
      have hstop : c.stop = c.start + blen name := by rw [hc2]
      have hlen : d.start = blen (texts l1 ++ name) := by rw [blen_append]; omega
      rw [hlen, htext] at hsp
      obtain ⟨e1, e2, e3⟩ := wordEnd H.word
      rcases hsp.at.1 with h8 | ⟨x, z, h8, h9, -⟩
      · have := (List.append_eq_nil_iff.1 h8).2
        rw [this] at hpos
        simp [blen] at hpos
      · have := congrArg List.getLast? h8
        rw [List.getLast?_append, e2] at this
        simp at this
        rw [this, h9] at e3
        cases e3

/-- The references of a file. -/
theorem Setting.mem_search {f : Nat} {rs : Option (List (Nat × Nat))} (he : (f, rs) ∈ scope) {r : Reference}
    (h : r ∈ search w item name [(f, rs)]) :
    ∃ t n anc, r = ⟨f, (n.start, n.stop), n :: anc⟩ ∧ Chain (w.tree f) (t :: n :: anc) ∧ t.green.isTok = true ∧
      t.green.text = name ∧ Refers w item f (n :: anc) ∧ Covers scope f t.start ∧ n.start = t.start ∧ n.stop = t.stop := by
  have hwords : ∀ c ∈ name, isNameChar c = true := by
    obtain ⟨c, cs, rfl, hc1, hc2⟩ := H.word
    intro d hd
    rw [Lexer.isNameChar_iff]
    rcases List.mem_cons.1 hd with rfl | hd
    · tauto
    · exact hc2 d hd
  unfold search at h
  rw [List.flatMap_cons, List.flatMap_nil, List.append_nil] at h
  obtain ⟨o, ho, h⟩ := List.mem_filterMap.1 h
  obtain ⟨l, hl, h⟩ := Option.bind_eq_some_iff.1 h
  obtain ⟨t, -, a2, a3, a4, a5, a6⟩ := findNode_some hl
  dsimp only at *
  cases l with
  | nil => cases h
  | cons n anc =>
    obtain ⟨f1, f2⟩ := (found_iff w H.sorted item f n anc r).1 h
    have hk := refers_kind H.sorted f1
    have hlen : n.children.length = 1 ∧ t.kind = .IDENT := by
      cases a5 with
      | child hup hmem =>
        obtain ⟨h1, h2⟩ := (H.parsed f).plain n anc hup hk
        exact ⟨h1, h2 t hmem (a2 ▸ H.word)⟩
    have hs := found_start hwords (H.parsed f).ends ho a5 a6 a2 hlen.2 a3 a4
    obtain ⟨h3, h4⟩ := single a5 hlen.1
    refine ⟨t, n, anc, f2, a5, a6, a2, f1, ⟨rs, he, ?_⟩, h3, h4⟩
    rintro ranges rfl
    obtain ⟨-, -, -, -, h5, -⟩ := mem_findMatches.1 ho
    rw [hs]
    exact h5

theorem Setting.search_mem {f : Nat} {q : Nat} (h : Target w item name scope file range f q) (hd : ¬ (f = file ∧ range.1 = q)) :
    ∃ rs, (f, rs) ∈ scope ∧ ∃ r ∈ search w item name [(f, rs)], r.range.1 = q := by
  have hsp := H.spots f q h
  rcases h with ⟨t, n, anc, h1, h2, h3, h4, ⟨rs, h5, h6⟩, rfl⟩ | ⟨rfl, rfl⟩
  · have hk := refers_kind H.sorted h4
    have hlen : n.children.length = 1 ∧ t.kind = .IDENT := by
      cases h1 with
      | child hup hmem =>
        obtain ⟨a1, a2⟩ := (H.parsed f).plain n anc hup hk
        exact ⟨a1, a2 t hmem (h3 ▸ H.word)⟩
    refine ⟨rs, h5, ⟨f, (n.start, n.stop), n :: anc⟩, ?_, (single h1 hlen.1).1⟩
    refine C62_complete_partial w H.sorted item name H.word [(f, rs)] f (H.parsed f).noEmpty t n anc h1 h2 h3 ?_
      ⟨rs, by simp, h6⟩ h4
    intro pre post e1 e2
    refine ⟨?_, (H.parsed f).ends t _ pre post h1 h2 hlen.2 e1 e2⟩
    rw [e1, e2, List.append_assoc] at hsp
    intro c hc
    rcases hsp.at.1 with h8 | ⟨x, z, h8, h9, -⟩
    · rw [h8] at hc; cases hc
    · rw [h8] at hc
      simp at hc
      rw [← hc]
      exact h9
  · exact absurd ⟨rfl, rfl⟩ hd

/-- Tokens that start at the same place. -/
theorem Setting.same {f : Nat} {t t' : Elem} {l l' : List Elem} (h : Chain (w.tree f) (t :: l)) (ht : t.green.isTok = true)
    (h' : Chain (w.tree f) (t' :: l')) (ht' : t'.green.isTok = true) (he : t.start = t'.start) : t :: l = t' :: l' := by
  have hne := (H.parsed f).noEmpty
  have hm : t :: l ∈ allTokens (w.tree f) := (mem_allTokens _ _).2 ⟨t, l, rfl, h, ht⟩
  have hm' : t' :: l' ∈ allTokens (w.tree f) := (mem_allTokens _ _).2 ⟨t', l', rfl, h', ht'⟩
  have h1 : t.start < t.stop := hne _ hm
  have h2 : t'.start < t'.stop := hne _ hm'
  rcases pairwise_or ((allTokens_tiles _).sorted hne) hm hm' with he | he | he
  · exact he
  · have : t.stop ≤ t'.start := he
    omega
  · have : t'.stop ≤ t.start := he
    omega

/-- The changes of a file with references. -/
theorem Setting.changes {f : Nat} {rs : Option (List (Nat × Nat))} (he : (f, rs) ∈ scope) (kind : Kind) :
    ((search w item name [(f, rs)]).flatMap (usageChanges kind new)).Nodup ∧
      ∀ c, c ∈ (search w item name [(f, rs)]).flatMap (usageChanges kind new) ↔
        c = ⟨c.start, c.start + blen name, encode new⟩ ∧ ∃ r ∈ search w item name [(f, rs)], r.range.1 = c.start := by
  have hmap : ∀ r ∈ search w item name [(f, rs)], usageChanges kind new r = [⟨r.range.1, r.range.1 + blen name, encode new⟩] := by
    intro r hr
    obtain ⟨t, n, anc, h1, h2, h3, h4, h5, h6, h7, h8⟩ := H.mem_search he hr
    rw [usageChanges_plain (n := n) (anc := anc) (by rw [h1]) (refers_kind H.sorted h5) (H.uses f t n anc h2 h3 h4 h5)]
    have : r.range.2 = r.range.1 + blen name := by
      rw [h1]
      dsimp only
      rw [h7, h8, ← h4]
      rfl
    rw [this]
  have hflat : (search w item name [(f, rs)]).flatMap (usageChanges kind new) =
      (search w item name [(f, rs)]).map fun r => ⟨r.range.1, r.range.1 + blen name, encode new⟩ := by
    generalize search w item name [(f, rs)] = l at hmap
    induction l with
    | nil => rfl
    | cons r l ih =>
      rw [List.flatMap_cons, List.map_cons, hmap r (by simp), ih fun x hx => hmap x (by simp [hx])]
      rfl
  rw [hflat]
  constructor
  · unfold List.Nodup
    rw [List.pairwise_map]
    have hon := search_once w H.sorted item name H.word [(f, rs)] (by simp) (fun x _ => (H.parsed x).ends)
      (fun x _ => (H.parsed x).plain)
    refine hon.imp_of_mem ?_
    intro a b ha hb hab heq
    obtain ⟨t, n, anc, h1, h2, h3, h4, h5, h6, h7, h8⟩ := H.mem_search he ha
    obtain ⟨t', n', anc', h1', h2', h3', h4', h5', h6', h7', h8'⟩ := H.mem_search he hb
    have hst : t.start = t'.start := by
      have := congrArg Change.start heq
      rw [h1, h1'] at this
      dsimp only at this
      omega
    have := H.same h2 h3 h2' h3' hst
    refine hab ?_
    rw [h1, h1']
    exact ⟨rfl, (List.cons.inj this).2⟩
  · intro c
    rw [List.mem_map]
    constructor
    · rintro ⟨r, hr, rfl⟩
      exact ⟨rfl, r, hr, rfl⟩
    · rintro ⟨h1, r, hr, h2⟩
      exact ⟨r, hr, by rw [h1, h2]⟩

omit H in
theorem keys_usages (w : World) (item : NodeId) (name : List Char) (scope : Scope) (hn : (scope.map Prod.fst).Nodup) :
    ((usagesOf w item name scope).map Prod.fst).Nodup := by
  unfold usagesOf
  have hsub : ((scope.map fun entry => (entry.1, search w item name [entry])).map Prod.fst) = scope.map Prod.fst := by
    rw [List.map_map]; rfl
  refine List.Nodup.sublist ?_ (hsub ▸ hn)
  exact List.Sublist.map _ List.filter_sublist

/-- **C63.** The edits of all files are found, and applying those of a file to its text gives the text in which every name of the
scope that refers to the item, and the name in the definition, is the new one, and nothing else is changed. Left out are uses in
shorthands of struct literals and patterns. -/
theorem C63_edits_partial (kind : Kind) :
    ∃ m, renameEdits kind new (usagesOf w item name scope) file range = some m ∧
      ∀ f, apply ((m f).getD []) (encode (w.tree f).text) = some (encode ((w.tree f).relabel (φ f) 0).text) := by
  have hmem : ∀ u ∈ usagesOf w item name scope, ∃ rs, (u.1, rs) ∈ scope ∧ u.2 = search w item name [(u.1, rs)] := by
    intro u hu
    obtain ⟨⟨f, rs⟩, he, rfl⟩ := List.mem_map.1 (List.mem_filter.1 hu).1
    exact ⟨rs, he, rfl⟩
  have hbuild : ∀ f rs, (f, rs) ∈ scope → build ((search w item name [(f, rs)]).flatMap (usageChanges kind new)) =
      some ((leafChanges (φ f) 0 (w.tree f).leaves).filter fun c =>
        decide (c ∈ (search w item name [(f, rs)]).flatMap (usageChanges kind new))) := by
    intro f rs he
    obtain ⟨h1, h2⟩ := H.changes he kind
    refine build_gaps (H.gaps f) h1 fun c hc => ?_
    obtain ⟨h3, r, hr, h4⟩ := (h2 c).1 hc
    obtain ⟨t, n, anc, a1, a2, a3, a4, a5, a6, a7, a8⟩ := H.mem_search he hr
    refine (H.mem_changes f c).2 ⟨.use t n anc a2 a3 a4 a5 a6 ?_, h3⟩
    rw [← h4, a1]
    exact a7.symm
  obtain ⟨m, h1, h2, h3⟩ := foldlM_edits (kind := kind) (new := new) (m0 := fun _ => none)
    (keys_usages w item name scope H.files) (fun _ _ => rfl)
    (fun u hu => by obtain ⟨rs, he, h⟩ := hmem u hu; rw [h]; exact ⟨_, hbuild u.1 rs he⟩)
  refine ⟨insertSourceEdit m file [⟨range.1, range.2, encode new⟩], by unfold renameEdits; rw [h1]; rfl, fun f => ?_⟩
  suffices hL : (insertSourceEdit m file [⟨range.1, range.2, encode new⟩] f).getD [] = leafChanges (φ f) 0 (w.tree f).leaves by
    rw [hL]
    have := apply_leaves (φ f) (w.tree f).leaves
    rw [← Parser.relabel_leaves] at this
    exact this
  -- what the usages give
  have hm : Gaps ((m f).getD []) ∧ ∀ c, c ∈ (m f).getD [] ↔ c = ⟨c.start, c.start + blen name, encode new⟩ ∧
      ∃ rs, (f, rs) ∈ scope ∧ ∃ r ∈ search w item name [(f, rs)], r.range.1 = c.start := by
    by_cases hk : f ∈ (usagesOf w item name scope).map Prod.fst
    · obtain ⟨u, hu, rfl⟩ := List.mem_map.1 hk
      obtain ⟨rs, he, hrs⟩ := hmem u hu
      rw [h2 u hu, hrs, hbuild u.1 rs he, Option.getD_some]
      refine ⟨(H.gaps u.1).filter _, fun c => ?_⟩
      have hc := (H.changes he kind).2 c
      rw [List.mem_filter, decide_eq_true_eq, hc]
      constructor
      · rintro ⟨-, h4, h5⟩
        exact ⟨h4, rs, he, h5⟩
      · rintro ⟨h4, rs', he', r, hr, h5⟩
        have hrs' : rs' = rs := by
          rcases pairwise_or (List.pairwise_map.1 H.files) he' he with h6 | h6 | h6
          · exact (Prod.mk.inj h6).2
          · exact absurd rfl h6
          · exact absurd rfl h6
        subst hrs'
        refine ⟨?_, h4, r, hr, h5⟩
        obtain ⟨t, n, anc, a1, a2, a3, a4, a5, a6, a7, a8⟩ := H.mem_search he hr
        refine (H.mem_changes _ c).2 ⟨.use t n anc a2 a3 a4 a5 a6 ?_, h4⟩
        rw [← h5, a1]
        exact a7.symm
    · rw [h3 f hk]
      refine ⟨⟨by simp, by simp⟩, fun c => ?_⟩
      constructor
      · intro h; cases h
      · rintro ⟨-, rs, he, r, hr, -⟩
        refine absurd (List.mem_map.2 ⟨(f, search w item name [(f, rs)]), ?_, rfl⟩) hk
        refine List.mem_filter.2 ⟨List.mem_map.2 ⟨(f, rs), he, rfl⟩, ?_⟩
        cases hs : search w item name [(f, rs)] with
        | nil => rw [hs] at hr; cases hr
        | cons x xs => rfl
  have hdef : (⟨range.1, range.2, encode new⟩ : Change) ∈ leafChanges (φ file) 0 (w.tree file).leaves := by
    rw [H.mem_changes]
    refine ⟨.definition rfl rfl, ?_⟩
    obtain ⟨t, n, anc, a1, a2, a3, a4, a5⟩ := H.defined
    have h6 : n.children.length = 1 := by
      cases a1 with
      | child hup hm => exact ((H.parsed _).plain n anc hup (.inl a4)).1
    obtain ⟨b1, b2⟩ := single a1 h6
    rw [a5]
    dsimp only
    rw [b1, b2, ← a3]
    rfl
  have hall : ∀ c, c ∈ leafChanges (φ f) 0 (w.tree f).leaves ↔
      c ∈ (m f).getD [] ∨ (f = file ∧ c = ⟨range.1, range.2, encode new⟩) := by
    intro c
    rw [H.mem_changes, hm.2]
    constructor
    · rintro ⟨ht, hc⟩
      by_cases hd : f = file ∧ range.1 = c.start
      · right
        refine ⟨hd.1, ?_⟩
        have := ((H.mem_changes _ _).1 hdef).2
        dsimp only at this
        rw [this, hc, hd.2]
      · left
        exact ⟨hc, H.search_mem ht hd⟩
    · rintro (⟨hc, rs, he, r, hr, h4⟩ | ⟨rfl, rfl⟩)
      · obtain ⟨t, n, anc, a1, a2, a3, a4, a5, a6, a7, a8⟩ := H.mem_search he hr
        refine ⟨.use t n anc a2 a3 a4 a5 a6 ?_, hc⟩
        rw [← h4, a1]
        exact a7.symm
      · exact (H.mem_changes _ _).1 hdef
  unfold insertSourceEdit
  by_cases hf : f = file
  · subst hf
    rw [if_pos rfl]
    cases hmf : m f with
    | none =>
      dsimp only
      rw [hmf] at hall
      refine eq_of_order (by simp) (H.gaps f).starts fun c => ?_
      rw [hall]
      simp
    | some e =>
      dsimp only
      rw [hmf] at hall hm
      exact union_gaps (H.gaps f) hm.1 fun c => by rw [hall]; simp
  · rw [if_neg hf]
    refine eq_of_order hm.1.starts (H.gaps f).starts fun c => ?_
    rw [hall]
    simp [hf]

/-! ### The new tree -/

omit H in
theorem aims_of {Q : Piece → Prop} {f : Nat → Option (List Char)} {o : Nat} {ls : List Piece}
    (h : ∀ a p b, ls = a ++ p :: b → ((f (o + blen (texts a))).isSome = true → Q p) ∧
      ∀ q, o + blen (texts a) < q → q < o + blen (texts a) + blen p.text → f q = none) : Aims Q f o ls := by
  induction ls generalizing o with
  | nil => trivial
  | cons l ls ih =>
    obtain ⟨h1, h2⟩ := h [] l ls rfl
    refine ⟨by simpa [blen] using h1, fun q hq hq' => h2 q (by simpa [blen] using hq) (by simpa [blen] using hq'), ih ?_⟩
    intro a p b he
    have := h (l :: a) p b (by rw [he]; rfl)
    simpa [blen_append, Nat.add_assoc] using this

theorem Setting.aims (hp : Parser.Plain name) (hfree : name ≠ ['_'] ∧ name ≠ ['f', 'r', 'i', 'e', 'n', 'd']) (f : Nat) :
    Aims Renamable (φ f) 0 (w.tree f).leaves := by
  refine aims_of fun a p b he => ?_
  rw [Nat.zero_add]
  constructor
  · intro hs
    obtain ⟨y, hy⟩ := Option.isSome_iff_exists.1 hs
    obtain ⟨l1, l2, h1, h2⟩ := H.leaf ((H.map f _ y).1 hy).2
    have hne := H.nonempty f
    rw [he] at hne h1
    obtain ⟨-, rfl, -⟩ := leaves_unique h1 h2 hne
    exact ⟨rfl, hp, hfree⟩
  · intro q h1 h2
    by_contra hc
    obtain ⟨y, hy⟩ := Option.ne_none_iff_exists'.1 hc
    obtain ⟨l1, l2, h3, h4⟩ := H.leaf ((H.map f _ y).1 hy).2
    rw [he] at h3
    rcases List.append_eq_append_iff.1 h3 with ⟨x, e1, e2⟩ | ⟨x, e1, e2⟩
    · cases x with
      | nil =>
        rw [List.append_nil] at e1
        rw [e1] at h4
        omega
      | cons z x =>
        rw [List.cons_append, List.cons.injEq] at e2
        rw [e1, Parser.texts_append, Parser.texts_cons, blen_append, blen_append, ← e2.1] at h4
        omega
    · rw [e1, Parser.texts_append, blen_append] at h1
      omega

/-- **C63.** In a file that parses the edits of the rename give a text that parses to the same tree with the new name at its leaves,
with as many errors. Left out are uses in shorthands, names next to characters that are not ASCII or to quotes, and files with block
comments that are not ASCII. -/
theorem C63_tree_partial (kind : Kind) (hp : Parser.Plain name) (hfree : name ≠ ['_'] ∧ name ≠ ['f', 'r', 'i', 'e', 'n', 'd'])
    (hnew : NewName new) {g : List Char → Nat} (hg : Graphemes g) (hb : Parser.AsciiBreaks g) (ho : Lexer.OneAhead g) :
    ∃ m, renameEdits kind new (usagesOf w item name scope) file range = some m ∧
      ∀ f debug text fuel errs, 2 * text.length + 2 ≤ fuel → parseText g debug fuel text = .tree (w.tree f) errs →
        (∀ p ∈ (w.tree f).leaves, p.kind = .COMMENT → ['/', '*'] <+: p.text → Lexer.Ascii p.text) →
        ∃ after errs', apply ((m f).getD []) (encode text) = some (encode after) ∧
          parseText g debug fuel after = .tree ((w.tree f).relabel (φ f) 0) errs' ∧ errs'.length = errs.length := by
  obtain ⟨m, h1, h2⟩ := C63_edits_partial H kind
  refine ⟨m, h1, fun f debug text fuel errs hfuel hparse hcom => ?_⟩
  have htext := (Parser.C28_tree_reproduces_text hg hb debug text hfuel hparse).2.1
  obtain ⟨errs', h3, h4⟩ := Parser.reparse hg hb ho hfuel hparse (H.aims hp hfree f)
    (fun q y hy => ((H.map f q y).1 hy).1 ▸ hnew)
    (fun q hq => by
      obtain ⟨y, hy⟩ := Option.isSome_iff_exists.1 hq
      rw [← htext]
      exact H.spots f q ((H.map f q y).1 hy).2) hcom
  exact ⟨_, errs', by rw [← htext]; exact h2 f, h3, h4⟩

end Verif.Ide.Rename
