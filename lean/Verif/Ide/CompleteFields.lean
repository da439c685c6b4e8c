import Verif.Ide.CountsProps
import Verif.Ide.CountsExamples
import Verif.Ide.Runnables
import Verif.Nameres.Labels

/-! C85: completion of the fields of literals and patterns, of labels and of the items of specifications.

ide-completion/src/completions/reference.rs and reference/labels.rs. The struct literal or pattern, the label and the specification are
those at the cursor (context/analysis.rs). The texts that are inserted and the keywords after `spec` are left out. -/

namespace Verif.Ide.CompleteFields
open Verif Verif.Syntax Verif.Nameres
open Verif.Parser (Green)
open Verif.Nameres.Full (Is isNode_iff nodeChild_mem mem_itemsOfKind)
open Verif.Ide.Usages (Parsed parseOf parseOf_parsed)
open Verif.Ide.Counts

/-! ### Model -/

/-- `contains_inclusive` of the offset in the range of the node (reference.rs:84, 118). -/
def touches (offset : Nat) (f : Elem) : Bool := decide (f.start ≤ offset) && decide (offset ≤ f.stop)

/-- `add_struct_lit_fields_completions` (reference.rs:72–104), with the literal and its ancestors; `none` is a panic. -/
def litOffers (env : Env) (offset : Nat) : List Elem → Option (List (List Char))
  | [] => some []
  | lit :: up =>
    match nodeChild lit .PATH with
    | none => none
    | some p =>
      match env.fields (p :: lit :: up) with
      | none => some []
      | some o =>
        (declaredNames o).map fun d => missing d (((litFields lit).filter fun f => !touches offset f).filterMap litFieldName)

/-- `add_struct_pat_fields_completions` (reference.rs:106–134). -/
def patOffers (env : Env) (offset : Nat) : List Elem → Option (List (List Char))
  | [] => some []
  | pat :: up =>
    match nodeChild pat .PATH with
    | none => none
    | some p =>
      match env.fields (p :: pat :: up) with
      | none => some []
      | some o =>
        (declaredNames o).map fun d => missing d (((patFields pat).filter fun f => !touches offset f).filterMap patFieldName)

/-- `add_label_completions` (labels.rs:16–37). -/
def labelOffers (anc : List Elem) : List (List Char) := (labelVariants anc).map Prod.fst

/-- `verifiable_items` (syntax/src/ast/node_ext/module.rs:50–56) with `non_test_functions` (has_item_list.rs:32–37). -/
def verifiable (m : Elem) : List Elem :=
  ((itemsOfKind m .FUN).filter fun f => !Runnables.isTest f) ++ itemsOfKind m .STRUCT ++ itemsOfKind m .ENUM

/-- `add_item_spec_ref_completions` (reference.rs:51–70), in the module of the specification. -/
def specOffers (m : Elem) : List (List Char) := (verifiable m).filterMap nameText

/-- `get_item_spec_entries` (lang/src/nameres.rs:234–243). -/
def specTargets (m : Elem) (name : List Char) : List Elem := (verifiable m).filter fun i => decide (nameText i = some name)

/-! ### Specification -/

/-- The offset is in the node or at one of its ends. -/
def Touches (offset : Nat) (f : Elem) : Prop := f.start ≤ offset ∧ offset ≤ f.stop

/-- A field of the literal that is not the one at the cursor gives the field of that name. -/
def GivesElse (lit : Elem) (offset : Nat) (name : List Char) : Prop :=
  ∃ l f, First [.STRUCT_LIT_FIELD_LIST] lit l ∧ f ∈ l.children ∧ Is .STRUCT_LIT_FIELD f ∧ ¬ Touches offset f ∧ LitGives f name

/-- A field of the pattern that is not the one at the cursor mentions the field of that name. -/
def MentionsElse (pat : Elem) (offset : Nat) (name : List Char) : Prop :=
  ∃ l f, First [.STRUCT_PAT_FIELD_LIST] pat l ∧ f ∈ l.children ∧ Is .STRUCT_PAT_FIELD f ∧ ¬ Touches offset f ∧ PatGives f name

/-- What a specification in the module can be about. -/
def Specified (m i : Elem) : Prop := i ∈ m.children ∧ ((Is .FUN i ∧ ¬ HasAttr i.green "test") ∨ Is .STRUCT i ∨ Is .ENUM i)

/-! ### Fields -/

theorem touches_iff (offset : Nat) (f : Elem) : touches offset f = true ↔ Touches offset f := by
  simp [touches, Touches]

theorem mem_litFields {lit f : Elem} : f ∈ litFields lit ↔ ∃ l, First [.STRUCT_LIT_FIELD_LIST] lit l ∧ f ∈ l.children ∧ Is .STRUCT_LIT_FIELD f := by
  unfold litFields
  constructor
  · intro hf
    split at hf <;> [skip; cases hf]
    next l hl =>
    rw [nodeChild_iff] at hl
    obtain ⟨h1, h2⟩ := List.mem_filter.1 hf
    exact ⟨l, hl, h1, (isNode_iff _ _).1 h2⟩
  · rintro ⟨l, hl, h1, h2⟩
    rw [nodeChild_iff.2 hl]
    exact List.mem_filter.2 ⟨h1, (isNode_iff _ _).2 h2⟩

theorem mem_givenElse {g : Green} (hp : Parsed g) {lit : Elem} {up : List Elem} (hc : Chain g (lit :: up)) (offset : Nat) (w : List Char) :
    w ∈ ((litFields lit).filter fun f => !touches offset f).filterMap litFieldName ↔ GivesElse lit offset w := by
  rw [List.mem_filterMap]
  constructor
  · rintro ⟨f, hf, hw⟩
    obtain ⟨hf, ht⟩ := List.mem_filter.1 hf
    obtain ⟨l, h1, h2, h3⟩ := mem_litFields.1 hf
    refine ⟨l, f, h1, h2, h3, ?_, (litFieldName_iff hp (.child (.child hc h1.mem) h2) w).1 hw⟩
    rw [← touches_iff]
    simpa using ht
  · rintro ⟨l, f, h1, h2, h3, h4, h5⟩
    refine ⟨f, List.mem_filter.2 ⟨mem_litFields.2 ⟨l, h1, h2, h3⟩, ?_⟩, (litFieldName_iff hp (.child (.child hc h1.mem) h2) w).2 h5⟩
    rw [← touches_iff] at h4
    simpa using h4

theorem mem_mentionedElse {g : Green} (hp : Parsed g) {pat : Elem} {up : List Elem} (hc : Chain g (pat :: up)) (offset : Nat) (w : List Char) :
    w ∈ ((patFields pat).filter fun f => !touches offset f).filterMap patFieldName ↔ MentionsElse pat offset w := by
  rw [List.mem_filterMap]
  constructor
  · rintro ⟨f, hf, hw⟩
    obtain ⟨hf, ht⟩ := List.mem_filter.1 hf
    obtain ⟨l, h1, h2, h3⟩ := mem_patFields.1 hf
    refine ⟨l, f, h1, h2, h3, ?_, (patFieldName_iff hp (.child (.child hc h1.mem) h2) w).1 hw⟩
    rw [← touches_iff]
    simpa using ht
  · rintro ⟨l, f, h1, h2, h3, h4, h5⟩
    refine ⟨f, List.mem_filter.2 ⟨mem_patFields.2 ⟨l, h1, h2, h3⟩, ?_⟩, (patFieldName_iff hp (.child (.child hc h1.mem) h2) w).2 h5⟩
    rw [← touches_iff] at h4
    simpa using h4

theorem litOffers_eq {g' : Green} (hp' : Parsed g') (env : Env) (offset : Nat) {lit p o : Elem} {up up' : List Elem}
    (hpath : First [.PATH] lit p) (hr : env.fields (p :: lit :: up) = some o) (ho : Chain g' (o :: up')) {names : List (List Char)}
    (hn : FieldNames o names) : litOffers env offset (lit :: up) =
      some (missing names (((litFields lit).filter fun f => !touches offset f).filterMap litFieldName)) := by
  unfold litOffers
  dsimp only
  rw [nodeChild_iff.2 hpath]
  dsimp only
  rw [hr]
  dsimp only
  rw [declaredNames_of hp' ho hn]
  rfl

/-- In a struct literal exactly the declared fields that no other field of the literal gives are offered, in the order of the
declaration. -/
theorem C85_literal {g g' : Green} (hp : Parsed g) (hp' : Parsed g') (env : Env) (offset : Nat) {lit p o : Elem} {up up' : List Elem}
    (hc : Chain g (lit :: up)) (hpath : First [.PATH] lit p) (hr : env.fields (p :: lit :: up) = some o) (ho : Chain g' (o :: up'))
    {names : List (List Char)} (hn : FieldNames o names) :
    ∃ left, litOffers env offset (lit :: up) = some left ∧ Left names (GivesElse lit offset) left :=
  ⟨_, litOffers_eq hp' env offset hpath hr ho hn, missing_left (mem_givenElse hp hc offset)⟩

/-- In a literal or a pattern without a path completion panics; with a path that leads to nothing with fields nothing is offered. -/
theorem C85_path (env : Env) (offset : Nat) (e : Elem) (up : List Elem) :
    ((∀ p, ¬ First [.PATH] e p) → litOffers env offset (e :: up) = none ∧ patOffers env offset (e :: up) = none) ∧
    ∀ p, First [.PATH] e p → env.fields (p :: e :: up) = none →
      litOffers env offset (e :: up) = some [] ∧ patOffers env offset (e :: up) = some [] := by
  unfold litOffers patOffers
  dsimp only
  constructor
  · intro h
    cases hn : nodeChild e .PATH with
    | none => exact ⟨rfl, rfl⟩
    | some p => exact absurd (nodeChild_iff.1 hn) (h p)
  · intro p h hr
    rw [nodeChild_iff.2 h]
    dsimp only
    rw [hr]
    exact ⟨rfl, rfl⟩

/-- Both cases of `C85_path` are met. -/
example : (∀ p, ¬ First [.PATH] ⟨[], 0, .node .STRUCT_LIT []⟩ p) ∧
    ∃ p, First [.PATH] ⟨[], 0, .node .STRUCT_LIT [.node .PATH []]⟩ p :=
  ⟨fun _ h => (nomatch (nodeChild_iff.2 h)), ⟨⟨[0], 0, .node .PATH []⟩, (nodeChild_iff (e := ⟨[], 0, .node .STRUCT_LIT [.node .PATH []]⟩) (k := .PATH)).1 rfl⟩⟩

/-- In a struct pattern exactly the declared fields that no other field of the pattern mentions are offered, in the order of the
declaration. -/
theorem C85_pattern {g g' : Green} (hp : Parsed g) (hp' : Parsed g') (env : Env) (offset : Nat) {pat p o : Elem} {up up' : List Elem}
    (hc : Chain g (pat :: up)) (hpath : First [.PATH] pat p) (hr : env.fields (p :: pat :: up) = some o) (ho : Chain g' (o :: up'))
    {names : List (List Char)} (hn : FieldNames o names) :
    ∃ left, patOffers env offset (pat :: up) = some left ∧ Left names (MentionsElse pat offset) left := by
  refine ⟨missing names (((patFields pat).filter fun f => !touches offset f).filterMap patFieldName), ?_,
    missing_left (mem_mentionedElse hp hc offset)⟩
  unfold patOffers
  dsimp only
  rw [nodeChild_iff.2 hpath]
  dsimp only
  rw [hr]
  dsimp only
  rw [declaredNames_of hp' ho hn]
  rfl

/-- Between the fields of a struct literal the fields are offered that it is reported to leave out: if there is nothing to offer, nothing
is reported, and else what is offered is what is listed. -/
theorem C85_missing {g g' : Green} (hp : Parsed g) (hp' : Parsed g') (env : Env) (offset : Nat) {lit p o : Elem} {up up' : List Elem}
    (hc : Chain g (lit :: up)) (hpath : First [.PATH] lit p) (hr : env.fields (p :: lit :: up) = some o) (ho : Chain g' (o :: up'))
    {names : List (List Char)} (hn : FieldNames o names)
    (hb : ∀ l f, First [.STRUCT_LIT_FIELD_LIST] lit l → f ∈ l.children → Is .STRUCT_LIT_FIELD f → ¬ Touches offset f) :
    ∃ left, litOffers env offset (lit :: up) = some left ∧ Left names (Gives lit) left ∧
      (left = [] → checkLit env (lit :: up) = some []) ∧
      (left ≠ [] → checkLit env (lit :: up) = some [⟨"Missing field".toList ++ (if left.length = 1 then [] else ['s']) ++ " for `".toList ++
        p.green.text ++ "` initializer: ".toList ++ listed left, (p.start, p.stop)⟩]) := by
  have hall : (litFields lit).filter (fun f => !touches offset f) = litFields lit := by
    rw [List.filter_eq_self]
    intro f hf
    obtain ⟨l, h1, h2, h3⟩ := mem_litFields.1 hf
    have := hb l f h1 h2 h3
    rw [← touches_iff] at this
    simpa using this
  have he := litOffers_eq hp' env offset hpath hr ho hn
  rw [hall] at he
  have hg := mem_given hp hc
  have e : checkLit env (lit :: up) = some (if (missing names ((litFields lit).filterMap litFieldName)).isEmpty then [] else
      [⟨litMessage p.green.text (missing names ((litFields lit).filterMap litFieldName)), rangeOf p⟩]) := by
    unfold checkLit
    dsimp only
    rw [nodeChild_iff.2 hpath]
    dsimp only
    rw [hr]
    dsimp only
    rw [declaredNames_of hp' ho hn]
    rfl
  refine ⟨_, he, missing_left hg, fun h => ?_, fun h => ?_⟩
  · rw [e, h]; rfl
  · rw [e, if_neg (by simpa using h), litMessage, quoted_listed]
    congr 3
    split <;> simp

/-- The name of the field at the cursor is offered too, if it is declared and no other field gives it. -/
theorem C85_current {g g' : Green} (hp : Parsed g) (hp' : Parsed g') (env : Env) (offset : Nat) {lit p o : Elem} {up up' : List Elem}
    (hc : Chain g (lit :: up)) (hpath : First [.PATH] lit p) (hr : env.fields (p :: lit :: up) = some o) (ho : Chain g' (o :: up'))
    {names : List (List Char)} (hn : FieldNames o names) (w : List Char) (left : List (List Char))
    (hl : litOffers env offset (lit :: up) = some left) : w ∈ left ↔ w ∈ names ∧ ¬ GivesElse lit offset w := by
  obtain ⟨left', h1, h2, h3, h4⟩ := C85_literal hp hp' env offset hc hpath hr ho hn
  rw [hl] at h1
  cases h1
  constructor
  · intro h; exact ⟨h2.subset h, h3 w h⟩
  · rintro ⟨h, h'⟩
    have := h4 w h h'
    rw [← List.count_pos_iff, this, List.count_pos_iff]
    exact h

/-! ### Labels -/

/-- Exactly the labels of the loops around the cursor, inside of its function or lambda, are offered. -/
theorem C85_labels (anc : List Elem) (w : List Char) : w ∈ labelOffers anc ↔ ∃ l d, Nameres.Declares anc w l d := by
  have : w ∈ labelOffers anc ↔ ∃ d, d ∈ resolveLabels w anc := by
    unfold labelOffers resolveLabels
    simp only [List.mem_map, List.mem_filter, decide_eq_true_eq, Prod.exists, exists_and_right, exists_eq_right]
  rw [this]
  constructor
  · rintro ⟨d, h⟩
    obtain ⟨l, h⟩ := (C52_found w anc d).1 h
    exact ⟨l, d, h⟩
  · rintro ⟨l, d, h⟩
    exact ⟨d, (C52_found w anc d).2 ⟨l, h⟩⟩

/-- A label that is offered once means a loop, and the one around the cursor that declares it. What is missing: `C85_label_fails`. -/
theorem C85_label_partial (anc : List Elem) (w : List Char) (h : (labelOffers anc).count w = 1) :
    ∃ l d, resolveLabel w anc = some d ∧ Nameres.Declares anc w l d := by
  have : (resolveLabels w anc).length = 1 := by
    rw [← h]
    unfold resolveLabels labelOffers
    rw [List.length_map, List.count_eq_countP, List.countP_map, List.countP_eq_length_filter]
    congr 1
    refine List.filter_congr fun x _ => ?_
    rw [Bool.eq_iff_iff]
    simp
  obtain ⟨d, hd⟩ := List.length_eq_one_iff.1 this
  obtain ⟨l, hl⟩ := (C52_found w anc d).1 (by rw [hd]; simp)
  exact ⟨l, d, by rw [resolveLabel, hd], hl⟩

/-! ### Items of specifications -/

theorem mem_verifiable (m i : Elem) : i ∈ verifiable m ↔ Specified m i := by
  have ht : Runnables.isTest i = true ↔ HasAttr i.green "test" := by
    rw [Runnables.isTest, List.contains_iff_mem, mem_attrTexts]
  unfold verifiable Specified
  simp only [List.mem_append, List.mem_filter, mem_itemsOfKind, Bool.not_eq_true', ← Bool.not_eq_true, ht]
  tauto

/-- After `spec` exactly the names of the functions that are no tests, of the structs and of the enums of the module are offered, and each
of them means the items of that name. -/
theorem C85_specs (m : Elem) (w : List Char) :
    (w ∈ specOffers m ↔ ∃ i, Specified m i ∧ nameText i = some w) ∧
    ∀ i, i ∈ specTargets m w ↔ Specified m i ∧ nameText i = some w := by
  constructor
  · unfold specOffers
    rw [List.mem_filterMap]
    simp only [mem_verifiable]
  · intro i
    unfold specTargets
    rw [List.mem_filter, mem_verifiable, decide_eq_true_eq]

end Verif.Ide.CompleteFields
