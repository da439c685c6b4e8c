import Verif.Ide.Usages
import Verif.TextEdit.TreeDiff
import Verif.Syntax.Relabel
import Verif.Nameres.Scopes

/-! Renaming (ide/src/rename.rs, ide-db/src/rename.rs): the definition that is renamed, the edits for its uses and the edits of all
files. -/

namespace Verif.Ide.Rename
open Verif Verif.TextEdit Verif.Syntax
open Verif.Parser (Green Piece texts relabelPieces)
open Verif.Lexer (blen blen_append)
open Verif.Ide.Usages
open Verif.Nameres (childOf)

/-- The definition: a field of a struct, a binding or something else (`ast::NamedElement`, as far as ide-db/src/rename.rs:132–148
looks at it). -/
inductive Kind where
  | field | binding | other
  deriving DecidableEq, Repr

/-- `Expr` (generated/nodes.rs:6991–7035). -/
def exprKinds : List SyntaxKind :=
  [.ABORT_EXPR, .ANNOTATED_EXPR, .ASSERT_MACRO_EXPR, .BANG_EXPR, .BEHAVIOR_PREDICATE_EXPR, .BIN_EXPR, .BLOCK_EXPR, .BORROW_EXPR,
    .BREAK_EXPR, .CALL_EXPR, .CAST_EXPR, .CHOOSE_EXPR, .CONTINUE_EXPR, .DEREF_EXPR, .DOT_EXPR, .EXISTS_EXPR, .FOR_EXPR, .FORALL_EXPR,
    .IF_EXPR, .INDEX_EXPR, .IS_EXPR, .LAMBDA_EXPR, .LITERAL, .LOOP_EXPR, .MATCH_EXPR, .METHOD_CALL_EXPR, .MINUS_EXPR, .PAREN_EXPR,
    .PATH_EXPR, .RANGE_EXPR, .RESOURCE_EXPR, .RETURN_EXPR, .SPEC_BLOCK_EXPR, .STRUCT_LIT, .TUPLE_EXPR, .UNIT_EXPR, .VECTOR_LIT_EXPR,
    .WHILE_EXPR]

/-- `StructLitFieldKind`, as far as renaming looks at it. -/
inductive LitField where
  | full (expr : Option Elem)
  | shorthand

/-- `try_into_struct_lit_field` (syntax/src/ast/node_ext/struct_lit_field.rs:25–48), of a name and its ancestors. `parent_path`
panics unless a segment is in a path; here there is then no field. -/
def litField : List Elem → Option LitField
  | _ :: p :: up =>
    if p.kind = .STRUCT_LIT_FIELD then some (.full (childOf p exprKinds))
    else if p.kind = .PATH_SEGMENT then
      match up.dropWhile fun e => decide (e.kind = .PATH) with
      | e :: field :: _ =>
        if e.kind = .PATH_EXPR ∧ field.kind = .STRUCT_LIT_FIELD ∧ (nodeChild field .NAME_REF).isNone then some .shorthand else none
      | _ => none
    else none
  | _ => none

/-- `text()` of a name (the `IDENT` token). -/
def nameText (n : Elem) : List Char := ((tokenChild n .IDENT).map fun t => t.green.text).getD []

/-- `source_edit_from_name_ref` (rename.rs:106–183); `none` if it emits nothing. -/
def refEdit (kind : Kind) (new : List Char) : List Elem → Option (List Change)
  | [] => none
  | n :: anc =>
    match litField (n :: anc) with
    | some (.full (some e)) => if e.green.text = new then some [⟨n.start, e.start, []⟩] else none
    | some (.full none) => none
    | some .shorthand =>
      match kind with
      | .field => some [⟨n.start, n.start, encode (new ++ [':', ' '])⟩]
      | .binding => some [⟨n.stop, n.stop, encode ([':', ' '] ++ new)⟩]
      | .other => none
    | none =>
      match anc with
      | p :: _ =>
        if p.kind = .STRUCT_PAT_FIELD then
          match nodeChild p .NAME_REF, nodeChild p .IDENT_PAT with
          | some f, some i =>
            match nodeChild i .NAME with
            | some nm =>
              if f.path = n.path ∧ nameText nm = new then some [⟨n.start, i.start, []⟩, ⟨nm.start, nm.stop, encode new⟩] else none
            | none => none
          | _, _ => none
        else none
      | [] => none

/-- `source_edit_from_name` (rename.rs:91–104). -/
def nameEdit (new : List Char) : List Elem → Option (List Change)
  | _ :: i :: p :: _ =>
    if i.kind = .IDENT_PAT ∧ p.kind = .STRUCT_PAT_FIELD then
      (nodeChild p .IDENT_PAT).map fun q => [⟨q.start, q.start, encode (new ++ [':', ' '])⟩]
    else none
  | _ => none

/-- The loop body of `source_edit_from_references` (rename.rs:75–86). -/
def usageChanges (kind : Kind) (new : List Char) (r : Reference) : List Change :=
  (match r.node with
    | (n : Elem) :: anc => if n.kind = .NAME_REF then refEdit kind new (n :: anc) else nameEdit new (n :: anc)
    | [] => none : Option (List Change)).getD [⟨r.range.1, r.range.2, encode new⟩]

/-- The usages by file (search.rs:364–371): a scope has every file once. -/
def usagesOf (w : World) (item : NodeId) (name : List Char) (scope : Scope) : List (Nat × List Reference) :=
  (scope.map fun entry => (entry.1, search w item name [entry])).filter fun u => !u.2.isEmpty

/-- `rename_named_element` (rename.rs:44–71), after the checks of the package: the edits of every file; `none` is a panic.
`range` is the range of the name of the definition. -/
def renameEdits (kind : Kind) (new : List Char) (usages : List (Nat × List Reference)) (file : Nat) (range : Nat × Nat) :
    Option FileEdits :=
  (usages.foldlM (fun (m : FileEdits) u => (build (u.2.flatMap (usageChanges kind new))).map (insertSourceEdit m u.1))
    fun _ => none).map fun m => insertSourceEdit m file [⟨range.1, range.2, encode new⟩]

/-- `rename` (ide/src/rename.rs:34–49), when the definition is known: the kind of the new name is not looked at. The inner `none`
is the refusal of the name. -/
def rename (g : List Char → Nat) (fuel : Nat) (kind : Kind) (new : List Char) (usages : List (Nat × List Reference)) (file : Nat)
    (range : Nat × Nat) : Option (Option FileEdits) :=
  match Lexer.classify g fuel new with
  | some (some (some _)) => (renameEdits kind new usages file range).map some
  | some (some none) => some none
  | _ => none

/-! ### The definition -/

/-- What stands at the position (`find_namelike_at_offset`), with its ancestors, and what it is. -/
inductive NameLike where
  | name (node : List Elem) (cls : Option NameClass)
  | ref (node : List Elem) (cls : Option RefClass)

/-- `find_definition` (ide/src/rename.rs:51–110). `defName` is the text of the name of a definition, if it has one. -/
def findDefinition (defName : NodeId → Option (List Char)) : Option NameLike → Option NodeId
  | none => none
  | some (.name node cls) =>
    if (node.tail.head?.any fun p => decide (p.kind = .USE_ALIAS)) then none
    else match cls with
      | some (.definition d) => some d
      | some (.constRef d) => some d
      | some (.patShorthand pat _) => some pat
      | some (.specParam _ pat) => some pat
      | none => none
  | some (.ref node cls) =>
    match (match cls with
      | some (.definition d) => some d
      | some (.shorthand pat _) => some pat
      | some .builtin => none
      | none => none : Option NodeId) with
    | some d =>
      if ((defName d).any fun n => decide (n ≠ (node.head?.map nameText).getD [])) then none else some d
    | none => none

/-- `prepare_rename` (ide/src/rename.rs:20–32): the range of the name of the definition. -/
def prepareRename (defName : NodeId → Option (List Char)) (defRange : NodeId → Option (Nat × Nat)) (at' : Option NameLike) :
    Option (Nat × Nat) :=
  (findDefinition defName at').bind defRange

/-! ### The edits of a file -/

/-- The replacements of the leaves that start at some offsets. -/
def leafChanges (f : Nat → Option (List Char)) : Nat → List Piece → List Change
  | _, [] => []
  | o, p :: ps => ((f o).map fun y => (⟨o, o + blen p.text, encode y⟩ : Change)).toList ++ leafChanges f (o + blen p.text) ps

theorem mem_leafChanges {f : Nat → Option (List Char)} {o : Nat} {ls : List Piece} {c : Change} :
    c ∈ leafChanges f o ls ↔ ∃ a p b y, ls = a ++ p :: b ∧ c.start = o + blen (texts a) ∧ c.stop = c.start + blen p.text ∧
      f c.start = some y ∧ c.newText = encode y := by
  induction ls generalizing o with
  | nil => simp [leafChanges]
  | cons p ps ih =>
    rw [leafChanges, List.mem_append, ih]
    constructor
    · rintro (h | ⟨a, q, b, y, rfl, h1, h2, h3, h4⟩)
      · cases hf : f o with
        | none => rw [hf] at h; cases h
        | some y =>
          rw [hf] at h
          simp only [Option.map_some, Option.toList_some, List.mem_singleton] at h
          subst h
          exact ⟨[], p, ps, y, rfl, by simp [blen], rfl, hf, rfl⟩
      · exact ⟨p :: a, q, b, y, rfl, by rw [h1]; simp [blen_append]; omega, h2, h3, h4⟩
    · rintro ⟨a, q, b, y, h, h1, h2, h3, h4⟩
      cases a with
      | nil =>
        left
        simp only [List.nil_append, List.cons.injEq] at h
        obtain ⟨rfl, rfl⟩ := h
        have h1 : c.start = o := by simpa [blen] using h1
        rw [h1] at h3 h2
        obtain ⟨s, e, x⟩ := c
        dsimp only at *
        subst h1 h2 h4
        simp [h3]
      | cons r a =>
        right
        simp only [List.cons_append, List.cons.injEq] at h
        obtain ⟨rfl, rfl⟩ := h
        exact ⟨a, q, b, y, rfl, by rw [h1]; simp [blen_append]; omega, h2, h3, h4⟩

theorem leafChanges_lower {f : Nat → Option (List Char)} {o : Nat} {ls : List Piece} {c : Change} (h : c ∈ leafChanges f o ls) :
    o ≤ c.start ∧ c.start ≤ c.stop := by
  obtain ⟨a, p, b, y, -, h1, h2, -⟩ := mem_leafChanges.1 h
  omega

theorem leafChanges_ordered (f : Nat → Option (List Char)) (o : Nat) (ls : List Piece) :
    (leafChanges f o ls).Pairwise fun a b => a.stop ≤ b.start := by
  induction ls generalizing o with
  | nil => exact .nil
  | cons p ps ih =>
    rw [leafChanges, List.pairwise_append]
    refine ⟨?_, ih _, ?_⟩
    · cases f o <;> simp
    · intro a ha b hb
      have := (leafChanges_lower hb).1
      cases hf : f o with
      | none => rw [hf] at ha; cases ha
      | some y =>
        rw [hf] at ha
        simp only [Option.map_some, Option.toList_some, List.mem_singleton] at ha
        subst ha
        exact this

open Verif.TextEdit.Spec in
theorem splice_skip {o k : Nat} {cs : List Change} {a b : Text} (hk : a.length = k) (h : ∀ c ∈ cs, o + k ≤ c.start ∧ c.start ≤ c.stop) :
    splice o cs (a ++ b) = a ++ splice (o + k) cs b := by
  cases cs with
  | nil => rfl
  | cons c cs =>
    obtain ⟨h1, h2⟩ := h c (by simp)
    rw [splice, splice, List.take_append, List.drop_append, List.take_of_length_le (by omega), List.drop_eq_nil_of_le (by omega),
      List.nil_append, List.append_assoc, List.append_assoc, List.append_assoc]
    rw [show c.start - o - a.length = c.start - (o + k) by omega, show c.stop - o - a.length = c.stop - (o + k) by omega]

open Verif.TextEdit.Spec Verif.TextEdit.TreeDiff in
theorem splice_leaves (f : Nat → Option (List Char)) (o : Nat) (ls : List Piece) :
    splice o (leafChanges f o ls) (encode (texts ls)) = encode (texts (relabelPieces f o ls)) := by
  induction ls generalizing o with
  | nil => rfl
  | cons p ps ih =>
    rw [leafChanges, relabelPieces, Parser.texts_cons, Parser.texts_cons, encode_append, encode_append, ← ih]
    cases hf : f o with
    | none =>
      simp only [Option.map_none, Option.toList_none, List.nil_append, Option.getD_none]
      exact splice_skip (encode_length _) fun c hc => leafChanges_lower hc
    | some y =>
      simp only [Option.map_some, Option.toList_some, List.singleton_append, Option.getD_some]
      rw [splice]
      simp only [Nat.sub_self, List.take_zero, List.nil_append, Nat.add_sub_cancel_left]
      rw [← encode_length, List.drop_left]

open Verif.TextEdit.Spec Verif.TextEdit.TreeDiff in
theorem leafChanges_valid {f : Nat → Option (List Char)} {ls : List Piece} {c : Change} (h : c ∈ leafChanges f 0 ls) :
    ValidIn (encode (texts ls)) c := by
  obtain ⟨a, p, b, y, rfl, h1, h2, h3, h4⟩ := mem_leafChanges.1 h
  rw [Nat.zero_add] at h1
  refine ⟨by omega, ?_, ?_, ?_, ⟨y, h4⟩⟩
  · rw [encode_length]
    simp only [Parser.texts_append, Parser.texts_cons, blen_append]
    omega
  · rw [h1, Parser.texts_append]
    exact boundary _ _
  · have : c.stop = blen (texts a ++ p.text) := by rw [blen_append]; omega
    rw [this, Parser.texts_append, Parser.texts_cons, ← List.append_assoc]
    exact boundary _ _

open Verif.TextEdit.Spec Verif.TextEdit.TreeDiff in
/-- Applying the replacements of some leaves gives the text with the new leaves. -/
theorem apply_leaves (f : Nat → Option (List Char)) (ls : List Piece) :
    apply (leafChanges f 0 ls) (encode (texts ls)) = some (encode (texts (relabelPieces f 0 ls))) := by
  rw [apply_eq (Fits.of_wellFormed (fun c hc => leafChanges_valid hc) (leafChanges_ordered f 0 ls) (Nat.zero_le _)
    fun _ _ => Nat.zero_le _), splice_leaves]

/-- Lists that are in order, with the same members. -/
theorem eq_of_order {l m : List Change} (hl : l.Pairwise fun a b => a.start < b.start) (hm : m.Pairwise fun a b => a.start < b.start)
    (h : ∀ c, c ∈ l ↔ c ∈ m) : l = m := by
  induction l generalizing m with
  | nil =>
    cases m with
    | nil => rfl
    | cons b m => exact absurd ((h b).2 (by simp)) (by simp)
  | cons a l ih =>
    cases m with
    | nil => exact absurd ((h a).1 (by simp)) (by simp)
    | cons b m =>
      obtain ⟨hl1, hl2⟩ := List.pairwise_cons.1 hl
      obtain ⟨hm1, hm2⟩ := List.pairwise_cons.1 hm
      have hab : a = b := by
        rcases List.mem_cons.1 ((h a).1 (by simp)) with h1 | h1
        · exact h1
        · rcases List.mem_cons.1 ((h b).2 (by simp)) with h2 | h2
          · exact h2.symm
          · have := hm1 a h1
            have := hl1 b h2
            omega
      subst hab
      congr 1
      refine ih hl2 hm2 fun c => ?_
      constructor
      · intro hc
        rcases List.mem_cons.1 ((h c).1 (by simp [hc])) with rfl | h1
        · have := hl1 c hc; omega
        · exact h1
      · intro hc
        rcases List.mem_cons.1 ((h c).2 (by simp [hc])) with rfl | h1
        · have := hm1 c hc; omega
        · exact h1

theorem coalesce_gaps {cs : List Change} (h : cs.Pairwise fun a b => a.stop < b.start) : coalesce cs = cs := by
  cases cs with
  | nil => rfl
  | cons a bs =>
    rw [coalesce]
    induction bs generalizing a with
    | nil => rfl
    | cons b bs ih =>
      obtain ⟨h1, h2⟩ := List.pairwise_cons.1 h
      have := h1 b (by simp)
      rw [coalesceGo, if_neg (by omega), ih _ h2]

/-- Whole replacements with something between any two of them. -/
structure Gaps (cs : List Change) : Prop where
  some : ∀ c ∈ cs, c.start < c.stop
  gaps : cs.Pairwise fun a b => a.stop < b.start

theorem Gaps.starts {cs : List Change} (h : Gaps cs) : cs.Pairwise fun a b => a.start < b.start := by
  refine h.gaps.imp_of_mem ?_
  intro a b ha _ hab
  have := h.some a ha
  omega

theorem Gaps.wf {cs : List Change} (h : Gaps cs) : Spec.WellFormed cs :=
  ⟨fun c hc => Nat.le_of_lt (h.some c hc), h.gaps.imp Nat.le_of_lt⟩

theorem Gaps.filter {cs : List Change} (h : Gaps cs) (P : Change → Bool) : Gaps (cs.filter P) :=
  ⟨fun c hc => h.some c (List.mem_filter.1 hc).1, h.gaps.filter P⟩

theorem Gaps.disjoint {cs : List Change} (h : Gaps cs) {a b : Change} (ha : a ∈ cs) (hb : b ∈ cs) :
    a = b ∨ a.stop < b.start ∨ b.stop < a.start := by
  replace h := h.gaps
  induction cs with
  | nil => cases ha
  | cons c cs ih =>
    obtain ⟨h1, h2⟩ := List.pairwise_cons.1 h
    rcases List.mem_cons.1 ha with ha' | ha' <;> rcases List.mem_cons.1 hb with hb' | hb'
    · exact .inl (ha'.trans hb'.symm)
    · subst ha'; exact .inr (.inl (h1 b hb'))
    · subst hb'; exact .inr (.inr (h1 a ha'))
    · exact ih ha' hb' h2

/-- A builder that gets some of the replacements, in any order. -/
theorem build_gaps {L cs : List Change} (hL : Gaps L) (hn : cs.Nodup) (hsub : ∀ c ∈ cs, c ∈ L) :
    build cs = some (L.filter fun c => decide (c ∈ cs)) := by
  have hv : ∀ c ∈ cs, c.start ≤ c.stop := fun c hc => Nat.le_of_lt (hL.some c (hsub c hc))
  have hd : cs.Pairwise Spec.Disjoint := by
    refine hn.imp_of_mem ?_
    intro a b ha hb hab
    rcases hL.disjoint (hsub a ha) (hsub b hb) with h | h | h
    · exact absurd h hab
    · exact .inl (Nat.le_of_lt h)
    · exact .inr (Nat.le_of_lt h)
  have hperm : (sortChanges cs).Perm cs := sortByKey_perm Change.key cs
  have hw := sort_wellFormed hv hd
  have hstart : (sortChanges cs).Pairwise fun a b => a.start < b.start := by
    refine hw.ordered.imp_of_mem ?_
    intro a b ha _ hab
    have := hL.some a (hsub a (hperm.mem_iff.1 ha))
    omega
  have heq : sortChanges cs = L.filter fun c => decide (c ∈ cs) := by
    refine eq_of_order hstart (hL.filter _).starts fun c => ?_
    rw [hperm.mem_iff, List.mem_filter]
    constructor
    · intro h; exact ⟨hsub c h, by simpa using h⟩
    · intro h; simpa using h.2
  rw [build_of_pairwise hv (hd.imp compat_of_disjoint), heq, coalesce_gaps (hL.filter _).gaps]

/-- One more replacement. -/
theorem union_gaps {L A : List Change} {d : Change} (hL : Gaps L) (hA : Gaps A) (h : ∀ c, c ∈ L ↔ c ∈ A ∨ c = d) :
    unionSelf A [d] = L := by
  have hd : d ∈ L := (h d).2 (.inr rfl)
  have hwd : Spec.WellFormed [d] := ⟨by simpa using Nat.le_of_lt (hL.some d hd), by simp⟩
  obtain ⟨M, hM⟩ := C03_union_accepts A [d] hA.wf hwd
    (by
      intro a ha b hb
      rw [List.mem_singleton] at hb
      subst hb
      rcases hL.disjoint ((h a).2 (.inl ha)) hd with h | h | h
      · exact .inr h
      · exact .inl (.inl (Nat.le_of_lt h))
      · exact .inl (.inr (Nat.le_of_lt h)))
    (by
      intro a ha b hb hab
      rw [List.mem_singleton] at hb
      subst hb
      have h1 := hL.some a ((h a).2 (.inl ha))
      have h2 := hL.some b hd
      rcases hL.disjoint ((h a).2 (.inl ha)) hd with h | h | h
      · exact .inl h
      · omega
      · omega)
  obtain ⟨hw, hmem, -⟩ := union_ok hA.wf hwd hM
  have hmem' : ∀ c, c ∈ M ↔ c ∈ L := by
    intro c
    rw [hmem, h]
    simp
  unfold unionSelf
  rw [hM]
  refine eq_of_order ?_ hL.starts hmem'
  refine hw.ordered.imp_of_mem ?_
  intro a b ha _ hab
  have := hL.some a ((hmem' a).1 ha)
  omega

/-! ### The edits of all files -/

theorem foldlM_edits {kind : Kind} {new : List Char} {usages : List (Nat × List Reference)} {m0 : FileEdits}
    (hn : (usages.map Prod.fst).Nodup) (h0 : ∀ u ∈ usages, m0 u.1 = none)
    (hb : ∀ u ∈ usages, ∃ e, build (u.2.flatMap (usageChanges kind new)) = some e) :
    ∃ m : FileEdits, usages.foldlM (fun (m : FileEdits) u => (build (u.2.flatMap (usageChanges kind new))).map (insertSourceEdit m u.1)) m0 =
        some m ∧ (∀ u ∈ usages, m u.1 = build (u.2.flatMap (usageChanges kind new))) ∧ ∀ f, f ∉ usages.map Prod.fst → m f = m0 f := by
  induction usages generalizing m0 with
  | nil => exact ⟨m0, rfl, by simp, by simp⟩
  | cons u us ih =>
    rw [List.map_cons, List.nodup_cons] at hn
    obtain ⟨e, he⟩ := hb u (by simp)
    have hins : ∀ f, insertSourceEdit m0 u.1 e f = if f = u.1 then some e else m0 f := by
      intro f
      unfold insertSourceEdit
      rw [h0 u (by simp)]
    obtain ⟨m, h1, h2, h3⟩ := ih (m0 := insertSourceEdit m0 u.1 e) hn.2
      (by
        intro v hv
        rw [hins, if_neg, h0 v (by simp [hv])]
        intro heq
        exact hn.1 (heq ▸ List.mem_map_of_mem hv))
      fun v hv => hb v (by simp [hv])
    refine ⟨m, ?_, ?_, ?_⟩
    · rw [List.foldlM_cons, he]
      exact h1
    · intro v hv
      rcases List.mem_cons.1 hv with rfl | hv
      · rw [h3 _ hn.1, hins, if_pos rfl, he]
      · exact h2 v hv
    · intro f hf
      rw [List.map_cons, List.mem_cons, not_or] at hf
      rw [h3 f hf.2, hins, if_neg hf.1]

end Verif.Ide.Rename
