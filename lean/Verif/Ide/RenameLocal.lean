import Verif.Ide.RenameProps
import Verif.Ide.UsageScope
import Verif.Nameres.Renamed

/-! C63: what the names refer to after a local variable or a parameter was renamed. -/

namespace Verif.Ide.Rename
open Verif Verif.TextEdit Verif.Syntax Verif.Nameres
open Verif.Parser (Green Piece texts relabelPieces Spot NewName parseText)
open Verif.Lexer (blen blen_append isNameChar Graphemes)
open Verif.Ide.Usages hiding texts

/-- What a name that is looked up in the scopes around it refers to: a single entry (`resolve_path` for a path of one segment with
`NameRefClass::classify`). -/
def scopedRef (file : Nat) (inlines others : Elem → List Entry) (outside : List (List Entry)) (allowed : Ns → Bool) :
    List Elem → Option RefClass
  | [] => none
  | n :: anc =>
    if n.kind = .NAME_REF then
      match walkScopes file inlines others outside allowed (some n.green.text) (anc.drop 1) with
      | [e] => some (.definition ⟨e.file, e.path⟩)
      | _ => none
    else none

theorem single_leaves {g : Green} {tok n : Elem} {anc : List Elem} (h : Chain g (tok :: n :: anc)) (h1 : n.children.length = 1) :
    n.green.leaves = tok.green.leaves := by
  cases h with
  | child hup hm =>
    have htok := (Elem.mem_children hm).2.2.2.2
    unfold Elem.children at hm h1
    cases hg : n.green with
    | tok k t => rw [hg] at htok; cases htok
    | node k cs =>
      rw [hg] at hm h1
      cases cs with
      | nil => cases hm
      | cons c cs =>
        cases cs with
        | cons d cs => simp [placed, Green.children] at h1
        | nil =>
          simp only [Green.children, placed, List.mem_singleton] at hm
          subst hm
          simp [Green.leaves, Green.leavesList]

/-- An entry of a scope is of a binding in it, or one of the other entries. -/
theorem scope_entry {file : Nat} {inlines others : Elem → List Entry} {site : List Elem} {s : Elem} {anc : List Elem} {e : Entry}
    (h : e ∈ scopeEntries file inlines others site (s :: anc)) : e ∈ inlines s ∨ e ∈ others s ∨ Inside file s e := by
  rw [scopeEntries_parts] at h
  unfold scopeParts at h
  dsimp only at h
  have hlast : e ∈ others s ++ localEntries file s → e ∈ inlines s ∨ e ∈ others s ∨ Inside file s e := by
    intro h
    rcases List.mem_append.1 h with h | h
    · exact .inr (.inl h)
    · exact .inr (.inr (inside_local h).2)
  split at h
  · rcases List.mem_append.1 h with h | h
    · rcases List.mem_append.1 h with h | h
      · dsimp only at h
        split at h
        · exact .inl h
        · cases h
      · obtain ⟨-, a, b, h1, -⟩ := (mem_uniqueByName _ _ _).1 h
        refine .inr (.inr (inside_raw (anc := anc) (site := site) ?_))
        dsimp only at h1
        rw [h1]
        simp
    · exact hlast h
  · rcases List.mem_append.1 h with h | h
    · simp [uniqueByName] at h
    · exact hlast h

/-- A local binding, its entry and its name, and the other names around. -/
structure Local (w : World) (file : Nat) (i : Elem) (it : Entry) (name : List Char) (range : Nat × Nat)
    (inlines others : Elem → List Entry) (outside : List (List Entry)) : Prop where
  tree : InTree (w.tree file) i
  kind : i.kind = .IDENT_PAT
  entry : bindingEntry file i = some it
  name : it.name = name
  range : ∃ nm tok, nodeChild i .NAME = some nm ∧ tokenChild nm .IDENT = some tok ∧ range = (nm.start, nm.stop)
  inlines : ∀ s, ∀ x ∈ inlines s, x.path = i.path → x.file ≠ file
  others : ∀ s, ∀ x ∈ others s, x.path = i.path → x.file ≠ file
  outside : ∀ l ∈ outside, ∀ x ∈ l, x.path = i.path → x.file ≠ file
  names : ∀ node pat, w.name file node ≠ some (.patShorthand pat ⟨file, i.path⟩) ∧ w.name file node ≠ some (.specParam pat ⟨file, i.path⟩)

section
variable {w : World} {file : Nat} {i : Elem} {it : Entry} {name new : List Char} {scope : Scope} {range : Nat × Nat}
  {φ : Nat → Nat → Option (List Char)} {inlines others : Elem → List Entry} {outside : List (List Entry)}
  (L : Local w file i it name range inlines others outside)
include L

/-- An entry at the place of the binding is its entry. -/
theorem Local.unique {allowed : Ns → Bool} {expected : Option (List Char)} {site : List Elem} (hsite : Chain (w.tree file) site)
    {e : Entry} (h : e ∈ walkScopes file inlines others outside allowed expected site) (hf : e.file = file) (hp : e.path = i.path) :
    e = it := by
  obtain ⟨-, inner, es, outer, hsc, hes, -⟩ := (C59_innermost file inlines others outside allowed expected site e).1 h
  have hmem : es ∈ scopesAround file inlines others outside site := by rw [hsc]; simp
  unfold scopesAround at hmem
  rcases List.mem_append.1 hmem with hmem | hmem
  swap
  · exact absurd hf (L.outside es hmem e hes hp)
  obtain ⟨sl, hsl, rfl⟩ := List.mem_map.1 hmem
  obtain ⟨hc, -⟩ := scopesAt_chain hsite hsl
  cases sl with
  | nil => cases hes
  | cons s anc =>
    rcases scope_entry hes with h1 | h1 | ⟨d, hd, -, hb⟩
    · exact absurd hf (L.inlines s e h1 hp)
    · exact absurd hf (L.others s e h1 hp)
    · have h2 := (entry_path hb).1
      obtain ⟨l, hl⟩ := (inTree_chain hc s (by simp)).descendant hd
      obtain ⟨m, hm⟩ := L.tree
      cases chain_unique hl hm (by rw [← h2, hp])
      have := L.entry
      rw [hb] at this
      exact Option.some.inj this

variable (H : Setting w ⟨file, i.path⟩ name new scope file range φ)
include H

theorem Local.renames : Renames (φ file) (w.tree file) i new := by
  have htok : ∀ {e tok : Elem}, InTree (w.tree file) e → NameToken e tok → ∃ nm up, nodeChild e .NAME = some nm ∧ nm.kind = .NAME ∧
      Chain (w.tree file) (tok :: nm :: e :: up) ∧ tok.green.isTok = true ∧ nm.start = tok.start := by
    rintro e tok ⟨up, hup⟩ ⟨nm, h1, h2⟩
    obtain ⟨h3, h4⟩ := nodeChild_mem h1
    have h5 := List.mem_of_find?_eq_some h2
    have h6 := List.find?_some h2
    simp only [isToken, Bool.and_eq_true] at h6
    have hc : Chain (w.tree file) (tok :: nm :: e :: up) := .child (.child hup h3) h5
    exact ⟨nm, up, h1, h4, hc, h6.1, (single hc ((H.parsed file).plain nm (e :: up) (.child hup h3) (.inl h4)).1).1⟩
  refine ⟨L.tree, ?_, ?_⟩
  · obtain ⟨nm, tok, h1, h2, h3⟩ := L.range
    refine ⟨tok, ⟨nm, h1, h2⟩, (H.map file _ _).2 ⟨rfl, .definition rfl ?_⟩⟩
    obtain ⟨nm', up, a1, a2, a3, a4, a5⟩ := htok L.tree ⟨nm, h1, h2⟩
    rw [h1] at a1
    cases a1
    rw [h3]
    exact a5
  · intro e tok he hk hnt hpath
    by_contra hc
    obtain ⟨y, hy⟩ := Option.ne_none_iff_exists'.1 hc
    obtain ⟨nm, up, a1, a2, a3, a4, a5⟩ := htok he hnt
    rcases ((H.map file _ y).1 hy).2 with ⟨t, n, anc, b1, b2, b3, b4, b5, b6⟩ | ⟨-, b⟩
    · cases H.same a3 a4 b1 b2 b6.symm
      have hr : w.ref file (nm :: e :: up) = none := by
        by_contra hc
        have := (H.sorted file nm (e :: up)).1 hc
        rw [a2] at this
        cases this
      rcases b4 with h | ⟨f, h⟩ | ⟨p, h⟩ | ⟨p, h⟩ | ⟨p, h⟩
      · rw [hr] at h; cases h
      · rw [hr] at h; cases h
      · rw [hr] at h; cases h
      · exact (L.names _ _).1 h
      · exact (L.names _ _).2 h
    · obtain ⟨nm', tok', h1, h2, h3⟩ := L.range
      obtain ⟨nm2, up2, c1, c2, c3, c4, c5⟩ := htok L.tree ⟨nm', h1, h2⟩
      rw [h1] at c1
      cases c1
      rw [h3] at b
      dsimp only at b
      cases H.same a3 a4 c3 c4 (by omega)
      exact hpath rfl

omit L in
theorem Local.solid (hnew : new ≠ []) : Solid (φ file) (w.tree file) :=
  ⟨H.nonempty file, fun q y h => ((H.map file q y).1 h).1 ▸ hnew⟩

end

variable {w : World} {file : Nat} {i : Elem} {it : Entry} {name new : List Char} {scope : Scope} {range : Nat × Nat}
  {φ : Nat → Nat → Option (List Char)} {inlines inlines' others others' : Elem → List Entry} {outside : List (List Entry)}

/-- **C63.** After a local variable or parameter was renamed, every name that is looked up in the scopes around it refers to the same
definition as before, unless the new name was in use there: a use of the item needs a new name that is not bound in the functions
around it, and a name that reads like the new one needs to be outside of the scopes with the item. Left out are names for which
several entries are found. -/
theorem C63_local_partial (L : Local w file i it name range inlines others outside)
    (H : Setting w ⟨file, i.path⟩ name new scope file range φ) (hnew : new ≠ []) (allowed : Ns → Bool)
    (hin : ∀ s, InTree (w.tree file) s → inlines' (s.relabel (φ file) (w.tree file)) = inlines s)
    (hot : ∀ s, InTree (w.tree file) s → others' (s.relabel (φ file) (w.tree file)) = others s)
    (tok n : Elem) (anc : List Elem) (h : Chain (w.tree file) (tok :: n :: anc)) (htok : tok.green.isTok = true)
    (hk : n.kind = .NAME_REF) (hanc : 2 ≤ anc.length) (hclass : w.ref file (n :: anc) = scopedRef file inlines others outside allowed (n :: anc))
    (hone : it ∈ walkScopes file inlines others outside allowed (some n.green.text) (anc.drop 1) →
      walkScopes file inlines others outside allowed (some n.green.text) (anc.drop 1) = [it])
    (huse : w.ref file (n :: anc) = some (.definition ⟨file, i.path⟩) → Covers scope file tok.start ∧ FreshAround new (anc.drop 1) ∧
      (∀ s ∈ anc, Fresh new (inlines s) ∧ Fresh new (others s)) ∧ ∀ l ∈ outside, Fresh new l)
    (hold : tok.green.text = new → ∀ s ∈ anc.drop 2, s.kind ∈ localKinds → i ∉ s.descendants) :
    scopedRef file inlines' others' outside allowed ((n :: anc).map (Elem.relabel (φ file) (w.tree file))) =
      scopedRef file inlines others outside allowed (n :: anc) := by
  have hr := L.renames H
  have hs := Local.solid H hnew
  have hplain : n.children.length = 1 := by
    cases h with
    | child hup hm => exact ((H.parsed file).plain n anc hup (.inr hk)).1
  have hid : ∀ l : List Entry, (∀ x ∈ l, x.path = i.path → x.file ≠ file) → it ∉ l := by
    intro l hl hm
    exact hl it hm (entry_path L.entry).1 (entry_path L.entry).2.1
  have hmap : ∀ l : List Entry, it ∉ l → l.map (Entry.renamed it new) = l := by
    intro l hl
    conv_rhs => rw [← List.map_id l]
    refine List.map_congr_left fun x hx => renamed_other it new ?_
    rintro rfl
    exact hl hx
  have hin' : Carries (φ file) (w.tree file) it new inlines inlines' := fun s hs => by
    rw [hin s hs, hmap _ (hid _ (L.inlines s))]
  have hot' : Carries (φ file) (w.tree file) it new others others' := fun s hs => by
    rw [hot s hs, hmap _ (hid _ (L.others s))]
  have hout' : outside.map (List.map (Entry.renamed it new)) = outside := by
    conv_rhs => rw [← List.map_id outside]
    exact List.map_congr_left fun l hl => hmap l (hid l (L.outside l hl))
  have hsite : Chain (w.tree file) (anc.drop 1) := by
    cases h with
    | child hup _ =>
      cases hup with
      | top => simp at hanc
      | child hup2 _ =>
        cases hup2 with
        | top => simp at hanc
        | child hup3 _ => exact hup3
  -- the text of the name in the new tree
  have hstart := (single h hplain).1
  have hleaf : n.green.leaves = [⟨tok.kind, tok.green.text⟩] := by
    rw [single_leaves h hplain]
    unfold Elem.kind
    cases hg : tok.green with
    | node k cs => rw [hg] at htok; cases htok
    | tok k x => rw [Green.text_tok]; rfl
  have htext : n.green.text = tok.green.text := by
    have : n.green.text = texts n.green.leaves := rfl
    rw [this, hleaf]
    simp
  have htext' : (n.relabel (φ file) (w.tree file)).green.text = (φ file tok.start).getD tok.green.text := by
    show (n.green.relabel (φ file) n.start).text = _
    have : (n.green.relabel (φ file) n.start).text = texts (n.green.relabel (φ file) n.start).leaves := rfl
    rw [this, Parser.relabel_leaves, hleaf, hstart]
    simp [relabelPieces]
  rw [List.map_cons]
  unfold scopedRef
  dsimp only
  rw [relabel_kind, if_pos hk, if_pos hk, ← List.map_drop, htext']
  by_cases hit : it ∈ walkScopes file inlines others outside allowed (some n.green.text) (anc.drop 1)
  · -- a use of the item
    have hw := hone hit
    have hname : n.green.text = it.name := by
      have := ((C59_innermost file inlines others outside allowed _ _ it).1 hit).1.1 _ rfl
      exact this
    have hdef : w.ref file (n :: anc) = some (.definition ⟨file, i.path⟩) := by
      rw [hclass]
      unfold scopedRef
      dsimp only
      rw [if_pos hk, hw]
      dsimp only
      rw [(entry_path L.entry).1, (entry_path L.entry).2.1]
    obtain ⟨hcov, hfr, hfo, hfout⟩ := huse hdef
    have hφ : φ file tok.start = some new :=
      (H.map file _ _).2 ⟨rfl, .use tok n anc h htok (by rw [← htext, hname, L.name]) (.use hdef) hcov rfl⟩
    rw [hφ, Option.getD_some, hw]
    have hsub : ∀ s ∈ anc.drop 1, s ∈ anc := fun s hs => (List.drop_suffix 1 anc).subset hs
    have := walk_item hs hr L.entry hin' hot' hsite allowed hfr (fun s hs => (hfo s (hsub s hs)).1) (fun s hs => (hfo s (hsub s hs)).2)
      hfout (hname ▸ hw)
    rw [hout'] at this
    rw [this]
    rfl
  · -- another name
    have hnot : w.ref file (n :: anc) ≠ some (.definition ⟨file, i.path⟩) := by
      rw [hclass]
      unfold scopedRef
      dsimp only
      rw [if_pos hk]
      split
      · rename_i e he
        intro hc
        simp only [Option.some.injEq, RefClass.definition.injEq, NodeId.mk.injEq] at hc
        have := L.unique hsite (e := e) (by rw [he]; simp) hc.1 hc.2
        rw [this] at he
        rw [he] at hit
        simp at hit
      · simp
    have hφ : φ file tok.start = none := by
      by_contra hc
      obtain ⟨y, hy⟩ := Option.ne_none_iff_exists'.1 hc
      rcases ((H.map file _ y).1 hy).2 with ⟨t, n', anc', b1, b2, b3, b4, b5, b6⟩ | ⟨-, b⟩
      · cases H.same h htok b1 b2 b6.symm
        have hnm : w.name file (n :: anc) = none := by
          by_contra hc
          have := (H.sorted file n anc).2 hc
          rw [hk] at this
          cases this
        have hsh : ∀ a b, w.ref file (n :: anc) ≠ some (.shorthand a b) := by
          intro a b
          rw [hclass]
          unfold scopedRef
          dsimp only
          rw [if_pos hk]
          split <;> simp
        rcases b4 with h | ⟨f, h⟩ | ⟨p, h⟩ | ⟨p, h⟩ | ⟨p, h⟩
        · exact hnot h
        · exact hsh _ _ h
        · exact hsh _ _ h
        · rw [hnm] at h; cases h
        · rw [hnm] at h; cases h
      · obtain ⟨t, nm, up, c1, c2, c3, c4, c5⟩ := H.defined
        rw [c5] at b
        dsimp only at b
        have hl : nm.children.length = 1 := by
          cases c1 with
          | child hup hm => exact ((H.parsed _).plain nm up hup (.inl c4)).1
        rw [(single c1 hl).1] at b
        cases H.same h htok c1 c2 b.symm
        rw [hk] at c4
        cases c4
    rw [hφ, Option.getD_none, ← htext]
    by_cases hny : tok.green.text = new
    · have := walk_away hs hr L.entry hin' hot' hsite allowed (some n.green.text) (by rw [List.tail_drop]; exact hold hny)
        (fun s _ => hid _ (L.inlines s)) (fun s _ => hid _ (L.others s)) (fun l hl => hid l (L.outside l hl))
      rw [hout'] at this
      rw [this]
    · have := walk_other hs hr L.entry hin' hot' hsite allowed (n := n.green.text) (by rw [htext]; exact hny) hit
      rw [hout'] at this
      rw [this]

end Verif.Ide.Rename
