import Verif.Ide.Specs
import Verif.Ide.UsagesOnce
import Verif.Ide.UsageScope

/-! C89: what is highlighted together with the name at the cursor.

`highlight_related` (ide/src/highlight_related.rs) with `find_def_at_offset` (ide/src/references.rs). The usages are those of C62. -/

namespace Verif.Ide.Related
open Verif Verif.Syntax
open Verif.Parser (Green Piece)
open Verif.Ide.Extend (leaves)
open Verif.Ide.Usages hiding texts

/-! ### Model -/

/-- The files, how names in them are classified, the name of each item with its ancestors (`HasName::name`), and where an item can be used
(`item_search_scope`). -/
structure World where
  names : Usages.World
  decl : NodeId → Option (List Elem)
  scope : NodeId → Scope

/-- The kinds of tokens at which there can be a name (references.rs:78). -/
def nameTok (l : List Elem) : Bool := l.head?.any fun t => [SyntaxKind.IDENT, .INT_NUMBER, .QUOTE_IDENT].contains t.kind

/-- `find_def_at_offset` (references.rs:71–98). -/
def defAt (w : World) (file offset : Nat) : Option NodeId :=
  ((leaves (w.names.tree file) offset).find? nameTok).bind fun l => match l.tail with
    | [] => none
    | n :: anc =>
      if n.kind = .NAME_REF then match w.names.ref file (n :: anc) with
        | some (.definition d) => some d
        | _ => none
      else if n.kind = .NAME then match w.names.name file (n :: anc) with
        | some (.definition d) => some d
        | some (.patShorthand p _) => some p
        | _ => none
      else none

def rangeOf (l : List Elem) : Nat × Nat := (headStart l, headStop l)

/-- The set of ranges for an item with that name (highlight_related.rs:24–36). The order of the list has no meaning. -/
def pool (w : World) (file : Nat) (d : NodeId) (l : List Elem) : List (Nat × Nat) :=
  ((if d.file = file then [rangeOf l] else []) ++
    ((search w.names d ((l.head?.map fun n => n.green.text).getD []) (intersect (w.scope d) [(file, none)])).filter fun r =>
      decide (r.file = file)).map Reference.range).eraseDups

/-- The ranges for an item (highlight_related.rs:22–42). -/
def ranges (w : World) (file : Nat) (d : NodeId) : Option (List (Nat × Nat)) :=
  (w.decl d).bind fun l => if (pool w file d l).isEmpty then none else some (pool w file d l)

/-- `highlight_related` (highlight_related.rs:12–43). -/
def highlight (w : World) (file offset : Nat) : Option (List (Nat × Nat)) := (defAt w file offset).bind (ranges w file)

/-! ### Specification -/

/-- Names of items are names in their files, and are classified as `NameClass::classify` (ide-db/src/defs.rs:105–159) does: as the item,
as the pattern in a short form, as a parameter that is repeated in a specification, or as a constant. -/
structure World.Fits (w : World) : Prop where
  sorted : w.names.Sorted
  parsed : ∀ f, Parsed (w.names.tree f)
  named : ∀ d l, w.decl d = some l → ∃ n anc, l = n :: anc ∧ Chain (w.names.tree d.file) (n :: anc) ∧ n.kind = .NAME
  own : ∀ d l, w.decl d = some l → w.names.name d.file l = some (.definition d) ∨ (∃ f, w.names.name d.file l = some (.patShorthand d f)) ∨
    (∃ p, w.names.name d.file l = some (.specParam d p)) ∨ ∃ c, w.names.name d.file l = some (.constRef c)
  scopes : ∀ d, ((w.scope d).map Prod.fst).Nodup

/-- The item has the name `name`, and the node is its name or refers to it. -/
inductive Occurs (w : World) (d : NodeId) (name : List Char) (file : Nat) (n : Elem) (anc : List Elem) : Prop where
  | own : w.decl d = some (n :: anc) → d.file = file → Occurs w d name file n anc
  | use {t} : Chain (w.names.tree file) (t :: n :: anc) → t.green.isTok = true → t.green.text = name →
      Refers w.names d file (n :: anc) → Occurs w d name file n anc

/-- The name stands for two things, is a parameter repeated in a specification, or a constant in a pattern. -/
inductive Mixed (w : World) (file : Nat) (node : List Elem) : Prop where
  | literal {p f} : w.names.ref file node = some (.shorthand p f) → Mixed w file node
  | pattern {p f} : w.names.name file node = some (.patShorthand p f) → Mixed w file node
  | param {s p} : w.names.name file node = some (.specParam s p) → Mixed w file node
  | const {c} : w.names.name file node = some (.constRef c) → Mixed w file node

/-! ### Names -/

open Verif.Parser Verif.Lexer in
theorem leaf_isName {ps ls : List Piece} (hf : ∀ p ∈ ps, Fine p) (h : Regroups ps ls) : ∀ x ∈ ls, x.kind = .IDENT → IsName x.text := by
  intro x hx hk
  rcases Verif.Syntax.leaf_group h x hx with ⟨-, h1⟩ | ⟨run, h1, h2, h3⟩
  · rw [hk] at h1; exact absurd h1 (by decide)
  · rw [hk] at h2
    generalize hkk : SyntaxKind.IDENT = k at h2
    cases h2 with
    | same t =>
      obtain ⟨rest, hd⟩ := (hf t (h1 t (by simp))).described
      rw [h3]
      simp only [List.map_cons, List.map_nil, List.flatten_cons, List.flatten_nil, List.append_nil]
      exact (hd.ident hkk.symm).1
    | operator k w run h4 =>
      subst hkk
      have : ∀ y ∈ Verif.Parser.operators, y.1 ≠ .IDENT := by decide
      exact absurd rfl (this _ h4)
    | word k w t h4 =>
      subst hkk
      have : ∀ y ∈ Verif.Parser.contextual, y.1 ≠ .IDENT := by decide
      exact absurd rfl (this _ h4)
    | name t ht =>
      obtain ⟨rest, hd⟩ := (hf t (h1 t (by simp))).described
      rw [h3]
      simp only [List.map_cons, List.map_nil, List.flatten_cons, List.flatten_nil, List.append_nil]
      rcases ht with ht | ht
      · rw [(hd.keyword ['_'] (by rw [ht]; decide)).1]; exact ⟨'_', [], rfl, by decide, by decide⟩
      · rw [(hd.keyword "friend".toList (by rw [ht]; decide +kernel)).1]; exact ⟨'f', "riend".toList, rfl, by decide, by decide⟩
    | wildcard => cases hkk

/-- A name in a file is one identifier. -/
theorem parsed_name {g : Green} (hp : Parsed g) {n : Elem} {l : List Elem} (hc : Chain g (n :: l)) (hk : n.kind = .NAME) :
    ∃ w, n.green = .node .NAME [.tok .IDENT w] ∧ n.green.text = w ∧ Lexer.IsName w := by
  obtain ⟨w, hw, -⟩ := Symbols.parsed_ident hp hc hk
  refine ⟨w, hw, by simp [hw, Green.text, Green.leaves, Green.leavesList], ?_⟩
  obtain ⟨gr, debug, text, fuel, errs, h1, h2, h3, h4⟩ := hp
  rcases Verif.Parser.parseText_spec h1 h2 debug text h3 with ⟨h5, -⟩ | ⟨raw, ps, hr, hps, -, hfine, ⟨cs, e, h5, h6⟩ | ⟨w, h5, -⟩⟩
  · rw [h4] at h5; cases h5
  · rw [h4] at h5
    cases h5
    have hm := Verif.Ide.Extend.chain_leaves hc ⟨.IDENT, w⟩ (by rw [hw]; simp [Green.leaves, Green.leavesList])
    rw [Green.leaves] at hm
    exact leaf_isName hfine h6 ⟨.IDENT, w⟩ hm rfl
  · rw [h4] at h5; cases h5

/-! ### The item at the cursor -/

/-- At the token, or right behind it, the name is found that the token is. -/
theorem find_tok {g : Green} (hp : Parsed g) {t : Elem} {l : List Elem} (h : Chain g (t :: l)) (ht : t.green.isTok = true)
    (hk : t.kind = .IDENT ∨ t.kind = .INT_NUMBER ∨ t.kind = .QUOTE_IDENT) {o : Nat} (h1 : t.start < o) (h2 : o ≤ t.stop) :
    (leaves g o).find? nameTok = some (t :: l) := by
  have hmem : t :: l ∈ leaves g o := by
    refine List.mem_filter.2 ⟨(mem_allTokens g _).2 ⟨t, l, rfl, h, ht⟩, ?_⟩
    simp only [headStart, headStop, List.head?_cons, Option.map_some, Option.getD_some, Bool.and_eq_true]
    exact ⟨decide_eq_true (Nat.le_of_lt h1), decide_eq_true h2⟩
  have hname : nameTok (t :: l) = true := by rcases hk with hk | hk | hk <;> simp [nameTok, hk]
  have hpw : (leaves g o).Pairwise fun l m => headStop l ≤ headStart m := ((allTokens_tiles g).sorted hp.noEmpty).filter _
  cases hf : (leaves g o).find? nameTok with
  | none => exact absurd hname (by simpa using List.find?_eq_none.1 hf _ hmem)
  | some x =>
    obtain ⟨hx, as, bs, e, has⟩ := List.find?_eq_some_iff_append.1 hf
    have hxm : x ∈ leaves g o := List.mem_of_find?_eq_some hf
    rw [e] at hmem hpw
    rcases List.mem_append.1 hmem with h3 | h3
    · have := has _ h3; rw [hname] at this; cases this
    · rcases List.mem_cons.1 h3 with h3 | h3
      · rw [h3]
      · have h4 := (List.pairwise_cons.1 (List.pairwise_append.1 hpw).2.1).1 _ h3
        obtain ⟨-, h5⟩ := List.mem_filter.1 hxm
        rw [Bool.and_eq_true, decide_eq_true_eq, decide_eq_true_eq] at h5
        have : headStart (t :: l) = t.start := rfl
        omega

theorem single_child {n t : Elem} (hn : n.children.length = 1) (ht : t ∈ n.children) : n.children = [t] := by
  obtain ⟨x, hx⟩ := List.length_eq_one_iff.1 hn
  rw [hx, List.mem_singleton] at ht
  rw [hx, ht]

theorem child_range {n t : Elem} {k : SyntaxKind} {w : List Char} {k' : SyntaxKind} (hg : n.green = .node k [.tok k' w]) (ht : t ∈ n.children) :
    t.start = n.start ∧ t.stop = n.stop ∧ t.kind = k' ∧ t.green.isTok = true ∧ t.green.text = w := by
  have hc : n.children = [⟨0 :: n.path, n.start, .tok k' w⟩] := by unfold Elem.children; rw [hg]; rfl
  rw [hc, List.mem_singleton] at ht
  subst ht
  refine ⟨rfl, ?_, rfl, rfl, by simp [Green.text, Green.leaves]⟩
  simp [Elem.stop, hg, Green.len, Green.text, Green.leaves, Green.leavesList]

/-! ### Proofs -/

/-- What is highlighted are the names of the item at the cursor in the file, each once. -/
theorem C89_only {w : World} (hw : w.Fits) {file o : Nat} {l : List (Nat × Nat)} (h : highlight w file o = some l) :
    l.Nodup ∧ l ≠ [] ∧ ∃ d n anc, defAt w file o = some d ∧ w.decl d = some (n :: anc) ∧
      ∀ r ∈ l, ∃ x up, Occurs w d n.green.text file x up ∧ r = (x.start, x.stop) := by
  obtain ⟨d, hd, h⟩ := Option.bind_eq_some_iff.1 h
  obtain ⟨m, hm, h⟩ := Option.bind_eq_some_iff.1 h
  obtain ⟨n, anc, rfl, hc, hk⟩ := hw.named d m hm
  split at h
  · cases h
  rename_i hne
  simp only [Option.some.injEq] at h
  subst h
  refine ⟨Specs.nodup_eraseDups _, by simpa using hne, d, n, anc, hd, hm, ?_⟩
  intro r hr
  rw [pool, List.mem_eraseDups, List.mem_append] at hr
  rcases hr with hr | hr
  · split at hr
    · rename_i hf
      rw [List.mem_singleton] at hr
      exact ⟨n, anc, .own hm hf, hr⟩
    · cases hr
  · obtain ⟨x, hx, rfl⟩ := List.mem_map.1 hr
    obtain ⟨hx, hf⟩ := List.mem_filter.1 hx
    rw [decide_eq_true_eq] at hf
    obtain ⟨t, y, up, e, h1, h2, h3, h4, -⟩ := C62_sound w.names hw.sorted d _ _ x hx
    rw [hf] at h1 h4
    refine ⟨y, up, .use h1 h2 h3 h4, ?_⟩
    rw [e]

/-- All the names of the item in the file are highlighted. Missing: names out of the scope in which the item is searched (C62), and names
right behind a character of a name. -/
theorem C89_all_partial {w : World} (hw : w.Fits) {file o : Nat} {d : NodeId} {n : Elem} {anc : List Elem}
    (hd : defAt w file o = some d) (hn : w.decl d = some (n :: anc)) {x : Elem} {up : List Elem}
    (hx : Occurs w d n.green.text file x up) (hc : Covers (w.scope d) file x.start)
    (hb : ∀ pre post, (w.names.tree file).text = pre ++ post → x.start = Lexer.blen pre → ∀ c, pre.getLast? = some c → Lexer.isNameChar c = false) :
    ∃ l, highlight w file o = some l ∧ (x.start, x.stop) ∈ l := by
  unfold highlight
  rw [hd, Option.bind_some]
  unfold ranges
  rw [hn, Option.bind_some]
  generalize hall : pool w file d (n :: anc) = all
  have key : (x.start, x.stop) ∈ all := by
    rw [← hall, pool, List.mem_eraseDups, List.mem_append]
    cases hx with
    | own h1 h2 =>
      rw [hn] at h1
      cases h1
      rw [if_pos h2]
      exact .inl (by simp [rangeOf, headStart, headStop])
    | @use t h1 h2 h3 h4 =>
      right
      obtain ⟨n', anc', e, hcn, hkn⟩ := hw.named d _ hn
      cases e
      obtain ⟨v, -, hv, hname⟩ := parsed_name (hw.parsed _) hcn hkn
      have hkx : x.kind = .NAME ∨ x.kind = .NAME_REF := by
        obtain ⟨s1, s2⟩ := hw.sorted file x up
        cases h4 with
        | use h => exact .inr (s1 (by rw [h]; simp))
        | value _ h => exact .inr (s1 (by rw [h]; simp))
        | field _ h => exact .inr (s1 (by rw [h]; simp))
        | pattern _ h => exact .inl (s2 (by rw [h]; simp))
        | param _ h => exact .inl (s2 (by rw [h]; simp))
      have hxc : Chain (w.names.tree file) (x :: up) := by cases h1 with | child h _ => exact h
      have htx : t ∈ x.children := by cases h1 with | child _ h => exact h
      obtain ⟨hlen, hid⟩ := (hw.parsed file).plain x up hxc hkx
      have htk := hid t htx (by rw [h3, hv]; exact hname)
      have hts : t.start = x.start := by
        obtain ⟨i, hi⟩ : ∃ g, x.green.children = [g] := by
          have : x.children.length = x.green.children.length := by
            unfold Elem.children
            rw [← List.length_map (f := Elem.green), placed_map]
          rw [this] at hlen
          exact List.length_eq_one_iff.1 hlen
        have hxc' : x.children = [⟨0 :: x.path, x.start, i⟩] := by unfold Elem.children; rw [hi]; rfl
        rw [hxc', List.mem_singleton] at htx
        rw [htx]
      refine List.mem_map.2 ⟨⟨file, (x.start, x.stop), x :: up⟩, List.mem_filter.2 ⟨?_, by simp⟩, rfl⟩
      refine C62_text_partial w.names hw.sorted d _ (by rw [List.head?_cons, Option.map_some, Option.getD_some, hv]; exact hname) _ file
        (hw.parsed file) t x up h1 h2 htk h3 (by rw [hts]; exact hb) ?_ h4
      rw [C62_one_file _ (hw.scopes d)]
      exact ⟨rfl, by rw [hts]; exact hc⟩
  cases hal : all with
  | nil => rw [hal] at key; cases key
  | cons a as => exact ⟨a :: as, by simp, hal ▸ key⟩

/-- In every name that is highlighted, and right behind it, the same is highlighted. Missing: names with two meanings, parameters repeated
in a specification, and constants in patterns. -/
theorem C89_same_partial {w : World} (hw : w.Fits) {file o : Nat} {l : List (Nat × Nat)} (h : highlight w file o = some l) {r : Nat × Nat}
    (hr : r ∈ l) {o' : Nat} (h1 : r.1 < o') (h2 : o' ≤ r.2) :
    highlight w file o' = some l ∨ ∃ x up, r = (x.start, x.stop) ∧ Chain (w.names.tree file) (x :: up) ∧ Mixed w file (x :: up) := by
  obtain ⟨-, -, d, n, anc, hd, hn, hall⟩ := C89_only hw h
  obtain ⟨x, up, hx, rfl⟩ := hall r hr
  dsimp only at h1 h2
  have same : defAt w file o' = some d → highlight w file o' = some l := by
    intro hd'
    rw [← h]
    unfold highlight
    rw [hd, hd']
  obtain ⟨n', anc', e, hcn, hkn⟩ := hw.named d _ hn
  cases e
  obtain ⟨v, hg, hv, hname⟩ := parsed_name (hw.parsed _) hcn hkn
  cases hx with
  | own h3 h4 =>
    rw [hn] at h3
    cases h3
    subst h4
    have hch : (⟨0 :: n.path, n.start, .tok .IDENT v⟩ : Elem) ∈ n.children := by unfold Elem.children; rw [hg]; simp [Green.children, placed]
    obtain ⟨e1, e2, e3, e4, -⟩ := child_range hg hch
    have hf := find_tok (hw.parsed d.file) (.child hcn hch) e4 (.inl e3) (o := o') (by rw [e1]; exact h1) (by rw [e2]; exact h2)
    rcases hw.own d _ hn with h5 | ⟨f, h5⟩ | ⟨p, h5⟩ | ⟨c, h5⟩
    · refine .inl (same ?_)
      unfold defAt
      rw [hf, Option.bind_some]
      simp [hkn, h5]
    · refine .inl (same ?_)
      unfold defAt
      rw [hf, Option.bind_some]
      simp [hkn, h5]
    · exact .inr ⟨n, anc, rfl, hcn, .param h5⟩
    · exact .inr ⟨n, anc, rfl, hcn, .const h5⟩
  | @use t h3 h4 h5 h6 =>
    have hxc : Chain (w.names.tree file) (x :: up) := by cases h3 with | child h _ => exact h
    have htx : t ∈ x.children := by cases h3 with | child _ h => exact h
    cases h6 with
    | value _ h => exact .inr ⟨x, up, rfl, hxc, .literal h⟩
    | field _ h => exact .inr ⟨x, up, rfl, hxc, .literal h⟩
    | pattern _ h => exact .inr ⟨x, up, rfl, hxc, .pattern h⟩
    | param _ h => exact .inr ⟨x, up, rfl, hxc, .param h⟩
    | use h6 =>
      have hkx : x.kind = .NAME_REF := (hw.sorted file x up).1 (by rw [h6]; simp)
      obtain ⟨gr, debug, text, fuel, errs, p1, p2, p3, p4⟩ := hw.parsed file
      have hone : ∃ k' v', x.green = .node .NAME_REF [.tok k' v'] := by
        rcases (C72_names p1 p2 p3 p4 hxc).2 hkx with ⟨v', e⟩ | ⟨c, v', -, e⟩
        · exact ⟨_, _, e⟩
        · exact ⟨_, _, e⟩
      obtain ⟨k', v', e⟩ := hone
      obtain ⟨e1, e2, -, -, -⟩ := child_range e htx
      have htk := ((hw.parsed file).plain x up hxc (.inr hkx)).2 t htx (by rw [h5, hv]; exact hname)
      have hf := find_tok (hw.parsed file) h3 h4 (.inl htk) (o := o') (by rw [e1]; exact h1) (by rw [e2]; exact h2)
      refine .inl (same ?_)
      unfold defAt
      rw [hf, Option.bind_some]
      simp [hkx, h6]

/-- With the cursor in a name, or right behind it, the item is found that the name refers to; the name can be a number, as in `s.0`, or a
label. -/
theorem C89_cursor {w : World} (hw : w.Fits) {file o : Nat} {t n : Elem} {anc : List Elem} (hc : Chain (w.names.tree file) (t :: n :: anc))
    (ht : t.green.isTok = true) (hk : t.kind = .IDENT ∨ t.kind = .INT_NUMBER ∨ t.kind = .QUOTE_IDENT) (h1 : t.start < o) (h2 : o ≤ t.stop)
    {d : NodeId} (hr : w.names.ref file (n :: anc) = some (.definition d)) : defAt w file o = some d := by
  have hkn : n.kind = .NAME_REF := (hw.sorted file n anc).1 (by rw [hr]; simp)
  unfold defAt
  rw [find_tok (hw.parsed file) hc ht hk h1 h2, Option.bind_some]
  simp [hkn, hr]

/-! ### Examples -/

/-- The nodes of names, with their ancestors. -/
def nameNodes (g : Green) : List (List Elem) := ((allTokens g).map List.tail).filter fun l => l.head?.any fun n => decide (n.kind = .NAME)

/-- Every file has that tree. Names that are paths refer to local variables, those in a short form of a literal to the field, too. -/
def exWorld (g : Green) (field : NodeId) : World where
  names :=
    { tree := fun _ => g
      ref := fun file l => match (localWorld g).ref file l with
        | some (.definition d) =>
          if (l.getD 4 (Elem.root g)).kind = .STRUCT_LIT_FIELD then some (.shorthand d field) else some (.definition d)
        | _ => none
      name := fun file l => match l with
        | n :: p :: _ => if n.kind = .NAME then some (.definition ⟨file, p.path⟩) else none
        | _ => none }
  decl := fun d => (nameNodes g).find? fun l => match l with
    | _ :: p :: _ => decide (p.path = d.path)
    | _ => false
  scope := fun _ => [(0, none)]

theorem exWorld_fits {g : Green} (hp : Parsed g) (field : NodeId) : (exWorld g field).Fits where
  sorted := by
    intro file n anc
    constructor
    · intro h
      refine (localWorld_sorted g file n anc).1 fun hc => h ?_
      show (match (localWorld g).ref file (n :: anc) with | some (.definition d) => _ | _ => none) = none
      rw [hc]
    · intro h
      by_contra hk
      refine h ?_
      cases anc with
      | nil => rfl
      | cons p ps => exact if_neg hk
  parsed := fun _ => hp
  named := by
    intro d l h
    obtain ⟨h1, h2⟩ := List.mem_filter.1 (List.mem_of_find?_eq_some h)
    obtain ⟨m, h3, rfl⟩ := List.mem_map.1 h1
    obtain ⟨t, m', rfl, h4, -⟩ := (mem_allTokens g m).1 h3
    cases m' with
    | nil => simp at h2
    | cons n anc =>
      refine ⟨n, anc, rfl, ?_, by simpa using h2⟩
      cases h4 with
      | child h _ => exact h
  own := by
    intro d l h
    left
    obtain ⟨h1, h2⟩ := List.mem_filter.1 (List.mem_of_find?_eq_some h)
    have h3 := List.find?_some h
    split at h3
    · rename_i n p anc
      rw [decide_eq_true_eq] at h3
      have hk : n.kind = .NAME := by simpa using h2
      show (if n.kind = .NAME then some (NameClass.definition ⟨d.file, p.path⟩) else none) = _
      rw [if_pos hk, h3]
    · cases h3
  scopes := fun _ => by simp [exWorld]

def twice : List Char := "module 0x1::m{fun f(s:u8){let x=1;x+s+x}}".toList

/-- From the binding, from inside and from behind every use the same is highlighted. -/
example : (exWorld (parseOf twice).1 ⟨0, []⟩).Fits ∧ ([31, 35, 39].all fun o => decide (highlight (exWorld (parseOf twice).1 ⟨0, []⟩) 0 o =
    some [(30, 31), (34, 35), (38, 39)])) = true ∧ highlight (exWorld (parseOf twice).1 ⟨0, []⟩) 0 26 = none :=
  ⟨exWorld_fits (parseOf_parsed (by decide +kernel) (by decide +kernel)) _, by decide +kernel, by decide +kernel⟩

/-- A name that is a number. -/
example : Parsed (parseOf "module 0x1::m{fun f(s:S){s.0}}".toList).1 ∧
    ((allTokens (parseOf "module 0x1::m{fun f(s:S){s.0}}".toList).1).any fun l => match l with
      | t :: n :: _ => decide (t.kind = .INT_NUMBER) && decide (n.kind = .NAME_REF) && decide (t.start = 27)
      | _ => false) = true :=
  ⟨parseOf_parsed (by decide +kernel) (by decide +kernel), by decide +kernel⟩

/-- The hypotheses of `C89_all_partial` are met. -/
example : ∃ d n anc, defAt (exWorld (parseOf twice).1 ⟨0, []⟩) 0 35 = some d ∧
    (exWorld (parseOf twice).1 ⟨0, []⟩).decl d = some (n :: anc) ∧ Occurs (exWorld (parseOf twice).1 ⟨0, []⟩) d n.green.text 0 n anc ∧
    Covers ((exWorld (parseOf twice).1 ⟨0, []⟩).scope d) 0 n.start := by
  have h : ((defAt (exWorld (parseOf twice).1 ⟨0, []⟩) 0 35).any fun d => decide (d.file = 0) &&
    ((exWorld (parseOf twice).1 ⟨0, []⟩).decl d).isSome) = true := by decide +kernel
  rw [Option.any_eq_true] at h
  obtain ⟨d, h1, h2⟩ := h
  rw [Bool.and_eq_true, decide_eq_true_eq, Option.isSome_iff_exists] at h2
  obtain ⟨h2, l, h3⟩ := h2
  obtain ⟨n, anc, rfl, -⟩ := (exWorld_fits (parseOf_parsed (by decide +kernel) (by decide +kernel)) _).named d l h3
  exact ⟨d, n, anc, h1, h3, .own h3 h2, none, by simp [exWorld], fun _ h => by cases h⟩

def short : List Char := "module 0x1::m{struct S{x:u8}fun f(x:u8):S{S{x}}}".toList

/-- The short form of a field is highlighted with the variable; with the cursor in the short form nothing is. -/
theorem C89_short_fails : (parseOf short).2 = true ∧ ∃ w : World, w.Fits ∧ (w.names.tree 0) = (parseOf short).1 ∧
    highlight w 0 35 = some [(34, 35), (44, 45)] ∧ highlight w 0 45 = none :=
  ⟨by decide +kernel, exWorld (parseOf short).1 ⟨0, []⟩, exWorld_fits (parseOf_parsed (by decide +kernel) (by decide +kernel)) _, rfl,
    by decide +kernel, by decide +kernel⟩

end Verif.Ide.Related
