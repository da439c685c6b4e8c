import Verif.Comments.Props
import Verif.Ide.HighlightRelated

/-! C90: the documentation of an item.

`n_attached_trivias` (syntax/src/parse/text_tree_sink.rs) gives comments to items, `outer_doc_comments` (syntax/src/ast/traits/docs.rs) reads
them, the hover (ide/src/hover.rs) shows them and `error_const_docs.rs` warns if there are none. -/

namespace Verif.Ide.Docs
open Verif Verif.Syntax
open Verif.Parser (Green Piece attachedLoop nAttachedTrivias takesComments hasBlankLine)
open Verif.Comments (fromText commentLine documentedKind IsComment C32_documented_kind C32_text_extraction)
open Verif.Outline (NameOf nodeChild_spec nodeChild_of)
open Verif.Ide.Usages (Parsed parseOf parseOf_parsed)
open Verif.Nameres.Full (Is)

/-! ### Model -/

/-- `doc_comments` with `outer_doc_comments` (docs.rs:11–28): `ordering` is `Less` if the comment ends before the token begins. -/
def outerDocs (e anchor : Elem) : List Elem :=
  (e.children.filter fun c => isToken .COMMENT c && (fromText c.green.text).any fun k => decide (k.doc = some .Outer)).filter fun c =>
    decide (c.stop ≤ anchor.start)

/-- `str::trim`, where `ws` are the white spaces. -/
def trim (ws : Char → Bool) (t : List Char) : List Char := ((t.dropWhile ws).reverse.dropWhile ws).reverse

/-- `join("\n")`. -/
def join : List (List Char) → List Char
  | [] => []
  | [a] => a
  | a :: rest => a ++ '\n' :: join rest

/-- `format_doc_comments` (hover.rs:100–106). The outer `none` is a panic. -/
def format (ws : Char → Bool) (cs : List Elem) : Option (List Char) :=
  (cs.mapM fun c => commentLine c.green.text).map fun lines => join ((lines.filterMap id).map (trim ws))

/-- The documentation in the hover over an item (hover.rs:75–77, 95). The outer `none`: there is no name. -/
def hoverDocs (ws : Char → Bool) (e : Elem) : Option (Option (List Char)) :=
  ((nodeChild e .NAME).bind fun n => tokenChild n .IDENT).map fun t => format ws (outerDocs e t)

/-- The condition of the warning in `check_if_resolved_to_documented_error_const` (error_const_docs.rs:50–63). -/
def undocumented (e : Elem) : Option Bool :=
  ((nodeChild e .NAME).bind fun n => tokenChild n .IDENT).map fun t => (outerDocs e t).isEmpty

/-! ### Specification -/

/-- There is an empty line in the text. -/
def Blank (t : List Char) : Prop := ['\n', '\n'] <:+: t

def OuterDoc (p : Piece) : Prop := p.kind = .COMMENT ∧ (documentedKind p.text).doc = some .Outer

def InnerDoc (p : Piece) : Prop := p.kind = .COMMENT ∧ (documentedKind p.text).doc = some .Inner

/-- What separates an item from the comments above it, `ts` being what is above the item, from below: a comment that documents what is
around it, and an empty line that is not below a comment that documents what follows. -/
def Barrier (ts : List Piece) (j : Nat) : Prop := ∃ p, ts[j]? = some p ∧
  (InnerDoc p ∨ (p.kind = .WHITESPACE ∧ Blank p.text ∧ ∀ q, ts[j + 1]? = some q → ¬ OuterDoc q))

/-- The comments of an item that document it: those in front of its name, in their order. -/
def Documents (e n : Elem) (cs : List Elem) : Prop := cs.Sublist e.children ∧ ∀ c, c ∈ cs ↔ c ∈ e.children ∧ c.green.isTok = true ∧
  c.kind = .COMMENT ∧ (documentedKind c.green.text).doc = some .Outer ∧ c.stop ≤ n.start

/-- The comment without what opens and closes it. -/
def Body (t b : List Char) : Prop := ∃ p, p.length = 3 ∧
  (((documentedKind t).shape = .Line ∧ t = p ++ b) ∨ ((documentedKind t).shape = .Block ∧ t = p ++ b ++ ['*', '/']) ∨
    ((documentedKind t).shape = .Block ∧ t = p ++ b ∧ ¬ ['*', '/'] <:+ b))

/-- `b` is `a` without white space at both ends. -/
def Trimmed (ws : Char → Bool) (a b : List Char) : Prop := ∃ l r, a = l ++ b ++ r ∧ (∀ c ∈ l, ws c = true) ∧ (∀ c ∈ r, ws c = true) ∧
  (∀ c, b.head? = some c → ws c = false) ∧ ∀ c, b.getLast? = some c → ws c = false

/-! ### Comments and items -/

theorem blank_iff (t : List Char) : hasBlankLine t = true ↔ Blank t := by
  unfold Blank
  induction t with
  | nil => simp [hasBlankLine]
  | cons c cs ih =>
    rw [List.infix_cons_iff]
    rw [← ih]
    cases cs with
    | nil => simp [hasBlankLine]
    | cons d ds =>
      by_cases h : c = '\n' ∧ d = '\n'
      · obtain ⟨rfl, rfl⟩ := h
        simp [hasBlankLine]
      · have : ¬ ['\n', '\n'] <+: c :: d :: ds := by
          intro hp
          rw [List.cons_prefix_cons, List.cons_prefix_cons] at hp
          exact h ⟨hp.1.symm, hp.2.1.symm⟩
        simp only [this, false_or]
        rw [hasBlankLine]
        intro x h1 h2
        injection h2 with h2
        exact h ⟨h1, h2⟩

theorem barrier_succ (p : Piece) (ts : List Piece) (j : Nat) : Barrier (p :: ts) (j + 1) ↔ Barrier ts j := Iff.rfl

theorem attached_spec {l : List Piece} (hl : ∀ p ∈ l, p.kind = .COMMENT → IsComment p.text) (i res : Nat) (hres : res ≤ i) :
    ∃ n, attachedLoop l i res = some n ∧ (n = res ∨ ∃ j c, n = i + j + 1 ∧ l[j]? = some c ∧ c.kind = .COMMENT) ∧
      ∀ j c, l[j]? = some c → c.kind = .COMMENT → (i + j < n ↔ ∀ j' ≤ j, ¬ Barrier l j') := by
  induction l generalizing i res with
  | nil => exact ⟨res, rfl, .inl rfl, by simp⟩
  | cons p rest ih =>
    have hrest : ∀ q ∈ rest, q.kind = .COMMENT → IsComment q.text := fun q hq => hl q (List.mem_cons_of_mem _ hq)
    -- the loop stops here
    have stop : Barrier (p :: rest) 0 → ∃ n, some res = some n ∧
        (n = res ∨ ∃ j c, n = i + j + 1 ∧ (p :: rest)[j]? = some c ∧ c.kind = .COMMENT) ∧
        ∀ j c, (p :: rest)[j]? = some c → c.kind = .COMMENT → (i + j < n ↔ ∀ j' ≤ j, ¬ Barrier (p :: rest) j') :=
      fun hb => ⟨res, rfl, .inl rfl, fun j c _ _ => ⟨fun h => absurd h (by omega), fun h => absurd hb (h 0 (Nat.zero_le _))⟩⟩
    -- the loop goes on
    have go : ∀ res', ¬ Barrier (p :: rest) 0 → (res' = res ∧ p.kind ≠ .COMMENT ∨ res' = i + 1 ∧ p.kind = .COMMENT) →
        ∃ n, attachedLoop rest (i + 1) res' = some n ∧
        (n = res ∨ ∃ j c, n = i + j + 1 ∧ (p :: rest)[j]? = some c ∧ c.kind = .COMMENT) ∧
        ∀ j c, (p :: rest)[j]? = some c → c.kind = .COMMENT → (i + j < n ↔ ∀ j' ≤ j, ¬ Barrier (p :: rest) j') := by
      intro res' hb hr
      obtain ⟨n, h1, h2, h3⟩ := ih hrest (i + 1) res' (by omega)
      refine ⟨n, h1, ?_, ?_⟩
      · rcases h2 with rfl | ⟨j, c, rfl, hj, hc⟩
        · rcases hr with ⟨rfl, -⟩ | ⟨rfl, hp⟩
          · exact .inl rfl
          · exact .inr ⟨0, p, by omega, rfl, hp⟩
        · exact .inr ⟨j + 1, c, by omega, by simpa using hj, hc⟩
      · intro j c hj hc
        cases j with
        | zero =>
          simp only [List.getElem?_cons_zero, Option.some.injEq] at hj
          subst hj
          rcases hr with ⟨-, hp⟩ | ⟨rfl, -⟩
          · exact absurd hc hp
          · refine ⟨fun _ j' hj' => by rw [Nat.le_zero.1 hj']; exact hb, fun _ => ?_⟩
            rcases h2 with rfl | ⟨j, c, rfl, -, -⟩ <;> omega
        | succ j =>
          rw [List.getElem?_cons_succ] at hj
          have := h3 j c hj hc
          rw [show i + (j + 1) = i + 1 + j by omega, this]
          constructor
          · intro h j' hj'
            cases j' with
            | zero => exact hb
            | succ j' => rw [barrier_succ]; exact h j' (by omega)
          · intro h j' hj'
            rw [← barrier_succ p]
            exact h (j' + 1) (by omega)
    unfold attachedLoop
    by_cases hw : p.kind = .WHITESPACE ∧ hasBlankLine p.text = true
    · rw [if_pos hw]
      obtain ⟨hw1, hw2⟩ := hw
      rw [blank_iff] at hw2
      have hin : ¬ InnerDoc p := fun h => by rw [h.1] at hw1; cases hw1
      have hpc : p.kind ≠ .COMMENT := by rw [hw1]; decide
      have hbar : (∀ q, rest[0]? = some q → ¬ OuterDoc q) → Barrier (p :: rest) 0 := fun h => ⟨p, rfl, .inr ⟨hw1, hw2, h⟩⟩
      cases hr : rest.head? with
      | none =>
        refine stop (hbar fun q hq => ?_)
        rw [← List.head?_eq_getElem?, hr] at hq
        cases hq
      | some q =>
        have hq0 : rest[0]? = some q := by rw [← List.head?_eq_getElem?, hr]
        dsimp only
        by_cases hq : q.kind = .COMMENT
        · rw [if_pos hq, C32_documented_kind _ (hrest q (List.mem_of_mem_head? hr) hq)]
          simp only [Option.bind_eq_bind, Option.bind_some]
          by_cases hd : (documentedKind q.text).doc = some .Outer
          · rw [if_pos hd]
            refine go res ?_ (.inl ⟨rfl, hpc⟩)
            rintro ⟨p', hp', h | ⟨-, -, h⟩⟩
            · cases hp'; exact hin h
            · exact h q hq0 ⟨hq, hd⟩
          · rw [if_neg hd]
            refine stop (hbar fun q' hq' => ?_)
            rw [hq0] at hq'
            cases hq'
            exact fun h => hd h.2
        · rw [if_neg hq]
          refine stop (hbar fun q' hq' => ?_)
          rw [hq0] at hq'
          cases hq'
          exact fun h => hq h.1
    · rw [if_neg hw]
      have hnb : ¬ InnerDoc p → ¬ Barrier (p :: rest) 0 := by
        rintro hin ⟨p', hp', h | ⟨h1, h2, -⟩⟩
        · cases hp'; exact hin h
        · cases hp'; exact hw ⟨h1, (blank_iff _).2 h2⟩
      by_cases hp : p.kind = .COMMENT
      · rw [if_pos hp, C32_documented_kind _ (hl p (by simp) hp)]
        simp only [Option.bind_eq_bind, Option.bind_some]
        by_cases hd : (documentedKind p.text).doc = some .Inner
        · rw [if_pos hd]
          exact stop ⟨p, rfl, .inl ⟨hp, hd⟩⟩
        · rw [if_neg hd]
          exact go (i + 1) (hnb fun h => hd h.2) (.inr ⟨rfl, hp⟩)
      · rw [if_neg hp]
        exact go res (hnb fun h => hp h.1) (.inl ⟨rfl, hp⟩)

/-- An item that takes comments takes exactly those with nothing that separates them from it, and nothing above the last of them. -/
theorem C90_attached {k : SyntaxKind} (hk : takesComments k = true) {ts : List Piece} (ht : ∀ p ∈ ts, p.kind = .COMMENT → IsComment p.text) :
    ∃ n, nAttachedTrivias k ts = some n ∧ (n = 0 ∨ ∃ j c, n = j + 1 ∧ ts[j]? = some c ∧ c.kind = .COMMENT) ∧
      ∀ j c, ts[j]? = some c → c.kind = .COMMENT → (j < n ↔ ∀ j' ≤ j, ¬ Barrier ts j') := by
  obtain ⟨n, h1, h2, h3⟩ := attached_spec ht 0 0 (Nat.le_refl _)
  unfold nAttachedTrivias
  rw [if_pos hk]
  simp only [Nat.zero_add] at h2 h3
  exact ⟨n, h1, h2, h3⟩

/-- The documentation of an item that is right above it, line by line, is all taken, and what is above an empty line and no documentation
is not. -/
example : (∀ p ∈ [(⟨.WHITESPACE, ['\n']⟩ : Piece), ⟨.COMMENT, "/// b".toList⟩, ⟨.WHITESPACE, ['\n', '\n']⟩, ⟨.COMMENT, "/// a".toList⟩,
    ⟨.WHITESPACE, ['\n', '\n']⟩, ⟨.COMMENT, "// c".toList⟩], p.kind = .COMMENT → IsComment p.text) ∧
    nAttachedTrivias .FUN [⟨.WHITESPACE, ['\n']⟩, ⟨.COMMENT, "/// b".toList⟩, ⟨.WHITESPACE, ['\n', '\n']⟩, ⟨.COMMENT, "/// a".toList⟩,
      ⟨.WHITESPACE, ['\n', '\n']⟩, ⟨.COMMENT, "// c".toList⟩] = some 4 := by
  refine ⟨?_, by decide +kernel⟩
  intro p hp hk
  simp only [List.mem_cons, List.not_mem_nil, or_false] at hp
  rcases hp with rfl | rfl | rfl | rfl | rfl | rfl
  · cases hk
  · exact .inl ⟨_, rfl⟩
  · cases hk
  · exact .inl ⟨_, rfl⟩
  · cases hk
  · exact .inl ⟨_, rfl⟩

/-! ### What is shown -/

open Verif.Parser Verif.Lexer in
theorem leaf_comment {ps ls : List Piece} (hf : ∀ p ∈ ps, Fine p) (h : Regroups ps ls) : ∀ x ∈ ls, x.kind = .COMMENT → IsComment x.text := by
  intro x hx hk
  have key : ∀ t ∈ ps, t.kind = .COMMENT → IsComment t.text := by
    intro t ht htk
    obtain ⟨rest, hd⟩ := (hf t ht).described
    rcases hd.comment htk with h | ⟨h, -⟩
    · exact .inr h
    · exact .inl h
  rcases Verif.Syntax.leaf_group h x hx with ⟨h1, -⟩ | ⟨run, h1, h2, h3⟩
  · exact key x h1 hk
  · rw [hk] at h2
    generalize hkk : SyntaxKind.COMMENT = k at h2
    cases h2 with
    | same t =>
      rw [h3]
      simp only [List.map_cons, List.map_nil, List.flatten_cons, List.flatten_nil, List.append_nil]
      exact key t (h1 t (by simp)) hkk.symm
    | operator k w run h4 =>
      subst hkk
      have : ∀ y ∈ Verif.Parser.operators, y.1 ≠ .COMMENT := by decide
      exact absurd rfl (this _ h4)
    | word k w t h4 =>
      subst hkk
      have : ∀ y ∈ Verif.Parser.contextual, y.1 ≠ .COMMENT := by decide
      exact absurd rfl (this _ h4)
    | name t ht => cases hkk
    | wildcard => cases hkk

theorem parsed_comment {g : Green} (hp : Parsed g) {c : Elem} {l : List Elem} (hc : Chain g (c :: l)) (ht : c.green.isTok = true)
    (hk : c.kind = .COMMENT) : IsComment c.green.text := by
  obtain ⟨gr, debug, text, fuel, errs, h1, h2, h3, h4⟩ := hp
  rcases Verif.Parser.parseText_spec h1 h2 debug text h3 with ⟨h5, -⟩ | ⟨raw, ps, hr, hps, -, hfine, ⟨cs, e, h5, h6⟩ | ⟨w, h5, -⟩⟩
  · rw [h4] at h5; cases h5
  · rw [h4] at h5
    cases h5
    cases hg : c.green with
    | node k cs' => rw [hg] at ht; cases ht
    | tok k w =>
      have hk' : k = .COMMENT := by rw [← hk, Elem.kind, hg]; rfl
      subst hk'
      have hm := Verif.Ide.Extend.chain_leaves hc ⟨.COMMENT, w⟩ (by rw [hg]; simp [Green.leaves])
      rw [Green.leaves] at hm
      have := leaf_comment hfine h6 ⟨.COMMENT, w⟩ hm rfl
      simpa [Green.text, Green.leaves] using this
  · rw [h4] at h5; cases h5

theorem dropWhile_spec (ws : Char → Bool) (t : List Char) : ∃ l, t = l ++ t.dropWhile ws ∧ (∀ c ∈ l, ws c = true) ∧
    ∀ c, (t.dropWhile ws).head? = some c → ws c = false := by
  refine ⟨t.takeWhile ws, List.takeWhile_append_dropWhile.symm, fun c hc => List.mem_takeWhile_imp hc, fun c hc => ?_⟩
  have := List.head?_dropWhile_not ws t
  rw [hc] at this
  simpa using this

theorem trim_spec (ws : Char → Bool) (t : List Char) : Trimmed ws t (trim ws t) := by
  obtain ⟨l, h1, h2, h3⟩ := dropWhile_spec ws t
  obtain ⟨r, h4, h5, h6⟩ := dropWhile_spec ws (t.dropWhile ws).reverse
  have h7 : t.dropWhile ws = trim ws t ++ r.reverse := by
    have := congrArg List.reverse h4
    rw [List.reverse_reverse, List.reverse_append] at this
    exact this
  refine ⟨l, r.reverse, ?_, h2, fun c hc => h5 c (List.mem_reverse.1 hc), ?_, ?_⟩
  · rw [List.append_assoc, ← h7]; exact h1
  · intro c hc
    refine h3 c ?_
    rw [h7]
    cases ht : trim ws t with
    | nil => rw [ht] at hc; cases hc
    | cons a as => rw [ht] at hc; simpa using hc
  · intro c hc
    refine h6 c ?_
    rw [trim, List.getLast?_reverse] at hc
    exact hc

theorem outerDocs_spec {g : Green} (hp : Parsed g) {e n t : Elem} {l : List Elem} (hc : Chain g (e :: l)) (hs : t.start = n.start) :
    Documents e n (outerDocs e t) := by
  refine ⟨(List.filter_sublist).trans List.filter_sublist, fun c => ?_⟩
  unfold outerDocs
  rw [List.mem_filter, List.mem_filter, Bool.and_eq_true, decide_eq_true_eq, hs, isToken, Bool.and_eq_true, decide_eq_true_eq]
  constructor
  · rintro ⟨⟨h1, ⟨h2, h3⟩, h4⟩, h5⟩
    rw [C32_documented_kind _ (parsed_comment hp (.child hc h1) h2 h3)] at h4
    exact ⟨h1, h2, h3, by simpa using h4, h5⟩
  · rintro ⟨h1, h2, h3, h4, h5⟩
    refine ⟨⟨h1, ⟨h2, h3⟩, ?_⟩, h5⟩
    rw [C32_documented_kind _ (parsed_comment hp (.child hc h1) h2 h3)]
    simpa using h4

theorem format_spec (ws : Char → Bool) {cs : List Elem} (h : ∀ c ∈ cs, IsComment c.green.text ∧ (documentedKind c.green.text).doc = some .Outer) :
    ∃ lines, List.Forall₂ (fun (c : Elem) b => ∃ a, Body c.green.text a ∧ Trimmed ws a b) cs lines ∧ format ws cs = some (join lines) := by
  have key : ∃ bs : List (List Char), (cs.mapM fun c => commentLine c.green.text) = some (bs.map some) ∧
      List.Forall₂ (fun (c : Elem) b => Body c.green.text b) cs bs := by
    induction cs with
    | nil => exact ⟨[], rfl, .nil⟩
    | cons c cs ih =>
      obtain ⟨bs, h1, h2⟩ := ih fun c hc => h c (List.mem_cons_of_mem _ hc)
      obtain ⟨h3, h4⟩ := h c (by simp)
      obtain ⟨r, h5, ⟨-, h6⟩ | ⟨line, p, rfl, hp, -, h6⟩⟩ := C32_text_extraction _ h3
      · rw [h4] at h6; cases h6
      · refine ⟨line :: bs, ?_, .cons ⟨p, hp, h6⟩ h2⟩
        rw [List.mapM_cons, h5]
        simp [h1]
  obtain ⟨bs, h1, h2⟩ := key
  refine ⟨bs.map (trim ws), ?_, ?_⟩
  · rw [List.forall₂_map_right_iff]
    exact h2.imp fun c b hb => ⟨b, hb, trim_spec ws b⟩
  · unfold format
    rw [h1, Option.map_some]
    congr 2
    congr 1
    rw [List.filterMap_map]
    simp

theorem name_token {g : Green} (hp : Parsed g) {e n : Elem} {l : List Elem} (hc : Chain g (e :: l)) (hn : NameOf e n) :
    ∃ t, ((nodeChild e .NAME).bind fun n => tokenChild n .IDENT) = some t ∧ t.start = n.start := by
  have h1 := nodeChild_of hn
  obtain ⟨h2, h3⟩ := Nameres.Full.nodeChild_mem h1
  obtain ⟨w, hg, -⟩ := Related.parsed_name hp (.child hc h2) h3.2
  refine ⟨⟨0 :: n.path, n.start, .tok .IDENT w⟩, ?_, rfl⟩
  rw [h1, Option.bind_some]
  unfold tokenChild Elem.children
  rw [hg]
  rfl

/-- Over an item with a name the comments in front of the name that document it are shown, all of them, in their order, a line for each,
without what opens and closes them and without white space around. -/
theorem C90_shown {g : Green} (hp : Parsed g) (ws : Char → Bool) {e n : Elem} {l : List Elem} (hc : Chain g (e :: l)) (hn : NameOf e n) :
    ∃ cs lines, Documents e n cs ∧ List.Forall₂ (fun (c : Elem) b => ∃ a, Body c.green.text a ∧ Trimmed ws a b) cs lines ∧
      hoverDocs ws e = some (some (join lines)) := by
  obtain ⟨t, h1, h2⟩ := name_token hp hc hn
  have hd := outerDocs_spec hp hc h2
  obtain ⟨lines, h3, h4⟩ := format_spec ws (cs := outerDocs e t) fun c hcs => by
    obtain ⟨h5, h6, h7, h8, -⟩ := (hd.2 c).1 hcs
    exact ⟨parsed_comment hp (.child hc h5) h6 h7, h8⟩
  refine ⟨_, lines, hd, h3, ?_⟩
  unfold hoverDocs
  rw [h1, Option.map_some, h4]

/-- A constant for an error is reported as undocumented exactly if no comment documents it. -/
theorem C90_undocumented {g : Green} (hp : Parsed g) {e n : Elem} {l : List Elem} (hc : Chain g (e :: l)) (hn : NameOf e n) :
    undocumented e = some true ↔ Documents e n [] := by
  obtain ⟨t, h1, h2⟩ := name_token hp hc hn
  have hd := outerDocs_spec hp hc h2
  unfold undocumented
  rw [h1, Option.map_some, Option.some.injEq, List.isEmpty_iff]
  constructor
  · intro h; rw [h] at hd; exact hd
  · intro h
    rw [List.eq_nil_iff_forall_not_mem]
    intro c hcs
    have := (h.2 c).2 ((hd.2 c).1 hcs)
    cases this

/-! ### Examples -/

def space (c : Char) : Bool := c == ' ' || c == '\n'

def ofKind (text : List Char) (k : SyntaxKind) : List Elem := (Elem.root (parseOf text).1).descendants.filter fun e => decide (e.kind = k)

theorem ofKind_chain {text : List Char} {k : SyntaxKind} {e : Elem} (h : e ∈ ofKind text k) :
    (∃ l, Chain (parseOf text).1 (e :: l)) ∧ e.kind = k := by
  obtain ⟨h1, h2⟩ := List.mem_filter.1 h
  obtain ⟨mid, h3, -⟩ := chain_descendant (.top : Chain _ [Elem.root _]) h1
  exact ⟨⟨_, h3⟩, of_decide_eq_true h2⟩

def constant : List Char := "module 0x1::m{/// a \n/** b */const /** x */E/** y */:u8=1;const F:u8=2;}".toList

/-- A constant with documentation in two lines and in front of its name, and one without. -/
example : Parsed (parseOf constant).1 ∧
    (∃ e n l, Chain (parseOf constant).1 (e :: l) ∧ NameOf e n ∧ hoverDocs space e = some (some "a\nb\nx".toList) ∧
      undocumented e = some false) ∧
    ∃ e n l, Chain (parseOf constant).1 (e :: l) ∧ NameOf e n ∧ undocumented e = some true := by
  have key : ∀ {e}, e ∈ ofKind constant .CONST → (nodeChild e .NAME).isSome = true →
      ∃ n l, Chain (parseOf constant).1 (e :: l) ∧ NameOf e n := by
    intro e h1 h2
    obtain ⟨⟨l, hl⟩, -⟩ := ofKind_chain h1
    obtain ⟨n, hn⟩ := Option.isSome_iff_exists.1 h2
    exact ⟨n, l, hl, nodeChild_spec hn⟩
  have h : (ofKind constant .CONST).any (fun e => (nodeChild e .NAME).isSome &&
      decide (hoverDocs space e = some (some "a\nb\nx".toList)) && decide (undocumented e = some false)) = true := by decide +kernel
  have h' : (ofKind constant .CONST).any (fun e => (nodeChild e .NAME).isSome && decide (undocumented e = some true)) = true := by
    decide +kernel
  obtain ⟨e, h1, h2⟩ := List.any_eq_true.1 h
  obtain ⟨e', h1', h2'⟩ := List.any_eq_true.1 h'
  simp only [Bool.and_eq_true, decide_eq_true_eq] at h2 h2'
  obtain ⟨n, l, h3, h4⟩ := key h1 h2.1.1
  obtain ⟨n', l', h3', h4'⟩ := key h1' h2'.1
  exact ⟨parseOf_parsed (by decide +kernel) (by decide +kernel), ⟨e, n, l, h3, h4, h2.1.2, h2.2⟩, e', n', l', h3', h4', h2'.2⟩

/-- The comment right in front of a structure is its documentation; the same comment right in front of a schema is not, although a schema is
one of the items whose documentation is shown. -/
theorem C90_schema_fails : (∃ e l, Chain (parseOf "module 0x1::m{/** d */struct S{}}".toList).1 (e :: l) ∧ e.kind = .STRUCT ∧
      hoverDocs space e = some (some ['d'])) ∧
    (parseOf "module 0x1::m{/** d */spec schema S{}}".toList).2 = true ∧
    ∃ e c l l', Chain (parseOf "module 0x1::m{/** d */spec schema S{}}".toList).1 (e :: l) ∧ e.kind = .SCHEMA ∧
      Chain (parseOf "module 0x1::m{/** d */spec schema S{}}".toList).1 (c :: l') ∧ c.kind = .COMMENT ∧ c.stop = e.start ∧
      (documentedKind c.green.text).doc = some .Outer ∧ hoverDocs space e = some (some []) := by
  refine ⟨?_, by decide +kernel, ?_⟩
  · have h : (ofKind "module 0x1::m{/** d */struct S{}}".toList .STRUCT).any (fun e => decide (hoverDocs space e = some (some ['d']))) = true := by
      decide +kernel
    obtain ⟨e, h1, h2⟩ := List.any_eq_true.1 h
    obtain ⟨⟨l, hl⟩, hk⟩ := ofKind_chain h1
    exact ⟨e, l, hl, hk, of_decide_eq_true h2⟩
  · have h : (ofKind "module 0x1::m{/** d */spec schema S{}}".toList .MODULE).any (fun b => b.children.any fun c =>
      b.children.any fun e => decide (c.kind = .COMMENT) && decide (e.kind = .SCHEMA) && decide (c.stop = e.start) &&
        decide (c.green.text = "/** d */".toList) && decide (hoverDocs space e = some (some []))) = true := by decide +kernel
    obtain ⟨b, h1, h2⟩ := List.any_eq_true.1 h
    obtain ⟨c, h3, h4⟩ := List.any_eq_true.1 h2
    obtain ⟨e, h5, h6⟩ := List.any_eq_true.1 h4
    simp only [Bool.and_eq_true, decide_eq_true_eq] at h6
    obtain ⟨⟨l, hl⟩, -⟩ := ofKind_chain h1
    exact ⟨e, c, _, _, .child hl h5, h6.1.1.1.2, .child hl h3, h6.1.1.1.1, h6.1.1.2, by rw [h6.1.2]; decide +kernel, h6.2⟩

end Verif.Ide.Docs
