import Verif.Ide.Unneeded

/-! C92: a field that is given or bound by its own name is written with the name alone.

ide-diagnostics/src/handlers/field_shorthand.rs. -/

namespace Verif.Ide.Shorthand
open Verif Verif.Syntax
open Verif.TextEdit Verif.TextEdit.Spec Verif.TextEdit.TreeDiff
open Verif.Parser (Green)
open Verif.Lexer (blen blen_append)
open Verif.Nameres (childOf patKinds)
open Verif.Ide.Usages (Parsed parseOf parseOf_parsed)
open Verif.Ide.Rename (apply_one exprKinds)
open Verif.Ide.Counts (First nodeChild_iff childOf_iff Lacks LitGives PatGives)

/-! ### Model -/

/-- `NameRef::as_string` (syntax/src/ast/node_ext/name_ref.rs:27–37). -/
def refText (n : Elem) : List Char := match tokenChild n .IDENT with
  | some t => t.green.text
  | none => match tokenChild n .INT_NUMBER with
    | some t => t.green.text
    | none => []

/-- The value of a field of a literal that is reported (`struct_lit_field_can_be_simplified` and `schema_lit_field_can_be_simplified`,
field_shorthand.rs:11–39, 68–96; `field_kind`, syntax/src/ast/node_ext/struct_lit_field.rs:55–69, schema_lit_field.rs:29–36). -/
def litValue (f : Elem) : Option Elem := (nodeChild f .NAME_REF).bind fun n => (childOf f exprKinds).filter fun v =>
  decide (refText n = v.green.text)

/-- The binding of a field of a pattern that is reported (`struct_pat_field_can_be_simplified`, field_shorthand.rs:41–66; `field_kind`,
struct_pat_field.rs:18–30). -/
def patValue (f : Elem) : Option Elem := (nodeChild f .NAME_REF).bind fun n => (childOf f patKinds).filter fun v =>
  decide (v.kind = .IDENT_PAT) && decide (refText n = v.green.text)

/-- `lit_field_fix`, `pat_field_fix` and `schema_lit_field_fix` (field_shorthand.rs:98–174): the field is replaced by one with the value
alone (`lit_field_shorthand` and so on, syntax/src/ast/syntax_factory/exprs.rs:122–177, which parse the text of the value within a
template; its text is taken to be that text). -/
def fix (f v : Elem) : List Change := [⟨f.start, f.stop, encode v.green.text⟩]

/-- The new field in the tree. -/
def shortField (f v : Elem) : Green := .node f.kind [v.green]

/-! ### Specification -/

/-- The name in front of `:` is also what is behind it. -/
def Repeats (ks : List SyntaxKind) (f v : Elem) : Prop := ∃ n, First [.NAME_REF] f n ∧ First ks f v ∧ n.green.text = v.green.text

/-- The expression is a name. -/
def NameExpr (v : Elem) : Prop := v.kind = .PATH_EXPR ∧ ∃ p s n, First [.PATH] v p ∧ Lacks .PATH p ∧ First [.PATH_SEGMENT] p s ∧
  First [.NAME_REF] s n ∧ n.green.text = v.green.text

/-! ### Proofs -/

theorem refText_eq {g : Green} (hp : Parsed g) {n : Elem} {l : List Elem} (hc : Chain g (n :: l)) (hk : n.kind = .NAME_REF) :
    refText n = n.green.text := by
  obtain ⟨gr, debug, text, fuel, errs, p1, p2, p3, p4⟩ := hp
  unfold refText tokenChild Elem.children
  rcases (C72_names p1 p2 p3 p4 hc).2 hk with ⟨w, e⟩ | ⟨c, w, -, e⟩
  · rw [e]
    simp [Green.children, placed, isToken, Green.isTok, Elem.kind, Green.kind, Green.text, Green.leaves, Green.leavesList]
  · rw [e]
    simp [Green.children, placed, isToken, Green.isTok, Elem.kind, Green.kind, Green.text, Green.leaves, Green.leavesList]

theorem first_mem {ks : List SyntaxKind} {e c : Elem} (h : First ks e c) : c ∈ e.children ∧ c.kind ∈ ks := by
  obtain ⟨pre, post, h1, h2, -⟩ := h
  exact ⟨by rw [h1]; simp, h2.2⟩

/-- A field of a literal is reported exactly if its value is written as its name. -/
theorem C92_literal {g : Green} (hp : Parsed g) {f v : Elem} {up : List Elem} (hc : Chain g (f :: up)) :
    litValue f = some v ↔ Repeats exprKinds f v := by
  unfold litValue Repeats
  rw [Option.bind_eq_some_iff]
  refine exists_congr fun n => ?_
  rw [nodeChild_iff, Option.filter_eq_some_iff, childOf_iff, decide_eq_true_eq]
  refine and_congr_right fun h => and_congr_right fun _ => ?_
  obtain ⟨h1, h2⟩ := first_mem h
  rw [refText_eq hp (.child hc h1) (by simpa using h2)]

/-- A field of a pattern is reported exactly if it is bound to a variable of its name. -/
theorem C92_pattern {g : Green} (hp : Parsed g) {f v : Elem} {up : List Elem} (hc : Chain g (f :: up)) :
    patValue f = some v ↔ Repeats patKinds f v ∧ v.kind = .IDENT_PAT := by
  unfold patValue Repeats
  rw [Option.bind_eq_some_iff, ← exists_and_right]
  refine exists_congr fun n => ?_
  rw [nodeChild_iff, Option.filter_eq_some_iff, childOf_iff, Bool.and_eq_true, decide_eq_true_eq, decide_eq_true_eq]
  constructor
  · rintro ⟨h, h3, h4, h5⟩
    obtain ⟨h1, h2⟩ := first_mem h
    rw [refText_eq hp (.child hc h1) (by simpa using h2)] at h5
    exact ⟨⟨h, h3, h5⟩, h4⟩
  · rintro ⟨⟨h, h3, h5⟩, h4⟩
    obtain ⟨h1, h2⟩ := first_mem h
    exact ⟨h, h3, h4, by rw [refText_eq hp (.child hc h1) (by simpa using h2)]; exact h5⟩

/-- The fix leaves the name and takes out the rest of the field; the rest of the file stays. -/
theorem C92_text {g : Green} {f v : Elem} {up : List Elem} {ks : List SyntaxKind} (hc : Chain g (f :: up)) (h : Repeats ks f v) :
    ∃ n pre post, First [.NAME_REF] f n ∧ g.text = pre ++ f.green.text ++ post ∧ f.start = blen pre ∧
      apply (fix f v) (encode g.text) = some (encode (pre ++ n.green.text ++ post)) ∧ (shortField f v).text = n.green.text := by
  obtain ⟨n, h1, h2, h3⟩ := h
  obtain ⟨pre, post, h4, h5⟩ := Extend.chain_text hc
  refine ⟨n, pre, post, h1, h4, h5, ?_, ?_⟩
  · rw [h4, h3]
    exact apply_one h5 (by rw [Elem.stop, h5, blen_append]; rfl)
  · rw [h3, shortField, Green.text_node]
    simp

theorem placed_find (q : Green → Bool) {path : List Nat} {i s : Nat} {gs : List Green} :
    ((placed path i s gs).find? fun c => q c.green).map Elem.green = gs.find? q := by
  induction gs generalizing i s with
  | nil => rfl
  | cons x gs ih =>
    rw [placed, List.find?_cons, List.find?_cons]
    cases hq : q x with
    | true => simp
    | false => simpa using ih

/-- Children depend on the tree alone, not on where it is. -/
theorem first_move {ks : List SyntaxKind} {e e' c : Elem} (he : e'.green = e.green) (h : First ks e c) :
    ∃ c', First ks e' c' ∧ c'.green = c.green := by
  have h1 := childOf_iff.2 h
  have key : ∀ x : Elem, (childOf x ks).map Elem.green = x.green.children.find? fun c => !c.isTok && ks.contains c.kind := by
    intro x
    exact placed_find (fun c => !c.isTok && ks.contains c.kind)
  have h2 : (childOf e' ks).map Elem.green = some c.green := by rw [key, he, ← key, h1]; rfl
  obtain ⟨c', h3, h4⟩ := Option.map_eq_some_iff.1 h2
  exact ⟨c', childOf_iff.1 h3, h4⟩

theorem lacks_iff {k : SyntaxKind} {e : Elem} : Lacks k e ↔ ∀ c ∈ e.green.children, ¬ (c.isTok = false ∧ c.kind = k) := by
  have := placed_map e.path 0 e.start e.green.children
  unfold Lacks Nameres.Full.Is
  constructor
  · intro h c hc hx
    rw [← this] at hc
    obtain ⟨x, hx', rfl⟩ := List.mem_map.1 hc
    exact h x hx' hx
  · intro h x hx hh
    exact h x.green (by rw [← this]; exact List.mem_map.2 ⟨x, hx, rfl⟩) hh

theorem lacks_move {k : SyntaxKind} {e e' : Elem} (he : e'.green = e.green) (h : Lacks k e) : Lacks k e' := by
  rw [lacks_iff] at h ⊢
  rw [he]
  exact h

theorem short_first {ks : List SyntaxKind} {f v : Elem} {path : List Nat} {start : Nat} (hv : v.green.isTok = false) (hk : v.kind ∈ ks) :
    First ks ⟨path, start, shortField f v⟩ ⟨0 :: path, start, v.green⟩ := ⟨[], [], rfl, ⟨hv, hk⟩, by simp⟩

theorem short_lacks {k : SyntaxKind} {f v : Elem} {path : List Nat} {start : Nat} (hk : v.kind ≠ k) : Lacks k ⟨path, start, shortField f v⟩ := by
  rw [lacks_iff]
  intro c hc
  simp only [shortField, Green.children, List.mem_singleton] at hc
  subst hc
  exact fun h => hk h.2

/-- The new field of a literal gives the same field, and its value is the same expression. -/
theorem C92_gives {f v : Elem} (h : Repeats exprKinds f v) (hv : NameExpr v) (path : List Nat) (start : Nat) :
    ∃ n v', First [.NAME_REF] f n ∧ LitGives f n.green.text ∧ LitGives ⟨path, start, shortField f v⟩ n.green.text ∧
      First exprKinds ⟨path, start, shortField f v⟩ v' ∧ v'.green = v.green := by
  obtain ⟨n, h1, h2, h3⟩ := h
  obtain ⟨hk, p, s, m, a1, a2, a3, a4, a5⟩ := hv
  have htok : v.green.isTok = false := by obtain ⟨_, _, -, h, -⟩ := h2; exact h.1
  have hf := short_first (f := f) (path := path) (start := start) htok (first_mem h2).2
  obtain ⟨p', b1, c1⟩ := first_move (e := v) (e' := ⟨0 :: path, start, v.green⟩) rfl a1
  obtain ⟨s', b3, c3⟩ := first_move c1 a3
  obtain ⟨m', b4, c4⟩ := first_move c3 a4
  refine ⟨n, _, h1, .named h1, ?_, hf, rfl⟩
  have : n.green.text = m'.green.text := by rw [h3, c4, a5]
  rw [this]
  exact .short (short_lacks (by rw [hk]; decide)) hf hk b1 (lacks_move c1 a2) b3 b4

/-- The new field of a pattern mentions the same field and binds the same variable. -/
theorem C92_binds {f v m : Elem} (h : Repeats patKinds f v) (hk : v.kind = .IDENT_PAT) (hm : First [.NAME] v m) (ht : m.green.text = v.green.text) (path : List Nat) (start : Nat) :
    ∃ n v', First [.NAME_REF] f n ∧ PatGives f n.green.text ∧ PatGives ⟨path, start, shortField f v⟩ n.green.text ∧
      First patKinds ⟨path, start, shortField f v⟩ v' ∧ v'.green = v.green := by
  obtain ⟨n, h1, h2, h3⟩ := h
  have htok : v.green.isTok = false := by obtain ⟨_, _, -, h, -⟩ := h2; exact h.1
  obtain ⟨m', b1, c1⟩ := first_move (e := v) (e' := ⟨0 :: path, start, v.green⟩) rfl hm
  refine ⟨n, _, h1, .named h1, ?_, short_first htok (first_mem h2).2, rfl⟩
  have : n.green.text = m'.green.text := by rw [h3, c1, ht]
  rw [this]
  exact .short (short_lacks (by rw [hk]; decide)) (short_first htok (by rw [hk]; simp)) b1

/-- The new field is not reported again. -/
theorem C92_done {f v : Elem} (path : List Nat) (start : Nat) :
    (Repeats exprKinds f v → litValue ⟨path, start, shortField f v⟩ = none) ∧
    (Repeats patKinds f v → patValue ⟨path, start, shortField f v⟩ = none) := by
  constructor
  · rintro ⟨n, -, h, -⟩
    have hk : v.kind ≠ .NAME_REF := fun e => absurd (e ▸ (first_mem h).2) (by decide)
    rw [litValue, Counts.lacks_iff.2 (short_lacks hk)]
    rfl
  · rintro ⟨n, -, h, -⟩
    have hk : v.kind ≠ .NAME_REF := fun e => absurd (e ▸ (first_mem h).2) (by decide)
    rw [patValue, Counts.lacks_iff.2 (short_lacks hk)]
    rfl

/-- A literal and a pattern. -/
def both : List Char := "module 0x1::m{fun f(){let S{x: x}=S{y: y};}}".toList

/-- The value, as decided on a given tree. -/
def nameExpr (v : Elem) : Bool := decide (v.kind = .PATH_EXPR) && match childOf v [.PATH] with
  | none => false
  | some p => (nodeChild p .PATH).isNone && match childOf p [.PATH_SEGMENT] with
    | none => false
    | some s => match childOf s [.NAME_REF] with
      | none => false
      | some n => decide (n.green.text = v.green.text)

theorem nameExpr_sound {v : Elem} (h : nameExpr v = true) : NameExpr v := by
  unfold nameExpr at h
  rw [Bool.and_eq_true, decide_eq_true_eq] at h
  obtain ⟨h1, h⟩ := h
  refine ⟨h1, ?_⟩
  cases hp : childOf v [.PATH] with
  | none => simp [hp] at h
  | some p =>
    simp only [hp, Bool.and_eq_true] at h
    obtain ⟨h2, h⟩ := h
    cases hs : childOf p [.PATH_SEGMENT] with
    | none => simp [hs] at h
    | some s =>
      simp only [hs] at h
      cases hn : childOf s [.NAME_REF] with
      | none => simp [hn] at h
      | some n =>
        simp only [hn, decide_eq_true_eq] at h
        exact ⟨p, s, n, childOf_iff.1 hp, Counts.lacks_iff.1 (Option.isNone_iff_eq_none.1 h2), childOf_iff.1 hs, childOf_iff.1 hn, h⟩

example : Parsed (parseOf both).1 ∧
    (∃ f v up, Chain (parseOf both).1 (f :: up) ∧ litValue f = some v ∧ NameExpr v ∧ f.green.text = "y: y".toList ∧ v.green.text = ['y']) ∧
    (∃ f v m up, Chain (parseOf both).1 (f :: up) ∧ patValue f = some v ∧ First [.NAME] v m ∧ m.green.text = v.green.text ∧
      f.green.text = "x: x".toList) := by
  refine ⟨parseOf_parsed (by decide +kernel) (by decide +kernel), ?_, ?_⟩
  · have h : (Docs.ofKind both .STRUCT_LIT_FIELD).any (fun f => (litValue f).any fun v => nameExpr v && decide (f.green.text = "y: y".toList) &&
        decide (v.green.text = ['y'])) = true := by decide +kernel
    obtain ⟨f, h1, h2⟩ := List.any_eq_true.1 h
    obtain ⟨⟨l, hl⟩, -⟩ := Docs.ofKind_chain h1
    obtain ⟨v, h3, h4⟩ := (Option.any_eq_true _ _).1 h2
    simp only [Bool.and_eq_true, decide_eq_true_eq] at h4
    exact ⟨f, v, l, hl, h3, nameExpr_sound h4.1.1, h4.1.2, h4.2⟩
  · have h : (Docs.ofKind both .STRUCT_PAT_FIELD).any (fun f => (patValue f).any fun v => (childOf v [.NAME]).any fun m =>
        decide (m.green.text = v.green.text) && decide (f.green.text = "x: x".toList)) = true := by decide +kernel
    obtain ⟨f, h1, h2⟩ := List.any_eq_true.1 h
    obtain ⟨⟨l, hl⟩, -⟩ := Docs.ofKind_chain h1
    obtain ⟨v, h3, h4⟩ := (Option.any_eq_true _ _).1 h2
    obtain ⟨m, h5, h6⟩ := (Option.any_eq_true _ _).1 h4
    simp only [Bool.and_eq_true, decide_eq_true_eq] at h6
    exact ⟨f, v, m, l, hl, h3, childOf_iff.1 h5, h6.1, h6.2⟩

/-- A comment within the field is lost. -/
theorem C92_comment_fails : ∃ f v c up pre post, Chain (parseOf (pre ++ "x/*c*/:x".toList ++ post)).1 (f :: up) ∧ litValue f = some v ∧
    c ∈ f.children ∧ c.kind = .COMMENT ∧ (parseOf (pre ++ "x/*c*/:x".toList ++ post)).2 = true ∧
    apply (fix f v) (encode (pre ++ "x/*c*/:x".toList ++ post)) = some (encode (pre ++ ['x'] ++ post)) := by
  have h : (Docs.ofKind ("module 0x1::m{fun f(){S{".toList ++ "x/*c*/:x".toList ++ "};}}".toList) .STRUCT_LIT_FIELD).any (fun f =>
      f.children.any (fun c => decide (c.kind = .COMMENT)) && decide (f.start = 24) && decide (f.stop = 32) &&
      (litValue f).any fun v => decide (v.green.text = ['x'])) = true := by decide +kernel
  obtain ⟨f, h1, h2⟩ := List.any_eq_true.1 h
  obtain ⟨⟨l, hl⟩, -⟩ := Docs.ofKind_chain h1
  simp only [Bool.and_eq_true, decide_eq_true_eq, List.any_eq_true, Option.any_eq_true] at h2
  obtain ⟨⟨⟨⟨c, h3, h4⟩, h5⟩, h6⟩, v, h7, h8⟩ := h2
  refine ⟨f, v, c, l, "module 0x1::m{fun f(){S{".toList, "};}}".toList, hl, h7, h3, h4, by decide +kernel, ?_⟩
  unfold fix
  rw [h8]
  exact apply_one (by rw [h5]; decide +kernel) (by rw [h6]; decide +kernel)

end Verif.Ide.Shorthand
