import Verif.Ide.RenameExamples

/-! Renaming where a name stands for a field and a variable at once, what `rename` accepts, and the definition that is renamed;
whether a definition has any use. -/

namespace Verif.Ide.Rename
open Verif Verif.TextEdit Verif.Syntax
open Verif.TextEdit.Spec Verif.TextEdit.TreeDiff
open Verif.Parser (Green parseText)
open Verif.Lexer (blen blen_append oneChar Graphemes)
open Verif.Ide.Usages
open Verif.Nameres (childOf)

/-! ### Applying the edits of one place -/

theorem validIn {a x b y : List Char} {s e : Nat} (hs : s = blen a) (he : e = blen (a ++ x)) :
    ValidIn (encode (a ++ x ++ b)) ⟨s, e, encode y⟩ := by
  subst hs he
  refine ⟨by simp [blen_append], ?_, ?_, boundary _ _, ⟨y, rfl⟩⟩
  · show blen (a ++ x) ≤ _
    rw [encode_length, blen_append (a ++ x)]
    omega
  · show isCharBoundary _ (blen a) = true
    rw [List.append_assoc]
    exact boundary _ _

theorem take_at (a b : List Char) : (encode (a ++ b)).take (blen a) = encode a := by
  rw [encode_append, ← encode_length a, List.take_left]

theorem drop_at (a b : List Char) : (encode (a ++ b)).drop (blen a) = encode b := by
  rw [encode_append, ← encode_length a, List.drop_left]

/-- One replacement. -/
theorem apply_one {a x b y : List Char} {s e : Nat} (hs : s = blen a) (he : e = blen (a ++ x)) :
    apply [⟨s, e, encode y⟩] (encode (a ++ x ++ b)) = some (encode (a ++ y ++ b)) := by
  rw [apply_eq (Fits.of_wellFormed (by simpa using validIn hs he) (by simp) (Nat.zero_le _) (by simp))]
  subst hs he
  simp only [splice, Nat.sub_zero]
  rw [drop_at, List.append_assoc a x b, take_at]
  simp only [encode_append]

/-- Two replacements, with nothing between them. -/
theorem apply_two {a x x' b y y' : List Char} {s m e : Nat} (hs : s = blen a) (hm : m = blen (a ++ x)) (he : e = blen (a ++ x ++ x')) :
    apply [⟨s, m, encode y⟩, ⟨m, e, encode y'⟩] (encode (a ++ x ++ x' ++ b)) = some (encode (a ++ y ++ y' ++ b)) := by
  have h1 : ValidIn (encode (a ++ x ++ x' ++ b)) ⟨s, m, encode y⟩ := by
    rw [List.append_assoc (a ++ x)]
    exact validIn hs hm
  have h2 : ValidIn (encode (a ++ x ++ x' ++ b)) ⟨m, e, encode y'⟩ := validIn hm he
  rw [apply_eq (Fits.of_wellFormed (by rintro c (_ | ⟨_, _ | ⟨_, h⟩⟩); exacts [h1, h2, nomatch h]) (by simp) (Nat.zero_le _) (by simp))]
  subst hs hm he
  simp only [splice, Nat.sub_zero]
  have hd : (encode (a ++ x ++ x' ++ b)).drop (blen (a ++ x)) = encode (x' ++ b) := by
    rw [List.append_assoc (a ++ x), drop_at]
  have ht : (encode (a ++ x ++ x' ++ b)).take (blen a) = encode a := by
    rw [List.append_assoc, List.append_assoc, take_at]
  rw [hd, ht, Nat.sub_self, List.take_zero, List.nil_append, show blen (a ++ x ++ x') - blen (a ++ x) = blen x' by
    rw [blen_append (a ++ x)]; omega, drop_at]
  simp only [encode_append, List.append_assoc]

/-! ### Shorthands -/

/-- The name is the only one of a field of a struct literal, as `x` is in `S { x }`. -/
structure LitShorthand (n : Elem) (anc : List Elem) : Prop where
  name : n.kind = .NAME_REF
  shape : ∃ seg path e field up, anc = seg :: path :: e :: field :: up ∧ seg.kind = .PATH_SEGMENT ∧ path.kind = .PATH ∧
    e.kind = .PATH_EXPR ∧ field.kind = .STRUCT_LIT_FIELD ∧ nodeChild field .NAME_REF = none

theorem LitShorthand.litField {n : Elem} {anc : List Elem} (h : LitShorthand n anc) : litField (n :: anc) = some .shorthand := by
  obtain ⟨-, seg, path, e, field, up, rfl, h1, h2, h3, h4, h5⟩ := h
  unfold Rename.litField
  dsimp only
  rw [if_neg (by rw [h1]; decide), if_pos h1, List.dropWhile_cons_of_pos (by simp [h2]),
    List.dropWhile_cons_of_neg (by simp [h3])]
  dsimp only
  rw [if_pos ⟨h3, h4, by rw [h5]; rfl⟩]

/-- **C63.** Where a literal has `x` alone for a field and its value, renaming the field keeps the value and renaming the variable
keeps the field. -/
theorem C63_literal_shorthand (r : Reference) (n : Elem) (anc : List Elem) (hr : r.node = n :: anc) (hs : LitShorthand n anc)
    (new before x after : List Char) (h1 : n.start = blen before) (h2 : n.stop = blen (before ++ x)) :
    apply (usageChanges .field new r) (encode (before ++ x ++ after)) = some (encode (before ++ new ++ [':', ' '] ++ x ++ after)) ∧
      apply (usageChanges .binding new r) (encode (before ++ x ++ after)) =
        some (encode (before ++ x ++ [':', ' '] ++ new ++ after)) := by
  constructor
  · have : usageChanges .field new r = [⟨n.start, n.start, encode (new ++ [':', ' '])⟩] := by
      unfold usageChanges
      rw [hr]
      dsimp only
      rw [if_pos hs.name]
      unfold refEdit
      dsimp only
      rw [hs.litField]
      rfl
    rw [this]
    have := apply_one (a := before) (x := []) (b := x ++ after) (y := new ++ [':', ' ']) h1 (e := n.start) (by simpa using h1)
    simpa [List.append_assoc] using this
  · have : usageChanges .binding new r = [⟨n.stop, n.stop, encode ([':', ' '] ++ new)⟩] := by
      unfold usageChanges
      rw [hr]
      dsimp only
      rw [if_pos hs.name]
      unfold refEdit
      dsimp only
      rw [hs.litField]
      rfl
    rw [this]
    have := apply_one (a := before ++ x) (x := []) (b := after) (y := [':', ' '] ++ new) h2 (e := n.stop) (by simpa using h2)
    simpa [List.append_assoc] using this

/-- **C63.** Where a literal has a field with a value of the new name, it becomes a shorthand: all of `x: ` before the value is
removed. With any other value only the name of the field is replaced. -/
theorem C63_literal_full (kind : Kind) (r : Reference) (n field e : Elem) (up : List Elem) (hr : r.node = n :: field :: up)
    (hn : n.kind = .NAME_REF) (hf : field.kind = .STRUCT_LIT_FIELD) (he : childOf field exprKinds = some e)
    (new before x between after : List Char) (h1 : n.start = blen before) (h2 : n.stop = blen (before ++ x))
    (h3 : e.start = blen (before ++ x ++ between)) (hrange : r.range = (n.start, n.stop)) :
    apply (usageChanges kind new r) (encode (before ++ x ++ between ++ e.green.text ++ after)) =
      some (encode (if e.green.text = new then before ++ new ++ after else before ++ new ++ between ++ e.green.text ++ after)) := by
  have hlit : litField (n :: field :: up) = some (.full (some e)) := by
    unfold litField
    dsimp only
    rw [if_pos hf, he]
  split
  · rename_i heq
    have : usageChanges kind new r = [⟨n.start, e.start, encode []⟩] := by
      unfold usageChanges
      rw [hr]
      dsimp only
      rw [if_pos hn]
      unfold refEdit
      dsimp only
      rw [hlit]
      dsimp only
      rw [if_pos heq]
      rfl
    rw [this]
    have := apply_one (a := before) (x := x ++ between) (b := e.green.text ++ after) (y := []) h1 (e := e.start)
      (by rw [h3, List.append_assoc])
    rw [← heq]
    simpa [List.append_assoc] using this
  · rename_i heq
    have : usageChanges kind new r = [⟨n.start, n.stop, encode new⟩] := by
      unfold usageChanges
      rw [hr]
      dsimp only
      rw [if_pos hn]
      unfold refEdit
      dsimp only
      rw [hlit]
      dsimp only
      rw [if_neg heq, Option.getD_none, hrange]
    rw [this]
    have := apply_one (a := before) (x := x) (b := between ++ e.green.text ++ after) (y := new) h1 h2
    simpa [List.append_assoc] using this

/-- **C63.** Where a pattern has `x` alone for a field and its variable, renaming the field keeps the variable. -/
theorem C63_pattern_shorthand (kind : Kind) (r : Reference) (n i p : Elem) (up : List Elem) (hr : r.node = n :: i :: p :: up)
    (hn : n.kind = .NAME) (hi : i.kind = .IDENT_PAT) (hp : p.kind = .STRUCT_PAT_FIELD) (hpat : nodeChild p .IDENT_PAT = some i)
    (new before after : List Char) (h1 : i.start = blen before) :
    apply (usageChanges kind new r) (encode (before ++ after)) = some (encode (before ++ new ++ [':', ' '] ++ after)) := by
  have : usageChanges kind new r = [⟨i.start, i.start, encode (new ++ [':', ' '])⟩] := by
    unfold usageChanges
    rw [hr]
    dsimp only
    rw [if_neg (by rw [hn]; decide)]
    unfold nameEdit
    dsimp only
    rw [if_pos ⟨hi, hp⟩, hpat]
    rfl
  rw [this]
  have := apply_one (a := before) (x := []) (b := after) (y := new ++ [':', ' ']) h1 (e := i.start) (by simpa using h1)
  simpa [List.append_assoc] using this

/-- **C63.** Where a pattern has a field with a variable of the new name, it becomes a shorthand; with another variable only the
name of the field is replaced. -/
theorem C63_pattern_full (kind : Kind) (r : Reference) (n i nm p : Elem) (up : List Elem) (hr : r.node = n :: p :: up)
    (hn : n.kind = .NAME_REF) (hp : p.kind = .STRUCT_PAT_FIELD) (hf : nodeChild p .NAME_REF = some n)
    (hpat : nodeChild p .IDENT_PAT = some i) (hname : nodeChild i .NAME = some nm)
    (new before x between y after : List Char) (hy : nameText nm = y) (h1 : n.start = blen before) (h2 : n.stop = blen (before ++ x))
    (h3 : i.start = blen (before ++ x ++ between)) (h4 : nm.start = i.start) (h5 : nm.stop = blen (before ++ x ++ between ++ y))
    (hrange : r.range = (n.start, n.stop)) :
    apply (usageChanges kind new r) (encode (before ++ x ++ between ++ y ++ after)) =
      some (encode (if y = new then before ++ new ++ after else before ++ new ++ between ++ y ++ after)) := by
  have hlit : litField (n :: p :: up) = none := by
    unfold litField
    dsimp only
    rw [if_neg (by rw [hp]; decide), if_neg (by rw [hp]; decide)]
  split
  · rename_i heq
    have : usageChanges kind new r = [⟨n.start, i.start, encode []⟩, ⟨i.start, nm.stop, encode new⟩] := by
      unfold usageChanges
      rw [hr]
      dsimp only
      rw [if_pos hn]
      unfold refEdit
      dsimp only
      rw [hlit]
      dsimp only
      rw [if_pos hp, hf, hpat]
      dsimp only
      rw [hname]
      dsimp only
      rw [if_pos ⟨rfl, hy.trans heq⟩, h4]
      rfl
    rw [this]
    have := apply_two (a := before) (x := x ++ between) (x' := y) (b := after) (y := []) (y' := new) h1 (m := i.start) (e := nm.stop)
      (by rw [h3, List.append_assoc]) (by rw [h5]; simp only [List.append_assoc])
    simpa [List.append_assoc] using this
  · rename_i heq
    have : usageChanges kind new r = [⟨n.start, n.stop, encode new⟩] := by
      unfold usageChanges
      rw [hr]
      dsimp only
      rw [if_pos hn]
      unfold refEdit
      dsimp only
      rw [hlit]
      dsimp only
      rw [if_pos hp, hf, hpat]
      dsimp only
      rw [hname]
      dsimp only
      rw [if_neg (by rw [hy]; simp [heq]), Option.getD_none, hrange]
    rw [this]
    have := apply_one (a := before) (x := x) (b := between ++ y ++ after) (y := new) h1 h2
    simpa [List.append_assoc] using this

/-! ### Which names are accepted -/

/-- **C63.** There are edits only for a name, for a name with an apostrophe and for `_`; and then they are those of the uses and
of the definition. -/
theorem C63_accepted {g : List Char → Nat} (hg : Graphemes g) (fuel : Nat) (kind : Kind) (new : List Char)
    (usages : List (Nat × List Reference)) (file : Nat) (range : Nat × Nat) (m : FileEdits)
    (h : rename g fuel kind new usages file range = some (some m)) :
    (Lexer.IsName new ∨ (∃ cs, new = '\'' :: cs ∧ Lexer.IsName cs) ∨ new = ['_']) ∧
      renameEdits kind new usages file range = some m := by
  unfold rename at h
  split at h
  · rename_i k hk
    have hform := Lexer.C57_accepted_form hg fuel new k hk
    refine ⟨?_, ?_⟩
    · cases k with
      | Ident => exact .inl hform
      | Label => exact .inr (.inl hform)
      | Underscore => exact .inr (.inr hform)
    · cases hr : renameEdits kind new usages file range with
      | none => rw [hr] at h; cases h
      | some m' => rw [hr] at h; cases h; rfl
  · cases h
  · cases h

/-- **C63.** A new name that is no identifier, with or without an apostrophe, and not `_` never changes the files. -/
theorem C63_refused {g : List Char → Nat} (hg : Graphemes g) (fuel : Nat) (kind : Kind) (new : List Char)
    (hn : ¬ Lexer.IsName new) (hl : ∀ cs, new = '\'' :: cs → ¬ Lexer.IsName cs) (hu : new ≠ ['_'])
    (usages : List (Nat × List Reference)) (file : Nat) (range : Nat × Nat) (m : FileEdits) :
    rename g fuel kind new usages file range ≠ some (some m) := by
  intro h
  rcases (C63_accepted hg fuel kind new usages file range m h).1 with h | ⟨cs, h1, h2⟩ | h
  · exact hn h
  · exact hl cs h1 h2
  · exact hu h

/-- **C63.** Every name that is no keyword is accepted. -/
theorem C63_accepts {g : List Char → Nat} (hg : Graphemes g) (ha : Lexer.AsciiClusters g) (kind : Kind) (new : List Char)
    (hn : Lexer.IsName new) (hk : ∀ k s, (k, s) ∈ Lexer.keywords → new ≠ s)
    (usages : List (Nat × List Reference)) (file : Nat) (range : Nat × Nat) :
    ∃ n, ∀ fuel ≥ n, rename g fuel kind new usages file range = (renameEdits kind new usages file range).map some := by
  obtain ⟨n, h⟩ := (Lexer.C57_accepts_exactly_identifiers hg ha new).2 ⟨hn, hk⟩
  refine ⟨n, fun fuel hf => ?_⟩
  unfold rename
  rw [h fuel hf]

/-! ### The definition -/

/-- What is renamed at a name or a use of a name. -/
inductive Renames (defName : NodeId → Option (List Char)) : NameLike → NodeId → Prop where
  /-- The name of a definition; for a constant in a pattern, the constant. -/
  | declared (n : Elem) (anc : List Elem) (d : NodeId) (h : ∀ p, anc.head? = some p → p.kind ≠ .USE_ALIAS) :
    Renames defName (.name (n :: anc) (some (.definition d))) d
  | constant (n : Elem) (anc : List Elem) (d : NodeId) (h : ∀ p, anc.head? = some p → p.kind ≠ .USE_ALIAS) :
    Renames defName (.name (n :: anc) (some (.constRef d))) d
  /-- In a pattern `S { x }`, the variable and not the field. -/
  | variable (n : Elem) (anc : List Elem) (pat field : NodeId) (h : ∀ p, anc.head? = some p → p.kind ≠ .USE_ALIAS) :
    Renames defName (.name (n :: anc) (some (.patShorthand pat field))) pat
  /-- In the head of a specification, the parameter of the function. -/
  | param (n : Elem) (anc : List Elem) (spec pat : NodeId) (h : ∀ p, anc.head? = some p → p.kind ≠ .USE_ALIAS) :
    Renames defName (.name (n :: anc) (some (.specParam spec pat))) pat
  /-- At a use, what it refers to, if it has that name: not the item behind an alias. -/
  | use (n : Elem) (anc : List Elem) (d : NodeId) (h : ∀ x, defName d = some x → x = nameText n) :
    Renames defName (.ref (n :: anc) (some (.definition d))) d
  /-- In a literal `S { x }`, the variable and not the field. -/
  | value (n : Elem) (anc : List Elem) (pat field : NodeId) (h : ∀ x, defName pat = some x → x = nameText n) :
    Renames defName (.ref (n :: anc) (some (.shorthand pat field))) pat

/-- **C63.** `find_definition` finds exactly what is to be renamed, and nothing for an alias or a use of one. -/
theorem C63_definition (defName : NodeId → Option (List Char)) (d : NodeId) :
    (∀ (n : Elem) (anc : List Elem) (cls : Option NameClass),
      findDefinition defName (some (.name (n :: anc) cls)) = some d ↔ Renames defName (.name (n :: anc) cls) d) ∧
    (∀ (n : Elem) (anc : List Elem) (cls : Option RefClass),
      findDefinition defName (some (.ref (n :: anc) cls)) = some d ↔ Renames defName (.ref (n :: anc) cls) d) ∧
    findDefinition defName none ≠ some d := by
  refine ⟨?_, ?_, by simp [findDefinition]⟩
  · intro n anc cls
    have hal : (((n :: anc).tail.head?.any fun p => decide (p.kind = .USE_ALIAS)) = true) ↔
        ¬ ∀ p, anc.head? = some p → p.kind ≠ .USE_ALIAS := by
      cases anc <;> simp
    constructor
    · intro h
      unfold findDefinition at h
      dsimp only at h
      split at h
      · cases h
      · rename_i hna
        have hna : ∀ p, anc.head? = some p → p.kind ≠ .USE_ALIAS := by
          by_contra hc
          exact hna (hal.2 hc)
        split at h
        all_goals cases h
        · exact .declared _ _ _ hna
        · exact .constant _ _ _ hna
        · exact .variable _ _ _ _ hna
        · exact .param _ _ _ _ hna
    · intro h
      unfold findDefinition
      dsimp only
      have hna : ∀ p, anc.head? = some p → p.kind ≠ .USE_ALIAS := by cases h <;> assumption
      rw [if_neg (by rw [hal]; exact not_not.2 hna)]
      cases h <;> rfl
  · intro n anc cls
    have hany : ∀ e : NodeId, (((defName e).any fun x => decide (x ≠ ((n :: anc).head?.map nameText).getD [])) = true) ↔
        ¬ ∀ x, defName e = some x → x = nameText n := by
      intro e
      cases defName e with
      | none => simp
      | some y =>
        simp only [Option.any_some, Option.some.injEq, forall_eq', List.head?_cons, Option.map_some, Option.getD_some]
        exact decide_eq_true_iff
    constructor
    · intro h
      unfold findDefinition at h
      dsimp only at h
      split at h
      · rename_i e he
        split at h
        · cases h
        · rename_i hn
          cases h
          have hn : ∀ x, defName d = some x → x = nameText n := by
            by_contra hc
            exact hn ((hany d).2 hc)
          split at he
          all_goals cases he
          · exact .use _ _ _ hn
          · exact .value _ _ _ _ hn
      · cases h
    · intro h
      unfold findDefinition
      dsimp only
      cases h with
      | use _ _ _ h =>
        dsimp only
        rw [if_neg (by rw [hany]; exact not_not.2 h)]
      | value _ _ _ f h =>
        dsimp only
        rw [if_neg (by rw [hany]; exact not_not.2 h)]

/-- What is renamed is what the place stands for: a use that is renamed refers to it. -/
theorem C63_definition_refers (w : World) (defName : NodeId → Option (List Char)) (file : Nat) (n : Elem) (anc : List Elem) (d : NodeId)
    (h : findDefinition defName (some (.ref (n :: anc) (w.ref file (n :: anc)))) = some d) :
    Refers w d file (n :: anc) ∧ ∀ x, defName d = some x → x = nameText n := by
  have h := ((C63_definition defName d).2.1 n anc _).1 h
  generalize hc : w.ref file (n :: anc) = c at h
  cases h with
  | use _ _ _ h => exact ⟨.use hc, h⟩
  | value _ _ _ f h => exact ⟨.value f hc, h⟩

/-- **C63.** The client is offered the name of that definition, wherever in the files that is. -/
theorem C63_prepare (defName : NodeId → Option (List Char)) (defRange : NodeId → Option (Nat × Nat)) (at' : Option NameLike)
    (range : Nat × Nat) :
    prepareRename defName defRange at' = some range ↔ ∃ d, findDefinition defName at' = some d ∧ defRange d = some range := by
  unfold prepareRename
  rw [Option.bind_eq_some_iff]

/-! ### Examples -/

def fieldsText : List Char := "module 0x1::m{struct S{x:u8,z:u8}fun f(x:u8,y:u8){let S{x,z:w}=S{x,z:y};}}".toList

/-- The fields of the literal and of the pattern: the offsets of the names that are a shorthand of a literal, the name of a field
of a literal with a value, a shorthand of a pattern, the name of a field of a pattern with a variable. -/
def fieldPlaces (g : Green) : List (Nat × Nat) :=
  (allTokens g).filterMap fun l => match l with
    | t :: n :: a :: b :: c :: d :: _ =>
      if n.kind = .NAME_REF ∧ a.kind = .PATH_SEGMENT ∧ b.kind = .PATH ∧ c.kind = .PATH_EXPR ∧ d.kind = .STRUCT_LIT_FIELD ∧
        (nodeChild d .NAME_REF).isNone then some (t.start, 1)
      else if n.kind = .NAME_REF ∧ a.kind = .STRUCT_LIT_FIELD ∧ (childOf a exprKinds).any fun e => e.green.text = ['y'] ∧
        e.start = n.stop + 1 then some (t.start, 2)
      else if n.kind = .NAME ∧ a.kind = .IDENT_PAT ∧ b.kind = .STRUCT_PAT_FIELD ∧
        ((nodeChild b .IDENT_PAT).map Elem.start) = some a.start ∧ (nodeChild b .NAME_REF).isNone then some (t.start, 3)
      else if n.kind = .NAME_REF ∧ a.kind = .STRUCT_PAT_FIELD ∧ (nodeChild a .IDENT_PAT).any fun i => i.start = n.stop + 1 ∧
        (nodeChild i .NAME).any fun nm => nm.start = i.start ∧ nameText nm = ['w'] then some (t.start, 4)
      else none
    | _ => none

/-- Each of the four theorems has its place in this text. -/
example : (parseOf fieldsText).2 = true ∧
    fieldPlaces (parseOf fieldsText).1 = [(56, 3), (58, 4), (65, 1), (67, 2)] := by decide +kernel

/-- Names that are accepted and names that are not. -/
example : Lexer.IsName ['a', '1'] ∧ (∀ k s, (k, s) ∈ Lexer.keywords → ['a', '1'] ≠ s) ∧ ¬ Lexer.IsName ['1'] ∧
    Lexer.AsciiClusters oneChar ∧ Graphemes oneChar :=
  ⟨⟨'a', ['1'], rfl, by decide, by decide⟩, fun k s h => (by decide +kernel : ∀ p ∈ Lexer.keywords, ['a', '1'] ≠ p.2) (k, s) h,
    by rintro ⟨c, cs, h, h1, -⟩; cases h; revert h1; decide, by rintro _ c cs rfl _ _; rfl, fun _ _ => Nat.le_refl 1⟩

/-- A use of a name, and one behind an alias. -/
example (n : Elem) (anc : List Elem) (d : NodeId) :
    findDefinition (fun _ => some (nameText n)) (some (.ref (n :: anc) (some (.definition d)))) = some d ∧
      findDefinition (fun _ => some ('a' :: nameText n)) (some (.ref (n :: anc) (some (.definition d)))) = none := by
  simp [findDefinition]

end Verif.Ide.Rename

namespace Verif.Ide.Usages
open Verif.Syntax
open Verif.Parser (Green)
open Verif.Lexer (blen isNameChar)
open Verif.Nameres (childOf)

/-- **C62.** "Is there any usage" is answered with yes only if there is one: a name of that text, in the scope, that refers to the
item. -/
theorem C62_any_sound (w : World) (hw : w.Sorted) (item : NodeId) (name : List Char) (scope : Scope)
    (h : atLeastOne w item name scope = true) :
    ∃ file t n anc, Chain (w.tree file) (t :: n :: anc) ∧ t.green.isTok = true ∧ t.green.text = name ∧ Refers w item file (n :: anc) ∧
      ∃ o, t.start ≤ o ∧ o ≤ t.stop ∧ Covers scope file o := by
  unfold atLeastOne at h
  cases hs : search w item name scope with
  | nil => rw [hs] at h; cases h
  | cons r rs =>
    obtain ⟨t, n, anc, -, h1, h2, h3, h4, h5⟩ := C62_sound w hw item name scope r (by rw [hs]; simp)
    exact ⟨r.file, t, n, anc, h1, h2, h3, h4, h5⟩

/-- **C62.** If a name in the scope refers to the item, the answer is yes. Missing: names with a character of a name directly in
front of them. -/
theorem C62_any_partial (w : World) (hw : w.Sorted) (item : NodeId) (name : List Char) (hname : Lexer.IsName name)
    (scope : Scope) (file : Nat) (hp : Parsed (w.tree file)) (t n : Elem) (anc : List Elem)
    (h : Chain (w.tree file) (t :: n :: anc)) (htok : t.green.isTok = true) (hkind : t.kind = .IDENT) (htext : t.green.text = name)
    (hb : ∀ pre post, (w.tree file).text = pre ++ post → t.start = blen pre → ∀ c, pre.getLast? = some c → isNameChar c = false)
    (hc : Covers scope file t.start) (hr : Refers w item file (n :: anc)) : atLeastOne w item name scope = true := by
  have := C62_text_partial w hw item name hname scope file hp t n anc h htok hkind htext hb hc hr
  unfold atLeastOne
  cases hs : search w item name scope with
  | nil => rw [hs] at this; cases this
  | cons r rs => rfl

/-- **C62.** For a binding of a module that is none of a parameter, a lambda, a `let`, a loop or an arm (a field of a schema, a
variable of a quantifier), all of its own file is searched, and all of the files with specifications of the module. -/
theorem C62_whole_file (file : Nat) (specs : Elem → List (Nat × (Nat × Nat))) (specFiles : List Nat) (i o : Elem) (anc up : List Elem)
    (hm : anc.any (isNode .MODULE) = true) (ho : firstOf identPatOwners anc = some (o :: up))
    (hk : o.kind ∉ [.PARAM, .LAMBDA_PARAM, .LET_STMT, .FOR_CONDITION, .MATCH_ARM]) :
    ∃ scope, identPatScope file specs specFiles (i :: anc) = some scope ∧
      ∀ f o, Covers scope f o ↔ f = file ∨ f ∈ specFiles := by
  simp only [List.mem_cons, List.not_mem_nil, or_false, not_or] at hk
  refine ⟨(file, none) :: specFiles.map fun f => (f, none), ?_, ?_⟩
  · unfold identPatScope
    dsimp only
    rw [if_pos hm, ho]
    unfold ownerScope
    dsimp only
    rw [if_neg hk.1, if_neg hk.2.1, if_neg hk.2.2.1, if_neg hk.2.2.2.1, if_neg hk.2.2.2.2]
  · intro f q
    constructor
    · rintro ⟨rs, h, -⟩
      rcases List.mem_cons.1 h with h | h
      · cases h; exact .inl rfl
      · obtain ⟨x, hx, he⟩ := List.mem_map.1 h
        cases he
        exact .inr hx
    · intro h
      refine ⟨none, ?_, fun _ h => nomatch h⟩
      rcases h with rfl | h
      · simp
      · exact List.mem_cons_of_mem _ (List.mem_map.2 ⟨f, h, rfl⟩)

/-- A variable of a quantifier. -/
def quantText : List Char := "module 0x1::m{spec module{invariant forall x:u8:x>0;}}".toList

example : (parseOf quantText).2 = true ∧ ∃ l ∈ allTokens (parseOf quantText).1, (match l with
    | _ :: _ :: i :: anc => decide (i.kind = .IDENT_PAT) && anc.any (isNode .MODULE) &&
      (firstOf identPatOwners anc).any fun a => a.head?.any fun o => decide (o.kind = .QUANT_BINDING)
    | _ => false) = true := by decide +kernel

/-- One variable with a use, and one without. -/
example : atLeastOne (localWorld (parseOf letText).1) ⟨0, [2, 1, 4, 6, 0]⟩ ['x'] [(0, some [(14, 38)])] = true ∧
    atLeastOne (localWorld (parseOf letText).1) ⟨0, [2, 1, 4, 6, 0]⟩ ['y'] [(0, some [(14, 38)])] = false := by decide +kernel

end Verif.Ide.Usages
