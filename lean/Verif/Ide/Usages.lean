import Verif.Ide.Extend
import Verif.Lexer.Kinds

/-! Finding the usages of an item (ide-db/src/search.rs): the search for the text of the name, the token at each place where it
is found, and the classification of the name there. -/

namespace Verif.Ide.Usages
open Verif.Parser (Green)
open Verif.Syntax
open Verif.Lexer (blen isNameChar)
open Verif.Ide.Extend (leaves)

/-! ### The search for the text -/

/-- `Finder::find_iter` (search.rs:378): the places where the text is found, from the left, those that overlap with one before
left out. Each place is given by the text before it, reversed, and the text from it on. The finder works on bytes; a text in
UTF-8 is found in bytes exactly where it is found in characters. -/
def occurrences (name : List Char) : List Char → Nat → List Char → List (List Char × List Char)
  | _, _, [] => []
  | pre, skip + 1, c :: cs => occurrences name (c :: pre) skip cs
  | pre, 0, c :: cs =>
    if name.isPrefixOf (c :: cs) then (pre, c :: cs) :: occurrences name (c :: pre) (name.length - 1) cs
    else occurrences name (c :: pre) 0 cs

/-- search.rs:389. -/
def wordBefore (c : Char) : Bool := ('A' ≤ c && c ≤ 'Z') || ('a' ≤ c && c ≤ 'z') || c == '_'

/-- search.rs:393. -/
def wordAfter (c : Char) : Bool := wordBefore c || ('0' ≤ c && c ≤ '9')

/-- `contains_inclusive`. -/
def inRange (r : Nat × Nat) (o : Nat) : Bool := decide (r.1 ≤ o) && decide (o ≤ r.2)

/-- `find_matches` (search.rs:373–400). -/
def findMatches (name text : List Char) (ranges : List (Nat × Nat)) : List Nat :=
  (occurrences name [] 0 text).filterMap fun m =>
    if !(ranges.any fun r => inRange r (blen m.1)) then none
    else if m.1.head?.any wordBefore || (m.2.drop name.length).head?.any wordAfter then none
    else some (blen m.1)

/-! ### The names at those places -/

/-- `InFile<..>` of a definition. -/
structure NodeId where
  file : Nat
  path : List Nat
  deriving DecidableEq, Repr

/-- `NameRefClass` (ide-db/src/defs.rs:161–168). -/
inductive RefClass where
  | definition (item : NodeId)
  | builtin
  | shorthand (pat field : NodeId)
  deriving DecidableEq, Repr

/-- `NameClass` (defs.rs:83–101). -/
inductive NameClass where
  | definition (item : NodeId)
  | constRef (item : NodeId)
  | patShorthand (pat field : NodeId)
  | specParam (specPat funPat : NodeId)
  deriving DecidableEq, Repr

/-- The files and how names in them are classified: `NameRefClass::classify` and `NameClass::classify`, for a node with its
ancestors. -/
structure World where
  tree : Nat → Green
  ref : Nat → List Elem → Option RefClass
  name : Nat → List Elem → Option NameClass

/-- `FileReference` (search.rs:59–65), with the file and the ancestors of the node. -/
structure Reference where
  file : Nat
  range : Nat × Nat
  node : List Elem

/-- `find_nodes` (search.rs:402–411): the parent of the first token at the offset that has the text. -/
def findNode (name : List Char) (g : Green) (offset : Nat) : Option (List Elem) :=
  ((leaves g offset).find? fun l => l.head?.any fun t => t.green.text == name).map List.tail

/-- The guard of `found_name_ref` (search.rs:448–476). -/
def refMatches (item : NodeId) : RefClass → Bool
  | .definition d => decide (d = item)
  | .shorthand pat field => decide (pat = item) || decide (field = item)
  | .builtin => false

/-- The guard of `found_name` (search.rs:480–502). -/
def nameMatches (item : NodeId) : NameClass → Bool
  | .specParam _ funPat => decide (funPat = item)
  | .patShorthand _ field => decide (field = item)
  | _ => false

/-- The loop body of `search` (search.rs:434–443), with `found_name_ref` and `found_name`, for a sink that does not stop. -/
def found (w : World) (item : NodeId) (file : Nat) : List Elem → Option Reference
  | [] => none
  | n :: anc =>
    if n.kind = .NAME_REF then
      if (w.ref file (n :: anc)).any (refMatches item) then some ⟨file, (n.start, n.stop), n :: anc⟩ else none
    else if n.kind = .NAME then
      if (w.name file (n :: anc)).any (nameMatches item) then some ⟨file, (n.start, n.stop), n :: anc⟩ else none
    else none

/-- `SearchScope` (search.rs:172–174): files, with ranges or, for `None`, as a whole. -/
abbrev Scope := List (Nat × Option (List (Nat × Nat)))

/-- search.rs:240–252: the ranges of an entry. -/
def searchRanges (g : Green) (rs : Option (List (Nat × Nat))) : List (Nat × Nat) := rs.getD [(0, g.len)]

/-- `fetch_all` with `search` (search.rs:364–371, 413–446). -/
def search (w : World) (item : NodeId) (name : List Char) (scope : Scope) : List Reference :=
  scope.flatMap fun entry =>
    (findMatches name (w.tree entry.1).text (searchRanges (w.tree entry.1) entry.2)).filterMap fun o =>
      (findNode name (w.tree entry.1) o).bind (found w item entry.1)

/-- `at_least_one` (search.rs:355–362). -/
def atLeastOne (w : World) (item : NodeId) (name : List Char) (scope : Scope) : Bool := !(search w item name scope).isEmpty

/-! ### Specification -/

/-- The name at a node refers to the item: as a name used, as one of the two sides of a shorthand, or as the parameter of a
function repeated in its specification. -/
inductive Refers (w : World) (item : NodeId) (file : Nat) (node : List Elem) : Prop where
  | use : w.ref file node = some (.definition item) → Refers w item file node
  | value (field : NodeId) : w.ref file node = some (.shorthand item field) → Refers w item file node
  | field (pat : NodeId) : w.ref file node = some (.shorthand pat item) → Refers w item file node
  | pattern (pat : NodeId) : w.name file node = some (.patShorthand pat item) → Refers w item file node
  | param (specPat : NodeId) : w.name file node = some (.specParam specPat item) → Refers w item file node

/-- The offset is in the scope. -/
def Covers (scope : Scope) (file offset : Nat) : Prop :=
  ∃ rs, (file, rs) ∈ scope ∧ ∀ ranges, rs = some ranges → ∃ r ∈ ranges, r.1 ≤ offset ∧ offset ≤ r.2

/-- Names are classified by their kind of node. -/
def World.Sorted (w : World) : Prop := ∀ file n anc, (w.ref file (n :: anc) ≠ none → n.kind = .NAME_REF) ∧
  (w.name file (n :: anc) ≠ none → n.kind = .NAME)

theorem found_iff (w : World) (hw : w.Sorted) (item : NodeId) (file : Nat) (n : Elem) (anc : List Elem) (r : Reference) :
    found w item file (n :: anc) = some r ↔ Refers w item file (n :: anc) ∧ r = ⟨file, (n.start, n.stop), n :: anc⟩ := by
  obtain ⟨h1, h2⟩ := hw file n anc
  unfold found
  dsimp only
  by_cases hk : n.kind = .NAME_REF
  · rw [if_pos hk]
    have hn : w.name file (n :: anc) = none := by
      by_contra hc
      have := h2 hc
      rw [hk] at this
      cases this
    have hr : Refers w item file (n :: anc) ↔ (w.ref file (n :: anc)).any (refMatches item) = true := by
      constructor
      · rintro (h | ⟨f, h⟩ | ⟨p, h⟩ | ⟨p, h⟩ | ⟨p, h⟩)
        · rw [h]; simp [refMatches]
        · rw [h]; simp [refMatches]
        · rw [h]; simp [refMatches]
        · rw [hn] at h; cases h
        · rw [hn] at h; cases h
      · intro h
        cases hc : w.ref file (n :: anc) with
        | none => rw [hc] at h; cases h
        | some c =>
          rw [hc] at h
          cases c with
          | definition d => simp [refMatches] at h; exact .use (h ▸ hc)
          | builtin => simp [refMatches] at h
          | shorthand p f =>
            simp [refMatches] at h
            rcases h with h | h
            · exact .value f (h ▸ hc)
            · exact .field p (h ▸ hc)
    rw [hr]
    split
    · rename_i h; simp [h, eq_comm]
    · rename_i h; simp [h]
  · rw [if_neg hk]
    have hn : w.ref file (n :: anc) = none := by
      by_contra hc
      exact hk (h1 hc)
    have hr : Refers w item file (n :: anc) ↔ (w.name file (n :: anc)).any (nameMatches item) = true := by
      constructor
      · rintro (h | ⟨f, h⟩ | ⟨p, h⟩ | ⟨p, h⟩ | ⟨p, h⟩)
        · rw [hn] at h; cases h
        · rw [hn] at h; cases h
        · rw [hn] at h; cases h
        · rw [h]; simp [nameMatches]
        · rw [h]; simp [nameMatches]
      · intro h
        cases hc : w.name file (n :: anc) with
        | none => rw [hc] at h; cases h
        | some c =>
          rw [hc] at h
          cases c with
          | definition d => simp [nameMatches] at h
          | constRef d => simp [nameMatches] at h
          | patShorthand p f => simp [nameMatches] at h; exact .pattern p (h ▸ hc)
          | specParam p f => simp [nameMatches] at h; exact .param p (h ▸ hc)
    by_cases hk2 : n.kind = .NAME
    · rw [if_pos hk2, hr]
      split
      · rename_i h; simp [h, eq_comm]
      · rename_i h; simp [h]
    · rw [if_neg hk2]
      have : ¬ Refers w item file (n :: anc) := by
        rw [hr]
        have : w.name file (n :: anc) = none := by
          by_contra hc
          exact hk2 (h2 hc)
        rw [this]
        simp
      simp [this]

/-! ### The places found -/

theorem blen_reverse (l : List Char) : blen l.reverse = blen l := by
  induction l with
  | nil => rfl
  | cons c l ih =>
    rw [List.reverse_cons, Lexer.blen_append, ih]
    simp only [blen]
    omega

theorem occ_sound {name : List Char} {pre0 : List Char} {k : Nat} {cs pre rest : List Char}
    (h : (pre, rest) ∈ occurrences name pre0 k cs) : ∃ mid, cs = mid ++ rest ∧ pre = mid.reverse ++ pre0 ∧ name <+: rest := by
  induction cs generalizing pre0 k with
  | nil => cases k <;> cases h
  | cons c cs ih =>
    have step : ∀ k', (pre, rest) ∈ occurrences name (c :: pre0) k' cs →
        ∃ mid, c :: cs = mid ++ rest ∧ pre = mid.reverse ++ pre0 ∧ name <+: rest := by
      intro k' hk
      obtain ⟨mid, h1, h2, h3⟩ := ih hk
      exact ⟨c :: mid, by rw [h1]; rfl, by rw [h2]; simp, h3⟩
    cases k with
    | succ k => exact step k (by rwa [occurrences] at h)
    | zero =>
      rw [occurrences] at h
      split at h
      · rename_i hp
        rcases List.mem_cons.1 h with h | h
        · cases h
          exact ⟨[], rfl, rfl, List.isPrefixOf_iff_prefix.1 hp⟩
        · exact step _ h
      · exact step _ h

/-- Every place where the name is found and that does not follow a character of a name is among them. -/
theorem occ_complete {name : List Char} (hne : name ≠ []) (hw : ∀ c ∈ name, isNameChar c = true) {pre0 : List Char} {k : Nat}
    {cs mid rest : List Char} (hk : ∀ c ∈ cs.take k, isNameChar c = true) (hcs : cs = mid ++ rest) (hp : name <+: rest)
    (h0 : mid = [] → k = 0) (hl : ∀ c, mid.getLast? = some c → isNameChar c = false) :
    (mid.reverse ++ pre0, rest) ∈ occurrences name pre0 k cs := by
  induction cs generalizing pre0 k mid with
  | nil =>
    obtain ⟨-, rfl⟩ := List.append_eq_nil_iff.1 hcs.symm
    exact absurd (List.prefix_nil.1 hp) hne
  | cons c cs ih =>
    cases mid with
    | nil =>
      rw [h0 rfl]
      rw [List.nil_append] at hcs
      subst hcs
      rw [occurrences, if_pos (List.isPrefixOf_iff_prefix.2 hp)]
      simp
    | cons d mid =>
      simp only [List.cons_append, List.cons.injEq] at hcs
      obtain ⟨rfl, hcs⟩ := hcs
      have hl' : ∀ x, mid.getLast? = some x → isNameChar x = false := by
        intro x hx
        refine hl x ?_
        cases mid with
        | nil => cases hx
        | cons y ys => rw [List.getLast?_cons_cons]; exact hx
      have hc : mid = [] → isNameChar c = false := by
        rintro rfl
        exact hl c rfl
      have hrev : (c :: mid).reverse ++ pre0 = mid.reverse ++ (c :: pre0) := by simp
      rw [hrev]
      cases k with
      | succ k =>
        rw [occurrences]
        have hcw : isNameChar c = true := hk c (by simp)
        refine ih (fun x hx => hk x (by simp [hx])) hcs ?_ hl'
        intro hm
        rw [hc hm] at hcw
        cases hcw
      | zero =>
        rw [occurrences]
        split
        · rename_i hpre
          have hpre := List.isPrefixOf_iff_prefix.1 hpre
          refine List.mem_cons_of_mem _ (ih ?_ hcs ?_ hl')
          · intro x hx
            obtain ⟨tl, htl⟩ := hpre
            cases name with
            | nil => exact absurd rfl hne
            | cons y ys =>
              simp only [List.cons_append, List.cons.injEq] at htl
              rw [← htl.2, List.length_cons, Nat.add_sub_cancel, List.take_left'] at hx
              · exact hw x (by simp [hx])
              · rfl
          · intro hm
            exfalso
            obtain ⟨tl, htl⟩ := hpre
            cases name with
            | nil => exact absurd rfl hne
            | cons y ys =>
              simp only [List.cons_append, List.cons.injEq] at htl
              have := hw y (by simp)
              rw [htl.1, hc hm] at this
              cases this
        · exact ih (by simp) hcs (fun _ => rfl) hl'

/-- The places are found from the left to the right. -/
theorem occ_sorted (name pre0 : List Char) (k : Nat) (cs : List Char) :
    (occurrences name pre0 k cs).Pairwise fun a b => blen a.1 < blen b.1 := by
  induction cs generalizing pre0 k with
  | nil => cases k <;> exact .nil
  | cons c cs ih =>
    cases k with
    | succ k => rw [occurrences]; exact ih _ _
    | zero =>
      rw [occurrences]
      split
      · refine .cons ?_ (ih _ _)
        rintro ⟨p, r⟩ hm
        obtain ⟨mid, -, h2, -⟩ := occ_sound hm
        dsimp only
        rw [h2, Lexer.blen_append]
        have := c.utf8Size_pos
        simp only [blen]
        omega
      · exact ih _ _

theorem wordAfter_eq (c : Char) : wordAfter c = isNameChar c := by
  unfold wordAfter wordBefore isNameChar Lexer.isLetter Lexer.isDigit
  cases decide ('A' ≤ c) <;> cases decide (c ≤ 'Z') <;> cases decide ('a' ≤ c) <;> cases decide (c ≤ 'z') <;> cases (c == '_') <;> rfl

theorem wordBefore_name {c : Char} (h : wordBefore c = true) : isNameChar c = true := by
  rw [← wordAfter_eq, wordAfter, h]
  rfl

/-- `find_matches`, exactly. -/
theorem mem_findMatches {name text : List Char} {ranges : List (Nat × Nat)} {o : Nat} :
    o ∈ findMatches name text ranges ↔ ∃ pre rest, (pre, rest) ∈ occurrences name [] 0 text ∧ o = blen pre ∧
      (∃ r ∈ ranges, r.1 ≤ o ∧ o ≤ r.2) ∧ (∀ c, pre.head? = some c → wordBefore c = false) ∧
      ∀ c, (rest.drop name.length).head? = some c → wordAfter c = false := by
  have hany : ∀ (l : Option Char) (p : Char → Bool), l.any p = true ↔ ∃ c, l = some c ∧ p c = true := by
    intro l p
    cases l <;> simp
  unfold findMatches
  rw [List.mem_filterMap]
  constructor
  · rintro ⟨⟨pre, rest⟩, hm, h⟩
    dsimp only at h
    split at h
    · cases h
    · rename_i h1
      split at h
      · cases h
      · rename_i h2
        cases h
        refine ⟨pre, rest, hm, rfl, ?_, ?_, ?_⟩
        · simpa [inRange] using h1
        · intro c hc
          rw [Bool.or_eq_true, not_or] at h2
          exact Bool.eq_false_iff.2 fun hw => h2.1 ((hany _ _).2 ⟨c, hc, hw⟩)
        · intro c hc
          rw [Bool.or_eq_true, not_or] at h2
          exact Bool.eq_false_iff.2 fun hw => h2.2 ((hany _ _).2 ⟨c, hc, hw⟩)
  · rintro ⟨pre, rest, hm, rfl, ⟨r, hr, hr1⟩, hb, ha⟩
    refine ⟨(pre, rest), hm, ?_⟩
    dsimp only
    rw [if_neg, if_neg]
    · rw [Bool.or_eq_true, hany, hany]
      rintro (⟨c, h1, h2⟩ | ⟨c, h1, h2⟩)
      · rw [hb c h1] at h2; cases h2
      · rw [ha c h1] at h2; cases h2
    · simp only [Bool.not_eq_true', Bool.not_eq_false, List.any_eq_true]
      exact ⟨r, hr, by simp [inRange, hr1.1, hr1.2]⟩

/-! ### The theorems -/

theorem pairwise_or {α : Type} {R : α → α → Prop} {l : List α} (h : l.Pairwise R) {a b : α} (ha : a ∈ l) (hb : b ∈ l) :
    a = b ∨ R a b ∨ R b a := by
  induction h with
  | nil => cases ha
  | cons h1 _ ih =>
    rcases List.mem_cons.1 ha with ha | ha <;> rcases List.mem_cons.1 hb with hb | hb
    · exact .inl (ha.trans hb.symm)
    · exact .inr (.inl (ha ▸ h1 _ hb))
    · exact .inr (.inr (hb ▸ h1 _ ha))
    · exact ih ha hb

theorem findNode_some {name : List Char} {g : Green} {o : Nat} {l : List Elem} (h : findNode name g o = some l) :
    ∃ t, t :: l ∈ allTokens g ∧ t.green.text = name ∧ t.start ≤ o ∧ o ≤ t.stop ∧ Chain g (t :: l) ∧ t.green.isTok = true := by
  unfold findNode at h
  obtain ⟨m, hm, rfl⟩ := Option.map_eq_some_iff.1 h
  have h1 := List.find?_some hm
  obtain ⟨h2, h3⟩ := List.mem_filter.1 (List.mem_of_find?_eq_some hm)
  obtain ⟨t, m', rfl, hc, ht⟩ := (mem_allTokens g m).1 h2
  simp only [headStart, headStop, List.head?_cons, Option.map_some, Option.getD_some, Bool.and_eq_true] at h3
  exact ⟨t, h2, by simpa using h1, of_decide_eq_true h3.1, of_decide_eq_true h3.2, hc, ht⟩

/-- Everything that is reported is a name of that text, in the scope, that refers to the item. -/
theorem C62_sound (w : World) (hw : w.Sorted) (item : NodeId) (name : List Char) (scope : Scope) (r : Reference)
    (h : r ∈ search w item name scope) :
    ∃ t n anc, r = ⟨r.file, (n.start, n.stop), n :: anc⟩ ∧ Chain (w.tree r.file) (t :: n :: anc) ∧ t.green.isTok = true ∧
      t.green.text = name ∧ Refers w item r.file (n :: anc) ∧ ∃ o, t.start ≤ o ∧ o ≤ t.stop ∧ Covers scope r.file o := by
  obtain ⟨⟨file, rs⟩, he, h⟩ := List.mem_flatMap.1 h
  obtain ⟨o, ho, h⟩ := List.mem_filterMap.1 h
  obtain ⟨l, hl, h⟩ := Option.bind_eq_some_iff.1 h
  obtain ⟨t, ht1, ht2, ht3, ht4, ht5, ht6⟩ := findNode_some hl
  dsimp only at *
  cases l with
  | nil => cases h
  | cons n anc =>
    obtain ⟨h1, h2⟩ := (found_iff w hw item file n anc r).1 h
    subst h2
    refine ⟨t, n, anc, rfl, ht5, ht6, ht2, h1, o, ht3, ht4, rs, he, ?_⟩
    rintro ranges rfl
    obtain ⟨-, -, -, -, h3, -⟩ := mem_findMatches.1 ho
    exact h3

/-- The characters around the token: what is before it does not end with a character of a name, what is behind it does not
begin with one. -/
def Apart (g : Green) (t : Elem) : Prop :=
  ∀ pre post, g.text = pre ++ t.green.text ++ post → t.start = blen pre →
    (∀ c, pre.getLast? = some c → isNameChar c = false) ∧ ∀ c, post.head? = some c → isNameChar c = false

theorem append_eq_of_blen {a b c d : List Char} (h : a ++ b = c ++ d) (hl : blen a = blen c) : a = c ∧ b = d := by
  have h1 := Lexer.split_complete a b
  have h2 := Lexer.split_complete c d
  rw [h, hl, h2] at h1
  cases h1
  exact ⟨rfl, rfl⟩

/-- The token at the place where the name begins. -/
theorem findNode_at {name : List Char} (hname : Lexer.IsName name) {g : Green} (hne : NoEmpty g) {t : Elem} {l : List Elem}
    (h : Chain g (t :: l)) (htok : t.green.isTok = true) (htext : t.green.text = name) (ha : Apart g t) :
    findNode name g t.start = some l := by
  have hmem : t :: l ∈ allTokens g := (mem_allTokens g _).2 ⟨t, l, rfl, h, htok⟩
  have hstop : t.start < t.stop := hne _ hmem
  have hin : t :: l ∈ leaves g t.start := by
    refine List.mem_filter.2 ⟨hmem, ?_⟩
    simp only [headStart, headStop, List.head?_cons, Option.map_some, Option.getD_some, Bool.and_eq_true]
    exact ⟨decide_eq_true (Nat.le_refl _), decide_eq_true (Nat.le_of_lt hstop)⟩
  have hs : ∃ m, findNode name g t.start = some m := by
    unfold findNode
    cases hf : (leaves g t.start).find? fun l => l.head?.any fun t => t.green.text == name with
    | some m => exact ⟨_, rfl⟩
    | none =>
      have := List.find?_eq_none.1 hf _ hin
      simp [htext] at this
  obtain ⟨m, hm⟩ := hs
  obtain ⟨t', h1, h2, h3, h4, h5, h6⟩ := findNode_some hm
  rw [hm]
  have hlt : t.start < t'.stop := by
    by_contra hge
    have heq : t'.stop = t.start := by omega
    obtain ⟨pre, post, e1, e2⟩ := Extend.chain_text h5
    obtain ⟨pre', post', e3, e4⟩ := Extend.chain_text h
    have e5 : blen (pre ++ t'.green.text) = blen pre' := by
      rw [Lexer.blen_append, ← e2, ← e4, ← heq]
      rfl
    rw [e3, List.append_assoc] at e1
    obtain ⟨e6, -⟩ := append_eq_of_blen e1 e5.symm
    have := (ha pre' post' e3 e4).1
    obtain ⟨c, cs, hcs, hc1, hc2⟩ := hname
    rw [e6, h2] at this
    have hlast : ∃ d, name.getLast? = some d ∧ d ∈ name := by
      rw [hcs]
      exact ⟨_, List.getLast?_eq_some_getLast (by simp), List.getLast_mem _⟩
    obtain ⟨d, hd1, hd2⟩ := hlast
    have hd3 : isNameChar d = true := by
      rw [Lexer.isNameChar_iff]
      rw [hcs] at hd2
      rcases List.mem_cons.1 hd2 with rfl | hd2
      · tauto
      · exact hc2 d hd2
    rw [this d (by rw [List.getLast?_append, hd1]; rfl)] at hd3
    cases hd3
  rcases pairwise_or ((allTokens_tiles g).sorted hne) h1 hmem with he | he | he
  · cases he; rfl
  · have : t'.stop ≤ t.start := he
    omega
  · have : t.stop ≤ t'.start := he
    omega

/-- Every name in the scope that refers to the item is reported, if it is not glued to a character of a name. -/
theorem C62_complete_partial (w : World) (hw : w.Sorted) (item : NodeId) (name : List Char) (hname : Lexer.IsName name)
    (scope : Scope) (file : Nat) (hne : NoEmpty (w.tree file)) (t n : Elem) (anc : List Elem)
    (h : Chain (w.tree file) (t :: n :: anc)) (htok : t.green.isTok = true) (htext : t.green.text = name)
    (ha : Apart (w.tree file) t) (hc : Covers scope file t.start) (hr : Refers w item file (n :: anc)) :
    ⟨file, (n.start, n.stop), n :: anc⟩ ∈ search w item name scope := by
  obtain ⟨rs, hrs, hcov⟩ := hc
  refine List.mem_flatMap.2 ⟨(file, rs), hrs, List.mem_filterMap.2 ⟨t.start, ?_, ?_⟩⟩
  · dsimp only
    obtain ⟨pre, post, e1, e2⟩ := Extend.chain_text h
    obtain ⟨hb, hf⟩ := ha pre post e1 e2
    have hnn : name ≠ [] := by
      obtain ⟨c, cs, rfl, -⟩ := hname
      simp
    have hwords : ∀ c ∈ name, isNameChar c = true := by
      obtain ⟨c, cs, rfl, hc1, hc2⟩ := hname
      intro d hd
      rw [Lexer.isNameChar_iff]
      rcases List.mem_cons.1 hd with rfl | hd
      · tauto
      · exact hc2 d hd
    rw [htext] at e1
    have hocc := occ_complete (pre0 := []) (k := 0) hnn hwords (by simp)
      (show (w.tree file).text = pre ++ (name ++ post) by rw [e1]; simp) ⟨post, rfl⟩ (fun _ => rfl) hb
    refine mem_findMatches.2 ⟨_, _, hocc, by rw [List.append_nil, blen_reverse, e2], ?_, ?_, ?_⟩
    · cases rs with
      | none =>
        refine ⟨(0, (w.tree file).len), by simp [searchRanges], Nat.zero_le _, ?_⟩
        have := (Up.inside h) (Elem.root (w.tree file)) ?_
        · have h2 := this.2
          have : (Elem.root (w.tree file)).stop = (w.tree file).len := by simp [Elem.root, Elem.stop]
          rw [this] at h2
          exact Nat.le_trans (Nat.le_add_right _ _) h2
        · have hsuf : ∀ l, Chain (w.tree file) l → Elem.root (w.tree file) ∈ l := by
            intro l hl
            induction hl with
            | top => simp
            | child _ _ ih => exact List.mem_cons_of_mem _ ih
          exact hsuf _ h
      | some ranges => exact hcov ranges rfl
    · intro c hc'
      rw [List.append_nil, List.head?_reverse] at hc'
      refine Bool.eq_false_iff.2 fun hwb => ?_
      have := wordBefore_name hwb
      rw [hb c hc'] at this
      cases this
    · intro c hc'
      rw [List.drop_left] at hc'
      rw [wordAfter_eq]
      exact hf c hc'
  · dsimp only
    rw [findNode_at hname hne h htok htext ha, Option.bind_some]
    exact (found_iff w hw item file n anc _).2 ⟨hr, rfl⟩

/-- No identifier is followed by a character of a name. -/
def Ends (g : Green) : Prop :=
  ∀ t l pre post, Chain g (t :: l) → t.green.isTok = true → t.kind = .IDENT → g.text = pre ++ t.green.text ++ post →
    t.start = blen pre → ∀ c, post.head? = some c → isNameChar c = false

/-- The nodes of names have one child, which is an identifier if it reads like one. -/
def PlainNames (g : Green) : Prop :=
  ∀ n l, Chain g (n :: l) → n.kind = .NAME ∨ n.kind = .NAME_REF →
    n.children.length = 1 ∧ ∀ c ∈ n.children, Lexer.IsName c.green.text → c.kind = .IDENT

/-- The token that is found begins where the name was found. -/
theorem found_start {name : List Char} (hwords : ∀ c ∈ name, isNameChar c = true) {g : Green} (he : Ends g)
    {ranges : List (Nat × Nat)} {o : Nat} (ho : o ∈ findMatches name g.text ranges) {t : Elem} {l : List Elem}
    (h : Chain g (t :: l)) (htok : t.green.isTok = true) (htext : t.green.text = name) (hkind : t.kind = .IDENT) (h1 : t.start ≤ o)
    (h2 : o ≤ t.stop) : t.start = o := by
  by_contra hne
  obtain ⟨pre, rest, hocc, rfl, -⟩ := mem_findMatches.1 ho
  obtain ⟨mid, e1, e2, ⟨post, e3⟩⟩ := occ_sound hocc
  obtain ⟨pre', post', e4, e5⟩ := Extend.chain_text h
  have hend := he t l pre' post' h htok hkind e4 e5
  rw [htext] at e4
  rw [List.append_nil] at e2
  rw [e2, blen_reverse] at h1 h2 hne
  have hstop : t.stop = blen (pre' ++ name) := by
    rw [Lexer.blen_append, ← e5]
    unfold Elem.stop Green.len
    rw [htext]
  rw [e4, ← e3, List.append_assoc] at e1
  -- `pre' ++ name ++ post' = mid ++ name ++ post`
  rcases List.append_eq_append_iff.1 e1 with ⟨x, h3, h4⟩ | ⟨x, h3, h4⟩
  · -- `mid = pre' ++ x` and `name ++ post' = x ++ (name ++ post)`
    rcases List.append_eq_append_iff.1 h4 with ⟨y, h5, h6⟩ | ⟨y, h5, h6⟩
    · -- `x = name ++ y`, `post' = y ++ (name ++ post)`
      cases y with
      | nil =>
        rw [List.nil_append] at h6
        cases name with
        | nil =>
          rw [List.append_nil] at h5
          rw [h3, h5, List.append_nil, ← e5] at hne
          exact hne rfl
        | cons d ds =>
          have := hend d (by rw [h6]; rfl)
          rw [hwords d (by simp)] at this
          cases this
      | cons y ys =>
        rw [hstop, h3, h5, Lexer.blen_append, Lexer.blen_append, Lexer.blen_append] at h2
        have := Lexer.blen_pos (a := y :: ys) (by simp)
        omega
    · -- `name = x ++ y`, `name ++ post = y ++ post'`
      have hx : x ≠ [] := by
        rintro rfl
        rw [h3, List.append_nil, ← e5] at hne
        exact hne rfl
      rcases List.append_eq_append_iff.1 h6 with ⟨z, h7, h8⟩ | ⟨z, h7, h8⟩
      · -- `y = name ++ z`
        have e6 := congrArg List.length h7
        have e7 := congrArg List.length h5
        simp only [List.length_append] at e6 e7
        have := List.length_pos_iff.2 hx
        omega
      · -- `name = y ++ z`, `post' = z ++ post`
        cases z with
        | nil =>
          have e6 := congrArg List.length h7
          have e7 := congrArg List.length h5
          simp only [List.length_append, List.length_nil] at e6 e7
          have := List.length_pos_iff.2 hx
          omega
        | cons z zs =>
          have := hend z (by rw [h8]; rfl)
          rw [hwords z (by rw [h7]; simp)] at this
          cases this
  · -- `pre' = mid ++ x`
    rw [h3, Lexer.blen_append] at e5
    omega

/-- No name is reported twice. -/
theorem search_once (w : World) (hw : w.Sorted) (item : NodeId) (name : List Char) (hname : Lexer.IsName name) (scope : Scope)
    (hs : (scope.map Prod.fst).Nodup) (he : ∀ file ∈ scope.map Prod.fst, Ends (w.tree file))
    (h1 : ∀ file ∈ scope.map Prod.fst, PlainNames (w.tree file)) :
    (search w item name scope).Pairwise fun a b => ¬ (a.file = b.file ∧ a.node = b.node) := by
  have hwords : ∀ c ∈ name, isNameChar c = true := by
    obtain ⟨c, cs, rfl, hc1, hc2⟩ := hname
    intro d hd
    rw [Lexer.isNameChar_iff]
    rcases List.mem_cons.1 hd with rfl | hd
    · tauto
    · exact hc2 d hd
  have hfile : ∀ (entry : Nat × Option (List (Nat × Nat))) (os : List Nat) (r : Reference),
      r ∈ os.filterMap (fun o => (findNode name (w.tree entry.1) o).bind (found w item entry.1)) → r.file = entry.1 := by
    intro entry os r hr
    obtain ⟨o, -, h⟩ := List.mem_filterMap.1 hr
    obtain ⟨l, hl, h⟩ := Option.bind_eq_some_iff.1 h
    cases l with
    | nil => cases h
    | cons n anc => rw [((found_iff w hw item entry.1 n anc r).1 h).2]
  unfold search
  induction scope with
  | nil => exact .nil
  | cons entry scope ih =>
    rw [List.flatMap_cons, List.pairwise_append]
    rw [List.map_cons, List.nodup_cons] at hs
    refine ⟨?_, ih hs.2 (fun f hf => he f (by simp [hf])) (fun f hf => h1 f (by simp [hf])), ?_⟩
    · rw [List.pairwise_filterMap]
      have hp : (findMatches name (w.tree entry.1).text (searchRanges (w.tree entry.1) entry.2)).Pairwise (· < ·) := by
        unfold findMatches
        rw [List.pairwise_filterMap]
        refine (occ_sorted name [] 0 _).imp ?_
        intro a b hab x hx y hy
        split at hx
        · cases hx
        · split at hx
          · cases hx
          · cases hx
            split at hy
            · cases hy
            · split at hy
              · cases hy
              · cases hy
                exact hab
      refine hp.imp_of_mem ?_
      rintro o o' ho ho' hlt r hr r' hr' ⟨-, hn⟩
      obtain ⟨l, hl, h⟩ := Option.bind_eq_some_iff.1 hr
      obtain ⟨l', hl', h'⟩ := Option.bind_eq_some_iff.1 hr'
      obtain ⟨t, -, a2, a3, a4, a5, a6⟩ := findNode_some hl
      obtain ⟨t', -, b2, b3, b4, b5, b6⟩ := findNode_some hl'
      cases l with
      | nil => cases h
      | cons n anc =>
        cases l' with
        | nil => cases h'
        | cons n' anc' =>
          have f1 := ((found_iff w hw item entry.1 n anc r).1 h)
          have f2 := ((found_iff w hw item entry.1 n' anc' r').1 h')
          rw [f1.2, f2.2] at hn
          dsimp only at hn
          cases hn
          have hk : n.kind = .NAME ∨ n.kind = .NAME_REF := by
            obtain ⟨k1, k2⟩ := hw entry.1 n anc
            rcases f1.1 with h | ⟨f, h⟩ | ⟨p, h⟩ | ⟨p, h⟩ | ⟨p, h⟩
            · exact .inr (k1 (by rw [h]; simp))
            · exact .inr (k1 (by rw [h]; simp))
            · exact .inr (k1 (by rw [h]; simp))
            · exact .inl (k2 (by rw [h]; simp))
            · exact .inl (k2 (by rw [h]; simp))
          cases a5 with
          | child hup hmem =>
            cases b5 with
            | child _ hmem' =>
              obtain ⟨hlen, hid⟩ := h1 entry.1 (by simp) n anc hup hk
              have e1 := found_start hwords (he _ (by simp)) ho (.child hup hmem) a6 a2 (hid _ hmem (a2 ▸ hname)) a3 a4
              have e2 := found_start hwords (he _ (by simp)) ho' (.child hup hmem') b6 b2 (hid _ hmem' (b2 ▸ hname)) b3 b4
              obtain ⟨x, hx⟩ := List.length_eq_one_iff.1 hlen
              rw [hx, List.mem_singleton] at hmem hmem'
              rw [hmem] at e1
              rw [hmem'] at e2
              omega
    · rintro a ha b hb ⟨hf, -⟩
      have e1 := hfile entry _ a ha
      obtain ⟨entry', he', hb⟩ := List.mem_flatMap.1 hb
      have e2 := hfile entry' _ b hb
      refine hs.1 ?_
      rw [← e1, hf, e2]
      exact List.mem_map_of_mem he'

end Verif.Ide.Usages
