import Verif.Syntax.Tokens

/-! Extending a selection (ide/src/extend_selection.rs) and the ranges answered to a selection request
(aptos-language-server/src/handlers/request.rs:457–498). -/

namespace Verif.Ide.Extend
open Verif.Parser (Green)
open Verif.Syntax
open Verif.Lexer (blen split)

/-! ### Siblings and covering elements -/

/-- The index among the siblings. -/
def idx (e : Elem) : Nat := e.path.headD 0

/-- `siblings_with_tokens(Direction::Next).skip(1)` of the head of a chain. -/
def after : List Elem → List Elem
  | e :: p :: _ => p.children.filter fun c => decide (idx e < idx c)
  | _ => []

/-- `siblings_with_tokens(Direction::Prev).skip(1)`: the nearest first. -/
def before : List Elem → List Elem
  | e :: p :: _ => (p.children.filter fun c => decide (idx c < idx e)).reverse
  | _ => []

mutual
/-- `covering_element(lo..hi)` of a non-empty range, with its ancestors: go down as long as a child contains the range. -/
def cover (lo hi : Nat) (anc : List Elem) (path : List Nat) (start : Nat) : Green → List Elem
  | .tok k t => ⟨path, start, .tok k t⟩ :: anc
  | .node k cs => covers lo hi (⟨path, start, .node k cs⟩ :: anc) path 0 start cs
def covers (lo hi : Nat) (self : List Elem) (path : List Nat) (i start : Nat) : List Green → List Elem
  | [] => self
  | g :: gs =>
    if start ≤ lo ∧ hi ≤ start + g.len then cover lo hi self (i :: path) start g
    else covers lo hi self path (i + 1) (start + g.len) gs
end

/-- The range of an element. -/
def range (e : Elem) : Nat × Nat := (e.start, e.stop)

/-- `text().contains('\n')`. -/
def hasNewline (t : List Char) : Bool := t.contains '\n'

/-- `text().contains("\n\n")`. -/
def hasBlankLine : List Char → Bool
  | '\n' :: '\n' :: _ => true
  | _ :: cs => hasBlankLine cs
  | [] => false

/-! ### The function -/

/-- extend_selection.rs:37. -/
def isStringKind (k : SyntaxKind) : Bool := decide (k = .COMMENT) || decide (k = .BYTE_STRING)

/-- extend_selection.rs:38–56. -/
def isListKind (k : SyntaxKind) : Bool :=
  [SyntaxKind.STRUCT_PAT_FIELD_LIST, .MATCH_ARM_LIST, .NAMED_FIELD_LIST, .TUPLE_FIELD_LIST, .VARIANT_LIST, .TYPE_PARAM_LIST,
    .TYPE_ARG_LIST, .PARAM_LIST, .VALUE_ARG_LIST, .VECTOR_LIT_EXPR, .TUPLE_EXPR, .TUPLE_TYPE, .TUPLE_PAT].contains k

/-- extend_selection.rs:104–109, as the chain of the node found. -/
def shallowest : List Elem → List Elem
  | e :: p :: ps => if range p = range e then shallowest (p :: ps) else e :: p :: ps
  | l => l

/-- extend_selection.rs:111–141. `alnum` is `char::is_alphanumeric`; the outer `none` is the panic of `split_at`. The first
index that is on a boundary after that of the last non-word character is the end of that character. -/
def extendWord (alnum : Char → Bool) (leaf : Elem) (offset : Nat) : Option (Option (Nat × Nat)) :=
  match split (offset - leaf.start) leaf.green.text with
  | none => none
  | some (pre, post) =>
    let word := fun c => alnum c || decide (c = '_')
    if pre.all word then some none
    else
      let lo := (offset - leaf.start) - blen (pre.reverse.takeWhile word)
      let hi := (offset - leaf.start) + blen (post.takeWhile word)
      if lo = hi then some none else some (some (leaf.start + lo, leaf.start + hi))

/-- `root.text().char_at(offset)` is a newline. -/
def newlineAt (g : Green) (offset : Nat) : Bool :=
  match split offset g.text with
  | some (_, '\n' :: _) => true
  | _ => false

/-- extend_selection.rs:143–164; `none` is the panic of slicing the text. -/
def extendWs (g : Green) (l : List Elem) (ws : Elem) (offset : Nat) : Option (Nat × Nat) :=
  match split (offset - ws.start) ws.green.text with
  | none => none
  | some (pre, post) =>
    if hasNewline ws.green.text && !hasNewline post then
      match (after l).head? with
      | some node =>
        let start := if hasNewline pre then ws.start + (blen pre - blen (pre.reverse.takeWhile fun c => decide (c ≠ '\n')))
          else node.start
        let stop := if newlineAt g node.stop then node.stop + 1 else node.stop
        some (start, stop)
      | none => some (range ws)
    else some (range ws)

/-- extend_selection.rs:168–174. -/
def priority (e : Elem) : Nat :=
  if e.kind = .WHITESPACE then 0 else if e.kind = .IDENT then 2 else 1

/-- extend_selection.rs:166–167. -/
def pickBest (l r : Elem) : Elem := if priority r > priority l then r else l

/-- extend_selection.rs:179–181. -/
def isWsLine (e : Elem) : Bool := e.green.isTok && decide (e.kind = .WHITESPACE) && !hasNewline e.green.text

/-- extend_selection.rs:183–196, on the siblings in a direction. -/
def nearDelimiter (sibs : List Elem) : Option Elem :=
  match sibs.find? fun e => !isWsLine e with
  | some d => if d.green.isTok && decide (d.kind = .COMMA) then some d else none
  | none => none

/-- extend_selection.rs:205–209: the delimiter or the white space after it. -/
def finalToken (d : Elem) (ps : List Elem) : Elem :=
  match (after (d :: ps)).head? with
  | some w => if isWsLine w then w else d
  | none => d

/-- extend_selection.rs:178–225. -/
def extendListItem : List Elem → Option (Nat × Nat)
  | [] => none
  | e :: ps =>
    match nearDelimiter (after (e :: ps)) with
    | some d => some (e.start, (finalToken d ps).stop)
    | none =>
      match nearDelimiter (before (e :: ps)) with
      | some d => some (d.start, e.stop)
      | none => none

/-- extend_selection.rs:241–252, on the siblings in a direction; the comment itself is the first result. -/
def adjComments (res : Elem) : List Elem → Elem
  | [] => res
  | e :: es =>
    if !e.green.isTok then res
    else if e.kind = .COMMENT then adjComments e es
    else if e.kind ≠ .WHITESPACE ∨ hasBlankLine e.green.text = true then res
    else adjComments res es

/-- extend_selection.rs:227–238. -/
def extendComments (l : List Elem) (e : Elem) : Option (Nat × Nat) :=
  let prev := adjComments e (before l)
  let next := adjComments e (after l)
  if prev.path ≠ next.path then some (prev.start, next.stop) else none

/-- extend_selection.rs:87–101, for a node with its ancestors. -/
def extendNode (lo hi : Nat) : List Elem → Option (Nat × Nat)
  | [] => none
  | e :: ps =>
    if range e ≠ (lo, hi) then some (range e)
    else match shallowest (e :: ps) with
      | e' :: p :: ps' =>
        if isListKind p.kind then
          match extendListItem (e' :: p :: ps') with
          | some r => some r
          | none => some (range p)
        else some (range p)
      | _ => none

/-- extend_selection.rs:76–101: a non-empty selection. -/
def extendRange (g : Green) (lo hi : Nat) : Option (Nat × Nat) :=
  match cover lo hi [] [] 0 g with
  | [] => none
  | e :: ps =>
    if e.green.isTok then
      if range e ≠ (lo, hi) then some (range e)
      else match (if e.kind = .COMMENT then extendComments (e :: ps) e else none) with
        | some r => some r
        | none => extendNode lo hi ps
    else extendNode lo hi (e :: ps)

/-- `root.token_at_offset(offset)`, for trees without empty tokens. -/
def leaves (g : Green) (offset : Nat) : List (List Elem) :=
  (allTokens g).filter fun l => decide (headStart l ≤ offset) && decide (offset ≤ headStop l)

def isWs (l : List Elem) : Bool := match l with
  | t :: _ => decide (t.kind = .WHITESPACE)
  | [] => false

/-- `try_extend_selection` (extend_selection.rs:34–102). The outer `none` is a panic: the selection is outside the file, or
the text is cut inside a character. -/
def tryExtend (alnum : Char → Bool) (g : Green) (lo hi : Nat) : Option (Option (Nat × Nat)) :=
  if g.len < hi then none
  else if lo = hi then
    if (leaves g lo).all isWs then
      match leaves g lo with
      | (t :: ps) :: _ => (extendWs g (t :: ps) t lo).map some
      | _ => some none
    else match leaves g lo with
      | [t :: _] =>
        if isStringKind t.kind then
          match extendWord alnum t lo with
          | none => none
          | some none => some (some (range t))
          | some (some r) => some (some r)
        else some (some (range t))
      | (l :: _) :: (r :: _) :: _ => some (some (range (pickBest l r)))
      | _ => some none
  else some (extendRange g lo hi)

/-- `extend_selection` (extend_selection.rs:28–32). -/
def extend (alnum : Char → Bool) (g : Green) (lo hi : Nat) : Option (Nat × Nat) :=
  (tryExtend alnum g lo hi).map fun r => r.getD (lo, hi)

/-- The loop of `handle_selection_range` (request.rs:469–482); `none` is a panic or that the fuel did not suffice. -/
def selections (alnum : Char → Bool) (g : Green) : Nat → Nat × Nat → Option (List (Nat × Nat))
  | 0, _ => none
  | n + 1, r =>
    match extend alnum g r.1 r.2 with
    | none => none
    | some next => if next = r then some [r] else (selections alnum g n next).map fun rs => r :: rs

/-! ### Elements of the tree -/

theorem placed_idx {path : List Nat} {i s : Nat} {gs : List Green} {e : Elem} (h : e ∈ placed path i s gs) : i ≤ idx e := by
  induction gs generalizing i s with
  | nil => cases h
  | cons g gs ih =>
    rcases List.mem_cons.1 h with rfl | h
    · exact Nat.le_refl _
    · have := ih h; omega

theorem placed_order {path : List Nat} {i s : Nat} {gs : List Green} {a b : Elem} (ha : a ∈ placed path i s gs)
    (hb : b ∈ placed path i s gs) : (idx a < idx b → a.stop ≤ b.start) ∧ (idx a = idx b → a = b) := by
  induction gs generalizing i s with
  | nil => cases ha
  | cons g gs ih =>
    rcases List.mem_cons.1 ha with rfl | ha <;> rcases List.mem_cons.1 hb with rfl | hb
    · exact ⟨fun h => absurd h (Nat.lt_irrefl _), fun _ => rfl⟩
    · refine ⟨fun _ => (mem_placed hb).2.1, fun h => ?_⟩
      have := placed_idx hb
      simp only [idx, List.headD_cons] at h this
      omega
    · constructor
      · intro h
        have := placed_idx ha
        simp only [idx, List.headD_cons] at h this
        omega
      · intro h
        have := placed_idx ha
        simp only [idx, List.headD_cons] at h this
        omega
    · exact ih ha hb

theorem mem_after {e c : Elem} {ps : List Elem} (h : c ∈ after (e :: ps)) :
    ∃ p qs, ps = p :: qs ∧ c ∈ p.children ∧ idx e < idx c := by
  cases ps with
  | nil => cases h
  | cons p qs =>
    obtain ⟨h1, h2⟩ := List.mem_filter.1 h
    exact ⟨p, qs, rfl, h1, of_decide_eq_true h2⟩

theorem mem_before {e c : Elem} {ps : List Elem} (h : c ∈ before (e :: ps)) :
    ∃ p qs, ps = p :: qs ∧ c ∈ p.children ∧ idx c < idx e := by
  cases ps with
  | nil => cases h
  | cons p qs =>
    obtain ⟨h1, h2⟩ := List.mem_filter.1 (List.mem_reverse.1 h)
    exact ⟨p, qs, rfl, h1, of_decide_eq_true h2⟩

theorem Up.child_mem {g : Green} {e p : Elem} {ps : List Elem} (h : Chain g (e :: p :: ps)) : e ∈ p.children ∧ Chain g (p :: ps) := by
  cases h with
  | child h1 h2 => exact ⟨h2, h1⟩

theorem after_spec {g : Green} {e c : Elem} {ps : List Elem} (h : Chain g (e :: ps)) (hc : c ∈ after (e :: ps)) :
    e.stop ≤ c.start ∧ Chain g (c :: ps) := by
  obtain ⟨p, qs, rfl, h1, h2⟩ := mem_after hc
  obtain ⟨h3, h4⟩ := Up.child_mem h
  exact ⟨(placed_order h3 h1).1 h2, .child h4 h1⟩

theorem before_spec {g : Green} {e c : Elem} {ps : List Elem} (h : Chain g (e :: ps)) (hc : c ∈ before (e :: ps)) :
    c.stop ≤ e.start ∧ Chain g (c :: ps) := by
  obtain ⟨p, qs, rfl, h1, h2⟩ := mem_before hc
  obtain ⟨h3, h4⟩ := Up.child_mem h
  exact ⟨(placed_order h1 h3).1 h2, .child h4 h1⟩

theorem chain_bounds {g : Green} {e : Elem} {ps : List Elem} (h : Chain g (e :: ps)) : e.start ≤ e.stop ∧ e.stop ≤ g.len := by
  refine ⟨by unfold Elem.stop; omega, ?_⟩
  generalize hl : e :: ps = l at h
  induction h generalizing e ps with
  | top =>
    cases hl
    simp [Elem.root, Elem.stop]
  | @child c p qs h1 h2 ih =>
    cases hl
    have := ih rfl
    have := (Elem.mem_children h2).2.2.1
    omega

mutual
theorem cover_spec (lo hi : Nat) (g0 : Green) (anc : List Elem) (path : List Nat) (start : Nat) (g : Green)
    (h : Chain g0 (⟨path, start, g⟩ :: anc)) (hlo : start ≤ lo) (hhi : hi ≤ start + g.len) :
    ∃ e ps, cover lo hi anc path start g = e :: ps ∧ Chain g0 (e :: ps) ∧ e.start ≤ lo ∧ hi ≤ e.stop ∧
      ∀ c ∈ e.children, ¬(c.start ≤ lo ∧ hi ≤ c.stop) := by
  cases g with
  | tok k t => rw [cover]; exact ⟨_, _, rfl, h, hlo, hhi, fun c hc => by cases hc⟩
  | node k cs =>
    rw [cover]
    exact covers_spec lo hi g0 _ anc 0 start cs h hlo hhi (fun c hc => hc) (fun c hc => Or.inl hc)
theorem covers_spec (lo hi : Nat) (g0 : Green) (e : Elem) (anc : List Elem) (i start : Nat) (gs : List Green)
    (h : Chain g0 (e :: anc)) (hlo : e.start ≤ lo) (hhi : hi ≤ e.stop)
    (hc : ∀ c ∈ placed e.path i start gs, c ∈ e.children)
    (hn : ∀ c ∈ e.children, c ∈ placed e.path i start gs ∨ ¬(c.start ≤ lo ∧ hi ≤ c.stop)) :
    ∃ e' ps, covers lo hi (e :: anc) e.path i start gs = e' :: ps ∧ Chain g0 (e' :: ps) ∧ e'.start ≤ lo ∧ hi ≤ e'.stop ∧
      ∀ c ∈ e'.children, ¬(c.start ≤ lo ∧ hi ≤ c.stop) := by
  cases gs with
  | nil =>
    rw [covers]
    exact ⟨_, _, rfl, h, hlo, hhi, fun c hm => (hn c hm).resolve_left (fun hx => by cases hx)⟩
  | cons g gs =>
    rw [covers]
    split
    · rename_i hr
      exact cover_spec lo hi g0 _ _ start g (.child h (hc _ (by simp [placed]))) hr.1 hr.2
    · rename_i hr
      refine covers_spec lo hi g0 e anc (i + 1) (start + g.len) gs h hlo hhi (fun c hm => hc c (by simp [placed, hm])) ?_
      intro c hm
      rcases hn c hm with h1 | h1
      · rcases List.mem_cons.1 h1 with rfl | h1
        · exact Or.inr hr
        · exact Or.inl h1
      · exact Or.inr h1
end

theorem shallowest_spec {g : Green} {e : Elem} {ps : List Elem} (h : Chain g (e :: ps)) :
    ∃ e' ps', shallowest (e :: ps) = e' :: ps' ∧ Chain g (e' :: ps') ∧ range e' = range e ∧
      (∀ p qs, ps' = p :: qs → range p ≠ range e') := by
  induction ps generalizing e with
  | nil => exact ⟨e, [], rfl, h, rfl, by intro p qs hp; cases hp⟩
  | cons p ps ih =>
    rw [shallowest]
    split
    · rename_i hr
      obtain ⟨e', ps', h1, h2, h3, h4⟩ := ih (Up.child_mem h).2
      exact ⟨e', ps', h1, h2, h3.trans hr, h4⟩
    · rename_i hr
      exact ⟨e, p :: ps, rfl, h, rfl, by intro q qs hq; cases hq; exact hr⟩

/-- Contains, inside the file. -/
def Grows (g : Green) (lo hi : Nat) (r : Nat × Nat) : Prop := r.1 ≤ lo ∧ hi ≤ r.2 ∧ r.2 ≤ g.len

/-- Every token has some text. -/
def Tokens (g : Green) : Prop := ∀ e ps, Chain g (e :: ps) → e.green.isTok = true → e.start < e.stop

theorem near_spec {sibs : List Elem} {d : Elem} (h : nearDelimiter sibs = some d) : d ∈ sibs ∧ d.green.isTok = true := by
  unfold nearDelimiter at h
  split at h
  · rename_i x hx
    split at h
    · rename_i hk
      cases h
      simp only [Bool.and_eq_true] at hk
      exact ⟨List.mem_of_find?_eq_some hx, hk.1⟩
    · cases h
  · cases h

theorem final_spec {g : Green} {d : Elem} {ps : List Elem} (h : Chain g (d :: ps)) :
    d.stop ≤ (finalToken d ps).stop ∧ (finalToken d ps).stop ≤ g.len := by
  unfold finalToken
  have hd := chain_bounds h
  cases hh : (after (d :: ps)).head? with
  | none => exact ⟨Nat.le_refl _, hd.2⟩
  | some w =>
    dsimp only
    split
    · obtain ⟨h1, h2⟩ := after_spec h (List.mem_of_mem_head? hh)
      have := chain_bounds h2
      omega
    · exact ⟨Nat.le_refl _, hd.2⟩

theorem list_spec {g : Green} {e : Elem} {ps : List Elem} {r : Nat × Nat} (h : Chain g (e :: ps))
    (hr : extendListItem (e :: ps) = some r) : Grows g e.start e.stop r ∧ (Tokens g → r ≠ range e) := by
  unfold extendListItem at hr
  dsimp only at hr
  have he := chain_bounds h
  split at hr
  · rename_i d hd
    cases hr
    obtain ⟨h1, h2⟩ := near_spec hd
    obtain ⟨h3, h4⟩ := after_spec h h1
    have h5 := final_spec h4
    have h6 := chain_bounds h4
    refine ⟨⟨Nat.le_refl _, by omega, h5.2⟩, ?_⟩
    intro ht heq
    have := ht _ _ h4 h2
    simp only [range, Prod.mk.injEq] at heq
    omega
  · split at hr
    · rename_i d hd
      cases hr
      obtain ⟨h1, h2⟩ := near_spec hd
      obtain ⟨h3, h4⟩ := before_spec h h1
      have h6 := chain_bounds h4
      refine ⟨⟨by dsimp only; omega, Nat.le_refl _, he.2⟩, ?_⟩
      intro ht heq
      have := ht _ _ h4 h2
      simp only [range, Prod.mk.injEq] at heq
      omega
    · cases hr

theorem adj_mem (res : Elem) (es : List Elem) :
    adjComments res es = res ∨ (adjComments res es ∈ es ∧ (adjComments res es).green.isTok = true) := by
  induction es generalizing res with
  | nil => exact Or.inl rfl
  | cons e es ih =>
    unfold adjComments
    split
    · exact Or.inl rfl
    rename_i ht
    have ht : e.green.isTok = true := by simpa using ht
    split
    · rcases ih e with h | h
      · rw [h]; exact Or.inr ⟨by simp, ht⟩
      · exact Or.inr ⟨List.mem_cons_of_mem _ h.1, h.2⟩
    split
    · exact Or.inl rfl
    · rcases ih res with h | h
      · exact Or.inl h
      · exact Or.inr ⟨List.mem_cons_of_mem _ h.1, h.2⟩

theorem comments_spec {g : Green} {e : Elem} {ps : List Elem} {r : Nat × Nat} (h : Chain g (e :: ps))
    (hr : extendComments (e :: ps) e = some r) : Grows g e.start e.stop r ∧ (Tokens g → r ≠ range e) := by
  unfold extendComments at hr
  dsimp only at hr
  have he := chain_bounds h
  split at hr
  · rename_i hne
    cases hr
    rcases adj_mem e (before (e :: ps)) with hp | ⟨hp, hpt⟩ <;> rcases adj_mem e (after (e :: ps)) with hn | ⟨hn, hnt⟩
    · rw [hp, hn] at hne
      exact absurd rfl hne
    · obtain ⟨h1, h2⟩ := after_spec h hn
      have h3 := chain_bounds h2
      rw [hp]
      refine ⟨⟨Nat.le_refl _, by dsimp only; omega, h3.2⟩, ?_⟩
      intro ht heq
      have := ht _ _ h2 hnt
      simp only [range, Prod.mk.injEq] at heq
      omega
    · obtain ⟨h1, h2⟩ := before_spec h hp
      have h3 := chain_bounds h2
      rw [hn]
      refine ⟨⟨by dsimp only; omega, Nat.le_refl _, he.2⟩, ?_⟩
      intro ht heq
      have := ht _ _ h2 hpt
      simp only [range, Prod.mk.injEq] at heq
      omega
    · obtain ⟨h1, h2⟩ := after_spec h hn
      obtain ⟨h4, h5⟩ := before_spec h hp
      have h3 := chain_bounds h2
      have h6 := chain_bounds h5
      refine ⟨⟨by dsimp only; omega, by dsimp only; omega, h3.2⟩, ?_⟩
      intro ht heq
      have := ht _ _ h2 hnt
      simp only [range, Prod.mk.injEq] at heq
      omega
  · cases hr

theorem chain_one {g : Green} {e : Elem} (h : Chain g [e]) : e = Elem.root g := by
  cases h with
  | top => rfl

theorem node_spec {g : Green} {e : Elem} {ps : List Elem} {lo hi : Nat} (h : Chain g (e :: ps))
    (h1 : e.start ≤ lo) (h2 : hi ≤ e.stop) :
    (∀ r, extendNode lo hi (e :: ps) = some r → Grows g lo hi r ∧ (Tokens g → r ≠ (lo, hi))) ∧
    (extendNode lo hi (e :: ps) = none → (lo, hi) = (0, g.len)) := by
  unfold extendNode
  dsimp only
  have he := chain_bounds h
  split
  · rename_i hne
    refine ⟨?_, fun hx => by cases hx⟩
    rintro r ⟨⟩
    exact ⟨⟨h1, h2, he.2⟩, fun _ => hne⟩
  · rename_i heq
    have heq : range e = (lo, hi) := by simpa using heq
    obtain ⟨e', ps', hs, hc, hr, hp⟩ := shallowest_spec h
    rw [hs]
    have hr' : range e' = (lo, hi) := hr.trans heq
    have hr2 := hr'
    simp only [range, Prod.mk.injEq] at hr2
    cases ps' with
    | nil =>
      dsimp only
      refine ⟨(fun r hx => by cases hx), fun _ => ?_⟩
      have := chain_one hc
      rw [← hr', this]
      simp [range, Elem.root, Elem.stop]
    | cons p qs =>
      have hpr := hp p qs rfl
      have hin := (Elem.mem_children (Up.child_mem hc).1).2
      have hpb := chain_bounds (Up.child_mem hc).2
      have hpar : Grows g lo hi (range p) ∧ (Tokens g → range p ≠ (lo, hi)) := by
        refine ⟨⟨?_, ?_, hpb.2⟩, fun _ => by rw [← hr']; exact hpr⟩
        · show p.start ≤ lo
          have := hin.1
          omega
        · show hi ≤ p.stop
          have := hin.2.1
          omega
      dsimp only
      split
      · cases hl : extendListItem (e' :: p :: qs) with
        | none =>
          dsimp only
          refine ⟨?_, fun hx => by cases hx⟩
          rintro r ⟨⟩
          exact hpar
        | some r' =>
          dsimp only
          refine ⟨?_, fun hx => by cases hx⟩
          rintro r ⟨⟩
          have := list_spec hc hl
          rw [hr2.1, hr2.2] at this
          rw [← hr']
          refine ⟨this.1, this.2⟩
      · refine ⟨?_, fun hx => by cases hx⟩
        rintro r ⟨⟩
        exact hpar

theorem range_spec (g : Green) (lo hi : Nat) (h2 : hi ≤ g.len) (hroot : g.isTok = false) :
    (∀ r, extendRange g lo hi = some r → Grows g lo hi r ∧ (Tokens g → r ≠ (lo, hi))) ∧
    (extendRange g lo hi = none → (lo, hi) = (0, g.len)) := by
  obtain ⟨e, ps, hc, hch, h3, h4, -⟩ := cover_spec lo hi g [] [] 0 g .top (Nat.zero_le _) (by omega)
  unfold extendRange
  rw [hc]
  dsimp only
  have he := chain_bounds hch
  split
  · rename_i htok
    split
    · rename_i hne
      refine ⟨?_, fun hx => by cases hx⟩
      rintro r ⟨⟩
      exact ⟨⟨h3, h4, he.2⟩, fun _ => hne⟩
    · rename_i heq
      have heq : range e = (lo, hi) := by simpa using heq
      have heq2 := heq
      simp only [range, Prod.mk.injEq] at heq2
      have hpar : (∀ r, extendNode lo hi ps = some r → Grows g lo hi r ∧ (Tokens g → r ≠ (lo, hi))) ∧
          (extendNode lo hi ps = none → (lo, hi) = (0, g.len)) := by
        cases ps with
        | nil =>
          have := chain_one hch
          rw [this] at htok
          rw [show (Elem.root g).green = g from rfl, hroot] at htok
          cases htok
        | cons p qs =>
          have hin := (Elem.mem_children (Up.child_mem hch).1).2
          exact node_spec (Up.child_mem hch).2 (by omega) (by omega)
      split
      · rename_i r' hr'
        refine ⟨?_, fun hx => by cases hx⟩
        rintro r ⟨⟩
        split at hr'
        · have := comments_spec hch hr'
          rw [heq2.1, heq2.2] at this
          rw [← heq]
          exact ⟨this.1, this.2⟩
        · cases hr'
      · exact hpar
  · exact node_spec hch h3 h4

/-! ### The cursor -/

/-- The offset is between two characters of the file. -/
def OnBoundary (g : Green) (o : Nat) : Prop := ∃ a b, g.text = a ++ b ∧ o = blen a

theorem placed_text {path : List Nat} {i s : Nat} {gs : List Green} {e : Elem} (h : e ∈ placed path i s gs) :
    ∃ pre post, (gs.map Green.text).flatten = pre ++ e.green.text ++ post ∧ e.start = s + blen pre := by
  induction gs generalizing i s with
  | nil => cases h
  | cons g gs ih =>
    rcases List.mem_cons.1 h with rfl | h
    · exact ⟨[], (gs.map Green.text).flatten, by simp, rfl⟩
    · obtain ⟨pre, post, h1, h2⟩ := ih h
      refine ⟨g.text ++ pre, post, by simp [h1], ?_⟩
      rw [h2, Lexer.blen_append]
      unfold Green.len
      omega

theorem chain_text {g : Green} {e : Elem} {ps : List Elem} (h : Chain g (e :: ps)) :
    ∃ pre post, g.text = pre ++ e.green.text ++ post ∧ e.start = blen pre := by
  generalize hl : e :: ps = l at h
  induction h generalizing e ps with
  | top => cases hl; exact ⟨[], [], by simp [Elem.root], rfl⟩
  | @child c p qs h1 h2 ih =>
    cases hl
    obtain ⟨pre, post, h3, h4⟩ := ih rfl
    obtain ⟨pre', post', h5, h6⟩ := placed_text h2
    have hp : p.green.text = (p.green.children.map Green.text).flatten := by
      have := (Elem.mem_children h2).2.2.2.2
      cases hg : p.green with
      | node k cs => rw [Green.text_node]; rfl
      | tok k t => rw [hg] at this; cases this
    refine ⟨pre ++ pre', post' ++ post, ?_, ?_⟩
    · rw [h3, hp, h5]; simp
    · rw [h6, h4, Lexer.blen_append]

/-- Two ways to cut a text: the shorter first part is a beginning of the longer one. -/
theorem cut {a b c d : List Char} (h : a ++ b = c ++ d) (hl : blen a ≤ blen c) : ∃ m, c = a ++ m ∧ b = m ++ d := by
  rcases List.append_eq_append_iff.1 h with ⟨m, h1, h2⟩ | ⟨m, h1, h2⟩
  · exact ⟨m, h1, h2⟩
  · subst h1
    rw [Lexer.blen_append] at hl
    have : m = [] := by
      cases m with
      | nil => rfl
      | cons x xs => have := Lexer.blen_pos (a := x :: xs) (by simp); omega
    subst this
    exact ⟨[], by simp, by simpa using h2.symm⟩

theorem split_of_boundary {g : Green} {e : Elem} {ps : List Elem} {o : Nat} (h : Chain g (e :: ps)) (hb : OnBoundary g o)
    (h1 : e.start ≤ o) (h2 : o ≤ e.stop) :
    ∃ a b, split (o - e.start) e.green.text = some (a, b) ∧ e.green.text = a ++ b ∧ o = e.start + blen a := by
  obtain ⟨pre, post, h3, h4⟩ := chain_text h
  obtain ⟨x, y, h5, h6⟩ := hb
  rw [h3, List.append_assoc] at h5
  obtain ⟨m, hm1, hm2⟩ := cut h5 (by omega)
  have hlm : blen m ≤ blen e.green.text := by
    rw [hm1, Lexer.blen_append] at h6
    unfold Elem.stop Green.len at h2
    omega
  obtain ⟨n, hn1, hn2⟩ := cut hm2.symm hlm
  have hb : o - e.start = blen m := by
    rw [hm1, Lexer.blen_append] at h6
    omega
  refine ⟨m, n, ?_, hn1, ?_⟩
  · rw [hb, hn1]
    exact Lexer.split_complete m n
  · rw [hm1, Lexer.blen_append] at h6
    omega

theorem takeWhile_le (p : Char → Bool) (l : List Char) : blen (l.takeWhile p) ≤ blen l := by
  conv_rhs => rw [← List.takeWhile_append_dropWhile (p := p) (l := l)]
  rw [Lexer.blen_append]
  omega

theorem blen_reverse (l : List Char) : blen l.reverse = blen l := by
  induction l with
  | nil => rfl
  | cons c cs ih => rw [List.reverse_cons, Lexer.blen_append, ih]; simp [blen]; omega

theorem word_spec (alnum : Char → Bool) {g : Green} {t : Elem} {ps : List Elem} {o : Nat} (h : Chain g (t :: ps))
    (hb : OnBoundary g o) (h1 : t.start ≤ o) (h2 : o ≤ t.stop) :
    ∃ r, extendWord alnum t o = some r ∧ ∀ x, r = some x → Grows g o o x ∧ x ≠ (o, o) := by
  obtain ⟨a, b, hs, hab, ho⟩ := split_of_boundary h hb h1 h2
  unfold extendWord
  rw [hs]
  dsimp only
  split
  · exact ⟨none, rfl, by intro x hx; cases hx⟩
  split
  · exact ⟨none, rfl, by intro x hx; cases hx⟩
  · rename_i hne
    refine ⟨_, rfl, ?_⟩
    rintro x ⟨⟩
    have hl := takeWhile_le (fun c => alnum c || decide (c = '_')) a.reverse
    rw [blen_reverse] at hl
    have hr := takeWhile_le (fun c => alnum c || decide (c = '_')) b
    have ht : t.stop = t.start + (blen a + blen b) := by
      unfold Elem.stop Green.len
      rw [hab, Lexer.blen_append]
    have hg := (chain_bounds h).2
    refine ⟨⟨by dsimp only; omega, by dsimp only; omega, by dsimp only; omega⟩, ?_⟩
    intro he
    simp only [Prod.mk.injEq] at he
    omega

theorem newline_after {x y : List Char} (h : hasNewline (x ++ y) = true) (hy : hasNewline y = false) : hasNewline x = true := by
  unfold hasNewline at *
  rw [List.contains_iff_mem] at *
  rw [← Bool.not_eq_true, List.contains_iff_mem] at hy
  rcases List.mem_append.1 h with h | h
  · exact h
  · exact absurd h hy

theorem newlineAt_spec {g : Green} {e : Elem} (hn : newlineAt g e.stop = true) :
    e.stop + 1 ≤ g.len := by
  unfold newlineAt at hn
  split at hn
  · rename_i a b hs
    obtain ⟨h1, h2⟩ := Lexer.split_sound _ _ _ _ hs
    unfold Green.len
    rw [h1, Lexer.blen_append, ← h2]
    have := Lexer.blen_pos (a := '\n' :: b) (by simp)
    omega
  · cases hn

theorem ws_spec {g : Green} {t : Elem} {ps : List Elem} {o : Nat} (h : Chain g (t :: ps)) (hb : OnBoundary g o)
    (h1 : t.start ≤ o) (h2 : o ≤ t.stop) :
    ∃ r, extendWs g (t :: ps) t o = some r ∧ Grows g o o r ∧
      ((∀ e ps, Chain g (e :: ps) → e.start < e.stop) → r ≠ (o, o)) := by
  obtain ⟨a, b, hs, hab, ho⟩ := split_of_boundary h hb h1 h2
  have hg := (chain_bounds h).2
  have hown : Grows g o o (range t) ∧ ((∀ e ps, Chain g (e :: ps) → e.start < e.stop) → range t ≠ (o, o)) := by
    refine ⟨⟨h1, h2, hg⟩, ?_⟩
    intro hf he
    have := hf _ _ h
    simp only [range, Prod.mk.injEq] at he
    omega
  unfold extendWs
  rw [hs]
  dsimp only
  split
  · rename_i hc
    simp only [Bool.and_eq_true, Bool.not_eq_true'] at hc
    have hpre : hasNewline a = true := newline_after (by rw [← hab]; exact hc.1) hc.2
    cases hh : (after (t :: ps)).head? with
    | none => exact ⟨_, rfl, hown⟩
    | some node =>
      dsimp only
      obtain ⟨h3, h4⟩ := after_spec h (List.mem_of_mem_head? hh)
      have h5 := chain_bounds h4
      rw [if_pos hpre]
      refine ⟨_, rfl, ?_, ?_⟩
      · refine ⟨by dsimp only; omega, ?_, ?_⟩
        · dsimp only; split <;> omega
        · dsimp only
          split
          · rename_i hn
            exact newlineAt_spec hn
          · exact h5.2
      · intro hf he
        have := hf _ _ h4
        simp only [Prod.mk.injEq] at he
        have h6 := he.2
        split at h6 <;> omega
  · exact ⟨_, rfl, hown⟩

theorem leaf_spec {g : Green} {o : Nat} {l : List Elem} (h : l ∈ leaves g o) :
    ∃ t ps, l = t :: ps ∧ Chain g (t :: ps) ∧ t.green.isTok = true ∧ t.start ≤ o ∧ o ≤ t.stop := by
  obtain ⟨h1, h2⟩ := List.mem_filter.1 h
  obtain ⟨t, m, rfl, h3, h4⟩ := (mem_allTokens g l).1 h1
  simp only [Bool.and_eq_true, decide_eq_true_eq] at h2
  exact ⟨t, m, rfl, h3, h4, h2.1, h2.2⟩

theorem leaves_cover {g : Green} {o : Nat} (h : o ≤ g.len) (hg : 0 < g.len) : leaves g o ≠ [] := by
  have ht := allTokens_tiles g
  have : ∃ l ∈ allTokens g, headStart l ≤ o ∧ o ≤ headStop l := by
    by_cases h0 : o = 0
    · cases hl : allTokens g with
      | nil =>
        rw [hl] at ht
        simp only [Tiles] at ht
        omega
      | cons l ls =>
        rw [hl] at ht
        exact ⟨l, by simp, by rw [ht.1, h0], by omega⟩
    · obtain ⟨l, hl, h1, h2⟩ := ht.cover (o := o) (by omega) h
      exact ⟨l, hl, by omega, h2⟩
  obtain ⟨l, hl, h1, h2⟩ := this
  intro he
  have : l ∈ leaves g o := List.mem_filter.2 ⟨hl, by simp [h1, h2]⟩
  rw [he] at this
  cases this

/-- No element of the tree is empty. -/
def Full (g : Green) : Prop := ∀ e ps, Chain g (e :: ps) → e.start < e.stop

theorem try_spec (alnum : Char → Bool) (g : Green) (lo hi : Nat) (hroot : g.isTok = false) (hle : lo ≤ hi) (hin : hi ≤ g.len)
    (hb : lo = hi → OnBoundary g lo) :
    ∃ r, tryExtend alnum g lo hi = some r ∧
      (∀ x, r = some x → Grows g lo hi x ∧ (Full g → x ≠ (lo, hi)) ∧ (lo ≠ hi → Tokens g → x ≠ (lo, hi))) ∧
      (r = none → (lo, hi) = (0, g.len)) := by
  unfold tryExtend
  rw [if_neg (by omega)]
  by_cases heq : lo = hi
  · subst heq
    rw [if_pos rfl]
    have hb := hb rfl
    have hnone : leaves g lo = [] → (lo, lo) = (0, g.len) := by
      intro hl
      by_cases h0 : 0 < g.len
      · exact absurd hl (leaves_cover hin h0)
      · have h1 : g.len = 0 := by omega
        have h2 : lo = 0 := by omega
        rw [h1, h2]
    have htok : ∀ t ps, t :: ps ∈ leaves g lo → Grows g lo lo (range t) ∧ (Full g → range t ≠ (lo, lo)) := by
      intro t ps ht
      obtain ⟨t', ps', he, h1, h2, h3, h4⟩ := leaf_spec ht
      cases he
      refine ⟨⟨h3, h4, (chain_bounds h1).2⟩, ?_⟩
      intro hf he
      have := hf _ _ h1
      simp only [range, Prod.mk.injEq] at he
      omega
    have fin : ∀ x, Grows g lo lo x ∧ (Full g → x ≠ (lo, lo)) →
        Grows g lo lo x ∧ (Full g → x ≠ (lo, lo)) ∧ (lo ≠ lo → Tokens g → x ≠ (lo, lo)) :=
      fun x hx => ⟨hx.1, hx.2, fun h => absurd rfl h⟩
    split
    · split
      · rename_i t ps rest hl
        obtain ⟨t', ps', he, h1, h2, h3, h4⟩ := leaf_spec (l := t :: ps) (by rw [hl]; simp)
        cases he
        obtain ⟨r, hr, hgr, hne⟩ := ws_spec h1 hb h3 h4
        rw [hr]
        refine ⟨some r, rfl, ?_, fun hx => by cases hx⟩
        rintro x ⟨⟩
        exact fin _ ⟨hgr, hne⟩
      · rename_i hl
        refine ⟨none, rfl, (fun x hx => by cases hx), fun _ => hnone ?_⟩
        cases hlv : leaves g lo with
        | nil => rfl
        | cons l ls =>
          obtain ⟨t', ps', rfl, _⟩ := leaf_spec (l := l) (by rw [hlv]; simp)
          exact absurd hlv (hl t' ps' ls)
    · split
      · rename_i t ps hl
        have hm : t :: ps ∈ leaves g lo := by rw [hl]; simp
        have ht := htok t ps hm
        obtain ⟨t', ps', he, h1, h2, h3, h4⟩ := leaf_spec hm
        cases he
        split
        · obtain ⟨r, hr, hw⟩ := word_spec alnum h1 hb h3 h4
          rw [hr]
          cases r with
          | none =>
            refine ⟨_, rfl, ?_, fun hx => by cases hx⟩
            rintro x ⟨⟩
            exact fin _ ht
          | some x =>
            refine ⟨_, rfl, ?_, fun hx => by cases hx⟩
            rintro y ⟨⟩
            have := hw x rfl
            exact fin _ ⟨this.1, fun _ => this.2⟩
        · refine ⟨_, rfl, ?_, fun hx => by cases hx⟩
          rintro x ⟨⟩
          exact fin _ ht
      · rename_i l ls r rs rest hl
        refine ⟨_, rfl, ?_, fun hx => by cases hx⟩
        rintro x ⟨⟩
        unfold pickBest
        split
        · exact fin _ (htok r rs (by rw [hl]; simp))
        · exact fin _ (htok l ls (by rw [hl]; simp))
      · rename_i hl1 hl2
        refine ⟨none, rfl, (fun x hx => by cases hx), fun _ => hnone ?_⟩
        cases hlv : leaves g lo with
        | nil => rfl
        | cons l ls =>
          obtain ⟨t', ps', rfl, _⟩ := leaf_spec (l := l) (by rw [hlv]; simp)
          cases ls with
          | nil => exact absurd hlv (hl1 t' ps')
          | cons l2 ls =>
            obtain ⟨t2, ps2, rfl, _⟩ := leaf_spec (l := l2) (by rw [hlv]; simp)
            exact absurd hlv (hl2 t' ps' t2 ps2 ls)
  · rw [if_neg heq]
    obtain ⟨h1, h2⟩ := range_spec g lo hi hin hroot
    refine ⟨_, rfl, ?_, h2⟩
    intro x hx
    obtain ⟨h3, h4⟩ := h1 x hx
    refine ⟨h3, fun hf => h4 (fun e ps he _ => hf e ps he), fun _ => h4⟩

/-- Extending a selection inside the file never panics, and gives a range that contains the selection and is inside the file. -/
theorem C49_contains (alnum : Char → Bool) (g : Green) (lo hi : Nat) (hroot : g.isTok = false) (hle : lo ≤ hi) (hin : hi ≤ g.len)
    (hb : lo = hi → OnBoundary g lo) :
    ∃ r, extend alnum g lo hi = some r ∧ r.1 ≤ lo ∧ hi ≤ r.2 ∧ r.2 ≤ g.len := by
  obtain ⟨r, hr, h1, h2⟩ := try_spec alnum g lo hi hroot hle hin hb
  refine ⟨r.getD (lo, hi), by unfold extend; rw [hr]; rfl, ?_⟩
  cases r with
  | none => exact ⟨Nat.le_refl _, Nat.le_refl _, hin⟩
  | some x => exact (h1 x rfl).1

/-- A selection of some text stays the same only when it is the whole file. -/
theorem C49_progress (alnum : Char → Bool) (g : Green) (lo hi : Nat) (hroot : g.isTok = false) (hlt : lo < hi) (hin : hi ≤ g.len)
    (ht : Tokens g) : extend alnum g lo hi = some (lo, hi) ↔ (lo, hi) = (0, g.len) := by
  obtain ⟨r, hr, h1, h2⟩ := try_spec alnum g lo hi hroot (Nat.le_of_lt hlt) hin (by intro h; omega)
  have he : extend alnum g lo hi = some (r.getD (lo, hi)) := by unfold extend; rw [hr]; rfl
  rw [he]
  cases r with
  | none => exact ⟨fun _ => h2 rfl, fun _ => rfl⟩
  | some x =>
    obtain ⟨h3, _, h4⟩ := h1 x rfl
    have h4 := h4 (by omega) ht
    constructor
    · intro h
      cases h
      exact absurd rfl h4
    · intro h
      simp only [Prod.mk.injEq] at h
      exfalso
      apply h4
      obtain ⟨h5, h6, h7⟩ := h3
      ext
      · show x.1 = lo; omega
      · show x.2 = hi; omega

/-- Each range is strictly inside the next one. -/
def Nested : List (Nat × Nat) → Prop
  | a :: b :: rest => b.1 ≤ a.1 ∧ a.2 ≤ b.2 ∧ a ≠ b ∧ Nested (b :: rest)
  | _ => True

theorem selections_spec (alnum : Char → Bool) (g : Green) (hroot : g.isTok = false) : ∀ (m lo hi : Nat), lo ≤ hi → hi ≤ g.len →
    (lo = hi → OnBoundary g lo) → g.len - (hi - lo) ≤ m → ∀ fuel, m < fuel →
    ∃ rs, selections alnum g fuel (lo, hi) = some rs ∧ rs.head? = some (lo, hi) ∧ Nested rs ∧
      ∃ last, rs.getLast? = some last ∧ extend alnum g last.1 last.2 = some last ∧ last.1 ≤ last.2 ∧ last.2 ≤ g.len ∧
        (rs.length ≠ 1 → last.1 < last.2) := by
  intro m
  induction m with
  | zero =>
    intro lo hi hle hin hb hm fuel hf
    obtain ⟨fuel, rfl⟩ : ∃ n, fuel = n + 1 := ⟨fuel - 1, by omega⟩
    obtain ⟨r, hr, h1, h2, h3⟩ := C49_contains alnum g lo hi hroot hle hin hb
    have : r = (lo, hi) := by ext <;> dsimp only <;> omega
    subst this
    refine ⟨[(lo, hi)], ?_, rfl, trivial, (lo, hi), rfl, hr, hle, hin, by simp⟩
    rw [selections]
    dsimp only
    rw [hr]
    simp
  | succ m ih =>
    intro lo hi hle hin hb hm fuel hf
    obtain ⟨fuel, rfl⟩ : ∃ n, fuel = n + 1 := ⟨fuel - 1, by omega⟩
    obtain ⟨r, hr, h1, h2, h3⟩ := C49_contains alnum g lo hi hroot hle hin hb
    rw [selections]
    dsimp only
    rw [hr]
    dsimp only
    by_cases he : r = (lo, hi)
    · subst he
      rw [if_pos rfl]
      exact ⟨[(lo, hi)], rfl, rfl, trivial, (lo, hi), rfl, hr, hle, hin, by simp⟩
    · rw [if_neg he]
      obtain ⟨a, b⟩ := r
      dsimp only at h1 h2 h3
      have hlt : hi - lo < b - a := by
        have : ¬ (a = lo ∧ b = hi) := fun h => he (by rw [h.1, h.2])
        omega
      obtain ⟨rs, hrs, hh, hn, last, hl, hx, hy, hz, hw⟩ := ih a b (by omega) h3 (by intro h; omega) (by omega) fuel (by omega)
      rw [hrs]
      refine ⟨(lo, hi) :: rs, rfl, rfl, ?_, last, ?_, hx, hy, hz, ?_⟩
      · cases rs with
        | nil => cases hh
        | cons c rs =>
          cases hh
          exact ⟨h1, h2, fun h => he h.symm, hn⟩
      · cases rs with
        | nil => cases hh
        | cons c rs => simpa using hl
      · intro _
        by_cases hone : rs.length = 1
        · obtain ⟨c, rfl⟩ := List.length_eq_one_iff.1 hone
          simp only [List.head?_cons, Option.some.injEq, List.getLast?_singleton] at hh hl
          subst hl
          subst hh
          show a < b
          omega
        · exact hw hone

/-- A request for the selections around a place terminates; the answer starts at the place and each range is strictly inside the
next one. -/
theorem C49_selections (alnum : Char → Bool) (g : Green) (o : Nat) (hroot : g.isTok = false) (hin : o ≤ g.len)
    (hb : OnBoundary g o) :
    ∃ n, ∀ fuel, n ≤ fuel → ∃ rs, selections alnum g fuel (o, o) = some rs ∧ rs.head? = some (o, o) ∧ Nested rs := by
  refine ⟨g.len + 1, fun fuel hf => ?_⟩
  obtain ⟨rs, h1, h2, h3, _⟩ := selections_spec alnum g hroot g.len o o (Nat.le_refl _) hin (fun _ => hb) (by omega) fuel (by omega)
  exact ⟨rs, h1, h2, h3⟩

/-- In a tree without empty elements the last one is the whole file. Missing: trees with empty nodes. -/
theorem C49_whole_partial (alnum : Char → Bool) (g : Green) (o : Nat) (hroot : g.isTok = false) (hin : o ≤ g.len)
    (hb : OnBoundary g o) (hfull : Full g) :
    ∃ n, ∀ fuel, n ≤ fuel → ∃ rs, selections alnum g fuel (o, o) = some rs ∧ rs.getLast? = some (0, g.len) := by
  refine ⟨g.len + 1, fun fuel hf => ?_⟩
  obtain ⟨rs, h1, h2, h3, last, h4, h5, h6, h7, h8⟩ :=
    selections_spec alnum g hroot g.len o o (Nat.le_refl _) hin (fun _ => hb) (by omega) fuel (by omega)
  refine ⟨rs, h1, ?_⟩
  by_cases hone : rs.length = 1
  · obtain ⟨c, rfl⟩ := List.length_eq_one_iff.1 hone
    simp only [List.head?_cons, Option.some.injEq] at h2
    subst h2
    simp only [List.getLast?_singleton, Option.some.injEq] at h4
    subst h4
    obtain ⟨r, hr, h9, h10⟩ := try_spec alnum g o o hroot (Nat.le_refl _) hin (fun _ => hb)
    have he : extend alnum g o o = some (r.getD (o, o)) := by unfold extend; rw [hr]; rfl
    cases r with
    | none => rw [← h10 rfl]; rfl
    | some x =>
      dsimp only at h5
      rw [he] at h5
      simp only [Option.getD_some, Option.some.injEq] at h5
      exact absurd h5 ((h9 x rfl).2.1 hfull)
  · have hlt := h8 hone
    have := (C49_progress alnum g last.1 last.2 hroot hlt h7 (fun e ps he _ => hfull e ps he)).1 h5
    rw [h4]
    exact congrArg some this

end Verif.Ide.Extend
