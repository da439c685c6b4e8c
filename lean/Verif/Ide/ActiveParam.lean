import Verif.Syntax.Tokens

/-! The active parameter of a call (ide-db/src/active_parameter.rs, ide/src/signature_help.rs). -/

namespace Verif.Ide
open Verif.Parser (Green)
open Verif.Syntax

/-- ide-db/src/active_parameter.rs:149–156. -/
def activeParam (list : Elem) (offset : Nat) : Nat :=
  ((list.children.filter (isToken .COMMA)).takeWhile fun t => decide (t.start ≤ offset)).length

/-- `token_at_offset(offset).left_biased()`: among the tokens whose closed range contains the offset, the left one. -/
def leftToken (ls : List (List Elem)) (offset : Nat) : Option (List Elem) :=
  ls.find? fun l => decide (headStart l ≤ offset) && decide (offset ≤ headStop l)

def isTriviaToken (l : List Elem) : Bool := match l.head? with
  | some t => t.kind.isTrivia
  | none => false

/-- The tokens up to the given one, the nearest first (`token`, `prev_token()`, …). -/
def backwards (ls : List (List Elem)) (l : List Elem) : List (List Elem) :=
  (ls.filter fun m => decide (headStart m ≤ headStart l)).reverse

/-- ide/src/signature_help.rs:59–64 (`algo::skip_trivia_token` to the left, syntax/src/algo.rs:92–100). -/
def signatureToken (g : Green) (offset : Nat) : Option (List Elem) :=
  match leftToken (allTokens g) offset with
  | none => none
  | some l => (backwards (allTokens g) l).find? fun m => !isTriviaToken m

/-- Whether the token is the one that closes the list; `==` of tokens is the comparison of their paths. -/
def closes (c : Option Elem) (t : Elem) : Bool := decide (c.map Elem.path = some t.path)

/-- ide/src/signature_help.rs:66–96: the innermost list around the token that it does not close, together with the list whose
commas are counted. -/
def owner (t : Elem) : List Elem → Option (Elem × Option Elem)
  | [] => none
  | p :: ps =>
    if p.kind = .VALUE_ARG_LIST then
      if closes (tokenChild p .R_PAREN) t then owner t ps else some (p, some p)
    else if p.kind = .TYPE_ARG_LIST then
      if closes (tokenChild p .R_ANGLE) t then owner t ps else some (p, some p)
    else if p.kind = .STRUCT_LIT then
      let fields := nodeChild p .STRUCT_LIT_FIELD_LIST
      if closes (fields.bind fun f => tokenChild f .R_CURLY) t then owner t ps else some (p, fields)
    else owner t ps

/-- The list that signature help is about and the index that it counts, as far as they depend on the text. -/
def signatureIndex (g : Green) (offset : Nat) : Option (Elem × Nat) :=
  match signatureToken g offset with
  | some (t :: anc) =>
    match owner t anc with
    | some (_, some list) => some (list, activeParam list t.start)
    | _ => none
  | _ => none

/-! ### Specification -/

/-- A comma of the list. -/
def IsComma (c : Elem) : Prop := c.green.isTok = true ∧ c.kind = .COMMA

/-- The number of commas before a child of the list: the index of the argument it belongs to. -/
def ArgIndex (list c : Elem) (n : Nat) : Prop :=
  ∃ before after, list.children = before ++ c :: after ∧ n = before.countP (isToken .COMMA)

theorem isToken_iff (c : Elem) : isToken .COMMA c = true ↔ IsComma c := by simp [isToken, IsComma]

theorem start_le_stop (e : Elem) : e.start ≤ e.stop := Nat.le_add_right _ _

theorem takeWhile_sorted (o : Nat) (l : List Elem) (h : l.Pairwise fun a b => a.start ≤ b.start) :
    (l.takeWhile fun t => decide (t.start ≤ o)).length = l.countP fun t => decide (t.start ≤ o) := by
  induction l with
  | nil => rfl
  | cons x l ih =>
    obtain ⟨h1, h2⟩ := List.pairwise_cons.1 h
    by_cases hx : x.start ≤ o
    · simp [hx, ih h2]
    · have : l.countP (fun t => decide (t.start ≤ o)) = 0 := by
        rw [List.countP_eq_zero]
        intro y hy
        have := h1 y hy
        simp; omega
      simp [hx, this]

/-- The index is the number of commas of the list that begin at or before the position. -/
theorem C51_count (list : Elem) (o : Nat) :
    activeParam list o = list.children.countP fun c => isToken .COMMA c && decide (c.start ≤ o) := by
  unfold activeParam
  rw [takeWhile_sorted]
  · rw [List.countP_filter]
    congr 1
    funext c
    rw [Bool.and_comm]
  · exact (list.children_sorted.imp fun {a b} h => Nat.le_trans (start_le_stop a) h).filter _

/-- It is monotone and bounded by the number of commas. -/
theorem C51_monotone (list : Elem) {o p : Nat} (h : o ≤ p) :
    activeParam list o ≤ activeParam list p ∧ activeParam list p ≤ list.children.countP (isToken .COMMA) := by
  rw [C51_count, C51_count]
  constructor
  · refine List.countP_mono_left fun c _ hc => ?_
    simp only [Bool.and_eq_true, decide_eq_true_eq] at hc ⊢
    exact ⟨hc.1, Nat.le_trans hc.2 h⟩
  · refine List.countP_mono_left fun c _ hc => ?_
    simp only [Bool.and_eq_true] at hc
    exact hc.1

theorem countP_at (list c : Elem) (o : Nat) (before after : List Elem) (h : list.children = before ++ c :: after)
    (h1 : c.start ≤ o) (h2 : o < c.stop) :
    activeParam list o = before.countP (isToken .COMMA) + if isToken .COMMA c then 1 else 0 := by
  have hs := list.children_sorted
  rw [C51_count, h]
  rw [h] at hs
  obtain ⟨-, hs2, hs3⟩ := List.pairwise_append.1 hs
  rw [List.countP_append, List.countP_cons]
  have e1 : before.countP (fun c => isToken .COMMA c && decide (c.start ≤ o)) = before.countP (isToken .COMMA) := by
    refine List.countP_congr fun x hx => ?_
    have := hs3 x hx c (by simp)
    have := start_le_stop x
    have : x.start ≤ o := by omega
    simp [this]
  have e2 : after.countP (fun c => isToken .COMMA c && decide (c.start ≤ o)) = 0 := by
    rw [List.countP_eq_zero]
    intro x hx
    have := (List.pairwise_cons.1 hs2).1 x hx
    have : ¬ x.start ≤ o := by omega
    simp [this]
  rw [e1, e2]
  simp [h1]

/-- Inside an argument, up to its last character, the index is that of the argument. -/
theorem C51_argument (list c : Elem) (n o : Nat) (hi : ArgIndex list c n) (hc : ¬ IsComma c) (h1 : c.start ≤ o) (h2 : o < c.stop) :
    activeParam list o = n := by
  obtain ⟨before, after, h, rfl⟩ := hi
  rw [countP_at list c o before after h h1 h2, if_neg (fun hh => hc ((isToken_iff c).1 hh)), Nat.add_zero]

/-- On a comma it is that of the argument after it. -/
theorem C51_comma (list c : Elem) (n o : Nat) (hi : ArgIndex list c n) (hc : IsComma c) (h1 : c.start ≤ o) (h2 : o < c.stop) :
    activeParam list o = n + 1 := by
  obtain ⟨before, after, h, rfl⟩ := hi
  rw [countP_at list c o before after h h1 h2, if_pos ((isToken_iff c).2 hc)]

theorem exists_argIndex (list c : Elem) (h : c ∈ list.children) : ∃ n, ArgIndex list c n := by
  obtain ⟨b, a, h⟩ := List.append_of_mem h
  exact ⟨_, b, a, h, rfl⟩

/-! ### Signature help -/

/-- The token is the last one before the cursor that is not a comment or a space. -/
def LastBefore (g : Green) (offset : Nat) (l : List Elem) : Prop :=
  l ∈ allTokens g ∧ headStart l < offset ∧ isTriviaToken l = false ∧
    ∀ m ∈ allTokens g, headStart l < headStart m → headStart m < offset → isTriviaToken m = true

theorem find?_reverse_last {α : Type} (ls : List α) (p : α → Bool) (x : α) (h : ls.reverse.find? p = some x) :
    ∃ a b, ls = a ++ x :: b ∧ p x = true ∧ ∀ y ∈ b, p y = false := by
  obtain ⟨h1, as, bs, h2, h3⟩ := List.find?_eq_some_iff_append.1 h
  refine ⟨bs.reverse, as.reverse, ?_, h1, fun y hy => ?_⟩
  · have := congrArg List.reverse h2
    simpa using this
  · simpa using h3 y (by simpa using hy)

/-- The token of signature help is the last one before the cursor that is not trivia. -/
theorem C51_token (g : Green) (hg : NoEmpty g) (offset : Nat) (h0 : 0 < offset) (hl : offset ≤ g.len) (l : List Elem) :
    signatureToken g offset = some l ↔ LastBefore g offset l := by
  have htile := allTokens_tiles g
  have hsort := htile.sorted hg
  have hle : ∀ m, m ∈ allTokens g → headStart m < headStop m := hg
  -- the token left of the cursor
  obtain ⟨x, hx, hx1, hx2⟩ := htile.cover h0 hl
  have hlt : leftToken (allTokens g) offset = some x := by
    obtain ⟨as, bs, hab⟩ := List.append_of_mem hx
    unfold leftToken
    rw [List.find?_eq_some_iff_append]
    refine ⟨by simp; omega, as, bs, hab, ?_⟩
    intro y hy
    rw [hab] at hsort
    have := (List.pairwise_append.1 hsort).2.2 y hy x (by simp)
    simp; omega
  have hbk : ∀ m ∈ allTokens g, headStart m ≤ headStart x ↔ headStart m < offset := by
    intro m hm
    constructor
    · omega
    · intro h
      by_cases hmx : m = x
      · rw [hmx]
      · have hcmp : headStop m ≤ headStart x ∨ headStop x ≤ headStart m := by
          by_contra hcon
          obtain ⟨as, bs, hab⟩ := List.append_of_mem hx
          rw [hab] at hm hsort
          obtain ⟨-, h2, h3⟩ := List.pairwise_append.1 hsort
          rcases List.mem_append.1 hm with hm | hm
          · exact hcon (.inl (h3 m hm x (by simp)))
          · rcases List.mem_cons.1 hm with hm | hm
            · exact hmx hm
            · exact hcon (.inr ((List.pairwise_cons.1 h2).1 m hm))
        have := hle m hm
        omega
  have hfil : backwards (allTokens g) x = ((allTokens g).filter fun m => decide (headStart m < offset)).reverse := by
    unfold backwards
    congr 1
    refine List.filter_congr fun m hm => ?_
    simp [hbk m hm]
  have hsort' : ((allTokens g).filter fun m => decide (headStart m < offset)).Pairwise fun l m => headStart l < headStart m := by
    have : (allTokens g).Pairwise fun l m => headStart l < headStart m := by
      refine hsort.imp_of_mem ?_
      intro a b ha hb hab
      have := hle a ha
      omega
    exact this.filter _
  unfold signatureToken
  rw [hlt]
  simp only
  rw [hfil]
  constructor
  · intro h
    obtain ⟨a, b, hab, hp, hb⟩ := find?_reverse_last _ _ _ h
    have hmem : l ∈ (allTokens g).filter fun m => decide (headStart m < offset) := by rw [hab]; simp
    rw [List.mem_filter] at hmem
    refine ⟨hmem.1, by simpa using hmem.2, by simpa using hp, ?_⟩
    intro m hm h1 h2
    have hm' : m ∈ (allTokens g).filter fun m => decide (headStart m < offset) := by
      rw [List.mem_filter]; exact ⟨hm, by simpa using h2⟩
    rw [hab] at hm' hsort'
    obtain ⟨-, h4, h5⟩ := List.pairwise_append.1 hsort'
    rcases List.mem_append.1 hm' with hm' | hm'
    · have := h5 m hm' l (by simp); omega
    · rcases List.mem_cons.1 hm' with rfl | hm'
      · omega
      · simpa using hb m hm'
  · rintro ⟨h1, h2, h3, h4⟩
    have hmem : l ∈ (allTokens g).filter fun m => decide (headStart m < offset) := by
      rw [List.mem_filter]; exact ⟨h1, by simpa using h2⟩
    obtain ⟨a, b, hab⟩ := List.append_of_mem hmem
    rw [List.find?_eq_some_iff_append]
    refine ⟨by simpa using h3, b.reverse, a.reverse, ?_, ?_⟩
    · rw [hab]; simp
    · intro y hy
      have hy' : y ∈ b := by simpa using hy
      have hmy : y ∈ (allTokens g).filter fun m => decide (headStart m < offset) := by rw [hab]; simp [hy']
      rw [List.mem_filter] at hmy
      rw [hab] at hsort'
      have hlt := (List.pairwise_cons.1 (List.pairwise_append.1 hsort').2.1).1 y hy'
      simpa using h4 y hmy.1 hlt (by simpa using hmy.2)

/-- A list of arguments, type arguments or fields (a struct literal) that the token does not close. -/
def Open (t p : Elem) : Prop :=
  (p.kind = .VALUE_ARG_LIST ∧ ∀ r, tokenChild p .R_PAREN = some r → r.path ≠ t.path) ∨
  (p.kind = .TYPE_ARG_LIST ∧ ∀ r, tokenChild p .R_ANGLE = some r → r.path ≠ t.path) ∨
  (p.kind = .STRUCT_LIT ∧ ∀ f r, nodeChild p .STRUCT_LIT_FIELD_LIST = some f → tokenChild f .R_CURLY = some r → r.path ≠ t.path)

theorem closes_false {c : Option Elem} {t : Elem} (h : closes c t = false) : ∀ r, c = some r → r.path ≠ t.path := by
  rintro r rfl hr
  simp [closes, hr] at h

theorem closes_true {c : Option Elem} {t : Elem} (h : closes c t = true) : ∃ r, c = some r ∧ r.path = t.path := by
  cases c with
  | none => simp [closes] at h
  | some r => exact ⟨r, rfl, by simpa [closes] using h⟩

/-- Signature help is about the innermost list around the token that the token does not close. -/
theorem C51_owner (t : Elem) (anc : List Elem) (p : Elem) (list : Option Elem) (h : owner t anc = some (p, list)) :
    ∃ inner outer, anc = inner ++ p :: outer ∧ Open t p ∧ (∀ q ∈ inner, ¬ Open t q) ∧
      list = if p.kind = .STRUCT_LIT then nodeChild p .STRUCT_LIT_FIELD_LIST else some p := by
  induction anc with
  | nil => cases h
  | cons q anc ih =>
    have skip : ¬ Open t q → owner t anc = some (p, list) → ∃ inner outer, q :: anc = inner ++ p :: outer ∧ Open t p ∧
        (∀ q ∈ inner, ¬ Open t q) ∧ list = if p.kind = .STRUCT_LIT then nodeChild p .STRUCT_LIT_FIELD_LIST else some p := by
      intro hq ho
      obtain ⟨i, o, h1, h2, h3, h4⟩ := ih ho
      refine ⟨q :: i, o, by rw [h1]; rfl, h2, ?_, h4⟩
      intro x hx
      rcases List.mem_cons.1 hx with rfl | hx
      · exact hq
      · exact h3 x hx
    rw [owner] at h
    split at h
    · rename_i hk
      split at h
      · rename_i hc
        obtain ⟨r, hr1, hr2⟩ := closes_true hc
        refine skip ?_ h
        rintro (⟨-, h1⟩ | ⟨h1, -⟩ | ⟨h1, -⟩)
        · exact h1 r hr1 hr2
        · rw [hk] at h1; cases h1
        · rw [hk] at h1; cases h1
      · rename_i hc
        simp only [Option.some.injEq, Prod.mk.injEq] at h
        obtain ⟨rfl, rfl⟩ := h
        exact ⟨[], anc, rfl, .inl ⟨hk, closes_false (by simpa using hc)⟩, by simp, by simp [hk]⟩
    · rename_i hk1
      split at h
      · rename_i hk
        split at h
        · rename_i hc
          obtain ⟨r, hr1, hr2⟩ := closes_true hc
          refine skip ?_ h
          rintro (⟨h1, -⟩ | ⟨-, h1⟩ | ⟨h1, -⟩)
          · rw [hk] at h1; cases h1
          · exact h1 r hr1 hr2
          · rw [hk] at h1; cases h1
        · rename_i hc
          simp only [Option.some.injEq, Prod.mk.injEq] at h
          obtain ⟨rfl, rfl⟩ := h
          exact ⟨[], anc, rfl, .inr (.inl ⟨hk, closes_false (by simpa using hc)⟩), by simp, by simp [hk]⟩
      · rename_i hk2
        split at h
        · rename_i hk
          simp only at h
          split at h
          · rename_i hc
            obtain ⟨r, hr1, hr2⟩ := closes_true hc
            refine skip ?_ h
            rintro (⟨h1, -⟩ | ⟨h1, -⟩ | ⟨-, h1⟩)
            · rw [hk] at h1; cases h1
            · rw [hk] at h1; cases h1
            · obtain ⟨f, hf1, hf2⟩ := Option.bind_eq_some_iff.1 hr1
              exact h1 f r hf1 hf2 hr2
          · rename_i hc
            simp only [Option.some.injEq, Prod.mk.injEq] at h
            obtain ⟨rfl, rfl⟩ := h
            refine ⟨[], anc, rfl, .inr (.inr ⟨hk, ?_⟩), by simp, by simp [hk]⟩
            intro f r hf hr
            exact closes_false (by simpa using hc) r (by rw [hf]; exact hr)
        · rename_i hk3
          refine skip ?_ h
          rintro (⟨h1, -⟩ | ⟨h1, -⟩ | ⟨h1, -⟩)
          · exact hk1 h1
          · exact hk2 h1
          · exact hk3 h1

theorem Up.through {top t p : Elem} {a b : List Elem} (h : Up top (t :: (a ++ p :: b))) :
    ∃ c, c ∈ p.children ∧ c.start ≤ t.start ∧ t.stop ≤ c.stop ∧ (a = [] → c = t) := by
  induction a generalizing t with
  | nil =>
    cases h with
    | child _ h => exact ⟨t, h, Nat.le_refl _, Nat.le_refl _, fun _ => rfl⟩
  | cons x a ih =>
    cases h with
    | child h hc =>
      obtain ⟨c, h1, h2, h3, -⟩ := ih h
      obtain ⟨-, h4, h5, -⟩ := Elem.mem_children hc
      exact ⟨c, h1, by omega, by omega, by simp⟩

/-- The index that signature help counts is that of the argument which the last token before the cursor is part of, or, if that
token is a comma of the list, of the argument after it. -/
theorem C51_signature (g : Green) (hg : NoEmpty g) (offset : Nat) (h0 : 0 < offset) (hl : offset ≤ g.len) (list : Elem) (n : Nat)
    (h : signatureIndex g offset = some (list, n)) :
    ∃ t anc, LastBefore g offset (t :: anc) ∧ n = activeParam list t.start ∧
      (list ∈ anc → ∃ c k, c ∈ list.children ∧ c.start ≤ t.start ∧ t.stop ≤ c.stop ∧ ArgIndex list c k ∧
        (IsComma c → n = k + 1) ∧ (¬ IsComma c → n = k)) := by
  unfold signatureIndex at h
  split at h
  · rename_i t anc hs
    have hlast := (C51_token g hg offset h0 hl (t :: anc)).1 hs
    split at h
    · rename_i p l ho
      simp only [Option.some.injEq, Prod.mk.injEq] at h
      obtain ⟨rfl, rfl⟩ := h
      refine ⟨t, anc, hlast, rfl, fun hmem => ?_⟩
      obtain ⟨a, b, hab⟩ := List.append_of_mem hmem
      obtain ⟨t', m, heq, hchain, -⟩ := (mem_allTokens g _).1 hlast.1
      rw [← heq, hab] at hchain
      obtain ⟨c, h1, h2, h3, -⟩ := Up.through hchain
      obtain ⟨k, hk⟩ := exists_argIndex l c h1
      have hne : t.start < t.stop := hg _ hlast.1
      refine ⟨c, k, h1, h2, h3, hk, ?_, ?_⟩
      · intro hc; exact C51_comma l c k _ hk hc h2 (by omega)
      · intro hc; exact C51_argument l c k _ hk hc h2 (by omega)
    · cases h
  · cases h

/-! ### Examples -/

/-- `(a, b)`. -/
def exArgs : Green :=
  .node .VALUE_ARG_LIST [.tok .L_PAREN ['('], .node .VALUE_ARG [.node .PATH_EXPR [.tok .IDENT ['a']]], .tok .COMMA [','],
    .tok .WHITESPACE [' '], .node .VALUE_ARG [.node .PATH_EXPR [.tok .IDENT ['b']]], .tok .R_PAREN [')']]

def exCall : Green := .node .CALL_EXPR [.node .PATH [.tok .IDENT ['f']], exArgs]

example : (List.range 8).map (fun o => (signatureIndex exCall o).map Prod.snd) =
    [none, none, some 0, some 0, some 1, some 1, some 1, none] := by decide +kernel

example : NoEmpty exCall := by unfold NoEmpty; decide +kernel

example : ∃ c, ArgIndex ⟨[], 0, exArgs⟩ c 1 ∧ ¬ IsComma c ∧ c.start < c.stop :=
  ⟨⟨[4], 4, .node .VALUE_ARG [.node .PATH_EXPR [.tok .IDENT ['b']]]⟩, 
    ⟨(⟨[], 0, exArgs⟩ : Elem).children.take 4, (⟨[], 0, exArgs⟩ : Elem).children.drop 5, rfl, by decide +kernel⟩,
    by simp [IsComma, Green.isTok], by decide +kernel⟩

/-- Right after an argument, where completion asks for the parameter that is being typed (ide-completion/src/context/analysis.rs:192
passes the offset of the cursor), a comma that follows is counted already: in `(a|, b)` the second parameter is found. -/
theorem C51_completion_fails : ∃ (list c : Elem) (n : Nat), ArgIndex list c n ∧ ¬ IsComma c ∧ c.start < c.stop ∧
    activeParam list c.stop ≠ n := by
  refine ⟨⟨[], 0, exArgs⟩, ⟨[1], 1, .node .VALUE_ARG [.node .PATH_EXPR [.tok .IDENT ['a']]]⟩, 0, ⟨[_], _, rfl, ?_⟩, ?_, ?_, ?_⟩
  · decide +kernel
  · simp [IsComma, Green.isTok]
  · decide +kernel
  · decide +kernel

end Verif.Ide
