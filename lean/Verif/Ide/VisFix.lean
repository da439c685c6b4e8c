import Verif.Nameres.Visible
import Verif.Parser.Relex
import Verif.Parser.Ascii
import Verif.Ide.Specs

/-! C88: `public(friend)` and `public(package)` are replaced by `friend` and `package`.

ide-diagnostics/src/handlers/replace_with_friend.rs and replace_with_package.rs. The fix deletes tokens of the tree; the new text is the
text of the new tree (`SyntaxEditor`, C46). -/

namespace Verif.Ide.VisFix
open Verif Verif.Syntax Verif.Nameres
open Verif.Parser (Green Piece Lexes texts texts_cons texts_append Next AsciiBreaks)
open Verif.Lexer (oneChar Graphemes OneAhead NameEnds NameHeads IsName blen Ascii findToken isNameChar)
open Verif.Ide.Usages (Parsed parseOf parseOf_parsed)

/-! ### Model -/

/-- `is_public_friend` and `is_public_package` (syntax/src/ast/node_ext/visibility.rs:28–40), for the word. -/
def reported (word : SyntaxKind) (m : Elem) : Bool :=
  (tokenChild m .PUBLIC_KW).isSome && (tokenChild m .L_PAREN).isSome && (tokenChild m word).isSome && (tokenChild m .L_PAREN).isSome

/-- Without the first token of the kind (`if let Some(token) = .. { editor.delete(token) }`). -/
def without (k : SyntaxKind) : List Green → List Green
  | [] => []
  | c :: cs => if c.isTok && decide (c.kind = k) then cs else c :: without k cs

/-- `fixes` (replace_with_friend.rs:35–60, replace_with_package.rs:35–60), for what is in the modifier. -/
def fixed (cs : List Green) : List Green := without .R_PAREN (without .L_PAREN (without .PUBLIC_KW cs))

/-- The children of an item with its modifier replaced. -/
def fixFirst : List Green → List Green
  | [] => []
  | .node k cs :: rest => if k = .VISIBILITY_MODIFIER then .node k (fixed cs) :: rest else .node k cs :: fixFirst rest
  | c :: rest => c :: fixFirst rest

def fixItem : Green → Green
  | .node k cs => .node k (fixFirst cs)
  | t => t

/-! ### Specification -/

/-- Spaces and comments. -/
def Trivia (cs : List Green) : Prop := ∀ c ∈ cs, c.isTok = true ∧ c.kind.isTrivia = true

/-! ### Proofs -/

theorem placed_mem {path : List Nat} {i s : Nat} {cs : List Green} : (placed path i s cs).map Elem.green = cs := by
  induction cs generalizing i s with
  | nil => rfl
  | cons c cs ih => simp [placed, ih]

theorem words_green (m : Elem) : Nameres.words m = (m.green.children.filter fun c => !c.kind.isTrivia).map Green.kind := by
  unfold Nameres.words Elem.children
  generalize m.green.children = cs
  generalize (0 : Nat) = i
  generalize m.start = s
  induction cs generalizing i s with
  | nil => rfl
  | cons c cs ih =>
    simp only [placed, List.filter_cons]
    have : (⟨i :: m.path, s, c⟩ : Elem).kind = c.kind := rfl
    rw [this]
    split
    · simp only [List.map_cons, ih]; rfl
    · exact ih _ _

theorem toks_green {m : Elem} : (∀ c ∈ m.children, c.green.isTok = true) ↔ ∀ c ∈ m.green.children, c.isTok = true := by
  have := placed_mem (path := m.path) (i := 0) (s := m.start) (cs := m.green.children)
  constructor
  · intro h c hc
    rw [← this] at hc
    obtain ⟨e, he, rfl⟩ := List.mem_map.1 hc
    exact h e he
  · intro h c hc
    refine h _ ?_
    rw [← this]
    exact List.mem_map.2 ⟨c, hc, rfl⟩

theorem without_at {k : SyntaxKind} {a b : List Green} {c : Green} (ha : ∀ x ∈ a, x.kind ≠ k)
    (hc : c.isTok = true) (hck : c.kind = k) : without k (a ++ c :: b) = a ++ b := by
  induction a with
  | nil => simp [without, hc, hck]
  | cons x a ih =>
    have h1 := ha x (by simp)
    simp only [List.cons_append, without, h1, decide_false, Bool.and_false, Bool.false_eq_true, if_false]
    rw [ih (fun y hy => ha y (List.mem_cons_of_mem _ hy))]

theorem Trivia.ne {cs : List Green} (h : Trivia cs) {k : SyntaxKind} (hk : k.isTrivia = false) : ∀ x ∈ cs, x.kind ≠ k := by
  rintro x hx rfl
  rw [(h x hx).2] at hk
  cases hk

theorem shape {cs : List Green} {k1 k2 k3 k4 : SyntaxKind} (h : (cs.filter fun c => !c.kind.isTrivia).map Green.kind = [k1, k2, k3, k4])
    (ht : ∀ c ∈ cs, c.isTok = true) : ∃ t0 c1 t1 c2 t2 c3 t3 c4 t4, cs = t0 ++ c1 :: (t1 ++ c2 :: (t2 ++ c3 :: (t3 ++ c4 :: t4))) ∧
      Trivia t0 ∧ Trivia t1 ∧ Trivia t2 ∧ Trivia t3 ∧ Trivia t4 ∧
      c1.kind = k1 ∧ c2.kind = k2 ∧ c3.kind = k3 ∧ c4.kind = k4 := by
  have step : ∀ {cs : List Green} {k : SyntaxKind} {ks : List SyntaxKind}, (cs.filter fun c => !c.kind.isTrivia).map Green.kind = k :: ks →
      (∀ c ∈ cs, c.isTok = true) → ∃ t c rest, cs = t ++ c :: rest ∧ Trivia t ∧ c.kind = k ∧
        (rest.filter fun c => !c.kind.isTrivia).map Green.kind = ks ∧ ∀ c ∈ rest, c.isTok = true := by
    intro cs k ks h ht
    obtain ⟨c, l, h1, h2, h3⟩ := List.map_eq_cons_iff.1 h
    obtain ⟨l1, l2, rfl, h4, -, h5⟩ := List.filter_eq_cons_iff.1 h1
    refine ⟨l1, c, l2, rfl, fun x hx => ⟨ht x (by simp [hx]), by simpa using h4 x hx⟩, h2, by rw [h5, h3], fun x hx => ht x (by simp [hx])⟩
  obtain ⟨t0, c1, r1, rfl, a1, b1, h1, ht1⟩ := step h ht
  obtain ⟨t1, c2, r2, rfl, a2, b2, h2, ht2⟩ := step h1 ht1
  obtain ⟨t2, c3, r3, rfl, a3, b3, h3, ht3⟩ := step h2 ht2
  obtain ⟨t3, c4, r4, rfl, a4, b4, h4, ht4⟩ := step h3 ht3
  have h5 : Trivia r4 := by
    intro x hx
    refine ⟨ht4 x hx, ?_⟩
    have := List.filter_eq_nil_iff.1 (List.map_eq_nil_iff.1 h4) x hx
    simpa using this
  exact ⟨t0, c1, t1, c2, t2, c3, t3, c4, r4, rfl, a1, a2, a3, a4, h5, b1, b2, b3, b4⟩

/-- Of `public(friend)` and `public(package)` the fix keeps the word, and the spaces and comments, in their order. -/
theorem C88_keeps {cs : List Green} {w : SyntaxKind} (hw : w = .FRIEND_KW ∨ w = .PACKAGE_KW)
    (h : (cs.filter fun c => !c.kind.isTrivia).map Green.kind = [.PUBLIC_KW, .L_PAREN, w, .R_PAREN]) (ht : ∀ c ∈ cs, c.isTok = true) :
    ∃ t0 c1 t1 c2 t2 c3 t3 c4 t4, cs = t0 ++ c1 :: (t1 ++ c2 :: (t2 ++ c3 :: (t3 ++ c4 :: t4))) ∧
      Trivia t0 ∧ Trivia t1 ∧ Trivia t2 ∧ Trivia t3 ∧ Trivia t4 ∧
      c1.kind = .PUBLIC_KW ∧ c2.kind = .L_PAREN ∧ c3.kind = w ∧ c4.kind = .R_PAREN ∧
      fixed cs = t0 ++ t1 ++ t2 ++ c3 :: (t3 ++ t4) := by
  obtain ⟨t0, c1, t1, c2, t2, c3, t3, c4, t4, rfl, a0, a1, a2, a3, a4, b1, b2, b3, b4⟩ := shape h ht
  refine ⟨t0, c1, t1, c2, t2, c3, t3, c4, t4, rfl, a0, a1, a2, a3, a4, b1, b2, b3, b4, ?_⟩
  unfold fixed
  have k1 : c1.isTok = true := ht _ (by simp)
  have k2 : c2.isTok = true := ht _ (by simp)
  have k4 : c4.isTok = true := ht _ (by simp)
  rw [without_at (a0.ne rfl) k1 b1]
  have e1 : t0 ++ (t1 ++ c2 :: (t2 ++ c3 :: (t3 ++ c4 :: t4))) = (t0 ++ t1) ++ c2 :: (t2 ++ c3 :: (t3 ++ c4 :: t4)) := by simp
  rw [e1, without_at (by
    intro x hx
    rcases List.mem_append.1 hx with hx | hx
    · exact a0.ne rfl x hx
    · exact a1.ne rfl x hx) k2 b2]
  have e2 : t0 ++ t1 ++ (t2 ++ c3 :: (t3 ++ c4 :: t4)) = (t0 ++ t1 ++ t2 ++ c3 :: t3) ++ c4 :: t4 := by simp
  rw [e2, without_at (by
    intro x hx
    simp only [List.mem_append, List.mem_cons] at hx
    rcases hx with ((hx | hx) | hx) | hx | hx
    · exact a0.ne rfl x hx
    · exact a1.ne rfl x hx
    · exact a2.ne rfl x hx
    · rw [hx, b3]; rcases hw with rfl | rfl <;> decide
    · exact a3.ne rfl x hx) k4 b4]
  simp

theorem fix_modifier {path path' : List Nat} {i s i' s' : Nat} {cs : List Green} {m : Elem}
    (h : (placed path i s cs).find? (isNode .VISIBILITY_MODIFIER) = some m) :
    ∃ m', (placed path' i' s' (fixFirst cs)).find? (isNode .VISIBILITY_MODIFIER) = some m' ∧ m'.green.children = fixed m.green.children := by
  induction cs generalizing i s i' s' with
  | nil => simp [placed] at h
  | cons c cs ih =>
    cases c with
    | tok k t =>
      simp only [placed, fixFirst, List.find?_cons, isNode, Green.isTok, Bool.not_true, Bool.false_and] at h ⊢
      exact ih h
    | node k ds =>
      have e : ∀ (p : List Nat) (s : Nat) ds, isNode .VISIBILITY_MODIFIER (⟨p, s, .node k ds⟩ : Elem) = decide (k = .VISIBILITY_MODIFIER) := by
        intro p s ds; simp only [isNode, Green.isTok, Bool.not_false, Bool.true_and]; exact decide_eq_decide.2 Iff.rfl
      by_cases hk : k = .VISIBILITY_MODIFIER
      · subst hk
        simp only [placed, List.find?_cons] at h
        rw [e] at h
        simp only [decide_true, Option.some.injEq] at h
        subst h
        refine ⟨⟨i' :: path', s', .node .VISIBILITY_MODIFIER (fixed ds)⟩, ?_, rfl⟩
        simp only [fixFirst, if_true, placed, List.find?_cons]
        rw [e]
        rfl
      · simp only [placed, List.find?_cons] at h
        rw [e] at h
        simp only [hk, decide_false] at h
        simp only [fixFirst, hk, if_false, placed, List.find?_cons]
        rw [e]
        simp only [hk, decide_false]
        exact ih h

theorem filter_trivia {cs : List Green} (h : Trivia cs) : (cs.filter fun c => !c.kind.isTrivia) = [] :=
  List.filter_eq_nil_iff.2 fun x hx => by simp [(h x hx).2]

/-- The warning is there for `public(friend)` and `public(package)`, and for no other modifier. -/
theorem C88_reported {e : Elem} {ws : List SyntaxKind} {m : Elem} (h : Modified e ws) (hm : nodeChild e .VISIBILITY_MODIFIER = some m)
    (hws : ws ∈ [[.PUBLIC_KW], [.PUBLIC_KW, .L_PAREN, .SCRIPT_KW, .R_PAREN], [.PUBLIC_KW, .L_PAREN, .FRIEND_KW, .R_PAREN], [.FRIEND_KW],
      [.PUBLIC_KW, .L_PAREN, .PACKAGE_KW, .R_PAREN], [.PACKAGE_KW]]) :
    (reported .FRIEND_KW m = true ↔ ws = [.PUBLIC_KW, .L_PAREN, .FRIEND_KW, .R_PAREN]) ∧
    (reported .PACKAGE_KW m = true ↔ ws = [.PUBLIC_KW, .L_PAREN, .PACKAGE_KW, .R_PAREN]) := by
  obtain ⟨m', h1, h2, h3⟩ := h
  rw [hm] at h1
  cases h1
  have has : ∀ k : SyntaxKind, k.isTrivia = false → (tokenChild m k).isSome = decide (k ∈ ws) := by
    intro k hk
    rw [Bool.eq_iff_iff, decide_eq_true_eq, ← h2]
    unfold tokenChild Nameres.words
    rw [List.find?_isSome]
    simp only [List.mem_map, List.mem_filter, isToken, Bool.and_eq_true, decide_eq_true_eq, Bool.not_eq_true']
    constructor
    · rintro ⟨c, hc, -, h5⟩
      exact ⟨c, ⟨hc, by rw [h5]; exact hk⟩, h5⟩
    · rintro ⟨c, ⟨hc, -⟩, h5⟩
      exact ⟨c, hc, h3 c hc, h5⟩
  unfold reported
  rw [has .PUBLIC_KW rfl, has .L_PAREN rfl, has .FRIEND_KW rfl, has .PACKAGE_KW rfl]
  simp only [List.mem_cons, List.not_mem_nil, or_false] at hws
  rcases hws with rfl | rfl | rfl | rfl | rfl | rfl <;> decide +kernel

/-- In the new tree the item has the modifier with only the word, and it is visible as before. -/
theorem C88_visibility {e : Elem} {w : SyntaxKind} (hw : w = .FRIEND_KW ∨ w = .PACKAGE_KW)
    (h : Modified e [.PUBLIC_KW, .L_PAREN, w, .R_PAREN]) (path : List Nat) (start : Nat) :
    Modified ⟨path, start, fixItem e.green⟩ [w] ∧ visOf ⟨path, start, fixItem e.green⟩ = visOf e ∧
      (w = .FRIEND_KW → visOf e = .Friend) ∧ (w = .PACKAGE_KW → visOf e = .Package) := by
  have hmod : Modified ⟨path, start, fixItem e.green⟩ [w] := by
    obtain ⟨m, h1, h2, h3⟩ := h
    rw [words_green] at h2
    have h3 := toks_green.1 h3
    cases hg : e.green with
    | tok k t => simp [nodeChild, Elem.children, hg, Green.children, placed] at h1
    | node k cs =>
      rw [nodeChild, Elem.children, hg] at h1
      obtain ⟨m', h4, h5⟩ := fix_modifier (path' := path) (i' := 0) (s' := start) h1
      obtain ⟨t0, c1, t1, c2, t2, c3, t3, c4, t4, h6, a0, a1, a2, a3, a4, b1, b2, b3, b4, h7⟩ := C88_keeps hw h2 h3
      refine ⟨m', h4, ?_, ?_⟩
      · rw [words_green, h5, h7]
        have hc3 : w.isTrivia = false := by rcases hw with rfl | rfl <;> rfl
        simp [List.filter_append, filter_trivia a0, filter_trivia a1, filter_trivia a2, filter_trivia a3, filter_trivia a4,
          b3, hc3]
      · rw [toks_green, h5, h7]
        intro c hc
        apply h3
        rw [h6]
        simp only [List.mem_append, List.mem_cons] at hc ⊢
        tauto
  rcases hw with rfl | rfl
  · have e1 := C41_modifier e _ (.pubFriend h)
    have e2 := C41_modifier _ _ (.friend hmod)
    exact ⟨hmod, by rw [e1, e2], fun _ => e1, fun h => nomatch h⟩
  · have e1 := C41_modifier e _ (.pubPackage h)
    have e2 := C41_modifier _ _ (.package hmod)
    exact ⟨hmod, by rw [e1, e2], fun h => (nomatch h), fun _ => e1⟩

/-- The lexer finds the tokens that are left in the new text. Missing: spaces and comments within the modifier, and a name or a character
that is not ASCII right behind it. -/
theorem C88_lexes_partial {g : List Char → Nat} (hg : Graphemes g) (hb : AsciiBreaks g) (ho : OneAhead g) {before after : List Piece}
    {p l w r : Piece} (h : Lexes g (before ++ p :: l :: w :: r :: after)) (hp : p.kind = .PUBLIC_KW)
    (hw : w.kind = .FRIEND_KW ∨ w.kind = .IDENT) (hend : NameEnds (texts after)) (hnext : Next (texts after))
    (hapart : before = [] ∨ Lexer.Apart (texts before))
    (hc : ∀ q ∈ before, q.kind = .COMMENT → ['/', '*'] <+: q.text → Ascii q.text) : Lexes g (before ++ w :: after) := by
  have hword : IsName w.text ∧ Lexer.syntaxKind (Lexer.nameToken w.text) = some w.kind := by
    have h1 : Lexes g (w :: r :: after) := by
      have := h.right
      cases this with
      | cons _ _ _ _ _ _ this => cases this with
        | cons _ _ _ _ _ _ this => exact this
    have hd := h1.describes
    rcases hw with hw | hw
    · have := (hd.keyword "friend".toList (by rw [hw]; decide +kernel)).1
      rw [this, hw]
      refine ⟨⟨'f', "riend".toList, rfl, by decide, by decide⟩, by decide +kernel⟩
    · obtain ⟨h2, h3, -⟩ := hd.ident hw
      exact ⟨h2, by rw [Parser.nameToken_ident h3, hw]; rfl⟩
  have hpub : ∃ ds, p.text = 'p' :: ds := by
    have := (h.right.describes.keyword "public".toList (by rw [hp]; decide +kernel)).1
    exact ⟨_, this⟩
  have hafter : Lexes g after := by
    have := h.right
    cases this with
    | cons _ _ _ _ _ _ this => cases this with
      | cons _ _ _ _ _ _ this => cases this with
        | cons _ _ _ _ _ _ this => cases this with
          | cons _ _ _ _ _ _ this => exact this
  obtain ⟨hname, hkind⟩ := hword
  have hlast : Lexes g (w :: after) := by
    refine .cons _ _ _ ?_ (Parser.findToken_name hg hb hname hend hnext) hkind hafter
    obtain ⟨c, cs, e, -⟩ := hname
    simp [e]
  have heads : NameHeads (texts (p :: l :: w :: r :: after)) (texts (w :: after)) := by
    obtain ⟨ds, e⟩ := hpub
    obtain ⟨c, cs, e', h1, -⟩ := hname
    exact ⟨'p', ds ++ texts (l :: w :: r :: after), c, cs ++ texts after, by rw [texts_cons, e]; rfl, by rw [texts_cons, e']; rfl,
      by decide, (Parser.nameStart_iff c).2 h1⟩
  induction before with
  | nil => exact hlast
  | cons q before ih =>
    cases h with
    | cons _ _ t h1 h2 h3 h4 =>
      have hap : Lexer.Apart (q.text ++ texts before) := by
        rcases hapart with h | h
        · cases h
        · exact h
      have hrest : Lexes g (before ++ w :: after) := by
        refine ih h4 ?_ (fun x hx => hc x (List.mem_cons_of_mem _ hx))
        cases before with
        | nil => exact .inl rfl
        | cons x xs =>
          refine .inr (hap.right ?_)
          cases h4 with
          | cons _ _ _ h5 => simp [h5]
      refine .cons _ _ t h1 ?_ h3 hrest
      have := Lexer.findToken_swap ho h1 hap heads (t := t)
        (fun e => hc q List.mem_cons_self (by subst e; exact (Option.some.inj h3).symm)) (by
          rw [List.append_assoc, ← texts_append]; exact h2)
      rw [List.append_assoc, ← texts_append] at this
      exact this

/-! ### Examples -/

/-- The functions of a module of the file. -/
def funsOf (text : List Char) : List Elem :=
  (allModules (Elem.root (parseOf text).1)).flatMap fun c => match c with
    | [] => []
    | m :: _ => itemsOfKind m .FUN

def modifiedB (e : Elem) (ws : List SyntaxKind) : Bool := match nodeChild e .VISIBILITY_MODIFIER with
  | none => false
  | some m => decide (Nameres.words m = ws) && m.children.all fun c => c.green.isTok

theorem modified_of {e : Elem} {ws : List SyntaxKind} (h : modifiedB e ws = true) : Modified e ws := by
  unfold modifiedB at h
  split at h
  · cases h
  · rename_i m hm
    rw [Bool.and_eq_true, decide_eq_true_eq, List.all_eq_true] at h
    exact ⟨m, hm, h.1, h.2⟩

def spaced : List Char := "module 0x1::m{public(package) fun g(){} public ( /*a*/ friend) fun f(){}}".toList

/-- Both modifiers are met in a file, and the text of the item is as it should be. -/
example : Parsed (parseOf spaced).1 ∧
    (∃ e ∈ funsOf spaced, Modified e [.PUBLIC_KW, .L_PAREN, .FRIEND_KW, .R_PAREN] ∧ (fixItem e.green).text = "  /*a*/ friend fun f(){}".toList) ∧
    ∃ e ∈ funsOf spaced, Modified e [.PUBLIC_KW, .L_PAREN, .PACKAGE_KW, .R_PAREN] ∧
      (fixItem e.green).text = "package fun g(){}".toList := by
  refine ⟨parseOf_parsed (by decide +kernel) (by decide +kernel), ?_, ?_⟩
  · have h : (funsOf spaced).any (fun e => modifiedB e [.PUBLIC_KW, .L_PAREN, .FRIEND_KW, .R_PAREN] &&
      decide ((fixItem e.green).text = "  /*a*/ friend fun f(){}".toList)) = true := by decide +kernel
    obtain ⟨e, h1, h2⟩ := List.any_eq_true.1 h
    rw [Bool.and_eq_true, decide_eq_true_eq] at h2
    exact ⟨e, h1, modified_of h2.1, h2.2⟩
  · have h : (funsOf spaced).any (fun e => modifiedB e [.PUBLIC_KW, .L_PAREN, .PACKAGE_KW, .R_PAREN] &&
      decide ((fixItem e.green).text = "package fun g(){}".toList)) = true := by decide +kernel
    obtain ⟨e, h1, h2⟩ := List.any_eq_true.1 h
    rw [Bool.and_eq_true, decide_eq_true_eq] at h2
    exact ⟨e, h1, modified_of h2.1, h2.2⟩

theorem lexes_cons {p : Piece} {ps : List Piece} (h : (!p.text.isEmpty && (findToken oneChar (p.text ++ texts ps)).any fun x =>
    decide (x.2 = blen p.text) && decide (Lexer.syntaxKind x.1 = some p.kind)) = true) (hps : Lexes oneChar ps) :
    Lexes oneChar (p :: ps) := by
  rw [Bool.and_eq_true, Option.any_eq_true] at h
  obtain ⟨h1, ⟨t, n⟩, h2, h3⟩ := h
  rw [Bool.and_eq_true, decide_eq_true_eq, decide_eq_true_eq] at h3
  obtain ⟨h3, h4⟩ := h3
  dsimp only at h3 h4
  subst h3
  exact .cons _ _ t (by intro e; simp [e] at h1) h2 h4 hps

/-- The hypotheses of `C88_lexes_partial` are met by `{public(friend) f` and by `{public(package) f`. -/
example : ∀ w ∈ [(⟨.FRIEND_KW, "friend".toList⟩ : Piece), ⟨.IDENT, "package".toList⟩],
    Lexes oneChar ([⟨.L_CURLY, ['{']⟩] ++ ⟨.PUBLIC_KW, "public".toList⟩ :: ⟨.L_PAREN, ['(']⟩ :: w :: ⟨.R_PAREN, [')']⟩ ::
      [⟨.WHITESPACE, [' ']⟩, ⟨.IDENT, ['f']⟩]) ∧ (w.kind = .FRIEND_KW ∨ w.kind = .IDENT) ∧
    NameEnds (texts [⟨.WHITESPACE, [' ']⟩, ⟨.IDENT, ['f']⟩]) ∧ Next (texts [⟨.WHITESPACE, [' ']⟩, ⟨.IDENT, ['f']⟩]) ∧
    Lexer.Apart (texts [⟨.L_CURLY, ['{']⟩]) := by
  intro w hw
  have h1 : NameEnds (texts [⟨.WHITESPACE, [' ']⟩, ⟨.IDENT, ['f']⟩]) := by
    intro d ds e
    cases e
    decide
  have h2 : Next (texts [⟨.WHITESPACE, [' ']⟩, ⟨.IDENT, ['f']⟩]) := by
    intro d ds e
    cases e
    decide
  have h3 : Lexer.Apart (texts [⟨.L_CURLY, ['{']⟩]) := ⟨[], '{', rfl, by decide, by decide⟩
  simp only [List.mem_cons, List.not_mem_nil, or_false] at hw
  rcases hw with rfl | rfl
  · exact ⟨lexes_cons (by decide +kernel) (lexes_cons (by decide +kernel) (lexes_cons (by decide +kernel) (lexes_cons (by decide +kernel)
      (lexes_cons (by decide +kernel) (lexes_cons (by decide +kernel) (lexes_cons (by decide +kernel) .nil)))))), .inl rfl, h1, h2, h3⟩
  · exact ⟨lexes_cons (by decide +kernel) (lexes_cons (by decide +kernel) (lexes_cons (by decide +kernel) (lexes_cons (by decide +kernel)
      (lexes_cons (by decide +kernel) (lexes_cons (by decide +kernel) (lexes_cons (by decide +kernel) .nil)))))), .inr rfl, h1, h2, h3⟩

/-- Without a space behind the parenthesis the word is joined with the next one, and the file can no longer be parsed. -/
theorem C88_joined_fails : ∃ before item after e, (parseOf (before ++ item ++ after)).2 = true ∧ e ∈ funsOf (before ++ item ++ after) ∧
    e.start = blen before ∧ e.green.text = item ∧ Modified e [.PUBLIC_KW, .L_PAREN, .FRIEND_KW, .R_PAREN] ∧
    (fixItem e.green).text = "friendfun f(){}".toList ∧ (parseOf (before ++ (fixItem e.green).text ++ after)).2 = false := by
  have h : (funsOf "module 0x1::m{public(friend)fun f(){}}".toList).any (fun e => decide (e.start = 14) &&
      decide (e.green.text = "public(friend)fun f(){}".toList) && modifiedB e [.PUBLIC_KW, .L_PAREN, .FRIEND_KW, .R_PAREN] &&
      decide ((fixItem e.green).text = "friendfun f(){}".toList)) = true := by decide +kernel
  obtain ⟨e, h1, h2⟩ := List.any_eq_true.1 h
  simp only [Bool.and_eq_true, decide_eq_true_eq] at h2
  obtain ⟨⟨⟨h3, h4⟩, h5⟩, h6⟩ := h2
  refine ⟨"module 0x1::m{".toList, "public(friend)fun f(){}".toList, "}".toList, e, by decide +kernel, h1, by rw [h3]; decide +kernel, h4,
    modified_of h5, h6, ?_⟩
  rw [h6]
  decide +kernel

end Verif.Ide.VisFix
