import Verif.Ide.Usages
import Verif.Ide.ExtendProps

/-! C62 for the trees of the parser: what is behind an identifier, and examples. -/

namespace Verif.Ide.Usages
open Verif.Parser (Green Piece parseText AsciiBreaks Regroups Group pieces operators contextual)
open Verif.Syntax
open Verif.Lexer (blen isNameChar Graphemes oneChar Classified Describes NameEnds RawToken)

/-! ### What is behind an identifier -/

def texts (ps : List Piece) : List Char := (ps.map Piece.text).flatten

theorem classified_pieces {text : List Char} {raw : List RawToken} (h : Classified text raw) {ps : List Piece}
    (hp : pieces text raw = some ps) {a b : List Piece} {p : Piece} (he : ps = a ++ p :: b) :
    Describes p.kind p.text (texts b) := by
  have hcat : ∀ {text : List Char} {raw : List RawToken}, Classified text raw → ∀ {ps : List Piece}, pieces text raw = some ps →
      texts ps = text := by
    intro text raw h
    induction h with
    | nil => intro ps hp; cases hp; rfl
    | cons a rest k toks hne hd hc ih =>
      intro ps hp
      simp only [pieces, Lexer.split_complete, Option.bind_eq_bind, Option.bind_some] at hp
      obtain ⟨qs, hq, hp⟩ := Option.bind_eq_some_iff.1 hp
      cases hp
      simp [texts] at ih ⊢
      rw [ih hq]
  induction h generalizing ps a with
  | nil =>
    cases hp
    cases a <;> cases he
  | cons w rest k toks hne hd hc ih =>
    simp only [pieces, Lexer.split_complete, Option.bind_eq_bind, Option.bind_some] at hp
    obtain ⟨qs, hq, hp⟩ := Option.bind_eq_some_iff.1 hp
    cases hp
    cases a with
    | nil =>
      rw [List.nil_append] at he
      cases he
      rw [hcat hc hq]
      exact hd
    | cons x a =>
      rw [List.cons_append] at he
      cases he
      exact ih hq rfl

theorem regroups_ident {ps ls : List Piece} (h : Regroups ps ls) {l1 l2 : List Piece} {t : List Char}
    (he : ls = l1 ++ ⟨.IDENT, t⟩ :: l2) : ∃ a p b, ps = a ++ p :: b ∧ texts b = texts l2 ∧
      (p.kind = .IDENT ∨ p.kind = .UNDERSCORE ∨ p.kind = .FRIEND_KW) := by
  induction h generalizing l1 with
  | nil => cases l1 <;> cases he
  | trivia q ps ls hq hr ih =>
    cases l1 with
    | nil =>
      rw [List.nil_append] at he
      cases he
      cases hq
    | cons x l1 =>
      rw [List.cons_append] at he
      cases he
      obtain ⟨a, p, b, h1, h2, h3⟩ := ih rfl
      exact ⟨_ :: a, p, b, by rw [h1]; rfl, h2, h3⟩
  | token k run ps ls hne htr hgr hr ih =>
    cases l1 with
    | nil =>
      rw [List.nil_append] at he
      cases he
      have hb : texts ps = texts l2 := hr.text.symm
      have key : ∀ k, Group k run → k = .IDENT → ∃ a p b, run ++ ps = a ++ p :: b ∧ texts b = texts l2 ∧
          (p.kind = .IDENT ∨ p.kind = .UNDERSCORE ∨ p.kind = .FRIEND_KW) := by
        intro k hgr hk
        cases hgr with
        | same q => exact ⟨[], q, ps, rfl, hb, .inl hk⟩
        | operator _ w _ hm =>
          have : ∀ x ∈ operators, x.1 ≠ .IDENT := by decide
          exact absurd hk (this _ hm)
        | word _ w q hm =>
          have : ∀ x ∈ contextual, x.1 ≠ .IDENT := by decide
          exact absurd hk (this _ hm)
        | name q hq => exact ⟨[], q, ps, rfl, hb, .inr hq⟩
        | wildcard => cases hk
      exact key _ hgr rfl
    | cons x l1 =>
      rw [List.cons_append] at he
      cases he
      obtain ⟨a, p, b, h1, h2, h3⟩ := ih rfl
      exact ⟨run ++ a, p, b, by rw [h1, List.append_assoc], h2, h3⟩

theorem placed_leaves {path : List Nat} {i s : Nat} {gs : List Green} {e : Elem} (h : e ∈ placed path i s gs) :
    ∃ l1 l2, Green.leavesList gs = l1 ++ e.green.leaves ++ l2 ∧ e.start = s + blen (texts l1) := by
  induction gs generalizing i s with
  | nil => cases h
  | cons g gs ih =>
    rcases List.mem_cons.1 h with rfl | h
    · exact ⟨[], Green.leavesList gs, by simp [Green.leavesList], rfl⟩
    · obtain ⟨l1, l2, h1, h2⟩ := ih h
      refine ⟨g.leaves ++ l1, l2, by simp [Green.leavesList, h1], ?_⟩
      rw [h2]
      simp only [texts, List.map_append, List.flatten_append, Lexer.blen_append]
      unfold Green.len Green.text
      omega

theorem chain_leaves_at {g : Green} {e : Elem} {ps : List Elem} (h : Chain g (e :: ps)) :
    ∃ l1 l2, g.leaves = l1 ++ e.green.leaves ++ l2 ∧ e.start = blen (texts l1) := by
  generalize hl : e :: ps = l at h
  induction h generalizing e ps with
  | top => cases hl; exact ⟨[], [], by simp [Elem.root], rfl⟩
  | @child c p qs h1 h2 ih =>
    cases hl
    obtain ⟨l1, l2, h3, h4⟩ := ih rfl
    obtain ⟨m1, m2, h5, h6⟩ := placed_leaves h2
    have hp : p.green.leaves = Green.leavesList p.green.children := by
      have := (Elem.mem_children h2).2.2.2.2
      cases hg : p.green with
      | node k cs => rw [Green.leaves]; rfl
      | tok k t => rw [hg] at this; cases this
    refine ⟨l1 ++ m1, m2 ++ l2, by rw [h3, hp, h5]; simp, ?_⟩
    rw [h6, h4]
    simp [texts, Lexer.blen_append]

theorem ends_of_regroups {text : List Char} {raw : List RawToken} (hc : Classified text raw) {ps : List Piece}
    (hp : pieces text raw = some ps) {g : Green} (hr : Regroups ps g.leaves) : Ends g := by
  intro t l pre post h htok hkind htext hstart c hcs
  cases hg : t.green with
  | node k cs => rw [hg] at htok; cases htok
  | tok k w =>
    unfold Elem.kind at hkind
    rw [hg] at hkind
    change k = .IDENT at hkind
    subst hkind
    obtain ⟨l1, l2, h1, h2⟩ := chain_leaves_at h
    rw [hg, Green.leaves, List.append_assoc, List.singleton_append] at h1
    obtain ⟨a, p, b, h3, h4, h5⟩ := regroups_ident hr h1
    have hd := classified_pieces hc hp h3
    have hends : NameEnds (texts l2) := by
      rw [← h4]
      rcases h5 with h5 | h5 | h5
      · exact (hd.ident h5).2.2
      · exact (hd.keyword ['_'] (by rw [h5]; decide)).2
      · exact (hd.keyword ['f', 'r', 'i', 'e', 'n', 'd'] (by rw [h5]; decide)).2
    have htx : g.text = texts l1 ++ (w ++ texts l2) := by
      unfold Green.text
      rw [h1]
      simp [texts]
    rw [hg, Green.text_tok, htx, List.append_assoc] at htext
    obtain ⟨-, h6⟩ := append_eq_of_blen htext (by rw [← h2, hstart])
    have hpost : texts l2 = post := List.append_cancel_left h6
    cases post with
    | nil => cases hcs
    | cons d ds =>
      cases hcs
      have := hends c ds hpost
      rw [← Lexer.isNameChar_iff] at this
      exact Bool.eq_false_iff.2 this

/-- In the tree of a text, no identifier is followed by a character of a name, and there are no empty tokens. -/
theorem parsed_ends {g : List Char → Nat} (hg : Graphemes g) (hb : AsciiBreaks g) (debug : Bool) (text : List Char) {fuel : Nat}
    (hf : 2 * text.length + 2 ≤ fuel) {t : Green} {errs : List Nat} (h : parseText g debug fuel text = .tree t errs) : Ends t := by
  rcases Parser.parseText_spec hg hb debug text hf with ⟨h1, -⟩ | ⟨raw, ps, h1, h2, h3, h4, ⟨cs, e, h5, h6⟩ | ⟨w, h5, -⟩⟩
  · rw [h] at h1; cases h1
  · rw [h] at h5
    cases h5
    exact ends_of_regroups (Lexer.C56_kinds_agree_with_text hg fuel text raw h1) h2 (by rw [Green.leaves]; exact h6)
  · rw [h] at h5; cases h5

/-- The tree of some text. -/
def Parsed (t : Green) : Prop :=
  ∃ (g : List Char → Nat) (debug : Bool) (text : List Char) (fuel : Nat) (errs : List Nat),
    Graphemes g ∧ AsciiBreaks g ∧ 2 * text.length + 2 ≤ fuel ∧ parseText g debug fuel text = .tree t errs

theorem Parsed.ends {t : Green} (h : Parsed t) : Ends t := by
  obtain ⟨g, debug, text, fuel, errs, h1, h2, h3, h4⟩ := h
  exact parsed_ends h1 h2 debug text h3 h4

theorem Parsed.noEmpty {t : Green} (h : Parsed t) : NoEmpty t := by
  obtain ⟨g, debug, text, fuel, errs, h1, h2, h3, h4⟩ := h
  intro l hl
  obtain ⟨e, l', rfl, h5, h6⟩ := (mem_allTokens t l).1 hl
  exact (Extend.parsed_tokens h1 h2 debug text h3 h4).1 e l' h5 h6

/-- For parsed files, a name that refers to the item is reported unless a letter, a digit or an underscore is directly in front
of it. -/
theorem C62_text_partial (w : World) (hw : w.Sorted) (item : NodeId) (name : List Char) (hname : Lexer.IsName name)
    (scope : Scope) (file : Nat) (hp : Parsed (w.tree file)) (t n : Elem) (anc : List Elem)
    (h : Chain (w.tree file) (t :: n :: anc)) (htok : t.green.isTok = true) (hkind : t.kind = .IDENT) (htext : t.green.text = name)
    (hb : ∀ pre post, (w.tree file).text = pre ++ post → t.start = blen pre → ∀ c, pre.getLast? = some c → isNameChar c = false)
    (hc : Covers scope file t.start) (hr : Refers w item file (n :: anc)) :
    ⟨file, (n.start, n.stop), n :: anc⟩ ∈ search w item name scope := by
  refine C62_complete_partial w hw item name hname scope file hp.noEmpty t n anc h htok htext ?_ hc hr
  intro pre post h1 h2
  refine ⟨hb pre (t.green.text ++ post) (by rw [h1, List.append_assoc]) h2, ?_⟩
  exact hp.ends t _ pre post h htok hkind h1 h2

end Verif.Ide.Usages
