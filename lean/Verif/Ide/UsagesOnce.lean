import Verif.Syntax.RequiredProps

/-! C62: no name is reported twice. -/

namespace Verif.Ide.Usages
open Verif.Syntax Verif.Parser

theorem number_isName {c : Char} {w : List Char} (hc : Lexer.isDigit c = true) : ¬ Lexer.IsName (c :: w) := by
  rintro ⟨d, ds, h, h1, -⟩
  cases h
  rcases h1 with h1 | h1
  · simp only [Lexer.isDigit, Lexer.isLetter, Bool.and_eq_true, Bool.or_eq_true, decide_eq_true_eq, Char.le_def,
      UInt32.le_iff_toNat_le] at hc h1
    have : ('9' : Char).val.toNat = 57 := rfl
    have : ('a' : Char).val.toNat = 97 := rfl
    have : ('A' : Char).val.toNat = 65 := rfl
    omega
  · subst h1; revert hc; decide

/-- The names in the trees of texts are single tokens. -/
theorem Parsed.plain {t : Green} (h : Parsed t) : PlainNames t := by
  obtain ⟨g, debug, text, fuel, errs, h1, h2, h3, h4⟩ := h
  intro n l hn hk
  have := C72_names h1 h2 h3 h4 hn
  have key : ∀ k w, n.green = .node n.kind [.tok k w] → (Lexer.IsName w → k = .IDENT) →
      n.children.length = 1 ∧ ∀ c ∈ n.children, Lexer.IsName c.green.text → c.kind = .IDENT := by
    intro k w hg hw
    have hc : n.children = [⟨0 :: n.path, n.start, .tok k w⟩] := by
      unfold Elem.children; rw [hg]; rfl
    rw [hc]
    refine ⟨rfl, ?_⟩
    intro c hc
    rw [List.mem_singleton] at hc
    subst hc
    exact fun hi => hw (by simpa [Green.text, Green.leaves] using hi)
  rcases hk with hk | hk
  · obtain ⟨w, hw⟩ := this.1 hk
    exact key .IDENT w (by rw [hk]; exact hw) fun _ => rfl
  · rcases this.2 hk with ⟨w, hw⟩ | ⟨c, w, hc, hw⟩
    · exact key .IDENT w (by rw [hk]; exact hw) fun _ => rfl
    · exact key .INT_NUMBER _ (by rw [hk]; exact hw) fun hi => absurd hi (number_isName hc)

/-- **C62 (once).** No name is reported twice, whatever the texts of the files are. -/
theorem C62_once (w : World) (hw : w.Sorted) (item : NodeId) (name : List Char) (hname : Lexer.IsName name) (scope : Scope)
    (hs : (scope.map Prod.fst).Nodup) (hp : ∀ file ∈ scope.map Prod.fst, Parsed (w.tree file)) :
    (search w item name scope).Pairwise fun a b => ¬ (a.file = b.file ∧ a.node = b.node) :=
  search_once w hw item name hname scope hs (fun f hf => (hp f hf).ends) fun f hf => (hp f hf).plain

end Verif.Ide.Usages
