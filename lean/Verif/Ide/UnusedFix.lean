import Verif.Ide.Unused
import Verif.Ide.RenameExamples

/-! C73: what the fix of the warning for an unused variable does, examples, and what goes wrong. -/

namespace Verif.Ide.Unused
open Verif Verif.TextEdit Verif.Syntax Verif.Nameres Verif.Ide.Rename
open Verif.Parser (Green Spot NewName parseText)
open Verif.Lexer (blen blen_append isNameChar Graphemes oneChar)
open Verif.Ide.Usages hiding texts

/-- The name with an underscore in front is a name. -/
theorem underscore_new {name : List Char} (h : Lexer.IsName name) : NewName ('_' :: name) := by
  obtain ⟨c, cs, rfl, h1, h2⟩ := h
  refine ⟨⟨'_', c :: cs, rfl, .inr rfl, ?_⟩, ?_, ?_⟩
  · intro d hd
    rcases List.mem_cons.1 hd with rfl | hd
    · tauto
    · exact h2 d hd
  · intro k s hs he
    have : ∀ p ∈ Lexer.keywords, p.2.head? = some '_' → p.2 = ['_'] := by decide +kernel
    have := this (k, s) hs (by dsimp only; rw [← he]; rfl)
    dsimp only at this
    rw [← he] at this
    cases this
  · intro w hw he
    have : ∀ w ∈ Parser.words, w.toList.head? = some '_' → w.toList = ['_'] := by decide +kernel
    have := this w hw (by rw [← he]; rfl)
    rw [← he] at this
    cases this

/-- Only the name of the binding changes. -/
def onlyAt (file start : Nat) (new : List Char) (f q : Nat) : Option (List Char) := if f = file ∧ q = start then some new else none

theorem fixSetting {w : Usages.World} (hw : w.Sorted) (hparsed : ∀ f, Parsed (w.tree f)) {file : Nat} {i : Elem} {anc : List Elem}
    {name : List Char} (hitem : Chain (w.tree file) (i :: anc)) (hone : i.children.length = 1) (hname : bindingName i = some name)
    (hword : Lexer.IsName name) (hspot : Spot (w.tree file).text i.start)
    (hnone : ∀ f t n rest, Chain (w.tree f) (t :: n :: rest) → t.green.isTok = true → t.green.text = name →
      ¬ Refers w ⟨file, i.path⟩ f (n :: rest)) :
    Setting w ⟨file, i.path⟩ name ('_' :: name) [] file (i.start, i.stop) (onlyAt file i.start ('_' :: name)) ∧
      ∃ nm tok, nodeChild i .NAME = some nm ∧ tokenChild nm .IDENT = some tok ∧ (i.start, i.stop) = (nm.start, nm.stop) := by
  unfold bindingName at hname
  obtain ⟨nm, h1, h2⟩ := Option.map_eq_some_iff.1 hname
  obtain ⟨h3, h4⟩ := nodeChild_mem h1
  have hc : Chain (w.tree file) (nm :: i :: anc) := .child hitem h3
  cases ht : tokenChild nm .IDENT with
  | none =>
    rw [ht] at h2
    obtain ⟨c, cs, rfl, -⟩ := hword
    cases h2
  | some tok =>
    rw [ht] at h2
    rw [Option.map_some, Option.getD_some] at h2
    have h5 := List.mem_of_find?_eq_some ht
    have h6 := List.find?_some ht
    simp only [isToken, Bool.and_eq_true] at h6
    obtain ⟨s1, s2⟩ := single hc hone
    have htarget : ∀ f q, Rename.Target w ⟨file, i.path⟩ name [] file (i.start, i.stop) f q ↔ f = file ∧ q = i.start := by
      intro f q
      constructor
      · rintro (⟨t, n, rest, -, -, -, -, ⟨rs, hrs, -⟩, -⟩ | ⟨h1, h2⟩)
        · cases hrs
        · exact ⟨h1, h2.symm⟩
      · rintro ⟨h1, h2⟩
        exact .definition h1 h2.symm
    refine ⟨⟨hw, hword, by simp, hparsed, ?_, ?_, ?_, ?_⟩, nm, tok, h1, ht, by rw [s1, s2]⟩
    · exact ⟨tok, nm, i :: anc, .child hc h5, h6.1, h2, h4, by rw [s1, s2]⟩
    · intro f q h
      obtain ⟨rfl, rfl⟩ := (htarget f q).1 h
      exact hspot
    · intro f t n rest a1 a0 a2 a3
      exact absurd a3 (hnone f t n rest a1 a0 a2)
    · intro f q y
      rw [htarget]
      unfold onlyAt
      split
      · rename_i h
        simp [h, eq_comm]
      · rename_i h
        simp [h]

/-- **C73.** The fix for a binding that no name refers to: the text with the fix parses to the same tree with an underscore in front
of the name of the binding, with as many errors. Left out are names that are words of the grammar, names next to characters that are
not ASCII or to quotes, and files with block comments that are not ASCII. -/
theorem C73_fix_partial (w : Usages.World) (hw : w.Sorted) (hparsed : ∀ f, Parsed (w.tree f)) (file : Nat) (i : Elem) (anc : List Elem)
    (name : List Char) (hitem : Chain (w.tree file) (i :: anc)) (hone : i.children.length = 1) (hname : bindingName i = some name)
    (hword : Lexer.IsName name) (hspot : Spot (w.tree file).text i.start)
    (hnone : ∀ f t n rest, Chain (w.tree f) (t :: n :: rest) → t.green.isTok = true → t.green.text = name →
      ¬ Refers w ⟨file, i.path⟩ f (n :: rest))
    (hp : Parser.Plain name) (hfree : name ≠ ['_'] ∧ name ≠ ['f', 'r', 'i', 'e', 'n', 'd'])
    {g : List Char → Nat} (hg : Graphemes g) (hb : Parser.AsciiBreaks g) (ho : Lexer.OneAhead g)
    (debug : Bool) (text : List Char) (fuel : Nat) (errs : List Nat) (hfuel : 2 * text.length + 2 ≤ fuel)
    (hparse : parseText g debug fuel text = .tree (w.tree file) errs)
    (hcom : ∀ p ∈ (w.tree file).leaves, p.kind = .COMMENT → ['/', '*'] <+: p.text → Lexer.Ascii p.text) :
    ∃ after errs', apply (fix i name) (encode text) = some (encode after) ∧
      parseText g debug fuel after = .tree ((w.tree file).relabel (fun q => if q = i.start then some ('_' :: name) else none) 0) errs' ∧
      errs'.length = errs.length := by
  obtain ⟨H, -⟩ := fixSetting hw hparsed hitem hone hname hword hspot hnone
  obtain ⟨m, h1, h2⟩ := C63_tree_partial H .binding hp hfree (underscore_new hword) hg hb ho
  have hm : m file = some (fix i name) := by
    unfold renameEdits usagesOf at h1
    simp only [List.map_nil, List.filter_nil, List.foldlM_nil] at h1
    have : m = insertSourceEdit (fun _ => none) file [⟨i.start, i.stop, encode ('_' :: name)⟩] := (Option.some.inj h1).symm
    rw [this]
    unfold insertSourceEdit
    simp [fix]
  obtain ⟨after, errs', h3, h4, h5⟩ := h2 file debug text fuel errs hfuel hparse hcom
  rw [hm, Option.getD_some] at h3
  have hφ : onlyAt file i.start ('_' :: name) file = fun q => if q = i.start then some ('_' :: name) else none := by
    funext q
    unfold onlyAt
    simp
  rw [hφ] at h4
  exact ⟨after, errs', h3, h4, h5⟩

/-- **C73.** After the fix every name that is looked up in the scopes around it refers to the same definition as before, if it is not
the new name in one of the scopes with the binding. -/
theorem C73_meaning_partial (w : Usages.World) (hw : w.Sorted) (hparsed : ∀ f, Parsed (w.tree f)) (file : Nat) (i : Elem) (anc : List Elem)
    (name : List Char) (hitem : Chain (w.tree file) (i :: anc)) (hkind : i.kind = .IDENT_PAT) (hone : i.children.length = 1)
    (hname : bindingName i = some name) (hword : Lexer.IsName name) (hspot : Spot (w.tree file).text i.start)
    (hnone : ∀ f t n rest, Chain (w.tree f) (t :: n :: rest) → t.green.isTok = true → t.green.text = name →
      ¬ Refers w ⟨file, i.path⟩ f (n :: rest))
    {inlines inlines' others others' : Elem → List Entry} {outside : List (List Entry)}
    (hinl : ∀ s, ∀ x ∈ inlines s, x.path = i.path → x.file ≠ file) (hoth : ∀ s, ∀ x ∈ others s, x.path = i.path → x.file ≠ file)
    (hout : ∀ l ∈ outside, ∀ x ∈ l, x.path = i.path → x.file ≠ file)
    (hnames : ∀ node pat, w.name file node ≠ some (.patShorthand pat ⟨file, i.path⟩) ∧ w.name file node ≠ some (.specParam pat ⟨file, i.path⟩))
    (allowed : Ns → Bool) {φ : Nat → Option (List Char)} (hφ : φ = fun q => if q = i.start then some ('_' :: name) else none)
    (hin : ∀ s, InTree (w.tree file) s → inlines' (s.relabel φ (w.tree file)) = inlines s)
    (hot : ∀ s, InTree (w.tree file) s → others' (s.relabel φ (w.tree file)) = others s)
    (tok n : Elem) (rest : List Elem) (h : Chain (w.tree file) (tok :: n :: rest)) (htok : tok.green.isTok = true)
    (hk : n.kind = .NAME_REF) (hlen : 2 ≤ rest.length)
    (hclass : w.ref file (n :: rest) = scopedRef file inlines others outside allowed (n :: rest))
    (hsingle : ∀ e, e ∈ walkScopes file inlines others outside allowed (some n.green.text) (rest.drop 1) →
      walkScopes file inlines others outside allowed (some n.green.text) (rest.drop 1) = [e])
    (hold : tok.green.text = '_' :: name → ∀ s ∈ rest.drop 2, s.kind ∈ localKinds → i ∉ s.descendants) :
    scopedRef file inlines' others' outside allowed ((n :: rest).map (Elem.relabel φ (w.tree file))) =
      scopedRef file inlines others outside allowed (n :: rest) := by
  obtain ⟨H, hrange⟩ := fixSetting hw hparsed hitem hone hname hword hspot hnone
  have hφ' : φ = onlyAt file i.start ('_' :: name) file := by
    rw [hφ]
    funext q
    unfold onlyAt
    simp
  rw [hφ'] at hin hot ⊢
  have L : Local w file i ⟨name, .NAME, file, i.path⟩ name (i.start, i.stop) inlines others outside :=
    ⟨inTree_chain hitem i (by simp), hkind, by unfold bindingEntry; rw [hname]; rfl, rfl, hrange, hinl, hoth, hout, hnames⟩
  have htext : tok.green.text = n.green.text := by
    have hplain : n.children.length = 1 := by
      cases h with
      | child hup hm => exact ((hparsed file).plain n rest hup (.inr hk)).1
    have := single_leaves h hplain
    unfold Green.text
    rw [this]
  refine C63_local_partial L H (by simp) allowed hin hot tok n rest h htok hk hlen hclass (fun hm => hsingle _ hm) ?_ hold
  intro hdef
  by_cases ht : tok.green.text = name
  · exact absurd (.use hdef) (hnone file tok n rest h htok ht)
  · -- a name that reads differently does not find the binding
    exfalso
    rw [hclass] at hdef
    unfold scopedRef at hdef
    dsimp only at hdef
    rw [if_pos hk] at hdef
    split at hdef
    · rename_i e he
      have hsite : Chain (w.tree file) (rest.drop 1) := by
        cases h with
        | child hup _ =>
          cases hup with
          | top => simp at hlen
          | child hup2 _ =>
            cases hup2 with
            | top => simp at hlen
            | child hup3 _ => exact hup3
      simp only [Option.some.injEq, RefClass.definition.injEq, NodeId.mk.injEq] at hdef
      have hm : e ∈ walkScopes file inlines others outside allowed (some n.green.text) (rest.drop 1) := by rw [he]; simp
      have := L.unique hsite hm hdef.1 hdef.2
      subst this
      have := ((C59_innermost file inlines others outside allowed _ _ _).1 hm).1.1 _ rfl
      exact ht (by rw [htext]; exact this)
    · cases hdef

end Verif.Ide.Unused
