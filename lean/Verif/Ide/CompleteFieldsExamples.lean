import Verif.Ide.CompleteFields

/-! C85: examples, and labels that mean nothing. -/

namespace Verif.Ide.CompleteFields
open Verif Verif.Syntax Verif.Nameres
open Verif.Parser (Green)
open Verif.Nameres.Full (Is isNode_iff)
open Verif.Ide.Usages (Parsed parseOf parseOf_parsed tokenAt)
open Verif.Ide.Counts

def fieldText : List Char := "module 0x1::m{struct S{a:u8,b:u8,c:u8}fun f(){S{a:1,b, };let S{c, }=s;}}".toList
def labelText : List Char := "module 0x1::m{fun f(){'a:loop{'b:while(true){'a:loop{|x|break 'a;break 'a}}}}}".toList
def specText : List Char := "module 0x1::m{struct S{}enum E{A}fun f(){}#[test]fun t(){}const C:u8=1;spec f{}}".toList

def litAtOffset (offset : Nat) : Option (List (List Char)) := litOffers (byName (parseOf fieldText).1) offset (around fieldText 30 .STRUCT_LIT)
def patAtOffset (offset : Nat) : Option (List (List Char)) := patOffers (byName (parseOf fieldText).1) offset (around fieldText 42 .STRUCT_PAT)

/-- In the literal `S{a:1,b, }`: at the end of `b` it is offered with `c`, after the space only `c` is, and at `a` it is offered with `c`.
In the pattern `S{c, }` at its `c` all of them are offered, and after the space those that are not there. -/
example : litAtOffset 53 = some [['b'], ['c']] ∧ litAtOffset 55 = some [['c']] ∧ litAtOffset 49 = some [['a'], ['c']] ∧
    patAtOffset 64 = some [['a'], ['b'], ['c']] ∧ patAtOffset 66 = some [['a'], ['b']] := by decide +kernel

/-- **C85 fails for labels that are declared twice.** The label `'a` of two loops around the cursor is offered two times, and it means none
of them. In the lambda no label is offered. -/
theorem C85_label_fails : (parseOf labelText).2 = true ∧
    ((tokenAt (parseOf labelText).1 36).head?.map fun t => t.green.text) = some "'a".toList ∧
    labelOffers ((tokenAt (parseOf labelText).1 36).drop 2) = ["'a".toList, "'b".toList, "'a".toList] ∧
    (resolveLabel "'a".toList ((tokenAt (parseOf labelText).1 36).drop 2)).isNone = true ∧
    labelOffers ((tokenAt (parseOf labelText).1 32).drop 2) = [] := by decide +kernel

/-! ### Examples that meet the hypotheses -/

/-- The hypotheses of `C85_literal`, `C85_current` and, after the space, of `C85_missing`, are met by the literal; `a` is given elsewhere
and `c` is not. -/
example : ∃ (g : Green) (env : Env) (lit p o : Elem) (up up' : List Elem) (names : List (List Char)), Parsed g ∧ Chain g (lit :: up) ∧
    First [.PATH] lit p ∧ env.fields (p :: lit :: up) = some o ∧ Chain g (o :: up') ∧ FieldNames o names ∧
    (∀ l f, First [.STRUCT_LIT_FIELD_LIST] lit l → f ∈ l.children → Is .STRUCT_LIT_FIELD f → ¬ Touches 55 f) ∧
    ['a'] ∈ names ∧ GivesElse lit 55 ['a'] ∧ ['c'] ∈ names ∧ ¬ GivesElse lit 55 ['c'] := by
  have h : (match around fieldText 30 .STRUCT_LIT with
    | lit :: _ => match nodeChild lit .PATH with
      | some p => match named (parseOf fieldText).1 [.STRUCT, .VARIANT] (refName p) with
        | some o => decide (declaredNames o = some [['a'], ['b'], ['c']]) && ((litFields lit).all fun f => !touches 55 f) &&
          (((litFields lit).filter fun f => !touches 55 f).filterMap litFieldName).contains ['a'] &&
          !(((litFields lit).filter fun f => !touches 55 f).filterMap litFieldName).contains ['c']
        | none => false
      | none => false
    | [] => false) = true := by decide +kernel
  have hp : Parsed (parseOf fieldText).1 := parseOf_parsed (by decide +kernel) (by decide +kernel)
  split at h <;> [skip; cases h]
  next lit up hs =>
  split at h <;> [skip; cases h]
  next p hpath =>
  split at h <;> [skip; cases h]
  next o ho =>
  rw [Bool.and_eq_true, Bool.and_eq_true, Bool.and_eq_true, decide_eq_true_eq, Bool.not_eq_true', List.contains_eq_mem, List.contains_eq_mem,
    decide_eq_false_iff_not, decide_eq_true_eq, List.all_eq_true] at h
  obtain ⟨⟨⟨h1, h2⟩, h3⟩, h4⟩ := h
  obtain ⟨up', hup⟩ := named_chain ho
  have hc := around_chain hs
  refine ⟨_, byName (parseOf fieldText).1, lit, p, o, up, up', _, hp, hc, nodeChild_iff.1 hpath, ho, hup, fieldNames_of hp hup h1, ?_,
    by simp, (mem_givenElse hp hc 55 _).1 h3, by simp, fun hg => h4 ((mem_givenElse hp hc 55 _).2 hg)⟩
  intro l f h5 h6 h7 h8
  have := h2 f (mem_litFields.2 ⟨l, h5, h6, h7⟩)
  rw [(touches_iff 55 f).2 h8] at this
  cases this

/-- The hypotheses of `C85_pattern` are met by the pattern. -/
example : ∃ (g : Green) (env : Env) (pat p o : Elem) (up up' : List Elem) (names : List (List Char)), Parsed g ∧ Chain g (pat :: up) ∧
    First [.PATH] pat p ∧ env.fields (p :: pat :: up) = some o ∧ Chain g (o :: up') ∧ FieldNames o names ∧
    ['c'] ∈ names ∧ MentionsElse pat 66 ['c'] ∧ ¬ MentionsElse pat 64 ['c'] := by
  have h : (match around fieldText 42 .STRUCT_PAT with
    | pat :: _ => match nodeChild pat .PATH with
      | some p => match named (parseOf fieldText).1 [.STRUCT, .VARIANT] (refName p) with
        | some o => decide (declaredNames o = some [['a'], ['b'], ['c']]) &&
          (((patFields pat).filter fun f => !touches 66 f).filterMap patFieldName).contains ['c'] &&
          !(((patFields pat).filter fun f => !touches 64 f).filterMap patFieldName).contains ['c']
        | none => false
      | none => false
    | [] => false) = true := by decide +kernel
  have hp : Parsed (parseOf fieldText).1 := parseOf_parsed (by decide +kernel) (by decide +kernel)
  split at h <;> [skip; cases h]
  next pat up hs =>
  split at h <;> [skip; cases h]
  next p hpath =>
  split at h <;> [skip; cases h]
  next o ho =>
  rw [Bool.and_eq_true, Bool.and_eq_true, decide_eq_true_eq, Bool.not_eq_true', List.contains_eq_mem, List.contains_eq_mem,
    decide_eq_false_iff_not, decide_eq_true_eq] at h
  obtain ⟨⟨h1, h3⟩, h4⟩ := h
  obtain ⟨up', hup⟩ := named_chain ho
  have hc := around_chain hs
  exact ⟨_, byName (parseOf fieldText).1, pat, p, o, up, up', _, hp, hc, nodeChild_iff.1 hpath, ho, hup, fieldNames_of hp hup h1,
    by simp, (mem_mentionedElse hp hc 66 _).1 h3, fun hg => h4 ((mem_mentionedElse hp hc 64 _).2 hg)⟩

/-- C85_label_partial: `'b` is offered once, and it means a loop. -/
example : ∃ l d, resolveLabel "'b".toList ((tokenAt (parseOf labelText).1 36).drop 2) = some d ∧
    Nameres.Declares ((tokenAt (parseOf labelText).1 36).drop 2) "'b".toList l d :=
  C85_label_partial _ _ (by decide +kernel)

/-- C85_specs: what is offered after `spec`, and that `f` means one item. -/
example : ((around specText 10 .MODULE).head?.map fun m => (specOffers m, (specTargets m ['f']).length, (specTargets m ['t']).length)) =
    some ([['f'], ['S'], ['E']], 1, 0) := by decide +kernel

end Verif.Ide.CompleteFields
