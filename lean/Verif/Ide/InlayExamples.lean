import Verif.Ide.InlayProps
import Verif.Ide.CountsExamples

/-! C82: examples. -/

namespace Verif.Ide.Inlay
open Verif Verif.Syntax Verif.Nameres
open Verif.Parser (Green)
open Verif.Ide.Rename (exprKinds)
open Verif.Ide.Counts (First nodeChild_iff childOf_iff around around_chain)
open Verif.Ide.FieldTypes (typeKinds)
open Verif.Ide.Usages (Parsed parseOf parseOf_parsed identPatOwners firstOf)
open Verif.Nameres.Full (Is isNode_iff)

def sampleText : List Char := "module 0x1::m{fun f(a:u8,_b:u8){f(1,2);v.f(3,b);let x=1;let(y,_z)=w;for(i in 0..3){}}}".toList

/-- Everything has the type `S`, and each call is one of a function with three parameters. -/
def sampleEnv : Env where
  type _ := some (false, some [⟨"S".toList, true⟩])
  resource _ := false
  callee _ := some (.function (some "f".toList) ["a".toList, "_b".toList, "c".toList])
  lower w := w

def sampleCfg : Config := ⟨true, true, true, true, true, false⟩

def brief (l : List Hint) : List (Nat × String × HintKind) := l.map fun h => (h.place, String.ofList (shown h.label), h.kind)

/-- The hints of a file. `a: ` and `b: ` stand before the arguments of `f(1,2)`; in the method call `v.f(3,b)` the parameters are the
second and the third one; the underscores of `_b` and the variable `_z` are left out, and so is the variable of the loop. -/
example : brief (inlayHints sampleCfg sampleEnv (parseOf sampleText).1 none) =
    [(34, "a: ", .parameter), (36, "b: ", .parameter), (43, "b: ", .parameter), (45, "c: ", .parameter), (53, ": S", .type),
      (61, ": S", .type), (80, "<", .range)] := by decide +kernel

/-- C82_range: a part of the file with two of these hints. -/
example : brief (inlayHints sampleCfg sampleEnv (parseOf sampleText).1 (some (40, 50))) = [(43, "b: ", .parameter), (45, "c: ", .parameter)] := by
  decide +kernel
example : brief ((inlayHints sampleCfg sampleEnv (parseOf sampleText).1 none).filter fun h => decide ((40, 50).1 ≤ h.range.1 ∧ h.range.2 ≤ (40, 50).2)) =
    [(43, "b: ", .parameter), (45, "c: ", .parameter)] := by
  rw [← C82_range sampleCfg sampleEnv (parseOf sampleText).1 (r := (40, 50)) (by decide)]
  decide +kernel

def startHash (k : (Nat × Nat) × Bool × Bool × HintKind × List Part) : Nat := k.1.1

/-- C82_resolve: the hint of `x`, with the places of hints as their hashes, no two of which are the same. -/
example : ∃ h ∈ inlayHints sampleCfg sampleEnv (parseOf sampleText).1 none, h.parent = some (52, 53) ∧
    ∃ h', resolveHint sampleCfg sampleEnv (parseOf sampleText).1 (52, 53) startHash (startHash (hashed h)) = some h' ∧ h'.range = h.range ∧
      h'.place = h.place ∧ h'.kind = h.kind ∧ h'.label = h.label := by
  have hfind : ((inlayHints sampleCfg sampleEnv (parseOf sampleText).1 none).any fun h => decide (h.parent = some (52, 53)) &&
      (inlayHints sampleCfg sampleEnv (parseOf sampleText).1 none).all fun h' =>
        decide (startHash (hashed h') = startHash (hashed h) → hashed h' = hashed h)) = true := by decide +kernel
  obtain ⟨h, hm, hh⟩ := List.any_eq_true.1 hfind
  rw [Bool.and_eq_true, decide_eq_true_eq, List.all_eq_true] at hh
  exact ⟨h, hm, hh.1, C82_resolve _ _ _ startHash hm hh.1 fun h' hm' => of_decide_eq_true (hh.2 h' hm')⟩

/-- C82_param, with a call of more arguments than one, and C82_exclusive: there are such hints. -/
example : ∃ x, (x ∈ inlayHints sampleCfg sampleEnv (parseOf sampleText).1 none ∧ x.kind = .parameter) ∧ x.place = 45 := by
  have : ((inlayHints sampleCfg sampleEnv (parseOf sampleText).1 none).any fun h => decide (h.kind = .parameter ∧ h.place = 45)) = true := by
    decide +kernel
  obtain ⟨x, hx, h⟩ := List.any_eq_true.1 this
  rw [decide_eq_true_eq] at h
  exact ⟨x, ⟨hx, h.1⟩, h.2⟩
example : ∃ x, (x ∈ inlayHints sampleCfg sampleEnv (parseOf sampleText).1 none ∧ x.kind = .range) ∧ x.place = 80 := by
  have : ((inlayHints sampleCfg sampleEnv (parseOf sampleText).1 none).any fun h => decide (h.kind = .range ∧ h.place = 80)) = true := by
    decide +kernel
  obtain ⟨x, hx, h⟩ := List.any_eq_true.1 this
  rw [decide_eq_true_eq] at h
  exact ⟨x, ⟨hx, h.1⟩, h.2⟩

/-- The identifier pattern at a place with what is around it, its name and its owner. -/
def varAt (text : List Char) (n : Nat) : Option (Elem × List Elem × Elem × Elem) :=
  match around text n .IDENT_PAT with
  | i :: up =>
    if isNode .IDENT_PAT i then
      (nodeChild i .NAME).bind fun nm =>
        match firstOf identPatOwners up with
        | some (o :: _) => some (i, up, nm, o)
        | _ => none
    else none
  | _ => none

theorem varAt_of {text : List Char} {n : Nat} {P : Elem × List Elem × Elem × Elem → Bool} (h : (varAt text n).any P = true) :
    ∃ i up nm o, Chain (parseOf text).1 (i :: up) ∧ Is .IDENT_PAT i ∧ First [.NAME] i nm ∧ Owns up o ∧ P (i, up, nm, o) = true := by
  obtain ⟨v, hv, hP⟩ := (Option.any_eq_true _ _).1 h
  unfold varAt at hv
  split at hv
  · rename_i i up hs
    split at hv
    · rename_i hk
      obtain ⟨nm, hn, hv⟩ := Option.bind_eq_some_iff.1 hv
      split at hv
      · rename_i o rest ho
        cases hv
        exact ⟨i, up, nm, o, around_chain hs, (isNode_iff _ _).1 hk, nodeChild_iff.1 hn, owns_iff.1 ⟨rest, ho⟩, hP⟩
      · cases hv
    · cases hv
  · cases hv

/-- C82_type and C82_type_shown: the variable `x` of a `let` in this file, which stands for the hypotheses of both. -/
example : ∃ i up nm o, ∃ x ∈ inlayHints sampleCfg sampleEnv (parseOf sampleText).1 none, Chain (parseOf sampleText).1 (i :: up) ∧
    First [.NAME] i nm ∧ nm.green.text = ['x'] ∧ Shows sampleCfg i o [⟨"S".toList, true⟩] x := by
  have hv : ((varAt sampleText 37).any fun v => decide (v.2.2.1.green.text = ['x']) && wanted sampleCfg sampleEnv v.2.1 v.2.2.2) = true := by
    decide +kernel
  obtain ⟨i, up, nm, o, h1, h2, h3, h4, h5⟩ := varAt_of hv
  rw [Bool.and_eq_true, decide_eq_true_eq] at h5
  obtain ⟨x, hx, hs⟩ := C82_type_shown (parseOf_parsed (by decide +kernel) (by decide +kernel)) rfl h1 h2 h3 (by rw [h5.1]; decide)
    (env := sampleEnv) rfl h4 (wants_iff.1 h5.2)
  exact ⟨i, up, nm, o, x, hx, h1, h3, h5.1, hs⟩

end Verif.Ide.Inlay
