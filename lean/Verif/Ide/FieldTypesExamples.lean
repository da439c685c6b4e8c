import Verif.Ide.FieldTypes
import Verif.Ide.CountsExamples

/-! C80, C81: examples, and what is not reported. -/

namespace Verif.Ide.FieldTypes
open Verif Verif.Syntax Verif.Nameres Verif.Types
open Verif.Parser (Green)
open Verif.Ide.Counts (First nodeChild_iff childOf_iff around around_chain)
open Verif.Ide.Usages (Parsed parseOf parseOf_parsed)
open Verif.Nameres.Full (Is isNode_iff)

/-- The structs and enums of a file. -/
def items (g : Green) : List Elem := (⟨[], 0, g⟩ : Elem).descendants.filter fun d => isNode .STRUCT d || isNode .ENUM d

/-- The item with the name of the path. -/
def itemAt (g : Green) (p : Elem) : Option Nat := (items g).findIdx? fun d => decide (bindingName d = refName p)

/-- Types of a file in which everything has its own name: items with their type arguments, and otherwise `u8`. -/
def lowerIn (g : Green) : Nat → Elem → Ty
  | 0, _ => .unknown
  | n + 1, t =>
    match nodeChild t .PATH with
    | some p =>
      match itemAt g p with
      | some i =>
        let args := ((nodeChild p .PATH_SEGMENT).bind fun s => nodeChild s .TYPE_ARG_LIST).elim []
          fun l => (l.children.filter (isNode .TYPE_ARG)).filterMap fun a => (childOf a typeKinds).map (lowerIn g n)
        .adt i (List.range args.length) args args
      | none => .integer .U8
    | none => .unknown

def declIn (g : Green) (l : Loc) : List Ability := ((items g)[l]?.map abilitiesOf).getD []

def envOf (g : Green) : Env where
  lower := lowerIn g 3
  world := worldOf (declIn g) fun _ => []
  file := 0
  means p := (itemAt g p).bind fun i => (items g)[i]?.map fun d => (0, d.path)

/-- All that is reported for nodes of the file with a token of their own in them. -/
def reports (text : List Char) : List (Option (List Report)) :=
  (((allTokens (parseOf text).1).flatMap List.tails).map (check false (envOf (parseOf text).1))).filter fun r => decide (r ≠ some [])

def abilityText : List Char := "module 0x1::m{struct R{}struct S has key,drop{x:R,y:u8}struct T has drop{x:R}}".toList
def storeText : List Char := "module 0x1::m{struct R{}struct S has store{x:R}}".toList
def tupleText : List Char := "module 0x1::m{struct R{}struct S has copy(R);}".toList
def variantText : List Char := "module 0x1::m{struct R{}enum E has copy{A{x:R}}}".toList
def genericText : List Char := "module 0x1::m{struct R{}struct P<T>has copy{}struct S has copy{x:P<R>}}".toList
def loopText : List Char := "module 0x1::m{struct A{x:vector<A>,y:u8}enum E{B{x:P<E>,y:A}}}".toList
def mutualText : List Char := "module 0x1::m{struct A{x:B}struct B{x:A}}".toList
def innerText : List Char := "module 0x1::m{struct A(A);}".toList
def afterText : List Char := "module 0x1::m{struct R{}struct S{x:R}has copy;}".toList

/-- The field of a struct around a token, what is around it, the struct and the type. -/
def fieldAt (text : List Char) (n : Nat) : Option (Elem × List Elem × Elem × Elem) :=
  match around text n .NAMED_FIELD with
  | f :: l :: o :: rest =>
    if isNode .NAMED_FIELD_LIST l && isNode .STRUCT o then (childOf f typeKinds).map fun t => (f, l :: o :: rest, o, t) else none
  | _ => none

theorem fieldAt_spec {text : List Char} {n : Nat} {f o t : Elem} {up : List Elem} (h : fieldAt text n = some (f, up, o, t)) :
    Chain (parseOf text).1 (f :: up) ∧ InStruct up o ∧ First typeKinds f t := by
  unfold fieldAt at h
  split at h
  · rename_i f' l o' rest hs
    split at h
    · rename_i hk
      rw [Bool.and_eq_true] at hk
      cases ht : childOf f' typeKinds with
      | none => rw [ht] at h; cases h
      | some t' =>
        rw [ht] at h
        cases h
        exact ⟨around_chain hs, ⟨(isNode_iff _ _).1 hk.1, (isNode_iff _ _).1 hk.2⟩, childOf_iff.1 ht⟩
    · cases h
  · cases h

theorem fieldAt_of {text : List Char} {n : Nat} {P : Elem × List Elem × Elem × Elem → Bool} (h : (fieldAt text n).any P = true) :
    ∃ f up o t, Chain (parseOf text).1 (f :: up) ∧ InStruct up o ∧ First typeKinds f t ∧ P (f, up, o, t) = true := by
  cases hf : fieldAt text n with
  | none => rw [hf] at h; cases h
  | some x =>
    obtain ⟨f, up, o, t⟩ := x
    rw [hf] at h
    obtain ⟨h1, h2, h3⟩ := fieldAt_spec hf
    exact ⟨f, up, o, t, h1, h2, h3, h⟩

theorem lacks {g : Green} {bnd : Loc → List Ability} {l : Loc} (h : declIn g l = []) (a : Ability) :
    ¬ Has (declIn g) bnd a (.adt l [] [] []) := by
  intro hh
  cases hh with
  | adt hm _ => rw [h] at hm; cases hm

/-! ### What is not reported -/

/-- **C80 fails for `store`.** A struct with `store` has a field whose type has not `store`, and nothing is reported. -/
theorem C80_store_fails : ∃ (g : Green) (env : Env) (decl bnd : Loc → List Ability) (f t o : Elem) (up : List Elem),
    Parsed g ∧ Chain g (f :: up) ∧ env.world = worldOf decl bnd ∧ InStruct up o ∧ First typeKinds f t ∧ Claims o .Store ∧
      ¬ Has decl bnd .Store (env.lower t) ∧ check false env (f :: up) = some [] := by
  have h : (fieldAt storeText 19).any (fun (f, up, o, t) => decide ((envOf (parseOf storeText).1).lower t = .adt 0 [] [] []) &&
      decide (Ability.Store ∈ abilitiesOf o) && decide (check false (envOf (parseOf storeText).1) (f :: up) = some [])) = true := by
    decide +kernel
  obtain ⟨f, up, o, t, h1, h2, h3, h4⟩ := fieldAt_of h
  simp only [Bool.and_eq_true, decide_eq_true_eq] at h4
  exact ⟨_, envOf (parseOf storeText).1, _, _, f, t, o, up, parseOf_parsed (by decide +kernel) (by decide +kernel), h1, rfl, h2, h3,
    claims_iff.1 h4.1.2, by rw [h4.1.1]; exact lacks (by decide +kernel) _, h4.2⟩

/-- **C80 fails for types with type arguments.** A struct with `copy` has a field of the type `P<R>`, where `P` is declared with `copy`
and `R` has not `copy`. Then `P<R>` has it not either, and nothing is reported. -/
theorem C80_generic_fails : ∃ (g : Green) (env : Env) (decl bnd : Loc → List Ability) (f t o : Elem) (up : List Elem),
    Parsed g ∧ Chain g (f :: up) ∧ env.world = worldOf decl bnd ∧ InStruct up o ∧ First typeKinds f t ∧ Claims o .Copy ∧
      (∀ p, ¬ (env.lower t).Occurs p) ∧ ¬ Has decl bnd .Copy (env.lower t) ∧ check false env (f :: up) = some [] := by
  have h : (fieldAt genericText 30).any (fun (f, up, o, t) =>
      decide ((envOf (parseOf genericText).1).lower t = .adt 1 [0] [.adt 0 [] [] []] [.adt 0 [] [] []]) &&
      decide (Ability.Copy ∈ abilitiesOf o) && decide (check false (envOf (parseOf genericText).1) (f :: up) = some [])) = true := by
    decide +kernel
  obtain ⟨f, up, o, t, h1, h2, h3, h4⟩ := fieldAt_of h
  simp only [Bool.and_eq_true, decide_eq_true_eq] at h4
  refine ⟨_, envOf (parseOf genericText).1, _, _, f, t, o, up, parseOf_parsed (by decide +kernel) (by decide +kernel), h1, rfl, h2, h3,
    claims_iff.1 h4.1.2, ?_, ?_, h4.2⟩
  · intro p hp
    rw [h4.1.1] at hp
    exact absurd ((hasParam_iff _).2 ⟨p, hp⟩) (by decide)
  · rw [h4.1.1]
    intro hh
    cases hh with
    | adt _ ha => exact lacks (l := 0) (by decide +kernel) _ (ha (.adt 0 [] [] []) (by simp))

/-- **C80 fails for fields without names.** A struct with `copy` has a field, without a name, whose type has not `copy`, and nothing is
reported in the file. -/
theorem C80_tuple_fails : (parseOf tupleText).2 = true ∧
    (items (parseOf tupleText).1).map (fun o => (bindingName o, abilitiesOf o)) = [(some ['R'], []), (some ['S'], [.Copy])] ∧
    (around tupleText 19 .TUPLE_FIELD).head?.map (fun f => (childOf f typeKinds).map fun t => lowerIn (parseOf tupleText).1 3 t) =
      some (some (.adt 0 [] [] [])) ∧ ¬ Has (declIn (parseOf tupleText).1) (fun _ => []) .Copy (.adt 0 [] [] []) ∧
    reports tupleText = [] :=
  ⟨by decide +kernel, by decide +kernel, by decide +kernel, lacks (by decide +kernel) _, by decide +kernel⟩

/-- **C80 fails for enums.** An enum with `copy` has a variant with a field whose type has not `copy`, and nothing is reported in the
file. -/
theorem C80_variant_fails : (parseOf variantText).2 = true ∧
    (items (parseOf variantText).1).map (fun o => (bindingName o, abilitiesOf o)) = [(some ['R'], []), (some ['E'], [.Copy])] ∧
    (around variantText 21 .NAMED_FIELD).head?.map (fun f => (childOf f typeKinds).map fun t => lowerIn (parseOf variantText).1 3 t) =
      some (some (.adt 0 [] [] [])) ∧ ¬ Has (declIn (parseOf variantText).1) (fun _ => []) .Copy (.adt 0 [] [] []) ∧
    reports variantText = [] :=
  ⟨by decide +kernel, by decide +kernel, by decide +kernel, lacks (by decide +kernel) _, by decide +kernel⟩

/-- What the paths in the field around a token mean: the number of the item. -/
def inField (text : List Char) (n : Nat) (k : SyntaxKind) : Option (List (Option Nat)) :=
  (around text n k).head?.bind fun f => (childOf f typeKinds).map fun t =>
    (t.descendants.filter (isNode .PATH_TYPE)).map fun q => (nodeChild q .PATH).bind (itemAt (parseOf text).1)

/-- **C81 fails for cycles of more than one type.** `A` has a field of the type `B`, and `B` has one of the type `A`, and nothing is
reported in the file. -/
theorem C81_mutual_fails : (parseOf mutualText).2 = true ∧
    (items (parseOf mutualText).1).map bindingName = [some ['A'], some ['B']] ∧
    inField mutualText 10 .NAMED_FIELD = some [some 1] ∧ inField mutualText 18 .NAMED_FIELD = some [some 0] ∧
    reports mutualText = [] := by decide +kernel

/-- **C81 fails for fields without names.** `A` has a field of the type `A`, and nothing is reported in the file. -/
theorem C81_tuple_fails : (parseOf innerText).2 = true ∧ (items (parseOf innerText).1).map bindingName = [some ['A']] ∧
    inField innerText 10 .TUPLE_FIELD = some [some 0] ∧ reports innerText = [] := by decide +kernel

/-! ### Examples that meet the hypotheses -/

example : (parseOf abilityText).2 = true ∧
    check false (envOf (parseOf abilityText).1) (around abilityText 21 .NAMED_FIELD) = some [⟨"Missing required ability `store`".toList, (46, 49)⟩] ∧
    check false (envOf (parseOf abilityText).1) (around abilityText 25 .NAMED_FIELD) = some [] ∧
    check false (envOf (parseOf abilityText).1) (around abilityText 37 .NAMED_FIELD) = some [⟨"Missing required ability `drop`".toList, (73, 76)⟩] ∧
    check false (envOf (parseOf afterText).1) (around afterText 15 .NAMED_FIELD) = some [⟨"Missing required ability `copy`".toList, (33, 36)⟩] := by
  decide +kernel

example : (parseOf loopText).2 = true ∧
    check false (envOf (parseOf loopText).1) (around loopText 10 .NAMED_FIELD) = some [⟨"Circular reference of type 'A'".toList, (32, 33)⟩] ∧
    check true (envOf (parseOf loopText).1) (around loopText 10 .NAMED_FIELD) = some [] ∧
    check false (envOf (parseOf loopText).1) (around loopText 17 .NAMED_FIELD) = some [] ∧
    check false (envOf (parseOf loopText).1) (around loopText 27 .NAMED_FIELD) = some [⟨"Circular reference of type 'E'".toList, (53, 54)⟩] ∧
    check false (envOf (parseOf loopText).1) (around loopText 34 .NAMED_FIELD) = some [] := by decide +kernel

/-- The hypotheses of `C80_true` and `C80_reported_partial` are met. -/
example : ∃ (g : Green) (env : Env) (decl bnd : Loc → List Ability) (f t o : Elem) (up : List Elem), Parsed g ∧ Chain g (f :: up) ∧
    env.world = worldOf decl bnd ∧ InStruct up o ∧ First typeKinds f t ∧ Claims o .Key ∧ Exact decl bnd (env.lower t) ∧
    Ground (env.lower t) ∧ (∀ p, ¬ (env.lower t).Occurs p) ∧ ¬ Has decl bnd Ability.Key.needs (env.lower t) := by
  have h : (fieldAt abilityText 21).any (fun (_, _, o, t) => decide ((envOf (parseOf abilityText).1).lower t = .adt 0 [] [] []) &&
      decide (Ability.Key ∈ abilitiesOf o)) = true := by decide +kernel
  obtain ⟨f, up, o, t, h1, h2, h3, h4⟩ := fieldAt_of h
  simp only [Bool.and_eq_true, decide_eq_true_eq] at h4
  refine ⟨_, envOf (parseOf abilityText).1, _, _, f, t, o, up, parseOf_parsed (by decide +kernel) (by decide +kernel), h1, rfl, h2, h3,
    claims_iff.1 h4.2, by rw [h4.1]; rfl, ?_, ?_, by rw [h4.1]; exact lacks (by decide +kernel) _⟩
  · rw [h4.1]
    exact Ty.All.intro (Q := fun u => (∀ v, u ≠ .var v) ∧ ∀ i, u ≠ .intVar i) ⟨by simp, by simp⟩ (by simp [Ty.children])
  · intro p hp
    rw [h4.1] at hp
    exact absurd ((hasParam_iff _).2 ⟨p, hp⟩) (by decide)

/-- The hypotheses of `C80_silent` are met: all types have all abilities. -/
example : ∃ (env : Env) (decl bnd : Loc → List Ability) (f t o : Elem) (up : List Elem),
    env.world = worldOf decl bnd ∧ InStruct up o ∧ First typeKinds f t ∧ Claims o .Key ∧
    (∀ o t a, InStruct up o → First typeKinds f t → Claims o a → Has decl bnd a.needs (env.lower t)) ∧
    (∀ t, First typeKinds f t → (env.lower t).All fun u => u ≠ .unit) := by
  have h : (fieldAt abilityText 25).any (fun (_, _, o, _) => decide (Ability.Key ∈ abilitiesOf o)) = true := by decide +kernel
  obtain ⟨f, up, o, t, h1, h2, h3, h4⟩ := fieldAt_of h
  simp only [decide_eq_true_eq] at h4
  refine ⟨⟨fun _ => .integer .U8, worldOf (fun _ => []) fun _ => [], 0, fun _ => none⟩, _, _, f, t, o, up, rfl, h2, h3, claims_iff.1 h4, ?_, ?_⟩
  · intro o' t' a _ _ _
    exact .integer (by cases a <;> decide)
  · intro t' _
    exact .intro (fun h => nomatch h) fun u hu => nomatch hu

example : ∃ (f t : Elem) (env : Env), First typeKinds f t ∧ (env.lower t).Occurs 3 := by
  have h : (fieldAt abilityText 25).any (fun _ => true) = true := by decide +kernel
  obtain ⟨f, up, o, t, h1, h2, h3, h4⟩ := fieldAt_of h
  exact ⟨f, t, ⟨fun _ => .vector (.typeParam 3), worldOf (fun _ => []) fun _ => [], 0, fun _ => none⟩, h3, [0], rfl⟩

/-- The hypotheses of `C81_exact` and `C81_runs` are met, and there is a report. -/
example : ∃ (g : Green) (env : Env) (f t o n : Elem) (up up' : List Elem) (r : Report), Parsed g ∧ Chain g (f :: up) ∧ Chain g (o :: up') ∧
    InItem up o ∧ First typeKinds f t ∧ First [.NAME] o n ∧ checkCircular false env (f :: up) = some [r] := by
  have h : (fieldAt loopText 10).any (fun (f, up, o, _) => (nodeChild o .NAME).isSome &&
      decide (checkCircular false (envOf (parseOf loopText).1) (f :: up) = some [⟨"Circular reference of type 'A'".toList, (32, 33)⟩])) = true := by
    decide +kernel
  obtain ⟨f, up, o, t, h1, h2, h3, h4⟩ := fieldAt_of h
  simp only [Bool.and_eq_true, decide_eq_true_eq] at h4
  obtain ⟨n, hn⟩ := Option.isSome_iff_exists.1 h4.1
  cases h2 with
  | mk hl ho =>
    exact ⟨_, envOf (parseOf loopText).1, f, t, o, n, _, _, _, parseOf_parsed (by decide +kernel) (by decide +kernel), h1,
      chain_suffix (l := [_, _]) h1, .struct_ hl ho, h3, nodeChild_iff.1 hn, h4.2⟩

end Verif.Ide.FieldTypes
