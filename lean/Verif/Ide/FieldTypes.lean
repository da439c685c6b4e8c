import Verif.Ide.CountsProps
import Verif.Types.Compat
import Verif.Types.Props

/-! C80, C81: the checks of the types of fields: their abilities (ide-diagnostics/src/handlers/ability_checking.rs) and circular
types (`recursive_struct_check`, type_checking.rs:19–51). -/

namespace Verif.Types

mutual
/-- `has_ty_type_param` (types/fold.rs:33–35 with `HasTyTypeParamVisitor`, 196–204, and the `deep_visit_with` of the kinds of types). -/
def Ty.hasParam : Ty → Bool
  | .typeParam _ => true
  | .vector t => t.hasParam
  | .range t => t.hasParam
  | .ref t _ => t.hasParam
  | .adt _ _ v t => Ty.haveParam v || Ty.haveParam t
  | .callable p r _ _ _ v => Ty.haveParam p || r.hasParam || Ty.haveParam v
  | .tuple t => Ty.haveParam t
  | .schema _ _ v t => Ty.haveParam v || Ty.haveParam t
  | _ => false
def Ty.haveParam : List Ty → Bool
  | [] => false
  | t :: ts => t.hasParam || Ty.haveParam ts
end

end Verif.Types

namespace Verif.Ide.FieldTypes
open Verif Verif.Syntax Verif.Nameres Verif.Types
open Verif.Parser (Green)
open Verif.Ide.Counts (rangeOf First nodeChild_iff childOf_iff name_text)
open Verif.Ide.Usages (Parsed)
open Verif.Nameres.Full (Is isNode_iff nodeChild_mem)

/-! ### Model -/

/-- What is asked of the database: the type that a type in the file stands for (`lower_type`), the abilities of declarations, the
number of the file, and the struct or enum that a path in the file means (`resolve_to_element::<StructOrEnum>`): its file and its
place in that file. -/
structure Env where
  lower : Elem → Ty
  world : Types.World
  file : Nat
  means : Elem → Option (Nat × List Nat)

/-- An error: its message and its range. -/
structure Report where
  message : List Char
  range : Nat × Nat
  deriving DecidableEq, Repr

/-- `ast::Type` (generated/nodes.rs:9383–9390). -/
def typeKinds : List SyntaxKind := [.LAMBDA_TYPE, .PAREN_TYPE, .PATH_TYPE, .REF_TYPE, .TUPLE_TYPE, .UNIT_TYPE]

/-- `Ability::from_ast` (types/abilities.rs:35–47). -/
def abilityOf (w : List Char) : Option Ability :=
  if w = "copy".toList then some .Copy
  else if w = "store".toList then some .Store
  else if w = "drop".toList then some .Drop
  else if w = "key".toList then some .Key
  else none

/-- `Display for Ability` (types/abilities.rs:23–32). -/
def shown : Ability → List Char
  | .Copy => "copy".toList
  | .Store => "store".toList
  | .Key => "key".toList
  | .Drop => "drop".toList

/-- `Struct::abilities` (syntax/src/ast/node_ext/struct_.rs:35–39) with `from_ast`. An ability without its identifier panics, which the
parser never builds (C72); here it is left out. -/
def abilitiesOf (s : Elem) : List Ability :=
  match nodeChild s .ABILITY_LIST with
  | some l => (l.children.filter (isNode .ABILITY)).filterMap fun a => (tokenChild a .IDENT).bind fun t => abilityOf t.green.text
  | none => []

/-- ability_checking.rs:33–37. -/
def pairs : List (Ability × Ability) := [(.Key, .Store), (.Copy, .Copy), (.Drop, .Drop)]

/-- ability_checking.rs:8–51 for a field with its ancestors; `none` is the panic of `fields_owner` (named_field.rs:13–23). -/
def checkAbility (env : Env) : List Elem → Option (List Report)
  | f :: up =>
    match childOf f typeKinds with
    | none => some []
    | some t =>
      let ty := env.lower t
      if ty.hasParam || !ty.infers.isEmpty then some []
      else
        match ty.abilities env.world with
        | none => some []
        | some as =>
          match up with
          | l :: o :: _ =>
            if !isNode .NAMED_FIELD_LIST l then none
            else if isNode .STRUCT o then
              match pairs.find? fun p => (abilitiesOf o).contains p.1 && !as.contains p.2 with
              | some p => some [⟨"Missing required ability `".toList ++ shown p.2 ++ "`".toList, rangeOf f⟩]
              | none => some []
            else if isNode .VARIANT o then some []
            else none
          | _ => none
  | [] => some []

/-- `fields_owner().struct_or_enum()` (named_field.rs:13–23, fields_owner.rs:71–76, enum_.rs:34–38); `none` is a panic. -/
def ownerItem : List Elem → Option Elem
  | l :: o :: up =>
    if !isNode .NAMED_FIELD_LIST l then none
    else if isNode .STRUCT o then some o
    else if isNode .VARIANT o then
      match up with
      | _ :: e :: _ => if isNode .ENUM e then some e else none
      | _ => none
    else none
  | _ => none

/-- type_checking.rs:19–51 with the message (184–188) for a field with its ancestors; `none` is a panic. A path type without a path
panics (generated/nodes.rs:1424–1426). -/
def checkCircular (assistsOnly : Bool) (env : Env) : List Elem → Option (List Report)
  | f :: up =>
    if assistsOnly then some []
    else
      match childOf f typeKinds with
      | none => some []
      | some t =>
        match ownerItem up with
        | none => none
        | some o =>
          match bindingName o with
          | none => some []
          | some n =>
            ((t.descendants.filter (isNode .PATH_TYPE)).mapM fun q => nodeChild q .PATH).map fun ps =>
              (ps.filter fun p => decide (env.means p = some (env.file, o.path))).map fun p =>
                ⟨"Circular reference of type '".toList ++ n ++ "'".toList, rangeOf p⟩
  | [] => some []

/-- What is reported for a node with its ancestors (ide-diagnostics/src/lib.rs:151–154): the two checks are made for named fields. -/
def check (assistsOnly : Bool) (env : Env) : List Elem → Option (List Report)
  | f :: up =>
    if isNode .NAMED_FIELD f then (checkCircular assistsOnly env (f :: up)).bind fun a => (checkAbility env (f :: up)).map fun b => a ++ b
    else some []
  | [] => some []

/-! ### Specification -/

/-- How abilities are written. -/
def word : Ability → String
  | .Copy => "copy"
  | .Store => "store"
  | .Key => "key"
  | .Drop => "drop"

/-- The struct is declared with the ability. -/
def Claims (o : Elem) (a : Ability) : Prop :=
  ∃ l b pre t post, First [.ABILITY_LIST] o l ∧ b ∈ l.children ∧ Is .ABILITY b ∧ b.children = pre ++ t :: post ∧ t.green.isTok = true ∧
    t.kind = .IDENT ∧ t.green.text = (word a).toList ∧ ∀ x ∈ pre, ¬ (x.green.isTok = true ∧ x.kind = .IDENT)

/-- The field is one of a struct. -/
inductive InStruct : List Elem → Elem → Prop where
  | mk {l o up} : Is .NAMED_FIELD_LIST l → Is .STRUCT o → InStruct (l :: o :: up) o

/-- The field is one of the struct or enum. -/
inductive InItem : List Elem → Elem → Prop where
  | struct_ {l o up} : Is .NAMED_FIELD_LIST l → Is .STRUCT o → InItem (l :: o :: up) o
  | enum_ {l v vs e up} : Is .NAMED_FIELD_LIST l → Is .VARIANT v → Is .ENUM e → InItem (l :: v :: vs :: e :: up) e

/-- A path in the type, the type itself or a part of it, means the declaration. -/
def Mentions (env : Env) (t p : Elem) (d : Nat × List Nat) : Prop :=
  ∃ q m, Up t (q :: m) ∧ Is .PATH_TYPE q ∧ First [.PATH] q p ∧ env.means p = some d

/-! ### Proofs -/

theorem haveParam_iff {ts : List Ty} : Ty.haveParam ts = true ↔ ∃ t ∈ ts, t.hasParam = true := by
  induction ts with
  | nil => simp [Ty.haveParam]
  | cons a as ih => simp [Ty.haveParam, ih]

theorem hasParam_step (t : Ty) : t.hasParam = true ↔ (∃ p, t = .typeParam p) ∨ ∃ u ∈ t.children, u.hasParam = true := by
  cases t <;> simp [Ty.hasParam, Ty.children, haveParam_iff, or_and_right, exists_or, or_assoc]

theorem hasParam_iff (t : Ty) : t.hasParam = true ↔ ∃ p, t.Occurs p := by
  induction t using Ty.children_induction with
  | h t ih =>
    rw [hasParam_step]
    constructor
    · rintro (⟨p, rfl⟩ | ⟨u, hu, h⟩)
      · exact ⟨p, [], rfl⟩
      · obtain ⟨p, hp⟩ := (ih u hu).1 h
        exact ⟨p, Ty.occurs_of_child hu hp⟩
    · rintro ⟨p, π, h⟩
      cases π with
      | nil => cases h; exact .inl ⟨p, rfl⟩
      | cons i π =>
        rw [Ty.at_cons] at h
        cases hi : t.children[i]? with
        | none => rw [hi] at h; cases h
        | some u =>
          rw [hi] at h
          exact .inr ⟨u, List.mem_of_getElem? hi, (ih u (List.mem_of_getElem? hi)).2 ⟨p, π, h⟩⟩

theorem abilityOf_iff {w : List Char} {a : Ability} : abilityOf w = some a ↔ w = (word a).toList := by
  unfold abilityOf
  constructor
  · intro h
    split at h
    · cases h; assumption
    · split at h
      · cases h; assumption
      · split at h
        · cases h; assumption
        · split at h
          · cases h; assumption
          · cases h
  · rintro rfl
    cases a <;> decide

theorem tokenChild_iff {k : SyntaxKind} {e c : Elem} : tokenChild e k = some c ↔
    ∃ pre post, e.children = pre ++ c :: post ∧ c.green.isTok = true ∧ c.kind = k ∧ ∀ x ∈ pre, ¬ (x.green.isTok = true ∧ x.kind = k) := by
  unfold tokenChild
  rw [List.find?_eq_some_iff_append]
  simp only [isToken]
  constructor
  · rintro ⟨h1, pre, post, h2, h3⟩
    rw [Bool.and_eq_true, decide_eq_true_eq] at h1
    refine ⟨pre, post, h2, h1.1, h1.2, fun x hx hc => ?_⟩
    have := h3 x hx
    simp [hc.1, hc.2] at this
  · rintro ⟨pre, post, h2, h1, h4, h3⟩
    refine ⟨by simp [h1, h4], pre, post, h2, fun x hx => ?_⟩
    have := h3 x hx
    cases h5 : x.green.isTok <;> simp_all

theorem claims_iff {o : Elem} {a : Ability} : a ∈ abilitiesOf o ↔ Claims o a := by
  unfold abilitiesOf Claims
  constructor
  · intro h
    split at h
    · rename_i l hl
      obtain ⟨b, hb, h⟩ := List.mem_filterMap.1 h
      obtain ⟨hb, hk⟩ := List.mem_filter.1 hb
      cases ht : tokenChild b .IDENT with
      | none => rw [ht] at h; cases h
      | some t =>
        rw [ht] at h
        obtain ⟨pre, post, h1, h2, h3, h4⟩ := tokenChild_iff.1 ht
        exact ⟨l, b, pre, t, post, nodeChild_iff.1 hl, hb, (isNode_iff _ _).1 hk, h1, h2, h3, abilityOf_iff.1 h, h4⟩
    · cases h
  · rintro ⟨l, b, pre, t, post, hl, hb, hk, h1, h2, h3, h4, h5⟩
    rw [nodeChild_iff.2 hl]
    refine List.mem_filterMap.2 ⟨b, List.mem_filter.2 ⟨hb, (isNode_iff _ _).2 hk⟩, ?_⟩
    rw [tokenChild_iff.2 ⟨pre, post, h1, h2, h3, h5⟩]
    exact abilityOf_iff.2 h4

theorem shown_word (a : Ability) : shown a = (word a).toList := by cases a <;> rfl

theorem needs_pairs {p : Ability × Ability} (h : p ∈ pairs) : p.2 = p.1.needs ∧ p.1 ≠ .Store := by
  simp only [pairs, List.mem_cons, List.not_mem_nil, or_false] at h
  rcases h with rfl | rfl | rfl <;> exact ⟨rfl, by decide⟩

theorem pairs_needs {a : Ability} (h : a ≠ .Store) : (a, a.needs) ∈ pairs := by
  cases a <;> first | exact absurd rfl h | decide

theorem infers_ground {t : Ty} (h : Ground t) : t.infers = [] := by
  induction t using Ty.children_induction with
  | h t ih =>
    refine List.eq_nil_iff_forall_not_mem.2 fun x hx => ?_
    rcases Ty.mem_infers.1 hx with hx | ⟨u, hu, hx⟩
    · cases x with
      | var v => exact h.self.1 v hx
      | intVar i => exact h.self.2 i hx
    · rw [ih u hu (Ty.All.child h hu)] at hx
      cases hx

/-- The node is a written type. -/
def Written (e : Elem) : Prop :=
  e.green.isTok = false ∧ (e.kind = .PATH_TYPE ∨ e.kind = .REF_TYPE ∨ e.kind = .TUPLE_TYPE ∨ e.kind = .UNIT_TYPE ∨ e.kind = .PAREN_TYPE ∨
    e.kind = .LAMBDA_TYPE)

/-- **C80 (types).** The type of a field is the first child of it that is a written type of any form. -/
theorem C80_types (f t : Elem) : First typeKinds f t ↔
    ∃ pre post, f.children = pre ++ t :: post ∧ Written t ∧ ∀ x ∈ pre, ¬ Written x := by
  have h : ∀ x : Elem, (x.green.isTok = false ∧ x.kind ∈ typeKinds) ↔ Written x := by
    intro x
    unfold Written typeKinds
    simp only [List.mem_cons, List.not_mem_nil, or_false]
    tauto
  unfold First
  simp only [h]

/-- **C80 (what is reported is true).** A report is on a field of a struct. The struct is declared with an ability that is not `store`,
and the type of the field has not the ability that this one needs. The report is on the whole field and names the missing ability. The
unit type is left out, whose abilities are found wrongly (`C39_unit_fails`). -/
theorem C80_true {env : Env} {decl bnd : Loc → List Ability} (hw : env.world = worldOf decl bnd) {f : Elem} {up : List Elem}
    {rs : List Report} (h : checkAbility env (f :: up) = some rs) {r : Report} (hr : r ∈ rs) :
    ∃ o t a, InStruct up o ∧ First typeKinds f t ∧ Claims o a ∧ a ≠ .Store ∧
      ((env.lower t).All (fun u => u ≠ .unit) → ¬ Has decl bnd a.needs (env.lower t)) ∧ (∀ p, ¬ (env.lower t).Occurs p) ∧
      r = ⟨("Missing required ability `" ++ word a.needs ++ "`").toList, (f.start, f.stop)⟩ := by
  unfold checkAbility at h
  dsimp only at h
  split at h
  · cases h; cases hr
  · rename_i t ht
    split at h
    · cases h; cases hr
    · rename_i hp
      rw [Bool.or_eq_true, not_or] at hp
      split at h
      · cases h; cases hr
      · rename_i as has
        split at h
        · rename_i l o rest
          split at h
          · cases h
          · rename_i hl
            split at h
            · rename_i ho
              split at h
              · rename_i p hfind
                cases h
                rw [List.mem_singleton] at hr
                have h1 := List.find?_some hfind
                have h2 := needs_pairs (List.mem_of_find?_eq_some hfind)
                rw [Bool.and_eq_true] at h1
                refine ⟨o, t, p.1, ⟨(isNode_iff _ _).1 (by simpa using hl), (isNode_iff _ _).1 ho⟩, childOf_iff.1 ht,
                  claims_iff.1 (by simpa using h1.1), h2.2, fun hu hh => ?_, fun q hq => hp.1 ((hasParam_iff _).2 ⟨q, hq⟩), ?_⟩
                · obtain ⟨l', hl', hm⟩ := C39_complete_partial decl bnd _ _ hu hh
                  rw [hw, hl'] at has
                  cases has
                  rw [← h2.1] at hm
                  simp [hm] at h1
                · rw [hr, shown_word, h2.1]
                  simp only [String.toList_append]
                  rfl
              · cases h; cases hr
            · split at h
              · cases h; cases hr
              · cases h
        · cases h

/-- **C80 (a missing ability is reported; partial).** A struct is declared with `key`, `copy` or `drop`, and the type of a field of it
has not what that needs. Then there is exactly one report, on the whole field.
Missing: a struct with `store` (`C80_store_fails`), fields of variants (`C80_variant_fails`), fields without names (`C80_tuple_fails`),
fields whose types have type arguments (`C80_generic_fails`), and the other types whose abilities are not found (C39). -/
theorem C80_reported_partial {env : Env} {decl bnd : Loc → List Ability} (hw : env.world = worldOf decl bnd) {f t o : Elem}
    {up : List Elem} {a : Ability} (ho : InStruct up o) (ht : First typeKinds f t) (ha : Claims o a) (hs : a ≠ .Store)
    (he : Exact decl bnd (env.lower t)) (hg : Ground (env.lower t)) (hp : ∀ p, ¬ (env.lower t).Occurs p)
    (hn : ¬ Has decl bnd a.needs (env.lower t)) :
    ∃ b, checkAbility env (f :: up) = some [⟨("Missing required ability `" ++ word b.needs ++ "`").toList, (f.start, f.stop)⟩] ∧
      Claims o b ∧ b ≠ .Store ∧ ¬ Has decl bnd b.needs (env.lower t) := by
  obtain ⟨as, has, hex⟩ := C39_exact_partial decl bnd _ he
  obtain ⟨hl, ho⟩ := ho
  have hpar : (env.lower t).hasParam = false := by
    cases hb : (env.lower t).hasParam with
    | false => rfl
    | true => obtain ⟨p, hb⟩ := (hasParam_iff _).1 hb; exact absurd hb (hp p)
  have hfind : ∃ p, (pairs.find? fun p => (abilitiesOf o).contains p.1 && !as.contains p.2) = some p := by
    rw [← Option.isSome_iff_exists, List.find?_isSome]
    refine ⟨_, pairs_needs hs, ?_⟩
    have h1 := claims_iff.2 ha
    have h2 := mt (hex _).1 hn
    simp [h1, h2]
  obtain ⟨p, hfind⟩ := hfind
  have h1 := List.find?_some hfind
  have h2 := needs_pairs (List.mem_of_find?_eq_some hfind)
  rw [Bool.and_eq_true] at h1
  refine ⟨p.1, ?_, claims_iff.1 (by simpa using h1.1), h2.2, fun hh => ?_⟩
  · unfold checkAbility
    dsimp only
    rw [childOf_iff.2 ht]
    dsimp only
    rw [hpar, infers_ground hg, if_neg (by simp), hw, has]
    dsimp only
    rw [if_neg (by rw [(isNode_iff _ _).2 hl]; simp), if_pos ((isNode_iff _ _).2 ho), hfind]
    dsimp only
    rw [shown_word, h2.1]
    simp only [String.toList_append]
    rfl
  · have := (hex _).2 hh
    rw [← h2.1] at this
    simp [this] at h1

/-- **C80 (no report without reason).** If the type of the field has all that the abilities of the struct need, there is none. -/
theorem C80_silent {env : Env} {decl bnd : Loc → List Ability} (hw : env.world = worldOf decl bnd) {f : Elem} {up : List Elem}
    (h : ∀ o t a, InStruct up o → First typeKinds f t → Claims o a → Has decl bnd a.needs (env.lower t))
    (hu : ∀ t, First typeKinds f t → (env.lower t).All fun u => u ≠ .unit) :
    ∀ rs, checkAbility env (f :: up) = some rs → rs = [] := by
  intro rs hrs
  refine List.eq_nil_iff_forall_not_mem.2 fun r hr => ?_
  obtain ⟨o, t, a, h1, h2, h3, -, h4, -⟩ := C80_true hw hrs hr
  exact h4 (hu t h2) (h o t a h1 h2 h3)

/-- **C80 (type parameters).** There is no report on a field in whose type a type parameter occurs. -/
theorem C80_generic {env : Env} {f t : Elem} {up : List Elem} (ht : First typeKinds f t) {p : Loc} (hp : (env.lower t).Occurs p) :
    checkAbility env (f :: up) = some [] := by
  unfold checkAbility
  dsimp only
  rw [childOf_iff.2 ht]
  dsimp only
  rw [(hasParam_iff _).2 ⟨p, hp⟩, if_pos (by simp)]

theorem ownerItem_iff {up : List Elem} {o : Elem} : ownerItem up = some o ↔ InItem up o := by
  constructor
  · intro h
    unfold ownerItem at h
    split at h
    · rename_i l o' up'
      split at h
      · cases h
      · rename_i hl
        have hl : Is .NAMED_FIELD_LIST l := (isNode_iff _ _).1 (by simpa using hl)
        split at h
        · rename_i ho
          cases h
          exact .struct_ hl ((isNode_iff _ _).1 ho)
        · split at h
          · rename_i hv
            split at h
            · split at h
              · rename_i he
                cases h
                exact .enum_ hl ((isNode_iff _ _).1 hv) ((isNode_iff _ _).1 he)
              · cases h
            · cases h
          · cases h
    · cases h
  · intro h
    cases h with
    | struct_ hl ho =>
      unfold ownerItem
      dsimp only
      rw [if_neg (by rw [(isNode_iff _ _).2 hl]; simp), if_pos ((isNode_iff _ _).2 ho)]
    | enum_ hl hv he =>
      unfold ownerItem
      dsimp only
      rw [if_neg (by rw [(isNode_iff _ _).2 hl]; simp),
        if_neg (by rw [isNode_iff]; intro h; have := hv.2; rw [h.2] at this; cases this), if_pos ((isNode_iff _ _).2 hv)]
      rw [if_pos ((isNode_iff _ _).2 he)]

theorem mapM_some_mem {α β : Type} {f : α → Option β} : ∀ {l : List α} {m : List β}, l.mapM f = some m →
    ∀ b, b ∈ m ↔ ∃ a ∈ l, f a = some b
  | [], m, h, b => by
    rw [List.mapM_nil] at h
    cases h
    simp
  | x :: l, m, h, b => by
    rw [List.mapM_cons] at h
    cases hx : f x with
    | none => rw [hx] at h; cases h
    | some y =>
      cases hl : l.mapM f with
      | none => rw [hx, hl] at h; cases h
      | some ys =>
        rw [hx, hl] at h
        cases h
        simp [mapM_some_mem hl b, hx, eq_comm]

theorem mapM_isSome {α β : Type} {f : α → Option β} {l : List α} (h : ∀ a ∈ l, (f a).isSome) : ∃ m, l.mapM f = some m := by
  induction l with
  | nil => exact ⟨[], by simp⟩
  | cons x l ih =>
    obtain ⟨m, hm⟩ := ih fun a ha => h a (by simp [ha])
    obtain ⟨y, hy⟩ := Option.isSome_iff_exists.1 (h x (by simp))
    exact ⟨y :: m, by rw [List.mapM_cons, hy, hm]; rfl⟩

/-- **C81 (what is reported).** For a field of a struct, or of a variant of an enum, each path in its type that means this struct or
enum is reported, and nothing else. The report is on the path and names the struct or enum. -/
theorem C81_exact {g : Green} (hp : Parsed g) {env : Env} {f t o n : Elem} {up up' : List Elem} (hc : Chain g (o :: up'))
    (ho : InItem up o) (ht : First typeKinds f t) (hn : First [.NAME] o n) {rs : List Report}
    (h : checkCircular false env (f :: up) = some rs) (r : Report) :
    r ∈ rs ↔ ∃ p, Mentions env t p (env.file, o.path) ∧
      r = ⟨"Circular reference of type '".toList ++ n.green.text ++ ['\''], (p.start, p.stop)⟩ := by
  unfold checkCircular at h
  dsimp only at h
  rw [if_neg (by simp), childOf_iff.2 ht, ownerItem_iff.2 ho] at h
  dsimp only at h
  rw [name_text hp hc hn] at h
  dsimp only at h
  cases hm : (t.descendants.filter (isNode .PATH_TYPE)).mapM fun q => nodeChild q .PATH with
  | none => rw [hm] at h; cases h
  | some ps =>
    rw [hm] at h
    cases h
    simp only [List.mem_map, List.mem_filter, decide_eq_true_eq, mapM_some_mem hm]
    constructor
    · rintro ⟨p, ⟨⟨q, ⟨hq, hk⟩, hqp⟩, hmean⟩, rfl⟩
      obtain ⟨m, hm⟩ := ((mem_descendants _ _).1 hq).2
      exact ⟨p, ⟨q, m, hm, (isNode_iff _ _).1 hk, nodeChild_iff.1 hqp, hmean⟩, rfl⟩
    · rintro ⟨p, ⟨q, m, hm, hk, hqp, hmean⟩, rfl⟩
      exact ⟨p, ⟨⟨q, ⟨(mem_descendants _ _).2 ⟨hk.1, m, hm⟩, (isNode_iff _ _).2 hk⟩, nodeChild_iff.2 hqp⟩, hmean⟩, rfl⟩

/-- **C81 (no panic).** In a parsed file the check of a field of a struct, or of a variant of an enum, ends with a list of reports. -/
theorem C81_runs {g : Green} (hp : Parsed g) {env : Env} {f o : Elem} {up : List Elem} {assistsOnly : Bool} (hc : Chain g (f :: up))
    (ho : InItem up o) : ∃ rs, checkCircular assistsOnly env (f :: up) = some rs := by
  unfold checkCircular
  dsimp only
  split
  · exact ⟨_, rfl⟩
  · split
    · exact ⟨_, rfl⟩
    · rename_i t ht
      rw [ownerItem_iff.2 ho]
      dsimp only
      split
      · exact ⟨_, rfl⟩
      · obtain ⟨ps, hps⟩ := mapM_isSome (f := fun q => nodeChild q .PATH) (l := t.descendants.filter (isNode .PATH_TYPE)) fun q hq => by
          obtain ⟨hq, hk⟩ := List.mem_filter.1 hq
          have hk := (isNode_iff _ _).1 hk
          have htc : Chain g (t :: f :: up) := .child hc (childOf_iff.1 ht).mem
          obtain ⟨mid, hch, -⟩ := chain_descendant htc hq
          obtain ⟨gr, debug, text, fuel, errs, h1, h2, h3, h4⟩ := hp
          rcases Verif.Parser.parseText_spec h1 h2 debug text h3 with ⟨h5, -⟩ | ⟨raw, pcs, hr, hpcs, -⟩
          · rw [h4] at h5; cases h5
          · have := Verif.Syntax.C72_required_partial h1 h2 h3 h4 hr hpcs hch hk.1 (part := .child (· == .PATH))
              (by rw [hk.2]; simp [Verif.Syntax.required]) (by rw [hk.2]; intro h; cases h) (by rw [hk.2]; rintro (h | h) <;> cases h)
            unfold Part.find Elem.nodes at this
            rw [List.find?_isSome] at this
            obtain ⟨c, hc, hck⟩ := this
            obtain ⟨hc, hct⟩ := List.mem_filter.1 hc
            unfold nodeChild
            rw [List.find?_isSome]
            exact ⟨c, hc, (isNode_iff _ _).2 ⟨by simpa using hct, by simpa using hck⟩⟩
        rw [hps]
        exact ⟨_, rfl⟩

/-- **C81 (assists).** Nothing is reported when only assists are asked for. -/
theorem C81_assists {env : Env} {site : List Elem} : checkCircular true env site = some [] := by
  unfold checkCircular
  split <;> rfl

end Verif.Ide.FieldTypes
