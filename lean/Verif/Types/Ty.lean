import Mathlib.Data.List.Basic

/-! Model of `crates/lang/src/types/ty.rs` and `ty/*.rs`: the types of the inference, how they are traversed and folded.

A `SyntaxLoc` is a number. A `Substitution` inside a type is a hash map from type parameters to types; here it is the
list of its keys and the list of its values, in an order that depends only on the keys. -/

namespace Verif.Types

/-- `SyntaxLoc`: what identifies an item or a type parameter. -/
abbrev Loc := Nat

/-- `IntegerKind` (ty/integer.rs 13-28). -/
inductive IntKind where
  | Integer | U8 | U16 | U32 | U64 | U128 | U256 | I8 | I16 | I32 | I64 | I128 | I256
deriving DecidableEq, Repr

/-- `TyVar`, `TyVarKind` (ty/ty_var.rs 20-75). -/
inductive TyVar where
  | anonymous (index : Nat)
  | withOrigin (origin : Loc) (index : Nat)
deriving DecidableEq, Repr

/-- `TyVar::has_origin` (ty_var.rs 38-40). -/
def TyVar.hasOrigin : TyVar → Bool
  | .anonymous _ => false
  | .withOrigin _ _ => true

/-- The cases of `TyCallableKind` (ty/ty_callable.rs 21-26) without their arguments. -/
inductive CallKind where
  | Named | Lambda | Predicate
deriving DecidableEq, Repr

/-- `Ty` (ty.rs 39-65). `vector` and `range` are `Seq` (ty/range_like.rs 12-16), `var` and `intVar` are `Infer`. The
substitution of a callable type is empty unless its kind is `Named`. -/
inductive Ty where
  | unknown
  | never
  | unit
  | bool
  | signer
  | address
  | integer (kind : IntKind)
  | num
  | bv
  | vector (item : Ty)
  | range (item : Ty)
  | var (v : TyVar)
  | intVar (index : Nat)
  | typeParam (origin : Loc)
  | ref (referenced : Ty) (isMut : Bool)
  | adt (loc : Loc) (keys : List Loc) (vals : List Ty) (args : List Ty)
  | callable (params : List Ty) (ret : Ty) (kind : CallKind) (loc : Option Loc) (keys : List Loc) (vals : List Ty)
  | tuple (types : List Ty)
  | schema (loc : Loc) (keys : List Loc) (vals : List Ty) (args : List Ty)
deriving Repr, Inhabited

mutual
/-- The derived equality of `Ty`. -/
def Ty.beq : Ty → Ty → Bool
  | .unknown, .unknown => true
  | .never, .never => true
  | .unit, .unit => true
  | .bool, .bool => true
  | .signer, .signer => true
  | .address, .address => true
  | .integer a, .integer b => decide (a = b)
  | .num, .num => true
  | .bv, .bv => true
  | .vector a, .vector b => Ty.beq a b
  | .range a, .range b => Ty.beq a b
  | .var a, .var b => decide (a = b)
  | .intVar a, .intVar b => decide (a = b)
  | .typeParam a, .typeParam b => decide (a = b)
  | .ref a m, .ref b n => Ty.beq a b && decide (m = n)
  | .adt a k v t, .adt b l w u => decide (a = b) && decide (k = l) && Ty.beqs v w && Ty.beqs t u
  | .callable p r k a ks v, .callable q s l b ls w =>
    Ty.beqs p q && Ty.beq r s && decide (k = l) && decide (a = b) && decide (ks = ls) && Ty.beqs v w
  | .tuple a, .tuple b => Ty.beqs a b
  | .schema a k v t, .schema b l w u => decide (a = b) && decide (k = l) && Ty.beqs v w && Ty.beqs t u
  | _, _ => false
def Ty.beqs : List Ty → List Ty → Bool
  | [], [] => true
  | a :: as, b :: bs => Ty.beq a b && Ty.beqs as bs
  | _, _ => false
end

mutual
theorem Ty.beq_iff : ∀ a b : Ty, Ty.beq a b = true ↔ a = b
  | .unknown, b => by cases b <;> simp [Ty.beq]
  | .never, b => by cases b <;> simp [Ty.beq]
  | .unit, b => by cases b <;> simp [Ty.beq]
  | .bool, b => by cases b <;> simp [Ty.beq]
  | .signer, b => by cases b <;> simp [Ty.beq]
  | .address, b => by cases b <;> simp [Ty.beq]
  | .integer _, b => by cases b <;> simp [Ty.beq]
  | .num, b => by cases b <;> simp [Ty.beq]
  | .bv, b => by cases b <;> simp [Ty.beq]
  | .vector a, b => by cases b <;> simp [Ty.beq, Ty.beq_iff a]
  | .range a, b => by cases b <;> simp [Ty.beq, Ty.beq_iff a]
  | .var _, b => by cases b <;> simp [Ty.beq]
  | .intVar _, b => by cases b <;> simp [Ty.beq]
  | .typeParam _, b => by cases b <;> simp [Ty.beq]
  | .ref a _, b => by cases b <;> simp [Ty.beq, Ty.beq_iff a]
  | .adt _ _ v t, b => by cases b <;> simp [Ty.beq, Ty.beqs_iff v, Ty.beqs_iff t, and_assoc]
  | .callable p r _ _ _ v, b => by cases b <;> simp [Ty.beq, Ty.beqs_iff p, Ty.beq_iff r, Ty.beqs_iff v, and_assoc]
  | .tuple a, b => by cases b <;> simp [Ty.beq, Ty.beqs_iff a]
  | .schema _ _ v t, b => by cases b <;> simp [Ty.beq, Ty.beqs_iff v, Ty.beqs_iff t, and_assoc]
theorem Ty.beqs_iff : ∀ a b : List Ty, Ty.beqs a b = true ↔ a = b
  | [], b => by cases b <;> simp [Ty.beqs]
  | a :: as, b => by cases b <;> simp [Ty.beqs, Ty.beq_iff a, Ty.beqs_iff as]
end

instance : DecidableEq Ty := fun a b => decidable_of_iff _ (Ty.beq_iff a b)

mutual
/-- The number of constructors. -/
def Ty.size : Ty → Nat
  | .vector t => t.size + 1
  | .range t => t.size + 1
  | .ref t _ => t.size + 1
  | .adt _ _ v t => Ty.sizes v + Ty.sizes t + 1
  | .callable p r _ _ _ v => Ty.sizes p + r.size + Ty.sizes v + 1
  | .tuple t => Ty.sizes t + 1
  | .schema _ _ v t => Ty.sizes v + Ty.sizes t + 1
  | _ => 1
def Ty.sizes : List Ty → Nat
  | [] => 0
  | t :: ts => t.size + Ty.sizes ts
end

/-- `TyInfer` (ty_var.rs 14-18). -/
inductive TyInfer where
  | var (v : TyVar)
  | intVar (index : Nat)
deriving DecidableEq, Repr

mutual
/-- The inference variables a visitor meets (`deep_visit_ty_infers`, fold.rs 208-211, with `TyInferVisitor`, 151-169, and
the `deep_visit_with` of the kinds of types), in order. -/
def Ty.infers : Ty → List TyInfer
  | .vector t => t.infers
  | .range t => t.infers
  | .var v => [.var v]
  | .intVar i => [.intVar i]
  | .ref t _ => t.infers
  | .adt _ _ v t => Ty.inferss v ++ Ty.inferss t
  | .callable p r _ _ _ v => Ty.inferss p ++ r.infers ++ Ty.inferss v
  | .tuple t => Ty.inferss t
  | .schema _ _ v t => Ty.inferss v ++ Ty.inferss t
  | _ => []
def Ty.inferss : List Ty → List TyInfer
  | [] => []
  | t :: ts => t.infers ++ Ty.inferss ts
end

/-- Whether it is `Ty::Reference(_)`. -/
def Ty.isRef : Ty → Bool
  | .ref _ _ => true
  | _ => false

/-- `unwrap_all_refs` (ty.rs 206-211). -/
def Ty.unwrapAllRefs : Ty → Ty
  | .ref t _ => t.unwrapAllRefs
  | t => t

/-- `refine_for_specs` (ty.rs 192-204). -/
def Ty.refineForSpecs (t : Ty) (msl : Bool) : Ty :=
  if msl then
    let t := match t with
      | .ref .. => t.unwrapAllRefs
      | _ => t
    match t with
    | .integer _ => .num
    | .intVar _ => .num
    | _ => t
  else t

/-- `single_element_tuple_ty` (ty.rs 168-176). -/
def Ty.singleElement : Ty → Option Ty
  | .tuple [t] => some t
  | _ => none

theorem Ty.size_pos (t : Ty) : 0 < t.size := by cases t <;> simp [Ty.size]

theorem Ty.size_le_of_mem {t : Ty} {ts : List Ty} (h : t ∈ ts) : t.size ≤ Ty.sizes ts := by
  induction ts with
  | nil => cases h
  | cons a as ih =>
    unfold Ty.sizes
    rcases List.mem_cons.1 h with rfl | h
    · omega
    · have := ih h; omega

theorem Ty.mem_inferss {x : TyInfer} {ts : List Ty} : x ∈ Ty.inferss ts ↔ ∃ t ∈ ts, x ∈ t.infers := by
  induction ts with
  | nil => simp [Ty.inferss]
  | cons a as ih => simp [Ty.inferss, ih]

theorem Ty.unwrapAllRefs_size (t : Ty) : t.unwrapAllRefs.size ≤ t.size := by
  fun_induction Ty.unwrapAllRefs t with
  | case1 t m ih => simp only [Ty.size]; omega
  | case2 t h => exact Nat.le_refl _

theorem Ty.unwrapAllRefs_infers (t : Ty) : t.unwrapAllRefs.infers = t.infers := by
  fun_induction Ty.unwrapAllRefs t with
  | case1 t m ih => simpa only [Ty.infers] using ih
  | case2 t h => rfl

theorem Ty.refineForSpecs_size (t : Ty) (msl : Bool) : (t.refineForSpecs msl).size ≤ t.size := by
  unfold Ty.refineForSpecs
  split
  · have h : (match t with | .ref .. => t.unwrapAllRefs | _ => t).size ≤ t.size := by
      split
      · exact Ty.unwrapAllRefs_size _
      · exact Nat.le_refl _
    simp only
    split <;> rename_i h1
    · exact Ty.size_pos _
    · exact Ty.size_pos _
    · exact h
  · exact Nat.le_refl _

end Verif.Types
