import Verif.Types.Ty

/-! Model of `crates/lang/src/types/substitution.rs` (`Substitution`, `SubstitutionApplier`) and of the `deep_fold_with` of
the kinds of types. -/

namespace Verif.Types

/-- `Substitution::get_ty` (substitution.rs 22-24): the keys are different, so the first is the one. -/
def lookupTy : List Loc → List Ty → Loc → Option Ty
  | k :: ks, v :: vs, p => if p = k then some v else lookupTy ks vs p
  | _, _, _ => none

mutual
/-- `substitute` (substitution.rs 70-76): `fold_ty` of `SubstitutionApplier` (61-68) with `Ty::deep_fold_with` (ty.rs
231-241) and those of `TyAdt` (ty/adt.rs 48-54), `TyReference` (ty/reference.rs 42-44), `TyCallable` and `TyCallableKind`
(ty/ty_callable.rs 77-102), `TySequence`, `TyTuple`, `TySchema` and `Substitution` (substitution.rs 36-43). The keys of a
substitution inside a type are not touched. The substitution is given by its `get_ty`. -/
def Ty.subst (s : Loc → Option Ty) : Ty → Ty
  | .vector t => .vector (t.subst s)
  | .range t => .range (t.subst s)
  | .typeParam p => (s p).getD (.typeParam p)
  | .ref t m => .ref (t.subst s) m
  | .adt l k v t => .adt l k (Ty.substs s v) (Ty.substs s t)
  | .callable p r c l k v => .callable (Ty.substs s p) (r.subst s) c l k (Ty.substs s v)
  | .tuple t => .tuple (Ty.substs s t)
  | .schema l k v t => .schema l k (Ty.substs s v) (Ty.substs s t)
  | .unknown => .unknown
  | .never => .never
  | .unit => .unit
  | .bool => .bool
  | .signer => .signer
  | .address => .address
  | .integer k => .integer k
  | .num => .num
  | .bv => .bv
  | .var v => .var v
  | .intVar i => .intVar i
/-- `fold_tys` (fold.rs 41-43). -/
def Ty.substs (s : Loc → Option Ty) : List Ty → List Ty
  | [] => []
  | t :: ts => t.subst s :: Ty.substs s ts
end

/-- `substitute` with a `Substitution` given by its keys and values. -/
def Ty.substitute (t : Ty) (keys : List Loc) (vals : List Ty) : Ty := t.subst (lookupTy keys vals)

end Verif.Types
