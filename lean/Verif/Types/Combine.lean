import Verif.Types.Table
import Verif.Types.Subst

/-! Model of `crates/lang/src/types/inference/combine_types.rs`, of `crates/lang/src/types/abilities.rs`, of
`autoborrow` (ty/reference.rs) and of the variable handling of `crates/lang/src/types/inference.rs` and `fold.rs`.

What the inference asks the database (the declaration behind a location) is the parameter `World`. The recursion of
`combine_types` has no obvious bound, so it is given fuel; `Out.stop` is running out of it. -/

namespace Verif.Types

/-- `Ability` (abilities.rs 15-21). -/
inductive Ability where
  | Key | Store | Copy | Drop
deriving DecidableEq, Repr

/-- `Ability::all` (49-51). -/
def Ability.all : List Ability := [.Store, .Key, .Drop, .Copy]

/-- What is asked of the database. -/
structure World where
  /-- The ability bounds of the type parameter at a location (`origin_type_param` and `ability_bounds`; ty/ty_var.rs 42-47,
  ty/type_param.rs 26-40), with what `Ability::from_ast` (abilities.rs 35-47) does not know left out. -/
  bounds : Loc → Option (List Ability)
  /-- The abilities of the struct or enum at a location (abilities.rs 68-77). -/
  declared : Loc → Option (List Ability)
  /-- The type of the wrapped lambda of the struct at a location (combine_types.rs 265-269) in a Move or spec context: its
  parameters and return type if it is a callable type. The rest of it is not used. -/
  wrapped : Loc → Bool → Option (List Ty × Ty)

/-- `Ty::abilities` (abilities.rs 55-87). -/
def Ty.abilities (w : World) : Ty → Option (List Ability)
  | .bool | .integer _ | .address | .num | .bv => some [.Copy, .Drop, .Store]
  | .intVar _ => some [.Copy, .Drop, .Store]
  | .range _ => some [.Copy, .Drop, .Store]
  | .signer => some [.Drop]
  | .unit => some [.Copy, .Copy]
  | .never => some []
  | .unknown => some Ability.all
  | .adt l _ _ _ => w.declared l
  | .typeParam p => w.bounds p
  | .vector t => t.abilities w
  | .var _ => some Ability.all
  | .ref _ _ => some [.Drop, .Copy]
  | .callable .. => some Ability.all
  | .tuple _ => some Ability.all
  | .schema .. => some Ability.all

/-- `autoborrow` (ty/reference.rs 61-86). -/
def autoborrow (t into : Ty) : Option Ty :=
  match into with
  | .ref _ intoMut =>
    match t with
    | .ref u tMut =>
      match tMut, intoMut with
      | true, true => some (.ref u true)
      | false, true => none
      | true, false => some (.ref u false)
      | false, false => some (.ref u false)
    | _ => some (.ref t intoMut)
  | _ => some t

/-- The part of `InferenceCtx` (inference.rs 52-75) that the modelled functions read and write. -/
structure Ctx where
  msl : Bool
  vars : Table TyVar Ty
  ints : Table Nat Ty
deriving DecidableEq, Repr

/-- `InferenceCtx::new` (inference.rs 78-99). -/
def Ctx.new (msl : Bool) : Ctx := ⟨msl, .new, .new⟩

/-- `CombineError` (combine_types.rs 361-365). -/
inductive CombineError where
  | mismatch (a b : Ty)
  | ability (missing : List Ability)
  | invalidTypeArgument (t : Ty)
deriving DecidableEq, Repr

/-- `CombineResult` (360) with the context after it; `none` is `Ok(())`. -/
abbrev Combined := Out (Ctx × Option CombineError)

/-- `resolve_ty_infer` (inference.rs 250-268). -/
def Ctx.resolveInfer (c : Ctx) : TyInfer → Out Ty
  | .intVar i =>
    match c.ints.mapping.value i with
    | .ok t => .ok (t.getD (.intVar i))
    | .panic => .panic
    | .stop => .stop
  | .var v =>
    match c.vars.mapping.value v with
    | .ok none => .ok (.var v)
    | .ok (some (.intVar i)) =>
      match c.ints.mapping.value i with
      | .ok t => .ok (t.getD (.intVar i))
      | .panic => .panic
      | .stop => .stop
    | .ok (some t) => .ok t
    | .panic => .panic
    | .stop => .stop

/-- `resolve_ty_infer_shallow` (inference.rs 302-308). -/
def Ctx.shallow (c : Ctx) : Ty → Out Ty
  | .var v => c.resolveInfer (.var v)
  | .intVar i => c.resolveInfer (.intVar i)
  | t => .ok t

/-- `ty_contains_ty_var` (combine_types.rs 199-204): the visitor stops at the first variable with that root. -/
def containsVar (m : Mapping TyVar Ty) (root : TyVar) : List TyInfer → Out Bool
  | [] => .ok false
  | .intVar _ :: rest => containsVar m root rest
  | .var v :: rest =>
    match m.root v with
    | .ok r => if r = root then .ok true else containsVar m root rest
    | .panic => .panic
    | .stop => .stop

/-- The mapping after an operation, put back into the context. -/
def Ctx.setVars (c : Ctx) (res : Option CombineError) : Out (Mapping TyVar Ty) → Combined
  | .ok m => .ok ({ c with vars := { c.vars with mapping := m } }, res)
  | .panic => .panic
  | .stop => .stop

/-- The same for the integer variables. -/
def Ctx.setInts (c : Ctx) (res : Option CombineError) : Out (Mapping Nat Ty) → Combined
  | .ok m => .ok ({ c with ints := { c.ints with mapping := m } }, res)
  | .panic => .panic
  | .stop => .stop

/-- The ability check of `unify_ty_var` (159-177). -/
def abilityCheck (w : World) (msl : Bool) (v : TyVar) (t : Ty) : Option CombineError :=
  match (match v with | .withOrigin o _ => w.bounds o | .anonymous _ => none), t.abilities w with
  | some bounds, some have_ =>
    if msl then none
    else
      let missing := bounds.filter fun a => decide (a ∉ have_)
      if missing.isEmpty then none else some (.ability missing)
  | _, _ => none

/-- `unify_ty_var` (158-197). -/
def unifyTyVar (w : World) (c : Ctx) (v : TyVar) (t : Ty) : Combined :=
  let res := abilityCheck w c.msl v t
  match t with
  | .var u => c.setVars res (c.vars.mapping.unifyVarVar v u)
  | _ =>
    if t.isRef && v.hasOrigin then .ok (c, some (.invalidTypeArgument t))
    else
      match c.vars.mapping.root v with
      | .ok r =>
        match containsVar c.vars.mapping r t.infers with
        | .ok true => c.setVars none (c.vars.mapping.unifyVarValue r .unknown)
        | .ok false => c.setVars res (c.vars.mapping.unifyVarValue r t)
        | .panic => .panic
        | .stop => .stop
      | .panic => .panic
      | .stop => .stop

/-- `unify_int_var` (206-223). -/
def unifyIntVar (c : Ctx) (i : Nat) (t : Ty) : Combined :=
  match t with
  | .intVar j => c.setInts none (c.ints.mapping.unifyVarVar i j)
  | .integer _ => c.setInts none (c.ints.mapping.unifyVarValue i t)
  | .unknown => .ok (c, none)
  | _ => .ok (c, some (.mismatch (.intVar i) t))

/-- `unify_ty_vars_with_unknown` (143-156) on the variables that were collected. -/
def unifyUnknown (w : World) (c : Ctx) : List TyInfer → Combined
  | [] => .ok (c, none)
  | .intVar _ :: rest => unifyUnknown w c rest
  | .var v :: rest =>
    match unifyTyVar w c v .unknown with
    | .ok (c', _) => unifyUnknown w c' rest
    | .panic => .panic
    | .stop => .stop

/-- `combine_ty_pairs` (294-301): all pairs are combined, the first error is the result. -/
def combinePairs (f : Ctx → Ty → Ty → Combined) : Ctx → Option CombineError → List Ty → List Ty → Combined
  | c, res, a :: as, b :: bs =>
    match f c a b with
    | .ok (c', r) => combinePairs f c' (match res with | none => r | some e => some e) as bs
    | .panic => .panic
    | .stop => .stop
  | c, res, _, _ => .ok (c, res)

/-- `combine_ty_callables` (243-258). -/
def combineCallables (f : Ctx → Ty → Ty → Combined) (c : Ctx) (params : List Ty) (ret : Ty) (params' : List Ty) (ret' : Ty) : Combined :=
  match combinePairs f c none params params' with
  | .ok (c', none) => f c' ret.unwrapAllRefs ret'.unwrapAllRefs
  | r => r

/-- `combine_no_vars` (95-141) with `combine_ty_refs` (225-241), `combine_new_type_struct_with_lambda` (260-272),
`combine_ty_adts` (274-282) and `combine_ty_tuples` (284-292). -/
def combineNoVars (w : World) (f : Ctx → Ty → Ty → Combined) (c : Ctx) (expected actual : Ty) : Combined :=
  if expected = .unknown ∨ actual = .unknown then
    match unifyUnknown w c (expected.infers ++ actual.infers) with
    | .ok (c', _) => .ok (c', none)
    | r => r
  else if expected = .never ∨ actual = .never then .ok (c, none)
  else if expected = actual then .ok (c, none)
  else
    match expected, actual with
    | .integer a, .integer b =>
      if a = .Integer ∨ b = .Integer then .ok (c, none) else .ok (c, some (.mismatch expected actual))
    | .vector a, .vector b => f c a b
    | .vector a, .range b => f c a b
    | .range a, .vector b => f c a b
    | .range a, .range b => f c a b
    | .ref a am, .ref b bm =>
      if !am || bm then f c a b
      else
        match f c a b with
        | .ok (c', _) => .ok (c', some (.mismatch expected actual))
        | r => r
    | .adt l k v _, .callable params ret _ _ _ _ =>
      match w.wrapped l c.msl with
      | some (ps, r) => combineCallables f c (Ty.substs (lookupTy k v) ps) (r.subst (lookupTy k v)) params ret
      | none => .ok (c, some (.mismatch expected actual))
    | .callable ps r _ _ _ _, .callable params ret _ _ _ _ => combineCallables f c ps r params ret
    | .adt l _ _ as, .adt l' _ _ bs =>
      if l ≠ l' then .ok (c, some (.mismatch expected actual)) else combinePairs f c none as bs
    | .tuple as, .tuple bs =>
      if as.length ≠ bs.length then .ok (c, some (.mismatch expected actual)) else combinePairs f c none as bs
    | _, _ => .ok (c, some (.mismatch expected actual))

/-- The actual type as `combine_types` looks at it (combine_types.rs 74-79): refined, and the element of a tuple of one if
the expected type is no tuple. `expected` is refined already. -/
def prepareActual (msl : Bool) (expected actual : Ty) : Ty :=
  let a := actual.refineForSpecs msl
  match a.singleElement with
  | some inner => match expected with | .tuple _ => a | _ => inner
  | none => a

/-- The dispatch of `combine_types` (84-92). -/
def combineDispatch (w : World) (f : Ctx → Ty → Ty → Combined) (c : Ctx) (e a : Ty) : Combined :=
  match e, a with
  | .var v, a => unifyTyVar w c v a
  | e, .var v => unifyTyVar w c v e
  | .intVar i, a => unifyIntVar c i a
  | e, .intVar i => unifyIntVar c i e
  | e, a => combineNoVars w f c e a

/-- `combine_types` (71-93). -/
def combine (w : World) : Nat → Ctx → Ty → Ty → Combined
  | 0, _, _, _ => .stop
  | fuel + 1, c, expected, actual =>
    let expected := expected.refineForSpecs c.msl
    let actual := prepareActual c.msl expected actual
    match c.shallow expected, c.shallow actual with
    | .ok e, .ok a => combineDispatch w (combine w fuel) c e a
    | .panic, _ => .panic
    | _, .panic => .panic
    | _, _ => .stop

/-- `freeze` (inference.rs 310-317). -/
def Ctx.freeze {α : Type} (c : Ctx) (f : Ctx → Out (Ctx × α)) : Out (Ctx × α) :=
  match f { c with vars := c.vars.snapshot, ints := c.ints.snapshot } with
  | .ok (c', r) =>
    match c'.vars.rollback, c'.ints.rollback with
    | .ok v, .ok i => .ok ({ c' with vars := v, ints := i }, r)
    | _, _ => .panic
  | .panic => .panic
  | .stop => .stop

/-- `msl_scope` (inference.rs 319-327). -/
def Ctx.mslScope {α : Type} (c : Ctx) (f : Ctx → Out (Ctx × α)) : Out (Ctx × α) :=
  if c.msl then f c
  else
    match ({ c with msl := true } : Ctx).freeze f with
    | .ok (c', r) => .ok ({ c' with msl := false }, r)
    | .panic => .panic
    | .stop => .stop

/-- `is_tys_compatible` (combine_types.rs 24-30). -/
def isCompatible (w : World) (fuel : Nat) (c : Ctx) (t into : Ty) : Out (Ctx × Bool) :=
  if into = .tuple [] then .ok (c, true)
  else c.freeze fun c =>
    match combine w fuel c t into with
    | .ok (c', r) => .ok (c', r.isNone)
    | .panic => .panic
    | .stop => .stop

/-- `is_tys_compatible_with_autoborrow` (ty/reference.rs 53-58). -/
def isCompatibleAutoborrow (w : World) (fuel : Nat) (c : Ctx) (t into : Ty) : Out (Ctx × Bool) :=
  match autoborrow t into with
  | none => .ok (c, false)
  | some t => isCompatible w fuel c t into

/-- A function on the types of a list that may fail. -/
def mapOut (f : Ty → Out Ty) : List Ty → Out (List Ty)
  | [] => .ok []
  | t :: ts =>
    match f t, mapOut f ts with
    | .ok t', .ok ts' => .ok (t' :: ts')
    | .panic, _ => .panic
    | .ok _, .panic => .panic
    | _, _ => .stop

/-- `deep_fold_with` of a type (ty.rs 231-241 and the kinds of types) with a function that may fail. -/
def foldDeep (g : Ty → Out Ty) : Ty → Out Ty
  | .vector t => match g t with | .ok t => .ok (.vector t) | r => r
  | .range t => match g t with | .ok t => .ok (.range t) | r => r
  | .ref t m => match g t with | .ok t => .ok (.ref t m) | r => r
  | .adt l k v t =>
    match mapOut g v, mapOut g t with
    | .ok v, .ok t => .ok (.adt l k v t)
    | .panic, _ => .panic
    | .ok _, .panic => .panic
    | _, _ => .stop
  | .callable p r kind l k v =>
    match mapOut g p, g r, mapOut g v with
    | .ok p, .ok r, .ok v => .ok (.callable p r kind l k v)
    | .panic, _, _ => .panic
    | .ok _, .panic, _ => .panic
    | .ok _, .ok _, .panic => .panic
    | _, _, _ => .stop
  | .tuple t => match mapOut g t with | .ok t => .ok (.tuple t) | .panic => .panic | .stop => .stop
  | .schema l k v t =>
    match mapOut g v, mapOut g t with
    | .ok v, .ok t => .ok (.schema l k v t)
    | .panic, _ => .panic
    | .ok _, .panic => .panic
    | _, _ => .stop
  | t => .ok t

/-- `resolve_ty_vars_if_possible` (inference.rs 290-292): `fold_ty` of `TyVarResolver` (fold.rs 70-78). A variable is replaced
by its value and the value is folded as well. -/
def Ctx.resolve (c : Ctx) : Nat → Ty → Out Ty
  | 0, _ => .stop
  | fuel + 1, t =>
    match c.shallow t with
    | .ok t => foldDeep (Ctx.resolve c fuel) t
    | r => r

/-- `coerce_types` (combine_types.rs 32-46); the report of the error is the error itself. -/
def coerceTypes (w : World) (fuel : Nat) (c : Ctx) (actual expected : Ty) : Out (Ctx × Option CombineError) :=
  match c.resolve fuel actual, c.resolve fuel expected with
  | .ok a, .ok e => if a = e then .ok (c, none) else combine w fuel c e a
  | .panic, _ => .panic
  | .ok _, .panic => .panic
  | _, _ => .stop

end Verif.Types
