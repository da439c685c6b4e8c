import Mathlib.Data.List.Basic

/-! Model of `crates/lang/src/types/unification.rs`: `UnificationTable`, for any type of variables and any type of values.

The hash map is the list of its insertions, the latest first. -/

namespace Verif.Types

/-- The result of a computation: a value, a panic, or (for loops and recursion without an obvious bound) no result within
the fuel. -/
inductive Out (α : Type) where
  | ok (a : α)
  | panic
  | stop
deriving DecidableEq, Repr

/-- `TableValue` (unification.rs 12-16). -/
inductive Entry (Var Val : Type) where
  | var (v : Var)
  | value (t : Option Val)
deriving DecidableEq, Repr

/-- The field `mapping` (20). -/
abbrev Mapping (Var Val : Type) := List (Var × Entry Var Val)

/-- `UnificationTable` (18-22). -/
structure Table (Var Val : Type) where
  mapping : Mapping Var Val
  snapshots : List (Mapping Var Val)
deriving DecidableEq, Repr

section
variable {Var Val : Type} [DecidableEq Var] [DecidableEq Val]

/-- `HashMap::get`. -/
def Mapping.get : Mapping Var Val → Var → Option (Entry Var Val)
  | [], _ => none
  | (w, e) :: m, v => if v = w then some e else Mapping.get m v

/-- `HashMap::insert`. -/
def Mapping.insert (m : Mapping Var Val) (v : Var) (e : Entry Var Val) : Mapping Var Val := (v, e) :: m

/-- `UnificationTable::new` (25-30). -/
def Table.new : Table Var Val := ⟨[], []⟩

/-- The loop of `resolve_to_root_var` (71-77), at most `fuel` steps. -/
def Mapping.rootN (m : Mapping Var Val) : Nat → Var → Out Var
  | 0, _ => .stop
  | fuel + 1, v =>
    match m.get v with
    | some (.var w) => Mapping.rootN m fuel w
    | _ => .ok v

/-- `resolve_to_root_var` (71-77). A chain of more links than there were insertions is a cycle. -/
def Mapping.root (m : Mapping Var Val) (v : Var) : Out Var := m.rootN (m.length + 1) v

/-- The value at a root (81-84). -/
def Mapping.valueAt (m : Mapping Var Val) (r : Var) : Option Val :=
  match m.get r with
  | some (.value t) => t
  | _ => none

/-- `resolve_to_ty_value` (79-85). -/
def Mapping.value (m : Mapping Var Val) (v : Var) : Out (Option Val) :=
  match m.root v with
  | .ok r => .ok (m.valueAt r)
  | .panic => .panic
  | .stop => .stop

/-- The value of the new class (44-52). -/
def joinValues : Option Val → Option Val → Out (Option Val)
  | some a, some b => if a = b then .ok (some a) else .panic
  | some a, none => .ok (some a)
  | none, b => .ok b

/-- `unify_var_var` (32-57). -/
def Mapping.unifyVarVar (m : Mapping Var Val) (left right : Var) : Out (Mapping Var Val) :=
  match m.root left, m.root right with
  | .ok l, .ok r =>
    if l = r then .ok m
    else match m.value l, m.value r with
      | .ok a, .ok b =>
        match joinValues a b with
        | .ok c => .ok ((m.insert l (.var r)).insert r (.value c))
        | .panic => .panic
        | .stop => .stop
      | _, _ => .stop
  | _, _ => .stop

/-- `unify_var_value` (59-69). -/
def Mapping.unifyVarValue (m : Mapping Var Val) (v : Var) (t : Val) : Out (Mapping Var Val) :=
  match m.value v with
  | .ok (some old) => if old = t then .ok m else .panic
  | .ok none =>
    match m.root v with
    | .ok r => .ok (m.insert r (.value (some t)))
    | _ => .stop
  | _ => .stop

/-- `snapshot` (87-89). -/
def Table.snapshot (t : Table Var Val) : Table Var Val := ⟨t.mapping, t.mapping :: t.snapshots⟩

/-- `rollback` (91-94). -/
def Table.rollback (t : Table Var Val) : Out (Table Var Val) :=
  match t.snapshots with
  | [] => .panic
  | s :: ss => .ok ⟨s, ss⟩

end
end Verif.Types
