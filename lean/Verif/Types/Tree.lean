import Verif.Types.Ty

/-! Types as trees: paths to the parts of a type. Used to state properties. -/

namespace Verif.Types

/-! `Ty.head` is the root of a type without its components, `Ty.children` are the components. A type is determined by the two,
and a path (a list of numbers of components) leads to a part of it. -/

/-- The root of a type. -/
def Ty.head : Ty → Ty
  | .vector _ => .vector .unknown
  | .range _ => .range .unknown
  | .ref _ m => .ref .unknown m
  | .adt l k v _ => .adt l k (v.map fun _ => .unknown) []
  | .callable p _ c l k v => .callable (p.map fun _ => .unknown) .unknown c l k (v.map fun _ => .unknown)
  | .tuple _ => .tuple []
  | .schema l k v _ => .schema l k (v.map fun _ => .unknown) []
  | t => t

/-- The components of a type. -/
def Ty.children : Ty → List Ty
  | .vector t => [t]
  | .range t => [t]
  | .ref t _ => [t]
  | .adt _ _ v t => v ++ t
  | .callable p r _ _ _ v => p ++ r :: v
  | .tuple t => t
  | .schema _ _ v t => v ++ t
  | _ => []

/-- The part of a type that a path leads to. -/
def Ty.at (t : Ty) : List Nat → Option Ty
  | [] => some t
  | i :: π => (t.children[i]?).bind fun u => Ty.at u π

/-- The type parameters of a type. -/
def Ty.Occurs (p : Loc) (t : Ty) : Prop := ∃ π, t.at π = some (.typeParam p)

theorem map_unknown_inj {a b : List Ty} (h : (a.map fun _ => Ty.unknown) = b.map fun _ => Ty.unknown) : a.length = b.length := by
  have := congrArg List.length h
  simpa using this

/-- Head and components determine a type. -/
theorem Ty.ext_head {a b : Ty} (hh : a.head = b.head) (hc : a.children = b.children) : a = b := by
  cases a <;> cases b <;> simp only [Ty.head, Ty.children, Ty.vector.injEq, Ty.range.injEq, Ty.ref.injEq, Ty.adt.injEq,
    Ty.callable.injEq, Ty.tuple.injEq, Ty.schema.injEq, reduceCtorEq, true_and, and_true, List.cons.injEq] at hh hc ⊢ <;>
    first
    | exact hh
    | exact hc
    | (obtain ⟨rfl, rfl, h⟩ := hh
       have := List.append_inj hc (map_unknown_inj h)
       exact ⟨rfl, rfl, this.1, this.2⟩)
    | (obtain ⟨h1, rfl, rfl, rfl, h2⟩ := hh
       have h3 := List.append_inj hc (map_unknown_inj h1)
       have h4 := List.cons.inj h3.2
       exact ⟨h3.1, h4.1, rfl, rfl, rfl, h4.2⟩)
    | exact ⟨hc, hh⟩

/-- Induction over types by their components. -/
theorem Ty.size_children {t u : Ty} (h : u ∈ t.children) : u.size < t.size := by
  cases t <;> simp only [Ty.children, List.mem_cons, List.mem_append, List.not_mem_nil, or_false] at h <;>
    simp only [Ty.size] <;> first
    | (subst h; omega)
    | (have := Ty.size_le_of_mem h; omega)
    | (rcases h with h | h
       · have := Ty.size_le_of_mem h; omega
       · have := Ty.size_le_of_mem h; omega)
    | (rcases h with h | rfl | h
       · have := Ty.size_le_of_mem h; omega
       · omega
       · have := Ty.size_le_of_mem h; omega)

theorem Ty.children_induction {P : Ty → Prop} (h : ∀ t, (∀ u ∈ t.children, P u) → P t) (t : Ty) : P t := by
  have : ∀ n, ∀ t : Ty, t.size ≤ n → P t := by
    intro n
    induction n with
    | zero => intro t ht; have := t.size_pos; omega
    | succ n ih =>
      intro t ht
      exact h t fun u hu => ih u (by have := Ty.size_children hu; omega)
  exact this _ t (Nat.le_refl _)

theorem Ty.at_cons (t : Ty) (i : Nat) (π : List Nat) : t.at (i :: π) = (t.children[i]?).bind fun u => u.at π := rfl

theorem Ty.at_append (t : Ty) (π ρ : List Nat) : t.at (π ++ ρ) = (t.at π).bind fun u => u.at ρ := by
  induction π generalizing t with
  | nil => rfl
  | cons i π ih =>
    rw [List.cons_append, Ty.at_cons, Ty.at_cons]
    cases t.children[i]? with
    | none => rfl
    | some u => exact ih u

theorem Ty.at_typeParam (p : Loc) {π : List Nat} {u : Ty} (h : (Ty.typeParam p).at π = some u) : π = [] ∧ u = .typeParam p := by
  cases π with
  | nil => cases h; exact ⟨rfl, rfl⟩
  | cons i π => simp [Ty.at_cons, Ty.children] at h

theorem Ty.occurs_of_child {p : Loc} {t u : Ty} (hu : u ∈ t.children) (h : u.Occurs p) : t.Occurs p := by
  obtain ⟨π, hπ⟩ := h
  obtain ⟨i, hi, rfl⟩ := List.getElem_of_mem hu
  exact ⟨i :: π, by rw [Ty.at_cons, List.getElem?_eq_getElem hi]; exact hπ⟩


/-- Every part of a type has the property. -/
def Ty.All (Q : Ty → Prop) (t : Ty) : Prop := ∀ π u, t.at π = some u → Q u

theorem Ty.All.self {Q : Ty → Prop} {t : Ty} (h : t.All Q) : Q t := h [] t rfl

theorem Ty.All.child {Q : Ty → Prop} {t u : Ty} (h : t.All Q) (hu : u ∈ t.children) : u.All Q := by
  obtain ⟨i, hi, rfl⟩ := List.getElem_of_mem hu
  intro π v hv
  exact h (i :: π) v (by rw [Ty.at_cons, List.getElem?_eq_getElem hi]; exact hv)

theorem Ty.All.mono {Q Q' : Ty → Prop} (hQ : ∀ t, Q t → Q' t) {t : Ty} (h : t.All Q) : t.All Q' :=
  fun π u hu => hQ u (h π u hu)

theorem Ty.All.intro {Q : Ty → Prop} {t : Ty} (h : Q t) (hc : ∀ u ∈ t.children, u.All Q) : t.All Q := by
  intro π v hv
  cases π with
  | nil => cases hv; exact h
  | cons i π =>
    rw [Ty.at_cons] at hv
    cases hi : t.children[i]? with
    | none => rw [hi] at hv; cases hv
    | some u => rw [hi] at hv; exact hc u (List.mem_of_getElem? hi) π v hv

/-- The variables of a type are those of its components. -/
theorem Ty.mem_infers {x : TyInfer} {t : Ty} :
    x ∈ t.infers ↔ t = (match x with | .var v => .var v | .intVar i => .intVar i) ∨ ∃ u ∈ t.children, x ∈ u.infers := by
  cases t <;> simp only [Ty.infers, Ty.children, List.mem_append, Ty.mem_inferss, List.mem_cons, List.not_mem_nil, or_false,
    exists_eq_left, false_and, exists_false] <;> cases x <;> simp [or_and_right, exists_or, or_assoc, eq_comm]

theorem Ty.All.infers {t : Ty} (h : t.All fun u => ∀ v, u ≠ .var v) (v : TyVar) : TyInfer.var v ∉ t.infers := by
  induction t using Ty.children_induction with
  | h t ih =>
    intro hm
    rcases Ty.mem_infers.1 hm with h1 | ⟨u, hu, h1⟩
    · exact h.self v h1
    · exact ih u hu (h.child hu) h1

theorem Ty.All.unwrapAllRefs {Q : Ty → Prop} {t : Ty} (h : t.All Q) : t.unwrapAllRefs.All Q := by
  fun_induction Ty.unwrapAllRefs t with
  | case1 t m ih => exact ih (h.child (by simp [Ty.children]))
  | case2 t _ => exact h

theorem Ty.All.refine {Q : Ty → Prop} (hn : Q .num) {t : Ty} (h : t.All Q) (msl : Bool) : (t.refineForSpecs msl).All Q := by
  have hnum : Ty.num.All Q := .intro hn (by intro u hu; simp [Ty.children] at hu)
  unfold Ty.refineForSpecs
  split
  · have h1 : (match t with | .ref .. => t.unwrapAllRefs | _ => t).All Q := by
      split
      · exact h.unwrapAllRefs
      · exact h
    simp only
    split
    · exact hnum
    · exact hnum
    · exact h1
  · exact h

end Verif.Types
