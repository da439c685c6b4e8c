import Verif.Types.Subst
import Verif.Types.Tree

/-! C37: substitution. -/

namespace Verif.Types

/-! ### Lemmas -/

theorem Ty.substs_eq_map (s : Loc → Option Ty) (ts : List Ty) : Ty.substs s ts = ts.map (Ty.subst s) := by
  induction ts with
  | nil => rfl
  | cons t ts ih => simp [Ty.substs, ih]

theorem Ty.subst_children (s : Loc → Option Ty) {t : Ty} (h : ∀ p, t ≠ .typeParam p) :
    (t.subst s).head = t.head ∧ (t.subst s).children = t.children.map (Ty.subst s) := by
  cases t <;> simp [Ty.subst, Ty.head, Ty.children, Ty.substs_eq_map, Function.comp_def] at h ⊢

/-! ### C37 -/

/-- **C37 (exactly the type parameters).** Every part of the type is still there at the same place: a type parameter became
its value if it has one, and any other part kept its root and its number of components. -/
theorem C37_exact (s : Loc → Option Ty) (t : Ty) (π : List Nat) (u : Ty) (h : t.at π = some u) :
    (∀ p, u = .typeParam p → (t.subst s).at π = some ((s p).getD u)) ∧
    ((∀ p, u ≠ .typeParam p) → ∃ u', (t.subst s).at π = some u' ∧ u'.head = u.head ∧ u'.children.length = u.children.length) := by
  induction π generalizing t with
  | nil =>
    cases h
    refine ⟨?_, fun hp => ⟨_, rfl, (Ty.subst_children s hp).1, by rw [(Ty.subst_children s hp).2, List.length_map]⟩⟩
    rintro p rfl
    rfl
  | cons i π ih =>
    have hp : ∀ p, t ≠ .typeParam p := by
      rintro p rfl
      simp [Ty.at_cons, Ty.children] at h
    rw [Ty.at_cons] at h
    rw [Ty.at_cons, (Ty.subst_children s hp).2, List.getElem?_map]
    cases hc : t.children[i]? with
    | none => rw [hc] at h; cases h
    | some w =>
      rw [hc] at h
      exact ih w h

/-- **C37 (nothing else).** Every part of the result is either at the place of a part of the type, or inside the value of a
type parameter that was replaced. -/
theorem C37_nothing_else (s : Loc → Option Ty) (t : Ty) (π : List Nat) (u' : Ty) (h : (t.subst s).at π = some u') :
    (∃ u, t.at π = some u ∧ u' = u.subst s) ∨
    ∃ π₁ π₂ p v, π = π₁ ++ π₂ ∧ t.at π₁ = some (.typeParam p) ∧ s p = some v ∧ v.at π₂ = some u' := by
  induction π generalizing t with
  | nil =>
    cases h
    exact .inl ⟨t, rfl, rfl⟩
  | cons i π ih =>
    by_cases hp : ∃ p, t = .typeParam p
    · obtain ⟨p, rfl⟩ := hp
      cases hs : s p with
      | none =>
        simp [Ty.subst, hs, Ty.at_cons, Ty.children] at h
      | some v =>
        simp only [Ty.subst, hs, Option.getD_some] at h
        exact .inr ⟨[], i :: π, p, v, rfl, rfl, hs, h⟩
    · have hp : ∀ p, t ≠ .typeParam p := fun p hpt => hp ⟨p, hpt⟩
      rw [Ty.at_cons, (Ty.subst_children s hp).2, List.getElem?_map] at h
      rw [Ty.at_cons]
      cases hc : t.children[i]? with
      | none => rw [hc] at h; cases h
      | some w =>
        rw [hc] at h
        rcases ih w h with ⟨u, hu, rfl⟩ | ⟨π₁, π₂, p, v, rfl, h1, h2, h3⟩
        · exact .inl ⟨u, hu, rfl⟩
        · exact .inr ⟨i :: π₁, π₂, p, v, rfl, by rw [Ty.at_cons, hc]; exact h1, h2, h3⟩

/-- **C37 (only what occurs matters).** Substitutions that agree on the type parameters of the type give the same. -/
theorem C37_depends_on_occurring (s s' : Loc → Option Ty) (t : Ty) (h : ∀ p, t.Occurs p → s p = s' p) : t.subst s = t.subst s' := by
  induction t using Ty.children_induction with
  | h t ih =>
    by_cases hp : ∃ p, t = .typeParam p
    · obtain ⟨p, rfl⟩ := hp
      simp only [Ty.subst, h p ⟨[], rfl⟩]
    · have hp : ∀ p, t ≠ .typeParam p := fun p hpt => hp ⟨p, hpt⟩
      apply Ty.ext_head
      · rw [(Ty.subst_children s hp).1, (Ty.subst_children s' hp).1]
      · rw [(Ty.subst_children s hp).2, (Ty.subst_children s' hp).2]
        apply List.map_congr_left
        intro u hu
        exact ih u hu fun p hpu => h p (Ty.occurs_of_child hu hpu)

theorem Ty.subst_none (t : Ty) : t.subst (fun _ => none) = t := by
  induction t using Ty.children_induction with
  | h t ih =>
    by_cases hp : ∃ p, t = .typeParam p
    · obtain ⟨p, rfl⟩ := hp; rfl
    · have hp : ∀ p, t ≠ .typeParam p := fun p hpt => hp ⟨p, hpt⟩
      apply Ty.ext_head
      · rw [(Ty.subst_children _ hp).1]
      · rw [(Ty.subst_children _ hp).2]
        conv_rhs => rw [← List.map_id t.children]
        exact List.map_congr_left ih

/-- **C37 (identity).** Without values for the type parameters of the type nothing changes. -/
theorem C37_identity (s : Loc → Option Ty) (t : Ty) (h : ∀ p, t.Occurs p → s p = none) : t.subst s = t := by
  rw [C37_depends_on_occurring s (fun _ => none) t h, Ty.subst_none]

/-- **C37 (composition).** Substituting twice is substituting once with the composed values. -/
theorem C37_compose (s s' : Loc → Option Ty) (t : Ty) :
    (t.subst s).subst s' = t.subst fun p => match s p with | some v => some (v.subst s') | none => s' p := by
  induction t using Ty.children_induction with
  | h t ih =>
    by_cases hp : ∃ p, t = .typeParam p
    · obtain ⟨p, rfl⟩ := hp
      simp only [Ty.subst]
      cases s p with
      | none => rfl
      | some v => rfl
    · have hp : ∀ p, t ≠ .typeParam p := fun p hpt => hp ⟨p, hpt⟩
      have hp' : ∀ p, t.subst s ≠ .typeParam p := by
        intro p hpt
        have := (Ty.subst_children s hp).1
        rw [hpt] at this
        cases t <;> simp [Ty.head] at this hp
      apply Ty.ext_head
      · rw [(Ty.subst_children _ hp').1, (Ty.subst_children _ hp).1, (Ty.subst_children _ hp).1]
      · rw [(Ty.subst_children _ hp').2, (Ty.subst_children _ hp).2, (Ty.subst_children _ hp).2, List.map_map]
        exact List.map_congr_left ih

/-- A lookup in a substitution with different keys: the value beside the key. -/
theorem C37_lookup (keys : List Loc) (vals : List Ty) (hn : keys.Nodup) (hl : keys.length = vals.length) (p : Loc) (v : Ty) :
    lookupTy keys vals p = some v ↔ ∃ i : Nat, keys[i]? = some p ∧ vals[i]? = some v := by
  induction keys generalizing vals with
  | nil => simp [lookupTy]
  | cons k ks ih =>
    cases vals with
    | nil => simp at hl
    | cons w ws =>
      simp only [lookupTy]
      rw [List.nodup_cons] at hn
      split
      · rename_i hpk
        subst hpk
        constructor
        · intro h; cases h; exact ⟨0, rfl, rfl⟩
        · rintro ⟨i, h1, h2⟩
          cases i with
          | zero => exact h2
          | succ i =>
            rw [List.getElem?_cons_succ] at h1
            exact absurd (List.mem_of_getElem? h1) hn.1
      · rename_i hpk
        rw [ih ws hn.2 (by simpa using hl)]
        constructor
        · rintro ⟨i, h1, h2⟩; exact ⟨i + 1, h1, h2⟩
        · rintro ⟨i, h1, h2⟩
          cases i with
          | zero => simp at h1; exact absurd h1.symm hpk
          | succ i => exact ⟨i, h1, h2⟩

/-! ### Examples -/

example : (Ty.adt 7 [1, 2] [.typeParam 1, .vector (.typeParam 2)] [.typeParam 1, .vector (.typeParam 2)]).substitute [1, 2]
    [.bool, .ref (.typeParam 1) true] =
    .adt 7 [1, 2] [.bool, .vector (.ref (.typeParam 1) true)] [.bool, .vector (.ref (.typeParam 1) true)] := rfl

example : (Ty.vector (.typeParam 2)).at [0] = some (.typeParam 2) ∧
    ((Ty.vector (.typeParam 2)).substitute [2] [.ref .bool true]).at [0, 0] = some .bool := ⟨rfl, rfl⟩

example : (Ty.tuple [.typeParam 1, .bool]).Occurs 1 := ⟨[0], rfl⟩

end Verif.Types
