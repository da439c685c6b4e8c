import Verif.Types.Combine
import Verif.Types.Tree

/-! C34 (questions have no effects), C38 (auto-borrowing), C39 (abilities). -/

namespace Verif.Types

/-! ### C34 -/

/-- What a computation on the inference context keeps: the stacks of snapshots and the kind of context. -/
def Keeps (c c' : Ctx) : Prop := c'.vars.snapshots = c.vars.snapshots ∧ c'.ints.snapshots = c.ints.snapshots ∧ c'.msl = c.msl

theorem Keeps.refl (c : Ctx) : Keeps c c := ⟨rfl, rfl, rfl⟩

theorem Keeps.trans {a b c : Ctx} (h : Keeps a b) (h' : Keeps b c) : Keeps a c :=
  ⟨h'.1.trans h.1, h'.2.1.trans h.2.1, h'.2.2.trans h.2.2⟩

theorem setVars_keeps {c c' : Ctx} {res r : Option CombineError} {o : Out (Mapping TyVar Ty)} (h : c.setVars res o = .ok (c', r)) :
    Keeps c c' := by
  unfold Ctx.setVars at h
  split at h <;> cases h
  exact ⟨rfl, rfl, rfl⟩

theorem setInts_keeps {c c' : Ctx} {res r : Option CombineError} {o : Out (Mapping Nat Ty)} (h : c.setInts res o = .ok (c', r)) :
    Keeps c c' := by
  unfold Ctx.setInts at h
  split at h <;> cases h
  exact ⟨rfl, rfl, rfl⟩

theorem unifyTyVar_keeps {w : World} {c c' : Ctx} {v : TyVar} {t : Ty} {r : Option CombineError} (h : unifyTyVar w c v t = .ok (c', r)) :
    Keeps c c' := by
  unfold unifyTyVar at h
  simp only at h
  split at h
  · exact setVars_keeps h
  · split at h
    · cases h; exact .refl _
    · split at h
      · split at h
        · exact setVars_keeps h
        · exact setVars_keeps h
        · cases h
        · cases h
      · cases h
      · cases h

theorem unifyIntVar_keeps {c c' : Ctx} {i : Nat} {t : Ty} {r : Option CombineError} (h : unifyIntVar c i t = .ok (c', r)) :
    Keeps c c' := by
  unfold unifyIntVar at h
  split at h
  · exact setInts_keeps h
  · exact setInts_keeps h
  · cases h; exact .refl _
  · cases h; exact .refl _

theorem unifyUnknown_keeps {w : World} {l : List TyInfer} {c c' : Ctx} {r : Option CombineError} (h : unifyUnknown w c l = .ok (c', r)) :
    Keeps c c' := by
  induction l generalizing c with
  | nil => cases h; exact .refl _
  | cons x l ih =>
    cases x with
    | intVar i => exact ih h
    | var v =>
      unfold unifyUnknown at h
      split at h
      · rename_i h1
        exact (unifyTyVar_keeps h1).trans (ih h)
      · cases h
      · cases h

theorem combinePairs_keeps {f : Ctx → Ty → Ty → Combined} (hf : ∀ c a b c' r, f c a b = .ok (c', r) → Keeps c c') {as bs : List Ty}
    {c c' : Ctx} {res r : Option CombineError} (h : combinePairs f c res as bs = .ok (c', r)) : Keeps c c' := by
  induction as generalizing bs c res with
  | nil => unfold combinePairs at h; cases h; exact .refl _
  | cons a as ih =>
    cases bs with
    | nil => unfold combinePairs at h; cases h; exact .refl _
    | cons b bs =>
      unfold combinePairs at h
      split at h
      · rename_i h1
        exact (hf _ _ _ _ _ h1).trans (ih h)
      · cases h
      · cases h

theorem combineCallables_keeps {f : Ctx → Ty → Ty → Combined} (hf : ∀ c a b c' r, f c a b = .ok (c', r) → Keeps c c') {ps ps' : List Ty}
    {t t' : Ty} {c c' : Ctx} {r : Option CombineError} (h : combineCallables f c ps t ps' t' = .ok (c', r)) : Keeps c c' := by
  unfold combineCallables at h
  split at h
  · rename_i h1
    exact (combinePairs_keeps hf h1).trans (hf _ _ _ _ _ h)
  · exact combinePairs_keeps hf h

theorem combineNoVars_keeps {w : World} {f : Ctx → Ty → Ty → Combined} (hf : ∀ c a b c' r, f c a b = .ok (c', r) → Keeps c c')
    {c c' : Ctx} {e a : Ty} {r : Option CombineError} (h : combineNoVars w f c e a = .ok (c', r)) : Keeps c c' := by
  unfold combineNoVars at h
  split at h
  · split at h
    · rename_i h1
      cases h
      exact unifyUnknown_keeps h1
    · exact unifyUnknown_keeps h
  · split at h
    · cases h; exact .refl _
    · split at h
      · cases h; exact .refl _
      · split at h
        · split at h <;> cases h <;> exact .refl _
        · exact hf _ _ _ _ _ h
        · exact hf _ _ _ _ _ h
        · exact hf _ _ _ _ _ h
        · exact hf _ _ _ _ _ h
        · split at h
          · exact hf _ _ _ _ _ h
          · split at h
            · rename_i h1
              cases h
              exact hf _ _ _ _ _ h1
            · exact hf _ _ _ _ _ h
        · split at h
          · exact combineCallables_keeps hf h
          · cases h; exact .refl _
        · exact combineCallables_keeps hf h
        · split at h
          · cases h; exact .refl _
          · exact combinePairs_keeps hf h
        · split at h
          · cases h; exact .refl _
          · exact combinePairs_keeps hf h
        · cases h; exact .refl _

theorem combineDispatch_keeps {w : World} {f : Ctx → Ty → Ty → Combined} (hf : ∀ c a b c' r, f c a b = .ok (c', r) → Keeps c c')
    {c c' : Ctx} {e a : Ty} {r : Option CombineError} (h : combineDispatch w f c e a = .ok (c', r)) : Keeps c c' := by
  unfold combineDispatch at h
  split at h
  · exact unifyTyVar_keeps h
  · exact unifyTyVar_keeps h
  · exact unifyIntVar_keeps h
  · exact unifyIntVar_keeps h
  · exact combineNoVars_keeps hf h

theorem combine_keeps {w : World} {fuel : Nat} {c c' : Ctx} {e a : Ty} {r : Option CombineError} (h : combine w fuel c e a = .ok (c', r)) :
    Keeps c c' := by
  induction fuel generalizing c c' e a r with
  | zero => cases h
  | succ n ih =>
    unfold combine at h
    simp only at h
    split at h
    · exact combineDispatch_keeps (fun c a b c' r h => ih h) h
    · cases h
    · cases h
    · cases h

/-- Freezing around a computation that keeps the stacks restores the context. -/
theorem freeze_restores {α : Type} {f : Ctx → Out (Ctx × α)} {c : Ctx}
    (hf : ∀ c₁ c₂ r, f c₁ = .ok (c₂, r) → Keeps c₁ c₂) {c' : Ctx} {r : α} (h : c.freeze f = .ok (c', r)) : c' = c := by
  unfold Ctx.freeze at h
  split at h
  · rename_i c₂ r₂ h1
    obtain ⟨k1, k2, k3⟩ := hf _ _ _ h1
    simp only [Table.snapshot] at k1 k2 k3
    unfold Table.rollback at h
    rw [k1, k2] at h
    simp only at h
    cases h
    rcases c with ⟨m, ⟨_, _⟩, ⟨_, _⟩⟩
    rcases c₂ with ⟨m', ⟨_, _⟩, ⟨_, _⟩⟩
    simp only at k3
    subst k3
    rfl
  · cases h
  · cases h

/-- Freezing does not panic by itself. -/
theorem freeze_panic {α : Type} {f : Ctx → Out (Ctx × α)} {c : Ctx}
    (hf : ∀ c₁ c₂ r, f c₁ = .ok (c₂, r) → Keeps c₁ c₂) (h : c.freeze f = .panic) :
    f { c with vars := c.vars.snapshot, ints := c.ints.snapshot } = .panic := by
  unfold Ctx.freeze at h
  split at h
  · rename_i c₂ r₂ h1
    obtain ⟨k1, k2, k3⟩ := hf _ _ _ h1
    simp only [Table.snapshot] at k1 k2
    unfold Table.rollback at h
    rw [k1, k2] at h
    cases h
  · assumption
  · cases h

/-- What the inference does with the variables, in any order and nesting: combining types, asking whether types are
compatible, and the two kinds of scopes. -/
inductive Prog where
  | skip
  | seq (p q : Prog)
  | combine (expected actual : Ty)
  | coerce (actual expected : Ty)
  | ask (t into : Ty)
  | askAutoborrow (t into : Ty)
  | freeze (p : Prog)
  | mslScope (p : Prog)

/-- The effect of a program. -/
def Prog.run (w : World) (fuel : Nat) : Prog → Ctx → Out (Ctx × Unit)
  | .skip, c => .ok (c, ())
  | .seq p q, c =>
    match p.run w fuel c with
    | .ok (c', _) => q.run w fuel c'
    | r => r
  | .combine e a, c => match Verif.Types.combine w fuel c e a with | .ok (c', _) => .ok (c', ()) | .panic => .panic | .stop => .stop
  | .coerce a e, c => match coerceTypes w fuel c a e with | .ok (c', _) => .ok (c', ()) | .panic => .panic | .stop => .stop
  | .ask t i, c => match isCompatible w fuel c t i with | .ok (c', _) => .ok (c', ()) | .panic => .panic | .stop => .stop
  | .askAutoborrow t i, c =>
    match isCompatibleAutoborrow w fuel c t i with | .ok (c', _) => .ok (c', ()) | .panic => .panic | .stop => .stop
  | .freeze p, c => c.freeze (p.run w fuel)
  | .mslScope p, c => c.mslScope (p.run w fuel)

theorem isCompatible_eq {w : World} {fuel : Nat} {c c' : Ctx} {t i : Ty} {b : Bool} (h : isCompatible w fuel c t i = .ok (c', b)) :
    c' = c := by
  unfold isCompatible at h
  split at h
  · cases h; rfl
  · refine freeze_restores ?_ h
    intro c₁ c₂ r h1
    split at h1
    · rename_i h2
      cases h1
      exact combine_keeps h2
    · cases h1
    · cases h1

theorem isCompatibleAutoborrow_eq {w : World} {fuel : Nat} {c c' : Ctx} {t i : Ty} {b : Bool}
    (h : isCompatibleAutoborrow w fuel c t i = .ok (c', b)) : c' = c := by
  unfold isCompatibleAutoborrow at h
  split at h
  · cases h; rfl
  · exact isCompatible_eq h

theorem coerceTypes_keeps {w : World} {fuel : Nat} {c c' : Ctx} {a e : Ty} {r : Option CombineError}
    (h : coerceTypes w fuel c a e = .ok (c', r)) : Keeps c c' := by
  unfold coerceTypes at h
  split at h
  · split at h
    · cases h; exact .refl _
    · exact combine_keeps h
  · cases h
  · cases h
  · cases h

theorem mslScope_keeps {α : Type} {f : Ctx → Out (Ctx × α)} (hf : ∀ c₁ c₂ r, f c₁ = .ok (c₂, r) → Keeps c₁ c₂) {c c' : Ctx} {r : α}
    (h : c.mslScope f = .ok (c', r)) : Keeps c c' := by
  unfold Ctx.mslScope at h
  split at h
  · exact hf _ _ _ h
  · rename_i hm
    split at h
    · rename_i h1
      cases h
      rw [freeze_restores hf h1]
      exact ⟨rfl, rfl, by simpa using hm⟩
    · cases h
    · cases h

theorem run_keeps {w : World} {fuel : Nat} (p : Prog) {c c' : Ctx} {u : Unit} (h : p.run w fuel c = .ok (c', u)) : Keeps c c' := by
  induction p generalizing c c' u with
  | skip => cases h; exact .refl _
  | seq p q ih1 ih2 =>
    unfold Prog.run at h
    split at h
    · rename_i h1
      exact (ih1 h1).trans (ih2 h)
    · exact ih1 h
  | combine e a =>
    unfold Prog.run at h
    split at h
    · rename_i h1; cases h; exact combine_keeps h1
    · cases h
    · cases h
  | coerce a e =>
    unfold Prog.run at h
    split at h
    · rename_i h1; cases h; exact coerceTypes_keeps h1
    · cases h
    · cases h
  | ask t i =>
    unfold Prog.run at h
    split at h
    · rename_i h1; cases h; rw [isCompatible_eq h1]; exact .refl _
    · cases h
    · cases h
  | askAutoborrow t i =>
    unfold Prog.run at h
    split at h
    · rename_i h1; cases h; rw [isCompatibleAutoborrow_eq h1]; exact .refl _
    · cases h
    · cases h
  | freeze p ih =>
    unfold Prog.run at h
    rw [freeze_restores (fun _ _ _ h => ih h) h]
    exact .refl _
  | mslScope p ih =>
    unfold Prog.run at h
    exact mslScope_keeps (fun _ _ _ h => ih h) h

/-- **C34 (a question).** Asking whether types are compatible, with or without auto-borrowing, leaves the inference
context exactly as it was, whatever the answer. -/
theorem C34_question (w : World) (fuel : Nat) (c c' : Ctx) (t into : Ty) (b : Bool) :
    (isCompatible w fuel c t into = .ok (c', b) → c' = c) ∧ (isCompatibleAutoborrow w fuel c t into = .ok (c', b) → c' = c) :=
  ⟨isCompatible_eq, isCompatibleAutoborrow_eq⟩

/-- **C34 (nesting).** Anything done inside a frozen scope, with any questions and scopes nested in it, leaves the context
exactly as it was; inside a spec scope of Move code too. -/
theorem C34_nested (w : World) (fuel : Nat) (p : Prog) (c c' : Ctx) (u : Unit) :
    ((Prog.freeze p).run w fuel c = .ok (c', u) → c' = c) ∧ (c.msl = false → (Prog.mslScope p).run w fuel c = .ok (c', u) → c' = c) := by
  refine ⟨fun h => freeze_restores (fun _ _ _ h => run_keeps p h) h, fun hm h => ?_⟩
  unfold Prog.run Ctx.mslScope at h
  rw [if_neg (by simp [hm])] at h
  split at h
  · rename_i h1
    cases h
    rw [freeze_restores (fun _ _ _ h => run_keeps p h) h1]
    rcases c with ⟨m, v, i⟩
    simp only at hm
    subst hm
    rfl
  · cases h
  · cases h

/-- **C34 (the stack of snapshots).** A rollback always finds its snapshot: a frozen scope panics only if what is done inside
panics. -/
theorem C34_rollback_never_panics (w : World) (fuel : Nat) (p : Prog) (c : Ctx) (h : (Prog.freeze p).run w fuel c = .panic) :
    p.run w fuel { c with vars := c.vars.snapshot, ints := c.ints.snapshot } = .panic :=
  freeze_panic (fun _ _ _ h => run_keeps p h) h

/-- A world without declarations. -/
def emptyWorld : World := ⟨fun _ => none, fun _ => none, fun _ _ => none⟩

example :
    let c := Ctx.new false
    let p : Prog := .seq (.ask (.var (.anonymous 1)) .bool) (.combine (.var (.anonymous 1)) (.vector (.var (.anonymous 2))))
    (∃ c', p.run emptyWorld 5 c = .ok (c', ()) ∧ c'.vars.mapping.value (.anonymous 1) = .ok (some (.vector (.var (.anonymous 2))))) ∧
      (Prog.freeze p).run emptyWorld 5 c = .ok (c, ()) := ⟨⟨_, rfl, rfl⟩, rfl⟩

/-! ### C38 -/

/-- The adaptations of a receiver to a `self` parameter that Move permits: what the receiver becomes. -/
inductive Adapts : Ty → Ty → Ty → Prop
  /-- A parameter taken by value gets the receiver as it is. -/
  | byValue {t into} : (∀ u m, into ≠ .ref u m) → Adapts t into t
  /-- A value is borrowed as the parameter wants it. -/
  | borrow {t u m} : (∀ u m, t ≠ .ref u m) → Adapts t (.ref u m) (.ref t m)
  /-- A reference of the same kind. -/
  | same {t u m} : Adapts (.ref t m) (.ref u m) (.ref t m)
  /-- A mutable reference where an immutable one is wanted. -/
  | weaken {t u} : Adapts (.ref t true) (.ref u false) (.ref t false)

/-- **C38.** The receiver is adapted exactly in the permitted cases. -/
theorem C38_autoborrow (t into r : Ty) : autoborrow t into = some r ↔ Adapts t into r := by
  constructor
  · intro h
    unfold autoborrow at h
    split at h
    · split at h
      · split at h <;> cases h
        · exact .same
        · exact .weaken
        · exact .same
      · rename_i hn
        cases h
        exact .borrow fun u m hm => hn u m hm
    · rename_i hn
      cases h
      exact .byValue fun u m hm => hn u m hm
  · intro h
    cases h with
    | byValue hn =>
      unfold autoborrow
      split
      · exact absurd rfl (hn _ _)
      · rfl
    | borrow hn =>
      unfold autoborrow
      simp only
    | @same t u m => cases m <;> rfl
    | weaken => rfl

/-- **C38 (never the other way).** The receiver is refused exactly if it is an immutable reference and the parameter a
mutable one, and the result is a mutable reference only if the receiver is one or was no reference. -/
theorem C38_never_mutable (t into : Ty) :
    (autoborrow t into = none ↔ ∃ a b, t = .ref a false ∧ into = .ref b true) ∧
    (∀ r m, autoborrow t into = some (.ref r m) → (∃ u k, into = .ref u k) →
      (∃ u, into = .ref u m) ∧ (m = true → (∃ a, t = .ref a true) ∨ ∀ a k, t ≠ .ref a k)) := by
  constructor
  · constructor
    · intro h
      unfold autoborrow at h
      split at h
      · split at h
        · split at h <;> cases h
          exact ⟨_, _, rfl, rfl⟩
        · cases h
      · cases h
    · rintro ⟨a, b, rfl, rfl⟩
      rfl
  · intro r m h hi
    obtain ⟨u, k, rfl⟩ := hi
    have := (C38_autoborrow _ _ _).1 h
    cases this with
    | byValue hn => exact absurd rfl (hn _ _)
    | borrow hn => exact ⟨⟨_, rfl⟩, fun _ => .inr hn⟩
    | same => exact ⟨⟨_, rfl⟩, fun hm => by subst hm; exact .inl ⟨_, rfl⟩⟩
    | weaken => exact ⟨⟨_, rfl⟩, fun hm => by cases hm⟩

example : autoborrow (.vector .bool) (.ref (.vector (.typeParam 1)) true) = some (.ref (.vector .bool) true) ∧
    autoborrow (.ref .bool true) (.ref .bool false) = some (.ref .bool false) ∧
    autoborrow (.ref .bool false) (.ref .bool true) = none := ⟨rfl, rfl, rfl⟩

/-! ### C39 -/

/-- What the type arguments need so that a type built from them has an ability. -/
def Ability.needs : Ability → Ability
  | .Key => .Store
  | a => a

/-- The abilities of the language reference: a struct has its declared abilities if all its type arguments have what that
needs; a vector has the abilities of its elements except `key`. `decl` gives the declared abilities, `bnd` the bounds of a
type parameter. -/
inductive Has (decl bnd : Loc → List Ability) : Ability → Ty → Prop
  | bool {a} : a ≠ .Key → Has decl bnd a .bool
  | integer {a k} : a ≠ .Key → Has decl bnd a (.integer k)
  | address {a} : a ≠ .Key → Has decl bnd a .address
  | num {a} : a ≠ .Key → Has decl bnd a .num
  | bv {a} : a ≠ .Key → Has decl bnd a .bv
  | signer : Has decl bnd .Drop .signer
  | unit {a} : a = .Copy ∨ a = .Drop → Has decl bnd a .unit
  | ref {a t m} : a = .Copy ∨ a = .Drop → Has decl bnd a (.ref t m)
  | vector {a t} : a ≠ .Key → Has decl bnd a t → Has decl bnd a (.vector t)
  | typeParam {a p} : a ∈ bnd p → Has decl bnd a (.typeParam p)
  | adt {a l k v args} : a ∈ decl l → (∀ t ∈ args, Has decl bnd a.needs t) → Has decl bnd a (.adt l k v args)

/-- The world in which the declarations are as given. -/
def worldOf (decl bnd : Loc → List Ability) : World := ⟨fun p => some (bnd p), fun l => some (decl l), fun _ _ => none⟩

/-- **C39 (no ability is missed; partial).** Every ability that a type has is found, except for the unit type.
Missing: the unit type (`C39_unit_fails`). -/
theorem C39_complete_partial (decl bnd : Loc → List Ability) (a : Ability) (t : Ty) (hu : t.All fun u => u ≠ .unit)
    (h : Has decl bnd a t) : ∃ l, t.abilities (worldOf decl bnd) = some l ∧ a ∈ l := by
  induction h with
  | bool ha => exact ⟨_, rfl, by cases ‹Ability› <;> simp_all⟩
  | integer ha => exact ⟨_, rfl, by cases ‹Ability› <;> simp_all⟩
  | address ha => exact ⟨_, rfl, by cases ‹Ability› <;> simp_all⟩
  | num ha => exact ⟨_, rfl, by cases ‹Ability› <;> simp_all⟩
  | bv ha => exact ⟨_, rfl, by cases ‹Ability› <;> simp_all⟩
  | signer => exact ⟨_, rfl, by simp⟩
  | unit => exact absurd rfl hu.self
  | ref ha => exact ⟨_, rfl, by rcases ha with rfl | rfl <;> simp⟩
  | vector _ _ ih => exact ih (hu.child (by simp [Ty.children]))
  | typeParam ha => exact ⟨_, rfl, ha⟩
  | adt ha _ => exact ⟨_, rfl, ha⟩

/-- The types for which the computed abilities are exact: no unit type, no vector of a type with `key`, no struct with type
arguments, and none of the types that are not values of Move code. -/
def Exact (decl bnd : Loc → List Ability) : Ty → Prop
  | .bool | .integer _ | .address | .num | .bv | .signer | .ref _ _ | .typeParam _ => True
  | .vector t => Exact decl bnd t ∧ ¬ Has decl bnd .Key t
  | .adt _ _ _ args => args = []
  | _ => False

/-- **C39 (exact; partial).** The abilities computed for a type are those of the language.
Missing: unit, vectors of types with `key`, structs with type arguments; there it is false (`C39_unit_fails`,
`C39_vector_key_fails`, `C39_generic_struct_fails`). -/
theorem C39_exact_partial (decl bnd : Loc → List Ability) (t : Ty) (h : Exact decl bnd t) :
    ∃ l, t.abilities (worldOf decl bnd) = some l ∧ ∀ a, a ∈ l ↔ Has decl bnd a t := by
  induction t using Ty.children_induction with
  | h t ih =>
    cases t with
    | bool => exact ⟨_, rfl, fun a => ⟨fun ha => .bool (by rintro rfl; simp at ha), fun ha => by cases ha; cases a <;> simp_all⟩⟩
    | integer k => exact ⟨_, rfl, fun a => ⟨fun ha => .integer (by rintro rfl; simp at ha), fun ha => by cases ha; cases a <;> simp_all⟩⟩
    | address => exact ⟨_, rfl, fun a => ⟨fun ha => .address (by rintro rfl; simp at ha), fun ha => by cases ha; cases a <;> simp_all⟩⟩
    | num => exact ⟨_, rfl, fun a => ⟨fun ha => .num (by rintro rfl; simp at ha), fun ha => by cases ha; cases a <;> simp_all⟩⟩
    | bv => exact ⟨_, rfl, fun a => ⟨fun ha => .bv (by rintro rfl; simp at ha), fun ha => by cases ha; cases a <;> simp_all⟩⟩
    | signer => exact ⟨_, rfl, fun a => ⟨fun ha => by cases List.mem_singleton.1 ha; exact .signer, fun ha => by cases ha; simp⟩⟩
    | ref u m =>
      exact ⟨_, rfl, fun a => ⟨fun ha => .ref (by cases a <;> simp_all), fun ha => by
        cases ha with | ref ha => rcases ha with rfl | rfl <;> simp⟩⟩
    | typeParam p => exact ⟨_, rfl, fun a => ⟨.typeParam, fun ha => by cases ha; assumption⟩⟩
    | vector u =>
      obtain ⟨l, h1, h2⟩ := ih u (by simp [Ty.children]) h.1
      refine ⟨l, h1, fun a => ⟨fun ha => ?_, fun ha => ?_⟩⟩
      · refine .vector ?_ ((h2 a).1 ha)
        rintro rfl
        exact h.2 ((h2 _).1 ha)
      · cases ha with | vector _ ha => exact (h2 a).2 ha
    | adt l k v args =>
      have : args = [] := h
      subst this
      exact ⟨_, rfl, fun a => ⟨fun ha => .adt ha (by intro t ht; cases ht), fun ha => by cases ha; assumption⟩⟩
    | _ => exact absurd h (by simp [Exact])

example : Exact (fun _ => [.Store, .Copy]) (fun _ => [.Drop]) (.vector (.adt 3 [] [] [])) := by
  refine ⟨rfl, fun h => ?_⟩
  cases h with | adt h _ => simp at h

/-- **C39 fails for the unit type**: it is not found to have `drop`, so passing it where `drop` is required is reported. -/
theorem C39_unit_fails (decl bnd : Loc → List Ability) :
    Has decl bnd .Drop .unit ∧ Ty.unit.abilities (worldOf decl bnd) = some [.Copy, .Copy] ∧ Ability.Drop ∉ [Ability.Copy, .Copy] :=
  ⟨.unit (.inr rfl), rfl, by decide⟩

/-- **C39 fails for vectors of resources**: a vector of a struct with `key` is found to have `key`. -/
theorem C39_vector_key_fails : ∃ (decl bnd : Loc → List Ability) (t : Ty),
    (∃ l, t.abilities (worldOf decl bnd) = some l ∧ .Key ∈ l) ∧ ¬ Has decl bnd .Key t :=
  ⟨fun _ => [.Key], fun _ => [], .vector (.adt 0 [] [] []), ⟨_, rfl, by simp⟩, by intro h; cases h; contradiction⟩

/-- **C39 fails for generic structs**: `S<signer>` is found to have `copy` if `S<T>` declares it, although `signer` has not. -/
theorem C39_generic_struct_fails : ∃ (decl bnd : Loc → List Ability) (t : Ty),
    (∃ l, t.abilities (worldOf decl bnd) = some l ∧ .Copy ∈ l) ∧ ¬ Has decl bnd .Copy t :=
  ⟨fun _ => [.Copy], fun _ => [], .adt 0 [1] [.signer] [.signer], ⟨_, rfl, by simp⟩, by
    intro h
    cases h with | adt _ h => exact nomatch h .signer (by simp)⟩

end Verif.Types
