import Verif.Types.CombineProps
import Verif.Types.Props

/-! C35: more fuel does not change a result; resolving terminates; sequences of checks. -/

namespace Verif.Types

/-! ### More fuel -/

/-- The second gives every result that the first gives. -/
def Extends (f g : Ctx → Ty → Ty → Combined) : Prop := ∀ c a b x, f c a b = .ok x → g c a b = .ok x

theorem Extends.pairs {f g : Ctx → Ty → Ty → Combined} (h : Extends f g) {as bs : List Ty} {c : Ctx} {res : Option CombineError}
    {x : Ctx × Option CombineError} (hx : combinePairs f c res as bs = .ok x) : combinePairs g c res as bs = .ok x := by
  induction as generalizing bs c res with
  | nil => unfold combinePairs at hx ⊢; exact hx
  | cons a as ih =>
    cases bs with
    | nil => unfold combinePairs at hx ⊢; exact hx
    | cons b bs =>
      unfold combinePairs at hx ⊢
      split at hx
      · rename_i h1
        rw [h _ _ _ _ h1]
        exact ih hx
      · cases hx
      · cases hx

theorem Extends.callables {f g : Ctx → Ty → Ty → Combined} (h : Extends f g) {ps ps' : List Ty} {r r' : Ty} {c : Ctx}
    {x : Ctx × Option CombineError} (hx : combineCallables f c ps r ps' r' = .ok x) : combineCallables g c ps r ps' r' = .ok x := by
  unfold combineCallables at hx ⊢
  split at hx
  · rename_i h1
    rw [h.pairs h1]
    exact h _ _ _ _ hx
  · rename_i h1
    rw [h.pairs hx]
    obtain ⟨c', r1⟩ := x
    cases r1 with
    | none => exact absurd hx (h1 c')
    | some e => rfl

theorem Extends.noVars {f g : Ctx → Ty → Ty → Combined} (h : Extends f g) {w : World} {c : Ctx} {e a : Ty}
    {x : Ctx × Option CombineError} (hx : combineNoVars w f c e a = .ok x) : combineNoVars w g c e a = .ok x := by
  unfold combineNoVars at hx ⊢
  split at hx
  · rename_i h1
    rw [if_pos h1]
    exact hx
  · rename_i h1
    rw [if_neg h1]
    split at hx
    · rename_i h2
      rw [if_pos h2]
      exact hx
    · rename_i h2
      rw [if_neg h2]
      split at hx
      · rename_i h3
        rw [if_pos h3]
        exact hx
      · rename_i h3
        rw [if_neg h3]
        split at hx
        · exact hx
        · exact h _ _ _ _ hx
        · exact h _ _ _ _ hx
        · exact h _ _ _ _ hx
        · exact h _ _ _ _ hx
        · split at hx
          · rename_i h4
            simp only [h4, if_true]
            exact h _ _ _ _ hx
          · rename_i h4
            simp only [h4]
            split at hx
            · rename_i h5
              simp only [h _ _ _ _ h5]
              exact hx
            · rename_i h5
              obtain ⟨c', r⟩ := x
              exact absurd hx (h5 c' r)
        · split at hx
          · rename_i h4
            exact h.callables hx
          · rename_i h4
            exact hx
        · exact h.callables hx
        · split at hx
          · rename_i h4
            simp only [if_pos h4]
            exact hx
          · rename_i h4
            simp only [if_neg h4]
            exact h.pairs hx
        · split at hx
          · rename_i h4
            simp only [if_pos h4]
            exact hx
          · rename_i h4
            simp only [if_neg h4]
            exact h.pairs hx
        · rename_i n1 n2 n3 n4 n5 n6 n7 n8 n9 n10
          exact hx

theorem Extends.dispatch {f g : Ctx → Ty → Ty → Combined} (h : Extends f g) {w : World} {c : Ctx} {e a : Ty}
    {x : Ctx × Option CombineError} (hx : combineDispatch w f c e a = .ok x) : combineDispatch w g c e a = .ok x := by
  unfold combineDispatch at hx ⊢
  split at hx
  · exact hx
  · exact hx
  · exact hx
  · exact hx
  · exact h.noVars hx

theorem combine_extends (w : World) (n : Nat) : Extends (combine w n) (combine w (n + 1)) := by
  induction n with
  | zero => intro c a b x h; cases h
  | succ n ih =>
    intro c e a x h
    unfold combine at h ⊢
    simp only at h ⊢
    split at h
    · exact ih.dispatch h
    · cases h
    · cases h
    · cases h

/-- More fuel does not change a result. -/
theorem combine_mono {w : World} {n m : Nat} (h : n ≤ m) {c : Ctx} {e a : Ty} {x : Ctx × Option CombineError}
    (hx : combine w n c e a = .ok x) : combine w m c e a = .ok x := by
  induction h with
  | refl => exact hx
  | step _ ih => exact combine_extends w _ _ _ _ _ ih

/-! ### Resolving -/

/-- For all sufficiently large fuel the result is the same type, with the property. -/
def Settles (g : Nat → Ty → Out Ty) (R : Ty → Prop) (t : Ty) : Prop := ∃ n t', (∀ fuel ≥ n, g fuel t = .ok t') ∧ R t'

theorem mapOut_settles {g : Nat → Ty → Out Ty} {R : Ty → Prop} {ts : List Ty} (h : ∀ t ∈ ts, Settles g R t) :
    ∃ n ts', (∀ fuel ≥ n, mapOut (g fuel) ts = .ok ts') ∧ (∀ t ∈ ts', R t) ∧ ts'.length = ts.length := by
  induction ts with
  | nil => exact ⟨0, [], fun _ _ => rfl, by simp, rfl⟩
  | cons t ts ih =>
    obtain ⟨n1, t', h1, h2⟩ := h t (by simp)
    obtain ⟨n2, ts', h3, h4, h5⟩ := ih fun u hu => h u (by simp [hu])
    refine ⟨max n1 n2, t' :: ts', fun fuel hf => ?_, ?_, by simp [h5]⟩
    · unfold mapOut
      rw [h1 fuel (by omega), h3 fuel (by omega)]
    · intro u hu
      rcases List.mem_cons.1 hu with rfl | hu
      · exact h2
      · exact h4 u hu

/-- If the components settle, the type does: with the same root, and components with the property. -/
theorem foldDeep_settles {g : Nat → Ty → Out Ty} {R : Ty → Prop} {t : Ty} (h : ∀ u ∈ t.children, Settles g R u) :
    ∃ n t', (∀ fuel ≥ n, foldDeep (g fuel) t = .ok t') ∧ t'.head = t.head ∧ ∀ u ∈ t'.children, R u := by
  have hmap : ∀ (a b : List Ty), a.length = b.length → (a.map fun _ => Ty.unknown) = b.map fun _ => Ty.unknown := by
    intro a b hab
    rw [List.map_const', List.map_const', hab]
  cases t with
  | vector t =>
    obtain ⟨n, t', h1, h2⟩ := h t (by simp [Ty.children])
    exact ⟨n, .vector t', fun fuel hf => by simp only [foldDeep, h1 fuel hf], rfl, by simpa [Ty.children] using h2⟩
  | range t =>
    obtain ⟨n, t', h1, h2⟩ := h t (by simp [Ty.children])
    exact ⟨n, .range t', fun fuel hf => by simp only [foldDeep, h1 fuel hf], rfl, by simpa [Ty.children] using h2⟩
  | ref t m =>
    obtain ⟨n, t', h1, h2⟩ := h t (by simp [Ty.children])
    exact ⟨n, .ref t' m, fun fuel hf => by simp only [foldDeep, h1 fuel hf], rfl, by simpa [Ty.children] using h2⟩
  | adt l k v t =>
    obtain ⟨n1, v', h1, h2, h3⟩ := mapOut_settles (ts := v) fun u hu => h u (by simp [Ty.children, hu])
    obtain ⟨n2, t', h4, h5, h6⟩ := mapOut_settles (ts := t) fun u hu => h u (by simp [Ty.children, hu])
    refine ⟨max n1 n2, .adt l k v' t', fun fuel hf => by simp only [foldDeep, h1 fuel (by omega), h4 fuel (by omega)], ?_, ?_⟩
    · simp only [Ty.head, hmap _ _ h3]
    · intro u hu
      rcases List.mem_append.1 hu with hu | hu
      · exact h2 u hu
      · exact h5 u hu
  | callable p r c l k v =>
    obtain ⟨n1, p', h1, h2, h3⟩ := mapOut_settles (ts := p) fun u hu => h u (by simp [Ty.children, hu])
    obtain ⟨n2, v', h4, h5, h6⟩ := mapOut_settles (ts := v) fun u hu => h u (by simp [Ty.children, hu])
    obtain ⟨n3, r', h7, h8⟩ := h r (by simp [Ty.children])
    refine ⟨max n1 (max n2 n3), .callable p' r' c l k v', fun fuel hf => by
      simp only [foldDeep, h1 fuel (by omega), h4 fuel (by omega), h7 fuel (by omega)], ?_, ?_⟩
    · simp only [Ty.head, hmap _ _ h3, hmap _ _ h6]
    · intro u hu
      simp only [Ty.children, List.mem_append, List.mem_cons] at hu
      rcases hu with hu | rfl | hu
      · exact h2 u hu
      · exact h8
      · exact h5 u hu
  | tuple t =>
    obtain ⟨n2, t', h4, h5, h6⟩ := mapOut_settles (ts := t) fun u hu => h u (by simp [Ty.children, hu])
    exact ⟨n2, .tuple t', fun fuel hf => by simp only [foldDeep, h4 fuel hf], rfl, h5⟩
  | schema l k v t =>
    obtain ⟨n1, v', h1, h2, h3⟩ := mapOut_settles (ts := v) fun u hu => h u (by simp [Ty.children, hu])
    obtain ⟨n2, t', h4, h5, h6⟩ := mapOut_settles (ts := t) fun u hu => h u (by simp [Ty.children, hu])
    refine ⟨max n1 n2, .schema l k v' t', fun fuel hf => by simp only [foldDeep, h1 fuel (by omega), h4 fuel (by omega)], ?_, ?_⟩
    · simp only [Ty.head, hmap _ _ h3]
    · intro u hu
      rcases List.mem_append.1 hu with hu | hu
      · exact h2 u hu
      · exact h5 u hu
  | _ => exact ⟨0, _, fun _ _ => rfl, rfl, by simp [Ty.children]⟩

theorem resolve_of_shallow {c : Ctx} {t x : Ty} (h : c.shallow t = .ok x) {R : Ty → Prop} (hx : ∀ u ∈ x.children, Settles c.resolve R u) :
    ∃ n t', (∀ fuel ≥ n, c.resolve fuel t = .ok t') ∧ t'.head = x.head ∧ ∀ u ∈ t'.children, R u := by
  obtain ⟨n, t', h1, h2, h3⟩ := foldDeep_settles hx
  refine ⟨n + 1, t', fun fuel hf => ?_, h2, h3⟩
  obtain ⟨f, rfl⟩ : ∃ f, fuel = f + 1 := ⟨fuel - 1, by omega⟩
  unfold Ctx.resolve
  rw [h]
  exact h1 f (by omega)

/-- Resolving a type without type variables. -/
theorem resolve_varFree {c : Ctx} (hc : c.Wf) {t : Ty} (ht : t.All fun u => ∀ v, u ≠ .var v) : Settles c.resolve (fun _ => True) t := by
  induction t using Ty.children_induction with
  | h t ih =>
    obtain ⟨x, h1, -, -, h4⟩ := shallow_spec hc t
    have hx : ∀ u ∈ x.children, Settles c.resolve (fun _ => True) u := by
      rcases h4 ht.self with rfl | ⟨k, i, -, rfl⟩
      · exact fun u hu => ih u hu (ht.child hu)
      · intro u hu; simp [Ty.children] at hu
    obtain ⟨n, t', h5, -, -⟩ := resolve_of_shallow h1 hx
    exact ⟨n, t', h5, trivial⟩

/-- A known type stays known. -/
theorem resolve_known {c : Ctx} (hc : c.Wf) {t : Ty} (ht : Known t) : Settles c.resolve Known t := by
  induction t using Ty.children_induction with
  | h t ih =>
    obtain ⟨x, h1, -, -, h4⟩ := shallow_spec hc t
    have hx : Known x ∧ ∀ u ∈ x.children, Settles c.resolve Known u := by
      rcases h4 ht.noVar with rfl | ⟨k, i, -, rfl⟩
      · exact ⟨ht, fun u hu => ih u hu (Ty.All.child ht hu)⟩
      · exact ⟨known_integer k, by intro u hu; simp [Ty.children] at hu⟩
    obtain ⟨n, t', h5, h6, h7⟩ := resolve_of_shallow h1 hx.2
    refine ⟨n, t', h5, .intro ⟨?_, ?_⟩ h7⟩
    · rintro v rfl
      have := hx.1.noVar v
      cases x <;> simp [Ty.head] at h6
      exact this (by rw [h6])
    · rintro rfl
      have := hx.1.self.2
      cases x <;> simp [Ty.head] at h6
      exact this rfl

/-- Every type variable in the type has no value, and neither has any integer variable. -/
def Ctx.Resolved (c : Ctx) (t : Ty) : Prop :=
  t.All fun u => (∀ v, u = .var v → c.vars.mapping.value v = .ok none) ∧ ∀ i, u = .intVar i → c.ints.mapping.value i = .ok none

theorem resolved_integer {c : Ctx} (k : IntKind) : c.Resolved (.integer k) :=
  .intro ⟨(by intro v h; cases h), (by intro v h; cases h)⟩ (by intro u hu; simp [Ty.children] at hu)

theorem resolved_unknown {c : Ctx} : c.Resolved .unknown :=
  .intro ⟨(by intro v h; cases h), (by intro v h; cases h)⟩ (by intro u hu; simp [Ty.children] at hu)

/-- The value of a variable that is looked up, or something without components. -/
theorem shallow_var {c : Ctx} (hc : c.Wf) {v : TyVar} {x : Ty} (h1 : c.shallow (.var v) = .ok x) :
    x.children = [] ∨ c.vars.mapping.value v = .ok (some x) := by
  unfold Ctx.shallow Ctx.resolveInfer at h1
  simp only at h1
  split at h1
  · cases h1; exact .inl rfl
  · split at h1
    · rename_i i _ _ o ho
      cases h1
      cases o with
      | none => exact .inl rfl
      | some y =>
        obtain ⟨k, rfl⟩ := hc.integer i y ho
        exact .inl rfl
    · cases h1
    · cases h1
  · rename_i ho
    cases h1
    exact .inr ho
  · cases h1
  · cases h1

theorem resolved_of_head {c : Ctx} {t x : Ty} (h : t.head = x.head) (h1 : ∀ v, x = .var v → c.vars.mapping.value v = .ok none)
    (h2 : ∀ i, x = .intVar i → c.ints.mapping.value i = .ok none) (ht : ∀ u ∈ t.children, c.Resolved u) : c.Resolved t := by
  refine .intro ⟨?_, ?_⟩ ht
  · rintro v rfl
    cases x <;> simp [Ty.head] at h
    subst h
    exact h1 _ rfl
  · rintro v rfl
    cases x <;> simp [Ty.head] at h
    subst h
    exact h2 _ rfl

/-- Resolving any type ends, with a type that has no variable with a value in it. -/
theorem resolve_tame {c : Ctx} (hc : c.Wf) (hf : c.Tame) (t : Ty) : Settles c.resolve c.Resolved t := by
  obtain ⟨rank, hrank⟩ := hf
  suffices ∀ n (t : Ty), (∀ u, TyInfer.var u ∈ t.infers → rank u < n) → Settles c.resolve c.Resolved t by
    have hb : ∀ l : List TyInfer, ∃ n, ∀ u, TyInfer.var u ∈ l → rank u < n := by
      intro l
      induction l with
      | nil => exact ⟨0, by simp⟩
      | cons x l ih =>
        obtain ⟨n, hn⟩ := ih
        cases x with
        | intVar i => exact ⟨n, by simpa using hn⟩
        | var v =>
          refine ⟨max n (rank v + 1), fun u hu => ?_⟩
          rcases List.mem_cons.1 hu with h | h
          · cases h; omega
          · have := hn u h; omega
    obtain ⟨n, hn⟩ := hb t.infers
    exact this n t hn
  intro n
  induction n with
  | zero =>
    intro t
    induction t using Ty.children_induction with
    | h t ih =>
      intro ht
      obtain ⟨x, h1, h2, h3, h4⟩ := shallow_spec hc t
      have hv : ∀ v, t ≠ .var v := by
        rintro v rfl
        have := ht v (by simp [Ty.infers])
        omega
      have hx : ∀ u ∈ x.children, Settles c.resolve c.Resolved u := by
        rcases h4 hv with rfl | ⟨k, i, -, rfl⟩
        · exact fun u hu => ih u hu fun y hy => ht y (Ty.mem_infers.2 (.inr ⟨u, hu, hy⟩))
        · intro u hu; simp [Ty.children] at hu
      obtain ⟨n, t', h5, h6, h7⟩ := resolve_of_shallow h1 hx
      exact ⟨n, t', h5, resolved_of_head h6 h2 h3 h7⟩
  | succ n ihn =>
    intro t
    induction t using Ty.children_induction with
    | h t ih =>
      intro ht
      obtain ⟨x, h1, h2, h3, h4⟩ := shallow_spec hc t
      have hx : ∀ u ∈ x.children, Settles c.resolve c.Resolved u := by
        by_cases hv : ∃ v, t = .var v
        · obtain ⟨v, rfl⟩ := hv
          have hlt := ht v (by simp [Ty.infers])
          rcases shallow_var hc h1 with hx | hx
          · rw [hx]; simp
          · intro u hu
            refine ihn u fun y hy => ?_
            have := hrank v x hx y (Ty.mem_infers.2 (.inr ⟨u, hu, hy⟩))
            omega
        · rcases h4 fun v h => hv ⟨v, h⟩ with rfl | ⟨k, i, -, rfl⟩
          · exact fun u hu => ih u hu fun y hy => ht y (Ty.mem_infers.2 (.inr ⟨u, hu, hy⟩))
          · intro u hu; simp [Ty.children] at hu
      obtain ⟨n, t', h5, h6, h7⟩ := resolve_of_shallow h1 hx
      exact ⟨n, t', h5, resolved_of_head h6 h2 h3 h7⟩

/-! ### Giving a value to a variable -/

theorem containsVar_spec {m : Mapping TyVar Ty} (hm : Acyclic m) (r : TyVar) (l : List TyInfer) :
    ∃ b, containsVar m r l = .ok b ∧ (b = true ↔ ∃ v, TyInfer.var v ∈ l ∧ m.root v = .ok r) := by
  induction l with
  | nil => exact ⟨false, rfl, by simp⟩
  | cons x l ih =>
    obtain ⟨b, h1, h2⟩ := ih
    cases x with
    | intVar i => exact ⟨b, h1, by simp [h2]⟩
    | var v =>
      obtain ⟨s, n, hs, -⟩ := hm.root v
      unfold containsVar
      rw [hs]
      by_cases hsr : s = r
      · subst hsr
        exact ⟨true, by simp, by simpa using .inl hs⟩
      · refine ⟨b, by simpa [hsr] using h1, ?_⟩
        rw [h2]
        constructor
        · rintro ⟨u, hu, hr⟩
          exact ⟨u, by simp [hu], hr⟩
        · rintro ⟨u, hu, hr⟩
          rcases List.mem_cons.1 hu with h | h
          · cases h
            rw [hs] at hr
            cases hr
            exact absurd rfl hsr
          · exact ⟨u, h, hr⟩

theorem Ctx.Resolved.infers {c : Ctx} {t : Ty} (h : c.Resolved t) {v : TyVar} (hv : TyInfer.var v ∈ t.infers) :
    c.vars.mapping.value v = .ok none := by
  induction t using Ty.children_induction with
  | h t ih =>
    rcases Ty.mem_infers.1 hv with h1 | ⟨u, hu, h1⟩
    · exact h.self.1 v h1
    · exact ih u hu (Ty.All.child h hu) h1

theorem Ctx.Resolved.of_infers {c : Ctx} {t : Ty} (h : ∀ v, TyInfer.var v ∈ t.infers → c.vars.mapping.value v = .ok none)
    (h' : ∀ i, TyInfer.intVar i ∈ t.infers → c.ints.mapping.value i = .ok none) : c.Resolved t := by
  induction t using Ty.children_induction with
  | h t ih =>
    refine .intro ⟨?_, ?_⟩ fun u hu => ih u hu (fun v hv => h v (Ty.mem_infers.2 (.inr ⟨u, hu, hv⟩)))
      (fun v hv => h' v (Ty.mem_infers.2 (.inr ⟨u, hu, hv⟩)))
    · rintro v rfl
      exact h v (by simp [Ty.infers])
    · rintro v rfl
      exact h' v (by simp [Ty.infers])

theorem Ctx.Resolved.intInfers {c : Ctx} {t : Ty} (h : c.Resolved t) {v : Nat} (hv : TyInfer.intVar v ∈ t.infers) :
    c.ints.mapping.value v = .ok none := by
  induction t using Ty.children_induction with
  | h t ih =>
    rcases Ty.mem_infers.1 hv with h1 | ⟨u, hu, h1⟩
    · exact h.self.2 v h1
    · exact ih u hu (Ty.All.child h hu) h1

/-- Binding a class without value to a type that has no variable of the class in it. -/
theorem Ctx.Tame.bind {c : Ctx} (hc : c.Wf) (hf : c.Tame) {v r : TyVar} (hr : c.vars.mapping.root v = .ok r)
    (hv : c.vars.mapping.value v = .ok none) {t : Ty} (ht : ∀ u, t ≠ .var u)
    (hu : ∀ u, TyInfer.var u ∈ t.infers → c.vars.mapping.value u = .ok none ∧ c.vars.mapping.root u ≠ .ok r) (res : Option CombineError) :
    ∃ c', c.setVars res (c.vars.mapping.unifyVarValue r t) = .ok (c', res) ∧ c'.Wf ∧ c'.Tame ∧ c'.vars.mapping.value v = .ok (some t) ∧
      (∀ u, c.vars.mapping.root u ≠ .ok r → c'.vars.mapping.value u = c.vars.mapping.value u) ∧ c'.ints = c.ints := by
  obtain ⟨rank, hrank⟩ := hf
  have hrr := hc.vars.root_root hr
  have hvr : c.vars.mapping.value r = .ok none := by
    rw [value_of_root hrr, ← value_of_root hr]; exact hv
  rcases bind_classes hc.vars r t hrr with ⟨⟨x, hx, -⟩, -⟩ | ⟨-, m', h1, h2, h3, h4, h5⟩
  · rw [hvr] at hx; cases hx
  · rw [h1]
    have hval : ∀ u x, m'.value u = .ok (some x) → (c.vars.mapping.root u = .ok r ∧ x = t) ∨
        (c.vars.mapping.root u ≠ .ok r ∧ c.vars.mapping.value u = .ok (some x)) := by
      intro u x hx
      by_cases hur : c.vars.mapping.root u = .ok r
      · rw [h4 u hur] at hx
        cases hx
        exact .inl ⟨hur, rfl⟩
      · rw [h5 u hur] at hx
        exact .inr ⟨hur, hx⟩
    refine ⟨_, rfl, hc.setVars h2 ?_, ?_, h4 v hr, h5, rfl⟩
    · intro u x hx z
      rcases hval u x hx with ⟨-, rfl⟩ | ⟨-, h6⟩
      · exact ht z
      · exact hc.noVar u x h6 z
    · refine ⟨fun u => if m'.value u = .ok none then 0 else if c.vars.mapping.value u = .ok none then 1 else rank u + 2, ?_⟩
      intro u x hx y hy
      have hx' : m'.value u = .ok (some x) := hx
      simp only [hx']
      rcases hval u x hx with ⟨h6, rfl⟩ | ⟨h6, h7⟩
      · obtain ⟨h8, h9⟩ := hu y hy
        have : m'.value y = .ok none := by rw [h5 y h9]; exact h8
        simp only [this]
        simp
        split <;> omega
      · have := hrank u x h7 y hy
        simp only [h7]
        simp
        split
        · omega
        · split <;> omega

/-- A variable without value and any resolved type: the outcome of unifying them. -/
theorem unifyTyVar_tame (w : World) {c : Ctx} (hc : c.Wf) (hf : c.Tame) {v : TyVar} (hv : c.vars.mapping.value v = .ok none) {t : Ty}
    (ht : c.Resolved t) : ∃ c' r, unifyTyVar w c v t = .ok (c', r) ∧ c'.Wf ∧ c'.Tame ∧
      ((∀ u, t ≠ .var u) → ¬ (t.isRef && v.hasOrigin) = true →
        ((∀ u, TyInfer.var u ∈ t.infers → c.vars.mapping.root u ≠ c.vars.mapping.root v) → c'.vars.mapping.value v = .ok (some t) ∧ c'.Resolved t) ∧
        ((∃ u, TyInfer.var u ∈ t.infers ∧ c.vars.mapping.root u = c.vars.mapping.root v) → c'.vars.mapping.value v = .ok (some .unknown))) ∧
      (∀ u, t = .var u → c'.vars.mapping.root v = c'.vars.mapping.root u ∧ ∀ x, c'.vars.mapping.value x = c.vars.mapping.value x) := by
  unfold unifyTyVar
  simp only
  obtain ⟨r, n, hr, hl, -⟩ := hc.vars.root v
  split
  · rename_i u
    have hu := ht.self.1 u rfl
    obtain ⟨s, k, hs, -⟩ := hc.vars.root u
    rcases unify_classes hc.vars v u hr hs with ⟨⟨x, y, hx, -⟩, -⟩ | ⟨-, m', o, h1, h2, ⟨x, y, hx, hy, ho⟩, h4, h5⟩
    · rw [hv] at hx; cases hx
    · rw [hv] at hx; rw [hu] at hy
      cases hx; cases hy
      simp only [Option.or_none] at ho
      subst ho
      have hval : ∀ z, m'.value z = c.vars.mapping.value z := by
        intro z
        by_cases hz : c.vars.mapping.root z = .ok r ∨ c.vars.mapping.root z = .ok s
        · rw [(h4 z hz).2]
          rcases hz with hz | hz
          · rw [value_of_root hz, ← value_of_root hr, hv]
          · rw [value_of_root hz, ← value_of_root hs, hu]
        · exact (h5 z (fun h => hz (.inl h)) (fun h => hz (.inr h))).2
      rw [h1]
      refine ⟨_, _, rfl, hc.setVars h2 ?_, ?_, fun h => absurd rfl (h u), ?_⟩
      · intro z x hx
        rw [hval] at hx
        exact hc.noVar z x hx
      · obtain ⟨rank, hrank⟩ := hf
        refine ⟨rank, fun z x hx => ?_⟩
        have hx' : m'.value z = .ok (some x) := hx
        rw [hval] at hx'
        exact hrank z x hx'
      · intro z hz
        cases hz
        exact ⟨((h4 v (.inl hr)).1).trans (h4 u (.inr hs)).1.symm, hval⟩
  · rename_i hne
    have hne' : ∀ u, t ≠ .var u := fun u h => hne u h
    split
    · rename_i h
      exact ⟨_, _, rfl, hc, hf, fun _ h' => absurd h h', fun u h => absurd h (hne' u)⟩
    · simp only [hr]
      obtain ⟨b, h1, h2⟩ := containsVar_spec hc.vars r t.infers
      rw [h1]
      cases b with
      | true =>
        obtain ⟨c', h3, h4, h5, h6, -, -⟩ := hf.bind hc hr hv (t := .unknown) (by intro u h; cases h) (by intro u h; simp [Ty.infers] at h) none
        refine ⟨c', none, h3, h4, h5, fun _ _ => ⟨fun h => ?_, fun _ => h6⟩, fun u h => absurd h (hne' u)⟩
        obtain ⟨u, hu, hur⟩ := h2.1 rfl
        exact absurd hur (h u hu)
      | false =>
        have h7 : ∀ u, TyInfer.var u ∈ t.infers → c.vars.mapping.root u ≠ .ok r := by
          intro u hu hur
          exact absurd (h2.2 ⟨u, hu, hur⟩) (by simp)
        obtain ⟨c', h3, h4, h5, h6, h8, h9⟩ := hf.bind hc hr hv hne' (fun u hu => ⟨ht.infers hu, h7 u hu⟩) (abilityCheck w c.msl v t)
        have h10 : c'.Resolved t := .of_infers (fun u hu => by rw [h8 u (h7 u hu)]; exact ht.infers hu)
          (fun i hi => by rw [h9]; exact ht.intInfers hi)
        refine ⟨c', _, h3, h4, h5, fun _ _ => ⟨fun _ => ⟨h6, h10⟩, fun ⟨u, hu, hur⟩ => absurd hur (h7 u hu)⟩, fun u h => absurd h (hne' u)⟩

/-! ### Sequences of checks -/

/-- The contexts the checks lead to: well-formed, and the values of the type variables do not refer back. -/
def Ctx.Plain (c : Ctx) : Prop := c.Wf ∧ c.Tame

/-- A pair of types of which one is known. For the expected type this is only enough if no structure wraps a function type,
because the type that is wrapped is not a component of the expected type. -/
def Checkable (w : World) (actual expected : Ty) : Prop := Known actual ∨ (Known expected ∧ ∀ l m, w.wrapped l m = none)

/-- One of the types is a type variable that has no value. -/
def Assigns (c : Ctx) (actual expected : Ty) : Prop := ∃ v, (actual = .var v ∨ expected = .var v) ∧ c.vars.mapping.value v = .ok none

theorem resolve_unbound {c : Ctx} {v : TyVar} (hv : c.vars.mapping.value v = .ok none) {fuel : Nat} (hf : 1 ≤ fuel) :
    c.resolve fuel (.var v) = .ok (.var v) := by
  obtain ⟨f, rfl⟩ : ∃ f, fuel = f + 1 := ⟨fuel - 1, by omega⟩
  unfold Ctx.resolve Ctx.shallow Ctx.resolveInfer
  simp only [hv, foldDeep]

theorem Ctx.Resolved.refine {c : Ctx} {t : Ty} (h : c.Resolved t) (msl : Bool) : c.Resolved (t.refineForSpecs msl) :=
  Ty.All.refine (by exact ⟨(by intro v h; cases h), (by intro v h; cases h)⟩) h msl

theorem Ctx.Resolved.prepare {c : Ctx} {a : Ty} (h : c.Resolved a) (msl : Bool) (e : Ty) : c.Resolved (prepareActual msl e a) := by
  have h1 := h.refine msl
  unfold prepareActual
  simp only
  split
  · rename_i inner hs
    have h3 : a.refineForSpecs msl = .tuple [inner] := by
      unfold Ty.singleElement at hs
      split at hs
      · rename_i heq; cases hs; exact heq
      · cases hs
    split
    · exact h1
    · rw [h3] at h1
      exact Ty.All.child h1 (by simp [Ty.children])
  · exact h1

theorem Ctx.Resolved.shallow {c : Ctx} {t : Ty} (h : c.Resolved t) : c.shallow t = .ok t := by
  cases t with
  | var v =>
    have := h.self.1 v rfl
    unfold Ctx.shallow Ctx.resolveInfer
    simp only [this]
  | intVar i =>
    have := h.self.2 i rfl
    unfold Ctx.shallow Ctx.resolveInfer
    simp only [this, Option.getD_none]
  | _ => rfl

theorem refine_var (v : TyVar) (msl : Bool) : (Ty.var v).refineForSpecs msl = .var v := by cases msl <;> rfl

/-- Combining a variable without value with a resolved type. -/
theorem combine_assign {w : World} {c : Ctx} (hc : c.Plain) {a e : Ty} (ha : c.Resolved a) (he : c.Resolved e) (h : ∃ v, a = .var v ∨ e = .var v)
    {fuel : Nat} (hf : 1 ≤ fuel) : ∃ c' r, combine w fuel c e a = .ok (c', r) ∧ c'.Plain := by
  obtain ⟨f, rfl⟩ : ∃ f, fuel = f + 1 := ⟨fuel - 1, by omega⟩
  unfold combine
  simp only
  have he' := he.refine c.msl
  have ha' := ha.prepare c.msl (e.refineForSpecs c.msl)
  rw [he'.shallow, ha'.shallow]
  simp only
  obtain ⟨v, h⟩ := h
  have h : (∃ v, prepareActual c.msl (e.refineForSpecs c.msl) a = .var v) ∨ ∃ v, e.refineForSpecs c.msl = .var v := by
    rcases h with rfl | rfl
    · refine .inl ⟨v, ?_⟩
      unfold prepareActual
      rw [refine_var]
      rfl
    · exact .inr ⟨v, refine_var v _⟩
  generalize prepareActual c.msl (e.refineForSpecs c.msl) a = a' at ha' h
  generalize e.refineForSpecs c.msl = e' at he' h
  unfold combineDispatch
  split
  · obtain ⟨c', r, h1, h2, h3, -⟩ := unifyTyVar_tame w hc.1 hc.2 (he'.self.1 _ rfl) ha'
    exact ⟨c', r, h1, h2, h3⟩
  · obtain ⟨c', r, h1, h2, h3, -⟩ := unifyTyVar_tame w hc.1 hc.2 (ha'.self.1 _ rfl) he'
    exact ⟨c', r, h1, h2, h3⟩
  · rename_i h1
    rcases h with ⟨v, rfl⟩ | ⟨v, h⟩
    · exact absurd rfl (h1 v)
    · cases h
  · rename_i h1 _
    rcases h with ⟨v, h⟩ | ⟨v, rfl⟩
    · cases h
    · exact absurd rfl (h1 v)
  · rename_i h1 h2 h3 h4
    rcases h with ⟨v, rfl⟩ | ⟨v, rfl⟩
    · first | exact absurd rfl (h1 v) | exact absurd rfl (h2 v) | exact absurd rfl (h3 v)
    · exact absurd rfl (h1 v)

theorem coerce_plain {w : World} {c : Ctx} (hc : c.Plain) {a e : Ty} (h : Checkable w a e ∨ Assigns c a e) :
    ∃ c' r n, (∀ fuel ≥ n, coerceTypes w fuel c a e = .ok (c', r)) ∧ c'.Plain := by
  have key : ∀ t : Ty, ∃ n t', (∀ fuel ≥ n, c.resolve fuel t = .ok t') ∧ (Known t → Known t') ∧ c.Resolved t' ∧
      ∀ v, t = .var v → c.vars.mapping.value v = .ok none → t' = .var v := by
    intro t
    obtain ⟨n1, t1, h1, h2⟩ := resolve_tame hc.1 hc.2 t
    refine ⟨n1, t1, h1, fun ha => ?_, h2, ?_⟩
    · obtain ⟨n2, t2, h3, h4⟩ := resolve_known hc.1 ha
      have := (h1 (max n1 n2) (by omega)).symm.trans (h3 (max n1 n2) (by omega))
      cases this
      exact h4
    · rintro v rfl hv
      have := (h1 (max n1 1) (by omega)).symm.trans (resolve_unbound hv (by omega))
      cases this
      rfl
  obtain ⟨n1, a', h1, h2, ra, va⟩ := key a
  obtain ⟨n2, e', h3, h4, re, ve⟩ := key e
  by_cases heq : a' = e'
  · refine ⟨c, none, max n1 n2, fun fuel hf => ?_, hc⟩
    unfold coerceTypes
    rw [h1 fuel (by omega), h3 fuel (by omega)]
    simp only [if_pos heq]
  · obtain ⟨c', r, n, h5, h6⟩ : ∃ c' r n, combine w n c e' a' = .ok (c', r) ∧ c'.Plain := by
      rcases h with h | ⟨v, hv, hn⟩
      · have hk : OneKnown w (max a'.size e'.size) e' a' := by
          rcases h with h | ⟨h, hw⟩
          · exact .inl ⟨h2 h, by omega⟩
          · exact .inr ⟨h4 h, by omega, hw⟩
        obtain ⟨c', r, h5, h6, h7⟩ := combine_ok (tame := True) ⟨hc.1, fun _ => hc.2⟩ hk (Nat.le_refl _)
        exact ⟨c', r, _, h5, h6, h7 trivial⟩
      · obtain ⟨c', r, h5, h6⟩ := combine_assign (w := w) hc ra re
          ⟨v, hv.imp (fun h => va v h hn) (fun h => ve v h hn)⟩ (Nat.le_refl 1)
        exact ⟨c', r, 1, h5, h6⟩
    refine ⟨c', r, max (max n1 n2) n, fun fuel hf => ?_, h6⟩
    unfold coerceTypes
    rw [h1 fuel (by omega), h3 fuel (by omega)]
    simp only [if_neg heq]
    exact combine_mono (by omega) h5

/-- A sequence of checks, with the results. -/
def coerceAll (w : World) (fuel : Nat) : Ctx → List (Ty × Ty) → Out (Ctx × List (Option CombineError))
  | c, [] => .ok (c, [])
  | c, (a, e) :: rest =>
    match coerceTypes w fuel c a e with
    | .ok (c', r) =>
      match coerceAll w fuel c' rest with
      | .ok (c'', rs) => .ok (c'', r :: rs)
      | .panic => .panic
      | .stop => .stop
    | .panic => .panic
    | .stop => .stop

theorem Ctx.Plain.new (msl : Bool) : (Ctx.new msl).Plain := by
  refine ⟨Ctx.Wf.new msl, fun _ => 0, ?_⟩
  intro v t h
  simp [Ctx.new, Table.new, Mapping.value, Mapping.root, Mapping.rootN, Mapping.get, Mapping.valueAt] at h

/-- **C35 (partial).** Every sequence of checks, starting with fresh tables, in each of which one of the two types is known
(no unresolved type variable, no unknown part) ends with a result for each check; it neither panics nor runs forever, and
resolving any type afterwards gives a result too. -/
theorem C35_sequence_partial (w : World) (msl : Bool) (checks : List (Ty × Ty)) (h : ∀ p ∈ checks, Checkable w p.1 p.2) :
    ∃ c rs n, rs.length = checks.length ∧ (∀ fuel ≥ n, coerceAll w fuel (Ctx.new msl) checks = .ok (c, rs)) ∧
      ∀ t, ∃ m t', ∀ fuel ≥ m, c.resolve fuel t = .ok t' := by
  suffices ∀ c0 : Ctx, c0.Plain → ∃ c rs n, rs.length = checks.length ∧ (∀ fuel ≥ n, coerceAll w fuel c0 checks = .ok (c, rs)) ∧ c.Plain by
    obtain ⟨c, rs, n, h1, h2, h3⟩ := this _ (Ctx.Plain.new msl)
    refine ⟨c, rs, n, h1, h2, fun t => ?_⟩
    obtain ⟨m, t', h4, -⟩ := resolve_tame h3.1 h3.2 t
    exact ⟨m, t', h4⟩
  induction checks with
  | nil => exact fun c0 h0 => ⟨c0, [], 0, rfl, fun _ _ => rfl, h0⟩
  | cons p rest ih =>
    intro c0 h0
    obtain ⟨a, e⟩ := p
    obtain ⟨c1, r, n1, h1, h2⟩ := coerce_plain h0 (.inl (h (a, e) (by simp)))
    obtain ⟨c2, rs, n2, h3, h4, h5⟩ := ih (fun p hp => h p (by simp [hp])) c1 h2
    refine ⟨c2, r :: rs, max n1 n2, by simp [h3], fun fuel hf => ?_, h5⟩
    unfold coerceAll
    simp only [h1 fuel (by omega), h4 fuel (by omega)]

/-- The contexts that checks lead to from fresh tables, if in each check one of the two types is known, or is a type variable
that has no value yet. -/
inductive Run (w : World) (msl : Bool) : Ctx → Prop where
  | new : Run w msl (Ctx.new msl)
  | check {c c' : Ctx} {a e : Ty} {r : Option CombineError} {n : Nat} : Run w msl c → Checkable w a e ∨ Assigns c a e →
    (∀ fuel ≥ n, coerceTypes w fuel c a e = .ok (c', r)) → Run w msl c'

theorem Run.plain {w : World} {msl : Bool} {c : Ctx} (h : Run w msl c) : c.Plain := by
  induction h with
  | new => exact Ctx.Plain.new msl
  | @check c c' a e r n _ h1 h2 ih =>
    obtain ⟨c1, r1, n1, h3, h4⟩ := coerce_plain ih h1
    have := (h2 (max n n1) (by omega)).symm.trans (h3 (max n n1) (by omega))
    cases this
    exact h4

/-- **C35 (partial).** As in `C35_sequence_partial`, but a check may also have a type variable without value on one side and
any type whatever on the other: it ends without a panic, and afterwards resolving any type ends, with a type in which no
variable has a value. -/
theorem C35_assign_partial {w : World} {msl : Bool} {c : Ctx} (h : Run w msl c) :
    (∀ a e, Checkable w a e ∨ Assigns c a e → ∃ c' r n, (∀ fuel ≥ n, coerceTypes w fuel c a e = .ok (c', r)) ∧ Run w msl c') ∧
    ∀ t, ∃ n t', (∀ fuel ≥ n, c.resolve fuel t = .ok t') ∧ (∀ v, TyInfer.var v ∈ t'.infers → c.vars.mapping.value v = .ok none) := by
  constructor
  · intro a e hae
    obtain ⟨c', r, n, h1, -⟩ := coerce_plain h.plain hae
    exact ⟨c', r, n, h1, .check h hae h1⟩
  · intro t
    obtain ⟨n, t', h1, h2⟩ := resolve_tame h.plain.1 h.plain.2 t
    exact ⟨n, t', h1, fun v hv => h2.infers hv⟩

/-- Folding with a function that does not change the components. -/
theorem foldDeep_self {g : Ty → Out Ty} {t : Ty} (h : ∀ u ∈ t.children, g u = .ok u) : foldDeep g t = .ok t := by
  have hm : ∀ ts : List Ty, (∀ u ∈ ts, g u = .ok u) → mapOut g ts = .ok ts := by
    intro ts hts
    induction ts with
    | nil => rfl
    | cons t ts ih =>
      unfold mapOut
      rw [hts t (by simp), ih fun u hu => hts u (by simp [hu])]
  cases t with
  | vector t => simp only [foldDeep, h t (by simp [Ty.children])]
  | range t => simp only [foldDeep, h t (by simp [Ty.children])]
  | ref t m => simp only [foldDeep, h t (by simp [Ty.children])]
  | adt l k v t =>
    simp only [foldDeep, hm v fun u hu => h u (by simp [Ty.children, hu]), hm t fun u hu => h u (by simp [Ty.children, hu])]
  | callable p r c l k v =>
    simp only [foldDeep, hm v fun u hu => h u (by simp [Ty.children, hu]), hm p fun u hu => h u (by simp [Ty.children, hu]),
      h r (by simp [Ty.children])]
  | tuple t => simp only [foldDeep, hm t fun u hu => h u (by simp [Ty.children, hu])]
  | schema l k v t =>
    simp only [foldDeep, hm v fun u hu => h u (by simp [Ty.children, hu]), hm t fun u hu => h u (by simp [Ty.children, hu])]
  | _ => rfl

theorem Ctx.Resolved.resolve {c : Ctx} {t : Ty} (h : c.Resolved t) : ∀ fuel ≥ t.size, c.resolve fuel t = .ok t := by
  induction t using Ty.children_induction with
  | h t ih =>
    intro fuel hf
    have hp := t.size_pos
    obtain ⟨f, rfl⟩ : ∃ f, fuel = f + 1 := ⟨fuel - 1, by omega⟩
    unfold Ctx.resolve
    rw [h.shallow]
    refine foldDeep_self fun u hu => ih u hu (Ty.All.child h hu) f ?_
    have := Ty.size_children hu
    omega

/-- **C35 (assignment).** Where a value of type `a` meets a variable that has no type yet (in Move code): if the variable does
not occur in the type, the variable has that type afterwards; if it does, its type is unknown. -/
theorem C35_occurs {w : World} {c : Ctx} (h : Run w false c) (hm : c.msl = false) {v : TyVar} (hv : c.vars.mapping.value v = .ok none)
    {a t : Ty} {n : Nat} (ha : ∀ fuel ≥ n, c.resolve fuel a = .ok t) (ht : ∀ u, t ≠ .var u) (h1 : t.singleElement = none)
    (hr : t.isRef = true → v.hasOrigin = false) :
    ∃ c' r m, (∀ fuel ≥ m, coerceTypes w fuel c a (.var v) = .ok (c', r)) ∧
      ((∀ u, TyInfer.var u ∈ t.infers → c.vars.mapping.root u ≠ c.vars.mapping.root v) → ∀ fuel ≥ m, c'.resolve fuel (.var v) = .ok t) ∧
      ((∃ u, TyInfer.var u ∈ t.infers ∧ c.vars.mapping.root u = c.vars.mapping.root v) →
        ∀ fuel ≥ m, c'.resolve fuel (.var v) = .ok .unknown) := by
  have hc := h.plain
  have hres : c.Resolved t := by
    obtain ⟨n', t', h2, h3⟩ := resolve_tame hc.1 hc.2 a
    have := (ha (max n n') (by omega)).symm.trans (h2 (max n n') (by omega))
    cases this
    exact h3
  obtain ⟨c', r, h2, h3, h4, h5, -⟩ := unifyTyVar_tame w hc.1 hc.2 hv hres
  obtain ⟨h6, h7⟩ := h5 ht (by
    intro hb
    simp only [Bool.and_eq_true] at hb
    rw [hr hb.1] at hb
    exact absurd hb.2 (by simp))
  have hcomb : ∀ fuel ≥ 1, combine w fuel c (.var v) t = .ok (c', r) := by
    intro fuel hf
    obtain ⟨f, rfl⟩ : ∃ f, fuel = f + 1 := ⟨fuel - 1, by omega⟩
    unfold combine
    have hp : prepareActual c.msl (.var v) t = t := by
      unfold prepareActual
      rw [hm]
      simp only [Ty.refineForSpecs]
      simp [h1]
    simp only [refine_var, hp, hres.shallow]
    have hv' : c.shallow (.var v) = .ok (.var v) := by
      unfold Ctx.shallow Ctx.resolveInfer
      simp only [hv]
    rw [hv']
    exact h2
  have value : ∀ x, (∀ u, x ≠ .var u) → c'.vars.mapping.value v = .ok (some x) → c'.Resolved x →
      ∀ fuel ≥ x.size, c'.resolve fuel (.var v) = .ok x := by
    intro x hx h8 h9 fuel hf
    have hp := x.size_pos
    have h10 := h9.resolve fuel hf
    obtain ⟨f, rfl⟩ : ∃ f, fuel = f + 1 := ⟨fuel - 1, by omega⟩
    unfold Ctx.resolve at h10 ⊢
    have h11 : c'.shallow (.var v) = .ok x := by
      have h12 := h9.shallow
      unfold Ctx.shallow Ctx.resolveInfer
      simp only [h8]
      cases x with
      | intVar i =>
        have := h9.self.2 i rfl
        simp only [this, Option.getD_none]
      | _ => rfl
    rw [h11]
    rw [h9.shallow] at h10
    exact h10
  refine ⟨c', r, max (max n 1) t.size, fun fuel hf => ?_, fun hn fuel hf => ?_, fun hn fuel hf => ?_⟩
  · unfold coerceTypes
    rw [ha fuel (by omega), resolve_unbound hv (by omega)]
    simp only [if_neg (ht v)]
    exact hcomb fuel (by omega)
  · obtain ⟨h8, h9⟩ := h6 hn
    exact value t ht h8 h9 fuel (by omega)
  · exact value .unknown (by intro u h; cases h) (h7 hn) resolved_unknown fuel (by simp [Ty.size]; omega)

/-- The assignments `a = vector[b]` and `b = vector[a]`, one after the other, where neither type is known: the second finds
that `b` is in the type of `a`. -/
example : ∃ c c', coerceAll emptyWorld 9 (Ctx.new false) [(.vector (.var (.anonymous 1)), .var (.anonymous 0))] = .ok (c, [none]) ∧
    Assigns c (.vector (.var (.anonymous 0))) (.var (.anonymous 1)) ∧
    c.resolve 9 (.vector (.var (.anonymous 0))) = .ok (.vector (.vector (.var (.anonymous 1)))) ∧
    coerceTypes emptyWorld 9 c (.vector (.var (.anonymous 0))) (.var (.anonymous 1)) = .ok (c', none) ∧
    c'.resolve 9 (.var (.anonymous 0)) = .ok (.vector .unknown) :=
  ⟨_, _, rfl, ⟨_, .inr rfl, rfl⟩, rfl, rfl, rfl⟩

/-- **C35 (partial).** One check never panics and always ends, in any context that table operations lead to, if one of the
types is known. The fuel needed is the size of the known type: the recursion goes no deeper than that. -/
theorem C35_no_panic_partial {w : World} {c : Ctx} (hc : c.Wf) {e a : Ty} (h : Checkable w a e) {fuel : Nat}
    (hf : max a.size e.size ≤ fuel) : ∃ c' r, combine w fuel c e a = .ok (c', r) ∧ c'.Wf := by
  have hk : OneKnown w (max a.size e.size) e a := by
    rcases h with h | ⟨h, hw⟩
    · exact .inl ⟨h, by omega⟩
    · exact .inr ⟨h, by omega, hw⟩
  obtain ⟨c', r, h1, h2, -⟩ := combine_ok (tame := False) ⟨hc, False.elim⟩ hk hf
  exact ⟨c', r, h1, h2⟩

/-- Three checks: an argument `vector<u8>` for `vector<?0>`, an integer literal for `?0` and a reference for `?1`. -/
example : ∃ c, coerceAll emptyWorld 9 (Ctx.new false)
    [(.vector (.integer .U8), .vector (.var (.anonymous 0))), (.intVar 0, .var (.anonymous 0)), (.ref .bool false, .var (.anonymous 1))] =
      .ok (c, [none, none, none]) ∧ c.resolve 3 (.var (.anonymous 0)) = .ok (.integer .U8) ∧ c.resolve 3 (.intVar 0) = .ok (.integer .U8) ∧
      c.resolve 3 (.var (.anonymous 1)) = .ok (.ref .bool false) := ⟨_, rfl, rfl, rfl, rfl⟩

example : Checkable emptyWorld (.vector (.integer .U8)) (.vector (.var (.anonymous 0))) :=
  .inl (by
    refine .intro ⟨(by intro v h; cases h), (by intro h; cases h)⟩ ?_
    intro u hu
    simp only [Ty.children, List.mem_singleton] at hu
    subst hu
    exact known_integer _)

/-! ### Where it fails -/

/-- The type of a function parameter `S<T, vector<T>>` with a fresh variable for `T`. -/
def panicExpected : Ty := .adt 0 [] [] [.var (.withOrigin 1 0), .vector (.var (.withOrigin 1 0))]

/-- The type of an argument `S<u8, X>` where `X` cannot be resolved. -/
def panicActual : Ty := .adt 0 [] [] [.integer .U8, .unknown]

/-- **C35 fails.** Passing a value of type `S<u8, X>` with an unresolved name `X` to a parameter of type `S<T, vector<T>>`
panics: the first type argument gives `T` the value `u8`, and the second wants to give it the value unknown. -/
theorem C35_unknown_fails (fuel : Nat) : coerceTypes emptyWorld (fuel + 3) (Ctx.new false) panicActual panicExpected = .panic := rfl

/-- The types of the variables `a` and `b` after `let a = vector[]; let b = vector[];`. -/
def cycleExpected : Ty := .tuple [.vector (.var (.anonymous 0)), .vector (.var (.anonymous 1))]

/-- The type of `(vector[b], vector[a])`. -/
def cycleActual : Ty := .tuple [.vector (.vector (.var (.anonymous 1))), .vector (.vector (.var (.anonymous 0)))]

/-- **C35 fails.** The assignment `(a, b) = (vector[b], vector[a])` is accepted, and gives each variable a value with the other
one in it; every later attempt to resolve one of them runs until the stack is exhausted. -/
theorem C35_cycle_fails (w : World) (fuel : Nat) : ∃ c, coerceTypes w (fuel + 4) (Ctx.new false) cycleActual cycleExpected = .ok (c, none) ∧
    ∀ fuel, c.resolve fuel (.var (.anonymous 0)) = .stop := by
  suffices ∀ c : Ctx, c.shallow (.var (.anonymous 0)) = .ok (.vector (.var (.anonymous 1))) →
      c.shallow (.var (.anonymous 1)) = .ok (.vector (.var (.anonymous 0))) →
      ∀ fuel, c.resolve fuel (.var (.anonymous 0)) = .stop ∧ c.resolve fuel (.var (.anonymous 1)) = .stop from
    ⟨_, rfl, fun fuel => (this _ rfl rfl fuel).1⟩
  intro c h0 h1 fuel
  induction fuel with
  | zero => exact ⟨rfl, rfl⟩
  | succ n ih =>
    constructor
    · unfold Ctx.resolve
      simp only [h0, foldDeep, ih.2]
    · unfold Ctx.resolve
      simp only [h1, foldDeep, ih.1]

end Verif.Types
