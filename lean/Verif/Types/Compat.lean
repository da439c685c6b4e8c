import Verif.Types.Termination
import Verif.Types.SubstProps

/-! C36: what an accepted check means for types without inference variables. -/

namespace Verif.Types

/-! ### Specification -/

/-- The actual type (second) can be used where the first is expected. With `lax` are the rules that are followed although
nothing says they should be: vectors and ranges are the same, callable types are compared by the parameters both have and
by their return types without references, type arguments by those both have, and a structure that wraps a function type
accepts functions. -/
inductive Compat (w : World) (msl lax : Bool) : Ty → Ty → Prop
  | refl (t : Ty) : Compat w msl lax t t
  | unknownL (t : Ty) : Compat w msl lax .unknown t
  | unknownR (t : Ty) : Compat w msl lax t .unknown
  | neverL (t : Ty) : Compat w msl lax .never t
  | neverR (t : Ty) : Compat w msl lax t .never
  | literalL (k : IntKind) : Compat w msl lax (.integer .Integer) (.integer k)
  | literalR (k : IntKind) : Compat w msl lax (.integer k) (.integer .Integer)
  | vector {a b : Ty} (h : Compat w msl lax a b) : Compat w msl lax (.vector a) (.vector b)
  | range {a b : Ty} (h : Compat w msl lax a b) : Compat w msl lax (.range a) (.range b)
  | ref {a b : Ty} {am bm : Bool} (hm : am = true → bm = true) (h : Compat w msl lax a b) : Compat w msl lax (.ref a am) (.ref b bm)
  | adt {l : Loc} {k k' : List Loc} {v v' as bs : List Ty} (hl : lax = true ∨ as.length = bs.length)
      (h : ∀ p ∈ as.zip bs, Compat w msl lax p.1 p.2) : Compat w msl lax (.adt l k v as) (.adt l k' v' bs)
  | tuple {as bs : List Ty} (hl : as.length = bs.length) (h : ∀ p ∈ as.zip bs, Compat w msl lax p.1 p.2) :
      Compat w msl lax (.tuple as) (.tuple bs)
  | single {e a : Ty} (h : Compat w msl lax e a) : Compat w msl lax e (.tuple [a])
  /-- In specifications references are ignored and all integers are `num`. -/
  | specRefL {a b : Ty} {m : Bool} (hs : msl = true) (h : Compat w msl lax a b) : Compat w msl lax (.ref a m) b
  | specRefR {a b : Ty} {m : Bool} (hs : msl = true) (h : Compat w msl lax a b) : Compat w msl lax a (.ref b m)
  | specIntL {k : IntKind} {b : Ty} (hs : msl = true) (h : Compat w msl lax .num b) : Compat w msl lax (.integer k) b
  | specIntR {k : IntKind} {a : Ty} (hs : msl = true) (h : Compat w msl lax a .num) : Compat w msl lax a (.integer k)
  | vectorRange {a b : Ty} (hl : lax = true) (h : Compat w msl lax a b) : Compat w msl lax (.vector a) (.range b)
  | rangeVector {a b : Ty} (hl : lax = true) (h : Compat w msl lax a b) : Compat w msl lax (.range a) (.vector b)
  | callable {ps ps' : List Ty} {r r' : Ty} {c c' : CallKind} {l l' : Option Loc} {k k' : List Loc} {v v' : List Ty} (hl : lax = true)
      (h : ∀ p ∈ ps.zip ps', Compat w msl lax p.1 p.2) (hr : Compat w msl lax r.unwrapAllRefs r'.unwrapAllRefs) :
      Compat w msl lax (.callable ps r c l k v) (.callable ps' r' c' l' k' v')
  | wrapped {loc : Loc} {ks : List Loc} {vs ts : List Ty} {ps ps' : List Ty} {r r' : Ty} {c' : CallKind} {l' : Option Loc} {k' : List Loc}
      {v' : List Ty} (hl : lax = true) (hw : w.wrapped loc msl = some (ps, r))
      (h : ∀ p ∈ (Ty.substs (lookupTy ks vs) ps).zip ps', Compat w msl lax p.1 p.2)
      (hr : Compat w msl lax (r.subst (lookupTy ks vs)).unwrapAllRefs r'.unwrapAllRefs) :
      Compat w msl lax (.adt loc ks vs ts) (.callable ps' r' c' l' k' v')

/-- No inference variables. -/
def Ground (t : Ty) : Prop := t.All fun u => (∀ v, u ≠ .var v) ∧ ∀ i, u ≠ .intVar i

theorem Ground.num : Ground .num := .intro ⟨(by intro v h; cases h), (by intro v h; cases h)⟩ (by simp [Ty.children])

theorem Ground.infers {t : Ty} (h : Ground t) : t.infers = [] := by
  induction t using Ty.children_induction with
  | h t ih =>
    refine List.eq_nil_iff_forall_not_mem.2 fun x hx => ?_
    rcases Ty.mem_infers.1 hx with hx | ⟨u, hu, hx⟩
    · cases x with
      | var v => exact h.self.1 v hx
      | intVar i => exact h.self.2 i hx
    · rw [ih u hu (Ty.All.child h hu)] at hx
      cases hx

theorem Ground.subst {s : Loc → Option Ty} (hs : ∀ p t, s p = some t → Ground t) {t : Ty} (h : Ground t) : Ground (t.subst s) := by
  induction t using Ty.children_induction with
  | h t ih =>
    by_cases hp : ∃ p, t = .typeParam p
    · obtain ⟨p, rfl⟩ := hp
      unfold Ty.subst
      cases hs' : s p with
      | none => exact h
      | some v => exact hs p v hs'
    · have hp : ∀ p, t ≠ .typeParam p := fun p h => hp ⟨p, h⟩
      obtain ⟨h1, h2⟩ := Ty.subst_children s hp
      refine .intro ⟨fun v hv => ?_, fun i hi => ?_⟩ fun u hu => ?_
      · rw [hv] at h1
        cases t <;> simp [Ty.head] at h1
        exact h.self.1 _ rfl
      · rw [hi] at h1
        cases t <;> simp [Ty.head] at h1
        exact h.self.2 _ rfl
      · rw [h2, List.mem_map] at hu
        obtain ⟨q, hq, rfl⟩ := hu
        exact ih q hq (Ty.All.child h hq)

theorem lookupTy_mem {keys : List Loc} {vals : List Ty} {p : Loc} {t : Ty} (h : lookupTy keys vals p = some t) : t ∈ vals := by
  fun_induction lookupTy keys vals p with
  | case1 k ks v vs => cases h; simp
  | case2 k ks v vs p _ ih => exact List.mem_cons_of_mem _ (ih h)
  | case3 => cases h

/-- The wrapped function types have no inference variables. -/
def GroundWorld (w : World) : Prop := ∀ l m ps r, w.wrapped l m = some (ps, r) → (∀ p ∈ ps, Ground p) ∧ Ground r

theorem Compat.unwrapL {w : World} {lax : Bool} {e a : Ty} (h : Compat w true lax e.unwrapAllRefs a) : Compat w true lax e a := by
  fun_induction Ty.unwrapAllRefs e with
  | case1 t m ih => exact .specRefL rfl (ih h)
  | case2 t _ => exact h

theorem Compat.unwrapR {w : World} {lax : Bool} {e a : Ty} (h : Compat w true lax e a.unwrapAllRefs) : Compat w true lax e a := by
  fun_induction Ty.unwrapAllRefs a with
  | case1 t m ih => exact .specRefR rfl (ih h)
  | case2 t _ => exact h

theorem refineForSpecs_eq (t : Ty) (msl : Bool) : t.refineForSpecs msl =
    if msl then (match t.unwrapAllRefs with | .integer _ => .num | .intVar _ => .num | u => u) else t := by
  unfold Ty.refineForSpecs
  cases msl with
  | false => rfl
  | true =>
    cases t with
    | ref u m =>
      simp only [Ty.unwrapAllRefs, if_true]
      cases u.unwrapAllRefs <;> rfl
    | _ => rfl

theorem Compat.refineL {w : World} {msl lax : Bool} {e a : Ty} (hg : Ground e) (h : Compat w msl lax (e.refineForSpecs msl) a) :
    Compat w msl lax e a := by
  rw [refineForSpecs_eq] at h
  cases msl with
  | false => exact h
  | true =>
    have hu := Ty.All.unwrapAllRefs hg
    refine .unwrapL ?_
    cases hk : e.unwrapAllRefs with
    | integer k => rw [hk] at h; exact .specIntL rfl h
    | intVar i => exact absurd hk (hu.self.2 i)
    | _ => rw [hk] at h; exact h

theorem Compat.refineR {w : World} {msl lax : Bool} {e a : Ty} (hg : Ground a) (h : Compat w msl lax e (a.refineForSpecs msl)) :
    Compat w msl lax e a := by
  rw [refineForSpecs_eq] at h
  cases msl with
  | false => exact h
  | true =>
    have hu := Ty.All.unwrapAllRefs hg
    refine .unwrapR ?_
    cases hk : a.unwrapAllRefs with
    | integer k => rw [hk] at h; exact .specIntR rfl h
    | intVar i => exact absurd hk (hu.self.2 i)
    | _ => rw [hk] at h; exact h

theorem Ground.refine {t : Ty} (h : Ground t) (msl : Bool) : Ground (t.refineForSpecs msl) :=
  Ty.All.refine (by exact ⟨(by intro v h; cases h), (by intro v h; cases h)⟩) h msl

theorem shallow_ground {c : Ctx} {t : Ty} (h : Ground t) : c.shallow t = .ok t := by
  cases t with
  | var v => exact absurd rfl (h.self.1 v)
  | intVar i => exact absurd rfl (h.self.2 i)
  | _ => rfl

/-! ### Soundness -/

/-- What a check does for types without inference variables: the context is as before. -/
def SoundFor (w : World) (c : Ctx) (e a : Ty) (out : Combined) : Prop :=
  ∀ c' r, out = .ok (c', r) → c' = c ∧ (r = none → Compat w c.msl true e a)

theorem combinePairs_sound {w : World} {f : Ctx → Ty → Ty → Combined} {c : Ctx} {as bs : List Ty}
    (hf : ∀ p ∈ as.zip bs, SoundFor w c p.1 p.2 (f c p.1 p.2)) (res : Option CombineError) {c' : Ctx} {r : Option CombineError}
    (h : combinePairs f c res as bs = .ok (c', r)) : c' = c ∧ (r = none → res = none ∧ ∀ p ∈ as.zip bs, Compat w c.msl true p.1 p.2) := by
  induction as generalizing bs res with
  | nil =>
    unfold combinePairs at h
    cases h
    exact ⟨rfl, fun h => ⟨h, by simp⟩⟩
  | cons a as ih =>
    cases bs with
    | nil =>
      unfold combinePairs at h
      cases h
      exact ⟨rfl, fun h => ⟨h, by simp⟩⟩
    | cons b bs =>
      unfold combinePairs at h
      split at h
      · rename_i c1 r1 h1
        obtain ⟨h2, h3⟩ := hf (a, b) (by simp) c1 r1 h1
        subst h2
        obtain ⟨h4, h5⟩ := ih (fun p hp => hf p (by simp [hp])) _ h
        refine ⟨h4, fun hr => ?_⟩
        obtain ⟨h6, h7⟩ := h5 hr
        cases res with
        | some e => cases h6
        | none =>
          simp only at h6
          refine ⟨rfl, fun p hp => ?_⟩
          rcases List.mem_cons.1 hp with rfl | hp
          · exact h3 h6
          · exact h7 p hp
      · cases h
      · cases h

theorem combineCallables_sound {w : World} {f : Ctx → Ty → Ty → Combined} {c : Ctx} {ps ps' : List Ty} {r r' : Ty}
    (hf : ∀ p ∈ ps.zip ps', SoundFor w c p.1 p.2 (f c p.1 p.2))
    (hr : SoundFor w c r.unwrapAllRefs r'.unwrapAllRefs (f c r.unwrapAllRefs r'.unwrapAllRefs)) {c' : Ctx} {x : Option CombineError}
    (h : combineCallables f c ps r ps' r' = .ok (c', x)) :
    c' = c ∧ (x = none → (∀ p ∈ ps.zip ps', Compat w c.msl true p.1 p.2) ∧ Compat w c.msl true r.unwrapAllRefs r'.unwrapAllRefs) := by
  unfold combineCallables at h
  split at h
  · rename_i c1 h1
    obtain ⟨h2, h3⟩ := combinePairs_sound hf none h1
    subst h2
    obtain ⟨h4, h5⟩ := hr c' x h
    exact ⟨h4, fun hx => ⟨(h3 rfl).2, h5 hx⟩⟩
  · rename_i hn
    obtain ⟨h2, h3⟩ := combinePairs_sound hf none h
    refine ⟨h2, fun hx => ?_⟩
    subst hx
    exact absurd h (hn c')

theorem combineNoVars_sound {w : World} (hw : GroundWorld w) {f : Ctx → Ty → Ty → Combined}
    (hf : ∀ c e a, Ground e → Ground a → SoundFor w c e a (f c e a)) {c : Ctx} {e a : Ty} (he : Ground e) (ha : Ground a) :
    SoundFor w c e a (combineNoVars w f c e a) := by
  intro c' r h
  have ce : ∀ {x}, x ∈ e.children → Ground x := fun hx => Ty.All.child he hx
  have ca : ∀ {x}, x ∈ a.children → Ground x := fun hx => Ty.All.child ha hx
  unfold combineNoVars at h
  split at h
  · rename_i hu
    rw [he.infers, ha.infers] at h
    simp only [List.append_nil, unifyUnknown] at h
    cases h
    refine ⟨rfl, fun _ => ?_⟩
    rcases hu with rfl | rfl
    · exact .unknownL _
    · exact .unknownR _
  split at h
  · rename_i hu
    cases h
    refine ⟨rfl, fun _ => ?_⟩
    rcases hu with rfl | rfl
    · exact .neverL _
    · exact .neverR _
  split at h
  · rename_i hu
    cases h
    exact ⟨rfl, fun _ => hu ▸ .refl _⟩
  split at h
  · split at h
    · rename_i hk
      cases h
      refine ⟨rfl, fun _ => ?_⟩
      rcases hk with rfl | rfl
      · exact .literalL _
      · exact .literalR _
    · cases h
      exact ⟨rfl, fun hr => by cases hr⟩
  · obtain ⟨h1, h2⟩ := hf c _ _ (ce (by simp [Ty.children])) (ca (by simp [Ty.children])) c' r h
    exact ⟨h1, fun hr => .vector (h2 hr)⟩
  · obtain ⟨h1, h2⟩ := hf c _ _ (ce (by simp [Ty.children])) (ca (by simp [Ty.children])) c' r h
    exact ⟨h1, fun hr => .vectorRange rfl (h2 hr)⟩
  · obtain ⟨h1, h2⟩ := hf c _ _ (ce (by simp [Ty.children])) (ca (by simp [Ty.children])) c' r h
    exact ⟨h1, fun hr => .rangeVector rfl (h2 hr)⟩
  · obtain ⟨h1, h2⟩ := hf c _ _ (ce (by simp [Ty.children])) (ca (by simp [Ty.children])) c' r h
    exact ⟨h1, fun hr => .range (h2 hr)⟩
  · split at h
    · rename_i hm
      obtain ⟨h1, h2⟩ := hf c _ _ (ce (by simp [Ty.children])) (ca (by simp [Ty.children])) c' r h
      refine ⟨h1, fun hr => .ref (fun h => ?_) (h2 hr)⟩
      subst h
      simpa using hm
    · split at h
      · rename_i c1 r1 h1
        obtain ⟨h2, h3⟩ := hf c _ _ (ce (by simp [Ty.children])) (ca (by simp [Ty.children])) c1 r1 h1
        cases h
        exact ⟨h2, fun hr => by cases hr⟩
      · rename_i hn
        exact absurd h (hn _ _)
  · split at h
    · rename_i ps rt hwr
      obtain ⟨g1, g2⟩ := hw _ _ _ _ hwr
      rename_i l k v as _ _ _ _ _ _ _ _ _ _
      have gs : ∀ p t, lookupTy k v p = some t → Ground t := fun p t hp => ce (by
        simp only [Ty.children, List.mem_append]
        exact .inl (lookupTy_mem hp))
      obtain ⟨h1, h2⟩ := combineCallables_sound (w := w) (fun p hp => hf c _ _ (by
          have := (List.of_mem_zip hp).1
          rw [Ty.substs_eq_map, List.mem_map] at this
          obtain ⟨q, hq, hq'⟩ := this
          rw [← hq']
          exact (g1 q hq).subst gs) (ca (by simp [Ty.children, (List.of_mem_zip hp).2])))
        (hf c _ _ (Ty.All.unwrapAllRefs (g2.subst gs)) (Ty.All.unwrapAllRefs (ca (by simp [Ty.children])))) h
      exact ⟨h1, fun hr => .wrapped rfl hwr (h2 hr).1 (h2 hr).2⟩
    · cases h
      exact ⟨rfl, fun hr => by cases hr⟩
  · obtain ⟨h1, h2⟩ := combineCallables_sound (w := w) (fun p hp => hf c _ _ (ce (by simp [Ty.children, (List.of_mem_zip hp).1]))
        (ca (by simp [Ty.children, (List.of_mem_zip hp).2])))
      (hf c _ _ (Ty.All.unwrapAllRefs (ce (by simp [Ty.children]))) (Ty.All.unwrapAllRefs (ca (by simp [Ty.children])))) h
    exact ⟨h1, fun hr => .callable rfl (h2 hr).1 (h2 hr).2⟩
  · split at h
    · cases h
      exact ⟨rfl, fun hr => by cases hr⟩
    · rename_i hl
      have hl := not_not.1 hl
      subst hl
      obtain ⟨h1, h2⟩ := combinePairs_sound (w := w) (fun p hp => hf c _ _ (ce (by simp [Ty.children, (List.of_mem_zip hp).1]))
        (ca (by simp [Ty.children, (List.of_mem_zip hp).2]))) none h
      exact ⟨h1, fun hr => .adt (.inl rfl) (h2 hr).2⟩
  · split at h
    · cases h
      exact ⟨rfl, fun hr => by cases hr⟩
    · rename_i hl
      have hl := not_not.1 hl
      obtain ⟨h1, h2⟩ := combinePairs_sound (w := w) (fun p hp => hf c _ _ (ce (by simp [Ty.children, (List.of_mem_zip hp).1]))
        (ca (by simp [Ty.children, (List.of_mem_zip hp).2]))) none h
      exact ⟨h1, fun hr => .tuple hl (h2 hr).2⟩
  · cases h
    exact ⟨rfl, fun hr => by cases hr⟩

theorem singleElement_some {t u : Ty} (h : t.singleElement = some u) : t = .tuple [u] := by
  unfold Ty.singleElement at h
  split at h
  · cases h; rfl
  · cases h

theorem combine_sound {w : World} (hw : GroundWorld w) (fuel : Nat) (c : Ctx) (e a : Ty) (he : Ground e) (ha : Ground a) :
    SoundFor w c e a (combine w fuel c e a) := by
  induction fuel generalizing c e a with
  | zero => intro c' r h; cases h
  | succ n ih =>
    have ge := he.refine c.msl
    have ga := ha.refine c.msl
    -- The actual type that is looked at.
    obtain ⟨x, hx, gx, hback⟩ : ∃ x, prepareActual c.msl (e.refineForSpecs c.msl) a = x ∧ Ground x ∧
        (Compat w c.msl true (e.refineForSpecs c.msl) x → Compat w c.msl true (e.refineForSpecs c.msl) (a.refineForSpecs c.msl)) := by
      unfold prepareActual
      simp only
      split
      · rename_i inner hi
        have hi' := singleElement_some hi
        split
        · exact ⟨_, rfl, ga, id⟩
        · refine ⟨_, rfl, ?_, fun h => hi' ▸ .single h⟩
          rw [hi'] at ga
          exact Ty.All.child ga (by simp [Ty.children])
      · exact ⟨_, rfl, ga, id⟩
    intro c' r h
    unfold combine at h
    simp only [hx, shallow_ground ge, shallow_ground gx] at h
    have hd : combineDispatch w (combine w n) c (e.refineForSpecs c.msl) x = combineNoVars w (combine w n) c (e.refineForSpecs c.msl) x := by
      unfold combineDispatch
      split
      · rename_i hv; exact absurd hv (ge.self.1 _)
      · exact absurd rfl (gx.self.1 _)
      · rename_i hv _; exact absurd hv (ge.self.2 _)
      · exact absurd rfl (gx.self.2 _)
      · rfl
    rw [hd] at h
    obtain ⟨h1, h2⟩ := combineNoVars_sound hw (fun c e a he ha => ih c e a he ha) ge gx c' r h
    exact ⟨h1, fun hr => .refineL he (.refineR ha (hback (h2 hr)))⟩

/-! ### The strict rules -/

/-- A type of the strict rules: no inference variables, ranges, callable types or tuples of one element, and every structure
has the number of type arguments it is declared with. -/
structure PlainPart (arity : Loc → Nat) (t : Ty) : Prop where
  noVar : ∀ v, t ≠ .var v
  noInt : ∀ i, t ≠ .intVar i
  noRange : ∀ u, t ≠ .range u
  noCallable : ∀ p r c l k v, t ≠ .callable p r c l k v
  noSingle : ∀ u, t ≠ .tuple [u]
  arity : ∀ l k v ts, t = .adt l k v ts → ts.length = arity l

abbrev PlainTy (arity : Loc → Nat) (t : Ty) : Prop := t.All (PlainPart arity)

theorem PlainTy.ground {arity : Loc → Nat} {t : Ty} (h : PlainTy arity t) : Ground t := Ty.All.mono (fun _ h => ⟨h.noVar, h.noInt⟩) h

theorem PlainPart.num (arity : Loc → Nat) : PlainPart arity .num := by
  constructor <;> intros <;> simp_all

theorem PlainTy.num (arity : Loc → Nat) : PlainTy arity .num := .intro (.num arity) (by simp [Ty.children])

/-- For such types the lax rules are not used. -/
theorem Compat.strict {w : World} {msl : Bool} {arity : Loc → Nat} {e a : Ty} (h : Compat w msl true e a) (he : PlainTy arity e)
    (ha : PlainTy arity a) : Compat w msl false e a := by
  induction h with
  | refl t => exact .refl t
  | unknownL t => exact .unknownL t
  | unknownR t => exact .unknownR t
  | neverL t => exact .neverL t
  | neverR t => exact .neverR t
  | literalL k => exact .literalL k
  | literalR k => exact .literalR k
  | vector _ ih => exact .vector (ih (Ty.All.child he (by simp [Ty.children])) (Ty.All.child ha (by simp [Ty.children])))
  | range _ ih => exact absurd rfl (he.self.noRange _)
  | ref hm _ ih => exact .ref hm (ih (Ty.All.child he (by simp [Ty.children])) (Ty.All.child ha (by simp [Ty.children])))
  | adt _ _ ih =>
    refine .adt (.inr ?_) fun p hp => ih p hp (Ty.All.child he ?_) (Ty.All.child ha ?_)
    · rw [he.self.arity _ _ _ _ rfl, ha.self.arity _ _ _ _ rfl]
    · simp [Ty.children, (List.of_mem_zip hp).1]
    · simp [Ty.children, (List.of_mem_zip hp).2]
  | tuple hl _ ih =>
    refine .tuple hl fun p hp => ih p hp (Ty.All.child he ?_) (Ty.All.child ha ?_)
    · simp [Ty.children, (List.of_mem_zip hp).1]
    · simp [Ty.children, (List.of_mem_zip hp).2]
  | single _ ih => exact .single (ih he (Ty.All.child ha (by simp [Ty.children])))
  | specRefL hs _ ih => exact .specRefL hs (ih (Ty.All.child he (by simp [Ty.children])) ha)
  | specRefR hs _ ih => exact .specRefR hs (ih he (Ty.All.child ha (by simp [Ty.children])))
  | specIntL hs _ ih => exact .specIntL hs (ih (.num arity) ha)
  | specIntR hs _ ih => exact .specIntR hs (ih he (.num arity))
  | vectorRange _ _ ih => exact absurd rfl (ha.self.noRange _)
  | rangeVector _ _ ih => exact absurd rfl (he.self.noRange _)
  | callable => exact absurd rfl (he.self.noCallable _ _ _ _ _ _)
  | wrapped => exact absurd rfl (ha.self.noCallable _ _ _ _ _ _)

/-! ### Completeness -/

theorem combinePairs_accepts {f : Ctx → Ty → Ty → Combined} {c : Ctx} {as bs : List Ty}
    (h : ∀ p ∈ as.zip bs, f c p.1 p.2 = .ok (c, none)) : combinePairs f c none as bs = .ok (c, none) := by
  induction as generalizing bs with
  | nil => unfold combinePairs; rfl
  | cons a as ih =>
    cases bs with
    | nil => unfold combinePairs; rfl
    | cons b bs =>
      unfold combinePairs
      rw [h (a, b) (by simp)]
      exact ih fun p hp => h p (by simp [hp])

/-- The first step of a check for types of the strict rules. -/
theorem combine_step (w : World) {arity : Loc → Nat} (n : Nat) (c : Ctx) {e a : Ty} (he : PlainTy arity e) (ha : PlainTy arity a) :
    combine w (n + 1) c e a = combineNoVars w (combine w n) c (e.refineForSpecs c.msl) (a.refineForSpecs c.msl) := by
  have pe : PlainTy arity (e.refineForSpecs c.msl) := Ty.All.refine (.num arity) he _
  have pa : PlainTy arity (a.refineForSpecs c.msl) := Ty.All.refine (.num arity) ha _
  have hx : prepareActual c.msl (e.refineForSpecs c.msl) a = a.refineForSpecs c.msl := by
    unfold prepareActual
    simp only
    split
    · rename_i inner hi
      exact absurd (singleElement_some hi) (pa.self.noSingle _)
    · rfl
  unfold combine
  simp only [hx, shallow_ground pe.ground, shallow_ground pa.ground]
  unfold combineDispatch
  split
  · rename_i hv; exact absurd hv (pe.self.noVar _)
  · rename_i hv _; exact absurd hv (pa.self.noVar _)
  · rename_i hv _; exact absurd hv (pe.self.noInt _)
  · rename_i hv _ _; exact absurd hv (pa.self.noInt _)
  · rfl

theorem refine_ref {t : Ty} {m : Bool} : (Ty.ref t m).refineForSpecs true = t.refineForSpecs true := by
  rw [refineForSpecs_eq, refineForSpecs_eq]
  simp [Ty.unwrapAllRefs]

theorem combineNoVars_trivial {w : World} {f : Ctx → Ty → Ty → Combined} {c : Ctx} {e a : Ty} (he : Ground e) (ha : Ground a)
    (h : e = .unknown ∨ a = .unknown ∨ e = .never ∨ a = .never ∨ e = a) : combineNoVars w f c e a = .ok (c, none) := by
  unfold combineNoVars
  split
  · rw [he.infers, ha.infers]
    simp [unifyUnknown]
  split
  · rfl
  split
  · rfl
  · simp_all

theorem combine_complete {w : World} {c : Ctx} {arity : Loc → Nat} {e a : Ty} (h : Compat w c.msl false e a) (he : PlainTy arity e)
    (ha : PlainTy arity a) {fuel : Nat} (hf : e.size + a.size ≤ fuel) : combine w fuel c e a = .ok (c, none) := by
  induction h generalizing fuel with
  | refl t =>
    obtain ⟨n, rfl⟩ : ∃ n, fuel = n + 1 := ⟨fuel - 1, by have := t.size_pos; omega⟩
    rw [combine_step w n c he ha]
    exact combineNoVars_trivial (he.ground.refine _) (ha.ground.refine _) (by simp)
  | unknownL t =>
    obtain ⟨n, rfl⟩ : ∃ n, fuel = n + 1 := ⟨fuel - 1, by have := t.size_pos; omega⟩
    rw [combine_step w n c he ha]
    exact combineNoVars_trivial (he.ground.refine _) (ha.ground.refine _) (.inl (by rw [refineForSpecs_eq]; simp [Ty.unwrapAllRefs]))
  | unknownR t =>
    obtain ⟨n, rfl⟩ : ∃ n, fuel = n + 1 := ⟨fuel - 1, by have := t.size_pos; omega⟩
    rw [combine_step w n c he ha]
    exact combineNoVars_trivial (he.ground.refine _) (ha.ground.refine _) (.inr (.inl (by rw [refineForSpecs_eq]; simp [Ty.unwrapAllRefs])))
  | neverL t =>
    obtain ⟨n, rfl⟩ : ∃ n, fuel = n + 1 := ⟨fuel - 1, by have := t.size_pos; omega⟩
    rw [combine_step w n c he ha]
    exact combineNoVars_trivial (he.ground.refine _) (ha.ground.refine _) (.inr (.inr (.inl (by rw [refineForSpecs_eq]; simp [Ty.unwrapAllRefs]))))
  | neverR t =>
    obtain ⟨n, rfl⟩ : ∃ n, fuel = n + 1 := ⟨fuel - 1, by have := t.size_pos; omega⟩
    rw [combine_step w n c he ha]
    exact combineNoVars_trivial (he.ground.refine _) (ha.ground.refine _) (.inr (.inr (.inr (.inl (by rw [refineForSpecs_eq]; simp [Ty.unwrapAllRefs])))))
  | literalL k =>
    obtain ⟨n, rfl⟩ : ∃ n, fuel = n + 1 := ⟨fuel - 1, by simp only [Ty.size] at hf; omega⟩
    rw [combine_step w n c he ha, refineForSpecs_eq, refineForSpecs_eq]
    cases c.msl <;> simp [Ty.unwrapAllRefs, combineNoVars]
  | literalR k =>
    obtain ⟨n, rfl⟩ : ∃ n, fuel = n + 1 := ⟨fuel - 1, by simp only [Ty.size] at hf; omega⟩
    rw [combine_step w n c he ha, refineForSpecs_eq, refineForSpecs_eq]
    cases c.msl <;> simp [Ty.unwrapAllRefs, combineNoVars]
  | vector h ih =>
    obtain ⟨n, rfl⟩ : ∃ n, fuel = n + 1 := ⟨fuel - 1, by simp only [Ty.size] at hf; omega⟩
    have := ih (Ty.All.child he (by simp [Ty.children])) (Ty.All.child ha (by simp [Ty.children])) (fuel := n) (by simp only [Ty.size] at hf; omega)
    rw [combine_step w n c he ha, refineForSpecs_eq, refineForSpecs_eq]
    cases c.msl <;> simp [Ty.unwrapAllRefs, combineNoVars, this]
  | range h ih => exact absurd rfl (he.self.noRange _)
  | @ref a b am bm hm h ih =>
    have this : ∀ n, a.size + b.size ≤ n → _ := fun n hn => ih (Ty.All.child he (by simp [Ty.children])) (Ty.All.child ha (by simp [Ty.children])) (fuel := n) hn
    obtain ⟨n, rfl⟩ : ∃ n, fuel = n + 1 := ⟨fuel - 1, by simp only [Ty.size] at hf; omega⟩
    rw [combine_step w n c he ha]
    by_cases hs : c.msl = true
    · rw [hs, refine_ref, refine_ref, ← hs, ← combine_step w n c (Ty.All.child he (by simp [Ty.children])) (Ty.All.child ha (by simp [Ty.children]))]
      exact this _ (by simp only [Ty.size] at hf; omega)
    · rw [refineForSpecs_eq, refineForSpecs_eq, if_neg hs, if_neg hs]
      have := this n (by simp only [Ty.size] at hf; omega)
      have hm' : (!am || bm) = true := by cases am <;> simp_all
      simp [combineNoVars, this, hm']
  | @adt l k k' v v' as bs hl h ih =>
    obtain ⟨n, rfl⟩ : ∃ n, fuel = n + 1 := ⟨fuel - 1, by simp only [Ty.size] at hf; omega⟩
    have : combinePairs (combine w n) c none as bs = .ok (c, none) := combinePairs_accepts fun p hp => by
      have h1 : p.1 ∈ (Ty.adt l k v as).children := by simp [Ty.children, (List.of_mem_zip hp).1]
      have h2 : p.2 ∈ (Ty.adt l k' v' bs).children := by simp [Ty.children, (List.of_mem_zip hp).2]
      have := Ty.size_children h1
      have := Ty.size_children h2
      exact ih p hp (Ty.All.child he h1) (Ty.All.child ha h2) (by omega)
    rw [combine_step w n c he ha, refineForSpecs_eq, refineForSpecs_eq]
    cases c.msl <;> simp [Ty.unwrapAllRefs, combineNoVars, this]
  | @tuple as bs hl h ih =>
    obtain ⟨n, rfl⟩ : ∃ n, fuel = n + 1 := ⟨fuel - 1, by simp only [Ty.size] at hf; omega⟩
    have : combinePairs (combine w n) c none as bs = .ok (c, none) := combinePairs_accepts fun p hp => by
      have h1 : p.1 ∈ (Ty.tuple as).children := by simp [Ty.children, (List.of_mem_zip hp).1]
      have h2 : p.2 ∈ (Ty.tuple bs).children := by simp [Ty.children, (List.of_mem_zip hp).2]
      have := Ty.size_children h1
      have := Ty.size_children h2
      exact ih p hp (Ty.All.child he h1) (Ty.All.child ha h2) (by omega)
    rw [combine_step w n c he ha, refineForSpecs_eq, refineForSpecs_eq]
    cases c.msl <;> simp [Ty.unwrapAllRefs, combineNoVars, this, hl]
  | single _ ih => exact absurd rfl (ha.self.noSingle _)
  | @specRefL a b m hs h ih =>
    obtain ⟨n, rfl⟩ : ∃ n, fuel = n + 1 := ⟨fuel - 1, by simp only [Ty.size] at hf; omega⟩
    rw [combine_step w n c he ha, hs, refine_ref, ← hs, ← combine_step w n c (Ty.All.child he (by simp [Ty.children])) ha]
    exact ih (Ty.All.child he (by simp [Ty.children])) ha (by simp only [Ty.size] at hf; omega)
  | @specRefR a b m hs h ih =>
    obtain ⟨n, rfl⟩ : ∃ n, fuel = n + 1 := ⟨fuel - 1, by simp only [Ty.size] at hf; omega⟩
    rw [combine_step w n c he ha, hs, refine_ref, ← hs, ← combine_step w n c he (Ty.All.child ha (by simp [Ty.children]))]
    exact ih he (Ty.All.child ha (by simp [Ty.children])) (by simp only [Ty.size] at hf; omega)
  | @specIntL k b hs h ih =>
    obtain ⟨n, rfl⟩ : ∃ n, fuel = n + 1 := ⟨fuel - 1, by simp only [Ty.size] at hf; omega⟩
    have hr : (Ty.integer k).refineForSpecs c.msl = Ty.num.refineForSpecs c.msl := by rw [hs]; rfl
    rw [combine_step w n c he ha, hr, ← combine_step w n c (.num arity) ha]
    exact ih (.num arity) ha (by simp only [Ty.size] at hf ⊢; omega)
  | @specIntR k a hs h ih =>
    obtain ⟨n, rfl⟩ : ∃ n, fuel = n + 1 := ⟨fuel - 1, by simp only [Ty.size] at hf; omega⟩
    have hr : (Ty.integer k).refineForSpecs c.msl = Ty.num.refineForSpecs c.msl := by rw [hs]; rfl
    rw [combine_step w n c he ha, hr, ← combine_step w n c he (.num arity)]
    exact ih he (.num arity) (by simp only [Ty.size] at hf ⊢; omega)
  | vectorRange hl => cases hl
  | rangeVector hl => cases hl
  | callable hl => cases hl
  | wrapped hl => cases hl

/-! ### C36 -/

/-- **C36 (partial).** An accepted check of two types without inference variables means that they are compatible by the rules
with the lax ones, at every depth, and changes nothing in the context. -/
theorem C36_lax_partial {w : World} (hw : GroundWorld w) (fuel : Nat) (c : Ctx) (e a : Ty) (he : Ground e) (ha : Ground a) (c' : Ctx)
    (h : combine w fuel c e a = .ok (c', none)) : c' = c ∧ Compat w c.msl true e a :=
  (combine_sound hw fuel c e a he ha c' none h).imp id fun h => h rfl

/-- **C36 (partial).** For types without inference variables, ranges, callable types and tuples of one element, in which
structures have the number of type arguments they are declared with, a check is accepted exactly if the types are equal up
to the documented coercions, at every depth. -/
theorem C36_exact_partial {w : World} (hw : GroundWorld w) {arity : Loc → Nat} (c : Ctx) {e a : Ty} (he : PlainTy arity e)
    (ha : PlainTy arity a) {fuel : Nat} (hf : e.size + a.size ≤ fuel) :
    combine w fuel c e a = .ok (c, none) ↔ Compat w c.msl false e a :=
  ⟨fun h => (C36_lax_partial hw fuel c e a he.ground ha.ground c h).2.strict he ha, fun h => combine_complete h he ha hf⟩

/-- What the rules say about some pairs. -/
example (w : World) :
    Compat w false false (.ref (.vector (.integer .U8)) false) (.ref (.vector (.integer .U8)) true) ∧
    ¬ Compat w false false (.ref (.vector (.integer .U8)) true) (.ref (.vector (.integer .U8)) false) ∧
    ¬ Compat w false false (.vector (.integer .U8)) (.vector (.integer .U64)) ∧
    ¬ Compat w false false (.adt 0 [] [] [.bool]) (.adt 1 [] [] [.bool]) ∧
    Compat w true false (.adt 0 [] [] [.ref (.integer .U8) true]) (.adt 0 [] [] [.num]) := by
  refine ⟨.ref (by simp) (.refl _), fun h => ?_, fun h => ?_, fun h => ?_, .adt (.inr rfl) ?_⟩
  · cases h with
    | ref hm _ => simp at hm
    | specRefL hs => cases hs
    | specRefR hs => cases hs
  · cases h with
    | vector h =>
      cases h with
      | specIntL hs => cases hs
      | specIntR hs => cases hs
  · cases h
  · simp only [List.zip_cons_cons, List.zip_nil_right, List.mem_singleton, forall_eq]
    exact .specRefL rfl (.specIntL rfl (.refl _))

/-- Types and a world that meet the hypotheses. -/
example : PlainTy (fun _ => 2) (.adt 0 [] [] [.ref (.vector (.integer .U8)) false, .bool]) ∧ GroundWorld emptyWorld := by
  refine ⟨?_, by intro l m ps r h; cases h⟩
  have leaf : ∀ t : Ty, t.children = [] → PlainPart (fun _ => 2) t → PlainTy (fun _ => 2) t := fun t h1 h2 =>
    .intro h2 (by rw [h1]; simp)
  have hu : PlainTy (fun _ => 2) (.integer .U8) := leaf _ rfl (by constructor <;> intros <;> simp_all)
  have hv : PlainTy (fun _ => 2) (.vector (.integer .U8)) :=
    .intro (by constructor <;> intros <;> simp_all) (by simpa [Ty.children] using hu)
  have hr : PlainTy (fun _ => 2) (.ref (.vector (.integer .U8)) false) :=
    .intro (by constructor <;> intros <;> simp_all) (by simpa [Ty.children] using hv)
  refine .intro (by constructor <;> intros <;> simp_all; rename_i h; rw [← h.2.2.2]; rfl) ?_
  simp only [Ty.children, List.nil_append, List.forall_mem_cons]
  exact ⟨hr, leaf _ rfl (by constructor <;> intros <;> simp_all), by simp⟩

example : combine emptyWorld 9 (Ctx.new false) (.adt 0 [] [] [.ref (.vector (.integer .U8)) false, .bool])
    (.adt 0 [] [] [.ref (.vector (.integer .U8)) true, .never]) = .ok (Ctx.new false, none) := rfl

example : combine emptyWorld 9 (Ctx.new false) (.vector (.ref .bool true)) (.vector (.ref .bool false)) =
    .ok (Ctx.new false, some (.mismatch (.ref .bool true) (.ref .bool false))) := rfl

/-- **C36 fails** for ranges: a range is accepted where a vector is expected. -/
theorem C36_range_fails (w : World) (fuel : Nat) : combine w (fuel + 2) (Ctx.new false) (.vector (.integer .U8)) (.range (.integer .U8)) =
      .ok (Ctx.new false, none) ∧ ¬ Compat w false false (.vector (.integer .U8)) (.range (.integer .U8)) := by
  refine ⟨rfl, fun h => ?_⟩
  cases h with
  | vectorRange hl => cases hl

/-- **C36 fails** for functions: a function with two parameters is accepted where one with one parameter is expected. -/
theorem C36_arity_fails (w : World) (fuel : Nat) :
    combine w (fuel + 2) (Ctx.new false) (.callable [.bool] .bool .Lambda none [] []) (.callable [.bool, .address] .bool .Lambda none [] []) =
      .ok (Ctx.new false, none) ∧
    ¬ Compat w false false (.callable [.bool] .bool .Lambda none [] []) (.callable [.bool, .address] .bool .Lambda none [] []) := by
  refine ⟨rfl, fun h => ?_⟩
  cases h with
  | callable hl => cases hl

/-- **C36 fails** for functions: a function that returns a value is accepted where one that returns a mutable reference is
expected. -/
theorem C36_return_fails (w : World) (fuel : Nat) :
    combine w (fuel + 2) (Ctx.new false) (.callable [] (.ref .bool true) .Lambda none [] []) (.callable [] .bool .Lambda none [] []) =
      .ok (Ctx.new false, none) ∧
    ¬ Compat w false false (.callable [] (.ref .bool true) .Lambda none [] []) (.callable [] .bool .Lambda none [] []) := by
  refine ⟨rfl, fun h => ?_⟩
  cases h with
  | callable hl => cases hl

/-- **C36 fails** for the question `is_tys_compatible(ty, into_ty)`: the types are compared the wrong way round, so that an
immutable reference is said to be usable as a mutable one, and a mutable one not to be usable as an immutable one. -/
theorem C36_direction_fails (w : World) (fuel : Nat) :
    isCompatible w (fuel + 2) (Ctx.new false) (.ref .bool false) (.ref .bool true) = .ok (Ctx.new false, true) ∧
    ¬ Compat w false true (.ref .bool true) (.ref .bool false) ∧
    isCompatible w (fuel + 2) (Ctx.new false) (.ref .bool true) (.ref .bool false) = .ok (Ctx.new false, false) ∧
    Compat w false false (.ref .bool false) (.ref .bool true) := by
  refine ⟨rfl, fun h => ?_, rfl, .ref (by simp) (.refl _)⟩
  cases h with
  | ref hm _ => simp at hm
  | specRefL hs => cases hs
  | specRefR hs => cases hs

/-- **C36 (partial)** for the question: apart from the order and the empty tuple it answers what the rules say. -/
theorem C36_question_partial {w : World} (hw : GroundWorld w) {arity : Loc → Nat} (c : Ctx) {t into : Ty} (ht : PlainTy arity t)
    (hi : PlainTy arity into) (hn : into ≠ .tuple []) {fuel : Nat} (hf : t.size + into.size ≤ fuel) :
    isCompatible w fuel c t into = .ok (c, true) ↔ Compat w c.msl false t into := by
  unfold isCompatible
  rw [if_neg hn]
  unfold Ctx.freeze
  constructor
  · intro h
    split at h
    · rename_i c1 r h1
      split at h
      · rename_i hv hi'
        cases h
        simp only at h1
        split at h1
        · rename_i c2 o h2
          cases o with
          | some e => simp at h1
          | none =>
            cases h1
            exact (C36_lax_partial hw fuel _ t into ht.ground hi.ground c1 h2).2.strict ht hi
        · cases h1
        · cases h1
      · cases h
    · cases h
    · cases h
  · intro h
    have := combine_complete (c := { c with vars := c.vars.snapshot, ints := c.ints.snapshot }) h ht hi hf
    simp only [this]
    rfl

end Verif.Types
