import Verif.Ide.Imports
import Verif.Ide.RenameExamples

/-! An import that is reported as unused can be removed: the names around it mean what they meant before. -/

namespace Verif.Ide
open Verif.Parser (Green)
open Verif.Syntax Verif.Nameres

/-! ### What the imports bring into scope -/

/-- What a use speck names (use_speck_entries.rs:31–46: the path of the speck, resolved). The path of a speck is resolved from
its address, so this does not depend on other imports. -/
abbrev Target := UseItem → Option (Ns × Nat × List Nat)

/-- use_speck_entries.rs:15–46. -/
def useEntries (t : Target) (us : List UseItem) : List Entry :=
  us.filterMap fun u => (t u).map fun x => ⟨u.name, x.1, x.2.1, x.2.2⟩

/-- scope_entries_owner.rs:33–38: the imports of an owner come before its other entries. -/
def scopeOthers (w : Project) (file : Nat) (t : Target) (rest : Elem → List Entry) (e : Elem) : List Entry :=
  (if isOwner e then useEntries t (useItems w file e) else []) ++ rest e

/-- resolve_scopes.rs:59–81: the entries of the scopes in other places, `os`, with `more` for all but their imports. -/
def outsideEntries (w : Project) (t : Target) (more : Nat × List Elem → List Entry) (os : List (Nat × List Elem)) : List (List Entry) :=
  os.map fun o => useEntries t (itemsOf w o) ++ more o

/-- What else the resolution of a name asks for: the inline functions of blocks, the items, parameters and builtins of scopes, the
scopes in other places, and the fields that a shorthand names. -/
structure Rest where
  inlines : Elem → List Entry
  scope : Elem → List Entry
  outside : List Elem → List (Nat × List Elem)
  more : Nat × List Elem → List Entry
  fields : List Elem → List Entry

/-- path_resolution.rs:103–106 with name_resolution.rs:37–98, at the path. -/
def baseWalk (w : Project) (r : Rest) (t : Target) (file : Nat) (ns : List Ns) (n : List Char) (site : List Elem) : List Entry :=
  walkScopes file r.inlines (scopeOthers w file t r.scope) (outsideEntries w t r.more (r.outside site)) (fun x => ns.contains x) (some n) site

/-- path_resolution.rs:88–99: the name `Self`. -/
def selfEntries (file : Nat) (ns : List Ns) (site : List Elem) : List Entry :=
  if ns.contains .MODULE then
    match site.tail.find? (isNode .MODULE) with
    | some m => [⟨selfName, .MODULE, file, m.path⟩]
    | none => []
  else []

/-- path_resolution.rs:54–118 with 179, for a path without qualifier: what its name may mean, before visibility and expected
types. -/
def baseEntries (w : Project) (r : Rest) (t : Target) (file : Nat) (site : List Elem) : List Entry :=
  match site.head?.bind refName with
  | none => []
  | some n =>
    match pathKind w.named site with
    | some (.unqualified ns) | some (.namedOrUnqualified _ ns) =>
      (selfEntries file ns site ++ baseWalk w r t file ns n site).filter fun e => decide (e.name = n)
    | some (.shorthand f) => (baseWalk w r t file nsNames n site ++ r.fields f).filter fun e => decide (e.name = n)
    | _ => []

/-- The same without the import. -/
def Target.without (t : Target) (u : UseItem) : Target := fun v => if v = u then none else t v

/-! ### Removing an entry from a walk -/

def Entry.key (e : Entry) : Ns × List Char := (e.ns, e.name)

/-- The lists agree except for entries of the key. -/
def AgreeOff (k : Ns × List Char) (s s' : List Entry) : Prop :=
  ∀ P : Entry → Bool, (∀ e, Entry.key e = k → P e = false) → s.filter P = s'.filter P

theorem newEntries_off {k : Ns × List Char} {s s' : List Entry} (h : AgreeOff k s s') (allowed : Ns → Bool) (n : List Char)
    (seen : List (Ns × List Char)) (hk : k.2 ≠ n ∨ allowed k.1 = false ∨ k ∈ seen) :
    newEntries allowed (some n) seen s = newEntries allowed (some n) seen s' := by
  unfold newEntries
  refine h _ ?_
  rintro e rfl
  rcases hk with hk | hk | hk
  · have : decide (n = e.name) = false := by
      simp only [decide_eq_false_iff_not]
      exact fun h => hk h.symm
    simp [this]
  · simp only [Entry.key] at hk
    simp [hk]
  · simp only [Entry.key] at hk
    simp [hk]

theorem walk_off {k : Ns × List Char} (allowed : Ns → Bool) (n : List Char) {ss ss' : List (List Entry)}
    (h : List.Forall₂ (AgreeOff k) ss ss') (seen : List (Ns × List Char)) (hk : k.2 ≠ n ∨ allowed k.1 = false ∨ k ∈ seen) :
    walkLists allowed (some n) seen ss = walkLists allowed (some n) seen ss' := by
  induction h generalizing seen with
  | nil => rfl
  | cons h1 h2 ih =>
    rw [walkLists, walkLists, newEntries_off h1 allowed n seen hk, ih]
    rcases hk with hk | hk | hk
    · exact .inl hk
    · exact .inr (.inl hk)
    · exact .inr (.inr (List.mem_append.2 (.inr hk)))

theorem walk_shadowed {k : Ns × List Char} (allowed : Ns → Bool) (n : List Char) (pre : List (List Entry)) {ss ss' : List (List Entry)}
    (h : List.Forall₂ (AgreeOff k) ss ss') (seen : List (Ns × List Char))
    (hk : (∃ s ∈ pre, ∃ e ∈ s, Entry.key e = k) ∨ k.2 ≠ n ∨ allowed k.1 = false ∨ k ∈ seen) :
    walkLists allowed (some n) seen (pre ++ ss) = walkLists allowed (some n) seen (pre ++ ss') := by
  induction pre generalizing seen with
  | nil =>
    rcases hk with ⟨s, hs, -⟩ | hk
    · cases hs
    · exact walk_off allowed n h seen hk
  | cons s pre ih =>
    rw [List.cons_append, List.cons_append, walkLists, walkLists, ih]
    rcases hk with ⟨s', hs, e, he, hek⟩ | hk | hk | hk
    · rcases List.mem_cons.1 hs with rfl | hs
      · by_cases h1 : k.2 = n
        · by_cases h2 : allowed k.1 = true
          · by_cases h3 : k ∈ seen
            · exact .inr (.inr (.inr (List.mem_append.2 (.inr h3))))
            · refine .inr (.inr (.inr (List.mem_append.2 (.inl (List.mem_map.2 ⟨e, ?_, hek⟩)))))
              subst hek
              refine mem_newEntries.2 ⟨he, ⟨?_, h2⟩, h3⟩
              rintro m hm
              cases hm
              exact h1.symm
          · exact .inr (.inr (.inl (by simpa using h2)))
        · exact .inr (.inl h1)
      · exact .inl ⟨s', hs, e, he, hek⟩
    · exact .inr (.inl hk)
    · exact .inr (.inr (.inl hk))
    · exact .inr (.inr (.inr (List.mem_append.2 (.inr hk))))

theorem useEntries_without {t : Target} {u : UseItem} {us : List UseItem} (h : u ∉ us) :
    useEntries (t.without u) us = useEntries t us := by
  unfold useEntries
  apply List.filterMap_congr
  intro v hv
  have : v ≠ u := fun e => h (e ▸ hv)
  simp [Target.without, this]

theorem useEntries_off {t : Target} {u : UseItem} {ns : Ns} {x : Nat × List Nat} (ht : t u = some (ns, x)) (us : List UseItem) :
    AgreeOff (ns, u.name) (useEntries t us) (useEntries (t.without u) us) := by
  intro P hP
  unfold useEntries
  induction us with
  | nil => rfl
  | cons v us ih =>
    by_cases hv : v = u
    · subst hv
      have h1 : (Target.without t v) v = none := by simp [Target.without]
      simp only [List.filterMap_cons, ht, h1, Option.map_some, Option.map_none]
      rw [List.filter_cons_of_neg (by rw [hP _ rfl]; decide)]
      exact ih
    · have h1 : (Target.without t u) v = t v := by simp [Target.without, hv]
      simp only [List.filterMap_cons, h1]
      cases t v with
      | none => exact ih
      | some y =>
        simp only [Option.map_some]
        rw [List.filter_cons, List.filter_cons, ih]

theorem AgreeOff.app {k : Ns × List Char} {a a' b b' : List Entry} (h1 : AgreeOff k a a') (h2 : AgreeOff k b b') :
    AgreeOff k (a ++ b) (a' ++ b') := by
  intro P hP
  rw [List.filter_append, List.filter_append, h1 P hP, h2 P hP]

theorem AgreeOff.rfl' (k : Ns × List Char) (a : List Entry) : AgreeOff k a a := fun _ _ => rfl

/-! ### The owners around a path are scopes around it -/

/-- The head of the chain owns use statements. -/
def ownerChain (s : List Elem) : Bool := match s with
  | e :: _ => isOwner e
  | [] => false

theorem owner_scope {e : Elem} (h : isOwner e = true) : resolveScopeKinds.contains e.kind = true ∧ e.kind ≠ .MATCH_ARM := by
  simp only [isOwner, Bool.and_eq_true] at h
  have h2 := h.2
  simp only [ownerKinds, List.contains_iff_mem, List.mem_cons, List.not_mem_nil, or_false] at h2
  rcases h2 with h2 | h2 | h2 | h2 <;> rw [h2] <;> decide

theorem ownersOf_eq (l : List Elem) : ownersOf l = (resolveScopes l).filter ownerChain := by
  induction l with
  | nil => rfl
  | cons e anc ih =>
    rw [ownersOf, resolveScopes, ih]
    by_cases h : isOwner e = true
    · rw [if_pos h, if_pos (owner_scope h).1, List.filter_cons_of_pos (by simpa [ownerChain] using h)]
    · rw [if_neg h]
      split
      · rw [List.filter_cons_of_neg (by simpa [ownerChain] using h)]
      · rfl

theorem owners_scopes {site : List Elem} (h : ∀ p, site.head? = some p → isOwner p = false) :
    ownersOf site = (scopesAt site).filter ownerChain := by
  have h1 : ownersOf site = ownersOf site.tail := by
    cases site with
    | nil => rfl
    | cons p anc =>
      have := h p rfl
      rw [ownersOf, if_neg (by simp [this])]
      rfl
  rw [h1, ownersOf_eq]
  unfold scopesAt
  rw [List.filter_filter]
  apply List.filter_congr
  intro s hs
  cases s with
  | nil => rfl
  | cons e anc =>
    simp only [ownerChain]
    cases ho : isOwner e with
    | false => rfl
    | true =>
      have := (owner_scope ho).2
      simp [skipArm, this]

/-! ### What is hit -/

/-- The import may be meant by the path: of its kind and name, and of the main scope or of the scope of the path. -/
def Eligible (specific : Option ItemScope) (t : BaseType) (u : UseItem) : Prop :=
  (u.scope = .Main ∨ some u.scope = specific) ∧ matchesType t u = true

theorem hitIn_eligible (w : Project) (file : Nat) (specific : Option ItemScope) (t : BaseType) (pre : List (List Elem)) (o : List Elem)
    (post : List (List Elem)) (u : UseItem) (hu : u ∈ combinedUseItems w file o) (he : Eligible specific t u) :
    ∃ v a b c, hitIn w file specific t (pre ++ o :: post) = some v ∧ pre ++ o :: post = a ++ b :: c ∧ a.length ≤ pre.length ∧
      v ∈ combinedUseItems w file b ∧ Eligible specific t v := by
  have elig : ∀ v b, v ∈ ((combinedUseItems w file b).filter fun u =>
      (decide (u.scope = .Main) || decide (some u.scope = specific)) && matchesType t u) ↔
      v ∈ combinedUseItems w file b ∧ Eligible specific t v := by
    intro v b
    rw [List.mem_filter, Bool.and_eq_true, Bool.or_eq_true, decide_eq_true_eq, decide_eq_true_eq]
    rfl
  have found : ∀ b v, (let hits := (combinedUseItems w file b).filter fun u =>
        (decide (u.scope = .Main) || decide (some u.scope = specific)) && matchesType t u
      (specific.bind fun s => hits.find? fun u => decide (u.scope = s)).or (hits.find? fun u => decide (u.scope = .Main))) = some v →
      v ∈ combinedUseItems w file b ∧ Eligible specific t v := by
    intro b v h
    rw [Option.or_eq_some_iff] at h
    rcases h with h | ⟨-, h⟩
    · rw [Option.bind_eq_some_iff] at h
      obtain ⟨s, -, h⟩ := h
      exact (elig v b).1 (List.mem_of_find?_eq_some h)
    · exact (elig v b).1 (List.mem_of_find?_eq_some h)
  have finds : ∀ b v, v ∈ combinedUseItems w file b → Eligible specific t v →
      (let hits := (combinedUseItems w file b).filter fun u =>
        (decide (u.scope = .Main) || decide (some u.scope = specific)) && matchesType t u
      (specific.bind fun s => hits.find? fun u => decide (u.scope = s)).or (hits.find? fun u => decide (u.scope = .Main))) ≠ none := by
    intro b v hv hel h
    rw [Option.or_eq_none_iff] at h
    have hm := (elig v b).2 ⟨hv, hel⟩
    rcases hel.1 with hs | hs
    · rw [List.find?_eq_none] at h
      exact h.2 v hm (by simp [hs])
    · rw [← hs] at h
      simp only [Option.bind_some] at h
      rw [List.find?_eq_none] at h
      refine h.1 v ?_ (by simp)
      rw [hs]
      exact hm
  induction pre with
  | nil =>
    rw [List.nil_append, hitIn]
    split
    · rename_i v hv
      exact ⟨v, [], o, post, rfl, rfl, Nat.le_refl _, found o v hv⟩
    · rename_i hn
      exact absurd hn (finds o u hu he)
  | cons p pre ih =>
    rw [List.cons_append, hitIn]
    split
    · rename_i v hv
      exact ⟨v, [], p, pre ++ o :: post, rfl, rfl, Nat.zero_le _, found p v hv⟩
    · obtain ⟨v, a, b, c, h1, h2, h3, h4⟩ := ih
      exact ⟨v, p :: a, b, c, h1, by rw [h2]; rfl, by simpa using h3, h4⟩

/-! ### Hypotheses about code -/

/-- The two imports compete: they bring the same name, both as a module or both as an item. -/
def Competes (u v : UseItem) : Prop := u.name = v.name ∧ (u.type = .Item ↔ v.type = .Item)

instance (u v : UseItem) : Decidable (Competes u v) := inferInstanceAs (Decidable (_ ∧ _))

/-- The places that share their imports: the owner itself, and for a module or a module specification its siblings. -/
inductive Shares (w : Project) (file : Nat) : List Elem → Nat × List Elem → Prop where
  | self {o} : Shares w file o (file, o)
  | sibling {e anc o} : e.kind = .MODULE ∨ e.kind = .MODULE_SPEC → o ∈ w.siblings file e → Shares w file (e :: anc) o

theorem shares_iff (w : Project) (file : Nat) (owner : List Elem) (o : Nat × List Elem) :
    o ∈ withSiblings w file owner ↔ Shares w file owner o := by
  unfold withSiblings
  constructor
  · intro h
    rcases List.mem_cons.1 h with rfl | h
    · exact .self
    · cases owner with
      | nil => cases h
      | cons e anc =>
        dsimp only at h
        split at h
        · rename_i hk; exact .sibling hk h
        · cases h
  · intro h
    cases h with
    | self => simp
    | sibling hk h => simp [hk, h]

/-- One of the imports that are shared by the owner. -/
def Shared (w : Project) (file : Nat) (owner : List Elem) (u : UseItem) : Prop := ∃ o, Shares w file owner o ∧ u ∈ itemsOf w o

theorem shared_iff (w : Project) (file : Nat) (owner : List Elem) (u : UseItem) :
    u ∈ combinedUseItems w file owner ↔ Shared w file owner u := by
  unfold combinedUseItems Shared
  simp only [List.mem_flatMap, shares_iff]

/-- What Move asks of the imports around a path, for one of them:
* around the path only the outermost owner of use statements is a module, a module specification or a script;
* no owner (with its siblings) imports a name twice;
* an import further in that takes the name of this one names something of the same namespace;
* the import is in scope at the path: not in the `spec module` block of another place;
* a module is imported as a module, anything else as an item. -/
structure Legal (w : Project) (r : Rest) (t : Target) (file : Nat) (site : List Elem) (u : UseItem) : Prop where
  inner : ∀ o ∈ (ownersOf site).dropLast, ∀ e ∈ o.head?, e.kind ≠ .MODULE ∧ e.kind ≠ .MODULE_SPEC
  once : ∀ o ∈ ownersOf site, Shared w file o u → ∀ v, Shared w file o v → Competes u v → v = u
  same : ∀ o ∈ (ownersOf site).dropLast, ∀ e ∈ o.head?, ∀ v ∈ useItems w file e, Competes u v →
    (t v).map Prod.fst = (t u).map Prod.fst
  here : ∀ o ∈ r.outside site, u ∈ itemsOf w o → ∃ a ∈ ownersOf site, Shares w file a o
  kinds : ∀ ns x, t u = some (ns, x) → (ns = .MODULE ↔ u.type ≠ .Item)

/-- The path has one element, or two; what comes before the name is then the qualifier. -/
inductive Short (site : List Elem) : Prop where
  | one : rootPath site = site → Short site
  | two : qualifierOf (rootPath site) = some site → shorthandField site = none → Short site

/-- What the base of the path may not be for the analysis to be right: a module named alone (in `friend` or in an attribute), or
an enum that qualifies a variant. -/
structure Usual (t : Target) (site : List Elem) (u : UseItem) : Prop where
  alone : rootPath site = site → Ns.MODULE ∉ pathNamespaces site.tail
  qualifies : qualifierOf (rootPath site) = some site → u.type = .Item → ∀ x, t u ≠ some (.ENUM, x)

theorem competes_of {bt : BaseType} {n : List Char} {u v : UseItem} (hbt : bt = .item n ∨ bt = .module n) (hu : matchesType bt u = true)
    (hv : matchesType bt v = true) : Competes u v := by
  unfold Competes
  rcases hbt with rfl | rfl
  · simp only [matchesType, Bool.and_eq_true, decide_eq_true_eq] at hu hv
    simp [hu.1, hu.2, hv.1, hv.2]
  · simp only [matchesType, Bool.and_eq_true, Bool.or_eq_true, decide_eq_true_eq] at hu hv
    refine ⟨hu.2.trans hv.2.symm, ?_⟩
    rcases hu.1 with h | h <;> rcases hv.1 with h' | h' <;> rw [h, h'] <;> decide

theorem ownersOf_head {site o : List Elem} (h : o ∈ ownersOf site) : ∃ e anc, o = e :: anc ∧ isOwner e = true := by
  induction site with
  | nil => cases h
  | cons p anc ih =>
    rw [ownersOf] at h
    split at h
    · rename_i hp
      rcases List.mem_cons.1 h with rfl | h
      · exact ⟨p, anc, rfl, hp⟩
      · exact ih h
    · exact ih h

theorem useItems_combined {w : Project} {file : Nat} {e : Elem} {anc : List Elem} {u : UseItem} (h : u ∈ useItems w file e) :
    u ∈ combinedUseItems w file (e :: anc) := by
  unfold combinedUseItems withSiblings
  rw [List.flatMap_cons]
  exact List.mem_append.2 (.inl h)

theorem combined_inner {w : Project} {file : Nat} {e : Elem} {anc : List Elem} (h : e.kind ≠ .MODULE ∧ e.kind ≠ .MODULE_SPEC) :
    combinedUseItems w file (e :: anc) = useItems w file e := by
  unfold combinedUseItems withSiblings
  simp [h.1, h.2, itemsOf]

theorem walk_without (w : Project) (r : Rest) (t : Target) (file : Nat) (ns : List Ns) (n : List Char) (p : Elem) (anc : List Elem)
    (u : UseItem) (bt : BaseType) (hp : isOwner p = false) (hl : Legal w r t file (p :: anc) u)
    (hs : u.scope = .Main ∨ some u.scope = specificScope w file p)
    (hbt : bt = .item n ∨ bt = .module n)
    (hns : ∀ k x, t u = some (k, x) → u.name = n → matchesType bt u = false → k ∉ ns)
    (hh : hitIn w file (specificScope w file p) bt (ownersOf (p :: anc)) ≠ some u) :
    baseWalk w r (t.without u) file ns n (p :: anc) = baseWalk w r t file ns n (p :: anc) := by
  cases htu : t u with
  | none =>
    have : t.without u = t := by
      funext v
      unfold Target.without
      split
      · rename_i h; rw [h, htu]
      · rfl
    rw [this]
  | some y =>
    obtain ⟨k, x⟩ := y
    let E : Target → List Elem → List Entry := fun t => scopeEntries file r.inlines (scopeOthers w file t r.scope) (p :: anc)
    let O : Target → Nat × List Elem → List Entry := fun t o => useEntries t (itemsOf w o) ++ r.more o
    have base : ∀ t, baseWalk w r t file ns n (p :: anc) = walkLists (fun x => ns.contains x) (some n) []
        ((scopesAt (p :: anc)).map (E t) ++ (r.outside (p :: anc)).map (O t)) := fun _ => rfl
    rw [base, base]
    have offE : ∀ s, AgreeOff (k, u.name) (E t s) (E (t.without u) s) := by
      intro s
      cases s with
      | nil => exact AgreeOff.rfl' _ _
      | cons e up =>
        simp only [E, scopeEntries, scopeOthers]
        refine AgreeOff.app (AgreeOff.rfl' _ _) (AgreeOff.app (AgreeOff.app ?_ (AgreeOff.rfl' _ _)) (AgreeOff.rfl' _ _))
        split
        · exact useEntries_off htu _
        · exact AgreeOff.rfl' _ _
    have offO : ∀ o, AgreeOff (k, u.name) (O t o) (O (t.without u) o) :=
      fun o => AgreeOff.app (useEntries_off htu _) (AgreeOff.rfl' _ _)
    have offs : ∀ (l : List (List Elem)) (l' : List (Nat × List Elem)),
        List.Forall₂ (AgreeOff (k, u.name)) (l.map (E t) ++ l'.map (O t)) (l.map (E (t.without u)) ++ l'.map (O (t.without u))) := by
      intro l l'
      induction l with
      | nil =>
        induction l' with
        | nil => exact .nil
        | cons o l' ih => exact .cons (offO o) ih
      | cons s l ih => exact .cons (offE s) ih
    have sameE : ∀ s, (∀ e up, s = e :: up → isOwner e = true → u ∉ useItems w file e) → E (t.without u) s = E t s := by
      intro s h
      cases s with
      | nil => rfl
      | cons e up =>
        simp only [E, scopeEntries, scopeOthers]
        by_cases ho : isOwner e = true
        · rw [useEntries_without (h e up rfl ho)]
        · rw [if_neg ho, if_neg ho]
    by_cases hn : u.name = n
    swap
    · exact (walk_off _ n (offs _ _) [] (.inl hn)).symm
    by_cases hk : k ∈ ns
    swap
    · exact (walk_off _ n (offs _ _) [] (.inr (.inl (by simpa using hk)))).symm
    have hmt : matchesType bt u = true := by
      cases h : matchesType bt u with
      | true => rfl
      | false => exact absurd hk (hns k x htu hn h)
    have how : ownersOf (p :: anc) = (scopesAt (p :: anc)).filter ownerChain :=
      owners_scopes (fun q hq => by cases hq; exact hp)
    cases hf : (ownersOf (p :: anc)).find? (fun o => decide (u ∈ combinedUseItems w file o)) with
    | none =>
      rw [List.find?_eq_none] at hf
      have h1 : (scopesAt (p :: anc)).map (E (t.without u)) = (scopesAt (p :: anc)).map (E t) := by
        apply List.map_congr_left
        intro s hs
        refine sameE s ?_
        rintro e up rfl ho hu
        have hm : (e :: up) ∈ ownersOf (p :: anc) := by
          rw [how, List.mem_filter]
          exact ⟨hs, ho⟩
        exact hf _ hm (by simpa using useItems_combined hu)
      have h2 : (r.outside (p :: anc)).map (O (t.without u)) = (r.outside (p :: anc)).map (O t) := by
        apply List.map_congr_left
        intro o ho
        simp only [O]
        rw [useEntries_without]
        intro hu
        obtain ⟨a, ha, hua⟩ := hl.here o ho hu
        exact hf a ha (by simpa using (shared_iff w file a u).2 ⟨o, hua, hu⟩)
      rw [h1, h2]
    | some o =>
      rw [List.find?_eq_some_iff_append] at hf
      obtain ⟨hu, pre, post, hsplit, hpre⟩ := hf
      have hu : u ∈ combinedUseItems w file o := by simpa using hu
      have hpre : ∀ a ∈ pre, u ∉ combinedUseItems w file a := fun a ha => by simpa using hpre a ha
      obtain ⟨v, a, b, c, h1, h2, h3, h4, h5⟩ := hitIn_eligible w file (specificScope w file p) bt pre o post u hu ⟨hs, hmt⟩
      have hcomp : Competes u v := competes_of hbt hmt h5.2
      rw [← hsplit] at h1 h2
      have hab : a ++ b :: c = pre ++ o :: post := h2.symm.trans hsplit
      rcases Nat.lt_or_ge a.length pre.length with hlt | hge
      swap
      · obtain ⟨rfl, h6⟩ := List.append_inj hab (by omega)
        cases h6
        have := hl.once o (by rw [hsplit]; simp) ((shared_iff _ _ _ _).1 hu) v ((shared_iff _ _ _ _).1 h4) hcomp
        subst this
        exact absurd h1 hh
      · have hap : ∃ d, pre = a ++ b :: d := by
          rcases List.append_eq_append_iff.1 hab with ⟨d, hd1, hd2⟩ | ⟨d, hd1, hd2⟩
          · cases d with
            | nil => simp only [List.append_nil] at hd1; rw [hd1] at hlt; omega
            | cons z d =>
              simp only [List.cons_append, List.cons.injEq] at hd2
              exact ⟨d, by rw [hd1, hd2.1]⟩
          · rw [hd1] at hlt; simp at hlt
        obtain ⟨d, rfl⟩ := hap
        have hc : c ≠ [] := by
          rintro rfl
          have := congrArg List.length hab
          simp only [List.length_append, List.length_cons, List.length_nil] at this
          omega
        obtain ⟨e, up, rfl, heo⟩ := ownersOf_head (site := p :: anc) (o := b) (by rw [h2]; simp)
        have hdrop : (e :: up) ∈ (ownersOf (p :: anc)).dropLast := by
          rw [h2, List.dropLast_append_of_ne_nil (by simp)]
          cases c with
          | nil => exact absurd rfl hc
          | cons x c => simp
        rw [combined_inner (hl.inner _ hdrop e rfl)] at h4
        have hkv := hl.same _ hdrop e rfl v h4 hcomp
        rw [htu] at hkv
        have hvu : v ≠ u := by
          rintro rfl
          exact hpre (e :: up) (by simp) (useItems_combined h4)
        rw [how] at h2
        obtain ⟨l1, l2, hl1, hl2, hl3⟩ := List.filter_eq_append_iff.1 h2
        obtain ⟨m1, m2, rfl, hm1, hm2, hm3⟩ := List.filter_eq_cons_iff.1 hl3
        have hS : scopesAt (p :: anc) = (l1 ++ m1 ++ [e :: up]) ++ m2 := by rw [hl1]; simp
        have hsame : (l1 ++ m1 ++ [e :: up]).map (E (t.without u)) = (l1 ++ m1 ++ [e :: up]).map (E t) := by
          apply List.map_congr_left
          intro s hs'
          refine sameE s ?_
          rintro e' up' rfl ho' hu'
          have hin : (e' :: up') ∈ a ++ (e :: up) :: d := by
            rcases List.mem_append.1 hs' with hs' | hs'
            · rcases List.mem_append.1 hs' with hs' | hs'
              · refine List.mem_append.2 (.inl ?_)
                rw [← hl2, List.mem_filter]
                exact ⟨hs', ho'⟩
              · exact absurd ho' (hm1 _ hs')
            · simp only [List.mem_singleton] at hs'
              rw [hs']; simp
          exact hpre _ hin (useItems_combined hu')
        rw [hS, List.map_append (l₁ := l1 ++ m1 ++ [e :: up]), List.map_append (l₁ := l1 ++ m1 ++ [e :: up]), hsame]
        have key := walk_shadowed (fun x => ns.contains x) n ((l1 ++ m1 ++ [e :: up]).map (E t)) (offs m2 (r.outside (p :: anc))) []
        simp only [← List.append_assoc] at key
        refine (key (.inl ⟨E t (e :: up), ?_, ?_⟩)).symm
        · exact List.mem_map.2 ⟨e :: up, by simp, rfl⟩
        · cases htv : t v with
          | none => rw [htv] at hkv; cases hkv
          | some z =>
            rw [htv] at hkv
            simp only [Option.map_some, Option.some.injEq] at hkv
            refine ⟨⟨v.name, z.1, z.2.1, z.2.2⟩, ?_, ?_⟩
            · simp only [E, scopeEntries, scopeOthers, if_pos heo]
              refine List.mem_append.2 (.inr (List.mem_append.2 (.inl (List.mem_append.2 (.inl ?_)))))
              exact List.mem_filterMap.2 ⟨v, h4, by rw [htv]; rfl⟩
            · simp only [Entry.key, Prod.mk.injEq]
              exact ⟨hkv, hcomp.1.symm⟩

/-! ### The theorem -/

theorem baseEntries_cases {w : Project} {site : List Elem} {p : Elem} {anc : List Elem} {n : List Char} (hsite : site = p :: anc)
    (hn : refName p = some n) (hq : qualifierOf site = none) :
    (∀ ns, pathKind w.named site = some (.unqualified ns) → ns = pathNamespaces anc ∧ pathAddress p = none) ∧
    (∀ m ns, pathKind w.named site = some (.namedOrUnqualified m ns) → ns = pathNamespaces anc ∧ pathAddress p = none) ∧
    (∀ f, pathKind w.named site = some (.shorthand f) → shorthandField site = some f ∧ pathAddress p = none) := by
  subst hsite
  have key : ∀ k, pathKind w.named (p :: anc) = some k →
      (∀ ns, k = .unqualified ns → ns = pathNamespaces anc ∧ pathAddress p = none) ∧
      (∀ m ns, k = .namedOrUnqualified m ns → ns = pathNamespaces anc ∧ pathAddress p = none) ∧
      (∀ f, k = .shorthand f → shorthandField (p :: anc) = some f ∧ pathAddress p = none) := by
    intro k h
    unfold pathKind at h
    dsimp only at h
    split at h
    · split at h
      · cases hh : nodeChild ‹Elem› .PATH <;> rw [hh] at h <;> simp at h
        subst h
        simp
      · cases h
    · cases h
    · split at h
      · cases h
      · rw [hq] at h
        dsimp only at h
        cases ha : pathAddress p with
        | some a => rw [ha] at h; cases h; simp
        | none =>
          rw [ha, hn] at h
          dsimp only at h
          split at h
          · cases h; simp
          · split at h
            · cases h; simp
            · split at h
              · cases h; simp
              · cases hf : shorthandField (p :: anc) with
                | none => rw [hf] at h; cases h; simp
                | some f => rw [hf] at h; cases h; simp
  exact ⟨fun ns h => (key _ h).1 ns rfl, fun m ns h => (key _ h).2.1 m ns rfl, fun f h => (key _ h).2.2 f rfl⟩

/-- An import that the analysis does not count for a path can be removed without a change to what the path may mean. -/
theorem base_without (w : Project) (r : Rest) (t : Target) (file : Nat) (p : Elem) (anc : List Elem) (u : UseItem)
    (hp : isNode .PATH p = true) (hq : nodeChild p .PATH = none) (hshort : Short (p :: anc)) (hus : Usual t (p :: anc) u)
    (hl : Legal w r t file (p :: anc) u) (hs : u.scope = .Main ∨ u.scope = w.scope file p) (hh : hitOf w file (p :: anc) ≠ some u) :
    baseEntries w r (t.without u) file (p :: anc) = baseEntries w r t file (p :: anc) := by
  unfold baseEntries
  simp only [List.head?_cons, Option.bind_some]
  cases hn : refName p with
  | none => rfl
  | some n =>
    dsimp only
    have hq0 : qualifierOf (p :: anc) = none := by simp [qualifierOf, hq]
    obtain ⟨c1, c2, c3⟩ := baseEntries_cases (w := w) (site := p :: anc) rfl hn hq0
    have hpo : isOwner p = false := by
      have : p.kind = .PATH := by
        simp only [isNode, Bool.and_eq_true, decide_eq_true_eq] at hp
        exact hp.2
      simp [isOwner, ownerKinds, this]
    have hs' : u.scope = .Main ∨ some u.scope = specificScope w file p := by
      by_cases hm : u.scope = .Main
      · exact .inl hm
      · rcases hs with h | h
        · exact .inl h
        · right
          unfold specificScope
          rw [← h, if_pos hm]
    have go : ∀ ns, pathAddress p = none → (ns = pathNamespaces anc ∨ ns = nsNames ∧ (shorthandField (p :: anc)).isSome) →
        baseWalk w r (t.without u) file ns n (p :: anc) = baseWalk w r t file ns n (p :: anc) := by
      intro ns hpa hns
      cases hshort with
      | one h1 =>
        have hbt : baseType w (p :: anc) = some (.item n) := by
          unfold baseType
          rw [h1, hq0]
          simp [hn]
        refine walk_without w r t file ns n p anc u (.item n) hpo hl hs' (.inl rfl) ?_ ?_
        · intro k x htu hun hm hk
          have hty : u.type ≠ .Item := by
            intro h
            simp [matchesType, h, hun] at hm
          have hkm := (hl.kinds k x htu).2 hty
          subst hkm
          rcases hns with rfl | ⟨rfl, -⟩
          · exact hus.alone h1 hk
          · simp [nsNames] at hk
        · unfold hitOf at hh
          simpa only [hbt] using hh
      | two h1 hsh =>
        have hbt : baseType w (p :: anc) = some (.module n) := by
          unfold baseType
          rw [h1]
          simp [hn, hpa, hq0]
        refine walk_without w r t file ns n p anc u (.module n) hpo hl hs' (.inr rfl) ?_ ?_
        · intro k x htu hun hm hk
          have hty : u.type = .Item := by
            cases hty : u.type with
            | Item => rfl
            | Module => simp [matchesType, hty, hun] at hm
            | SelfModule => simp [matchesType, hty, hun] at hm
          have hkm : k ≠ .MODULE := fun h => (hl.kinds k x htu).1 h hty
          rcases hns with rfl | ⟨-, hs⟩
          · have hanc : kindAt anc 0 = some .PATH := by
              cases anc with
              | nil => simp [rootPath, qualifierOf] at h1
              | cons q anc =>
                rw [rootPath] at h1
                split at h1
                · rename_i hq
                  simp only [isNode, Bool.and_eq_true, decide_eq_true_eq] at hq
                  simp [kindAt, hq.2]
                · rw [hq0] at h1
                  cases h1
            unfold pathNamespaces at hk
            rw [hanc] at hk
            simp only [nsEnumsModules, List.mem_cons, List.not_mem_nil, or_false] at hk
            rcases hk with rfl | hk
            · exact hus.qualifies h1 hty x htu
            · exact hkm hk
          · rw [hsh] at hs; cases hs
        · unfold hitOf at hh
          simpa only [hbt] using hh
    cases hk : pathKind w.named (p :: anc) with
    | none => rfl
    | some k =>
      cases k with
      | unqualified ns => dsimp only; rw [go ns (c1 ns hk).2 (.inl (c1 ns hk).1)]
      | namedOrUnqualified m ns => dsimp only; rw [go ns (c2 m ns hk).2 (.inl (c2 m ns hk).1)]
      | shorthand f => dsimp only; rw [go nsNames (c3 f hk).2 (.inr ⟨rfl, by rw [(c3 f hk).1]; rfl⟩)]
      | _ => rfl

theorem unusedIn_mem {w : Project} {hit : List UseItem} {ss : List Stmt} {us : List UseItem} (h : unusedIn w hit ss = some us) :
    ∀ u, u ∈ us ↔ u ∉ hit ∧ ∃ s ∈ ss, ∃ l, s.items w = some l ∧ u ∈ l := by
  induction ss generalizing us with
  | nil => cases h; simp
  | cons s ss ih =>
    rw [unusedIn] at h
    cases hi : s.items w with
    | none => rw [hi] at h; cases h
    | some l =>
      rw [hi] at h
      simp only [Option.map_eq_some_iff] at h
      obtain ⟨more, hm, rfl⟩ := h
      intro u
      rw [List.mem_append, ih hm, List.mem_filter]
      simp only [Bool.not_eq_true', List.contains_eq_mem, decide_eq_false_iff_not, List.mem_cons, exists_eq_or_imp, hi,
        Option.some.injEq, exists_eq_left']
      tauto

/-- The import `u`, reported as unused in a module, script, specification or block, can be removed: every unqualified name there
(the only element of its path, or the qualifier of a path of two elements) may mean the same as before. Missing: paths of three
elements or more, modules named alone, enums that qualify variants (for these see `C66_enum_fails`), and the imports that
Move itself rejects. -/
theorem C66_unused_partial (w : Project) (r : Rest) (t : Target) (file : Nat) (owner : List Elem) (us : List UseItem) (u : UseItem)
    (hus : unusedUseItems w file owner = some us) (hu : u ∈ us) (o : Nat × List Elem) (ho : Shares w file owner o)
    (p : Elem) (anc : List Elem) (hsite : (p :: anc) ∈ descendantPaths o.2) (hshort : Short (p :: anc)) (husual : Usual t (p :: anc) u)
    (hlegal : Legal w r t o.1 (p :: anc) u) (hs : u.scope = .Main ∨ u.scope = w.scope o.1 p) :
    baseEntries w r (t.without u) o.1 (p :: anc) = baseEntries w r t o.1 (p :: anc) := by
  have hnot := ((unusedIn_mem hus u).1 hu).1
  have hpath : isNode .PATH p = true ∧ nodeChild p .PATH = none := by
    cases ho2 : o.2 with
    | nil => rw [ho2] at hsite; cases hsite
    | cons e up =>
      rw [ho2, descendantPaths, List.mem_filter] at hsite
      simp only [Bool.and_eq_true, Option.isNone_iff_eq_none] at hsite
      exact hsite.2.1
  refine base_without w r t o.1 p anc u hpath.1 hpath.2 hshort husual hlegal hs ?_
  intro hh
  refine hnot ?_
  unfold hits scopedHits
  exact List.mem_map.2 ⟨(u, w.scope o.1 p), List.mem_flatMap.2 ⟨o, (shares_iff _ _ _ _).2 ho, List.mem_filterMap.2 ⟨_, hsite, by simp [hh]⟩⟩, rfl⟩

/-! ### Imports for tests only -/

theorem testOnlyIn_mem {w : Project} {hit : List (UseItem × ItemScope)} {ss : List Stmt} {us : List UseItem}
    (h : testOnlyIn w hit ss = some us) :
    ∀ u, u ∈ us ↔ testOnly hit u = true ∧ ∃ s ∈ ss, ∃ l, s.items w = some l ∧ u ∈ l := by
  induction ss generalizing us with
  | nil => cases h; simp
  | cons s ss ih =>
    rw [testOnlyIn] at h
    cases hi : s.items w with
    | none => rw [hi] at h; cases h
    | some l =>
      rw [hi] at h
      simp only [Option.map_eq_some_iff] at h
      obtain ⟨more, hm, rfl⟩ := h
      intro u
      rw [List.mem_append, ih hm, List.mem_filter]
      simp only [List.mem_cons, exists_eq_or_imp, hi, Option.some.injEq, exists_eq_left']
      tauto

/-- An import that is reported as one for tests only is used in a test, and outside of tests it can be removed. -/
theorem C66_test_only_partial (w : Project) (r : Rest) (t : Target) (file : Nat) (owner : List Elem) (us : List UseItem) (u : UseItem)
    (hus : testOnlyUseItems w file owner = some us) (hu : u ∈ us) :
    (∃ o, Shares w file owner o ∧ ∃ p anc, (p :: anc) ∈ descendantPaths o.2 ∧ w.scope o.1 p = .Test ∧
      hitOf w o.1 (p :: anc) = some u) ∧
    ∀ o, Shares w file owner o → ∀ p anc, (p :: anc) ∈ descendantPaths o.2 → w.scope o.1 p ≠ .Test → Short (p :: anc) →
      Usual t (p :: anc) u → Legal w r t o.1 (p :: anc) u →
      baseEntries w r (t.without u) o.1 (p :: anc) = baseEntries w r t o.1 (p :: anc) := by
  have hto := ((testOnlyIn_mem hus u).1 hu).1
  unfold testOnly at hto
  cases hsc : u.scope with
  | Test => rw [hsc] at hto; cases hto
  | Verify => rw [hsc] at hto; cases hto
  | Main =>
    rw [hsc] at hto
    simp only [Bool.and_eq_true, Bool.not_eq_true', List.contains_eq_mem, decide_eq_false_iff_not, decide_eq_true_eq] at hto
    obtain ⟨hmain, htest⟩ := hto
    constructor
    · obtain ⟨h, hh, he⟩ := List.mem_map.1 htest
      obtain ⟨h1, h2⟩ := h
      unfold scopedHits at hh
      obtain ⟨o, ho, hh⟩ := List.mem_flatMap.1 hh
      obtain ⟨site, hsite, hh⟩ := List.mem_filterMap.1 hh
      cases site with
      | nil => cases hh
      | cons p anc =>
        simp only [Option.map_eq_some_iff, Prod.mk.injEq] at hh
        obtain ⟨v, hv, rfl, rfl⟩ := hh
        simp only [Prod.mk.injEq] at he
        refine ⟨o, (shares_iff _ _ _ _).1 ho, p, anc, hsite, ?_, he.1 ▸ hv⟩
        have h3 := he.2
        cases hx : w.scope o.1 p <;> rw [hx] at h3 <;> simp [usageScope] at h3 ⊢
    · intro o ho p anc hsite hnt hshort husual hlegal
      have hpath : isNode .PATH p = true ∧ nodeChild p .PATH = none := by
        cases ho2 : o.2 with
        | nil => rw [ho2] at hsite; cases hsite
        | cons e up =>
          rw [ho2, descendantPaths, List.mem_filter] at hsite
          simp only [Bool.and_eq_true, Option.isNone_iff_eq_none] at hsite
          exact hsite.2.1
      refine base_without w r t o.1 p anc u hpath.1 hpath.2 hshort husual hlegal (.inl hsc) ?_
      intro hh
      refine hmain (List.mem_map.2 ⟨(u, w.scope o.1 p), ?_, ?_⟩)
      · unfold scopedHits
        exact List.mem_flatMap.2 ⟨o, (shares_iff _ _ _ _).2 ho, List.mem_filterMap.2 ⟨_, hsite, by simp [hh]⟩⟩
      · cases hx : w.scope o.1 p <;> first | exact absurd hx hnt | rfl

end Verif.Ide
