import Verif.Ide.AutoImport
import Verif.Nameres.ResolvePaths

/-! C69: for which items "Add import" is offered. -/

namespace Verif.Nameres.AutoImport
open Verif.Parser (Green)
open Verif.Syntax Verif.Editor
open Verif.Nameres.Full

/-! ### Specification -/

/-- The module is declared in the file, at the top level or in an address block; `anc` are its ancestors. -/
inductive Declared (g : Green) (m : Elem) : List Elem → Prop where
  | top : m ∈ (Elem.root g).children → Is .MODULE m → Declared g m [Elem.root g]
  | inner {d} : d ∈ (Elem.root g).children → Is .ADDRESS_DEF d → m ∈ d.children → Is .MODULE m → Declared g m [d, Elem.root g]

/-- What the module declares itself: its items, its lemmas and what its `spec module` blocks declare. -/
inductive Own (m : Elem) : Elem → Prop where
  | item {i} : i ∈ m.children → Is .CONST i ∨ Is .ENUM i ∨ Is .STRUCT i ∨ Is .SCHEMA i ∨ Is .FUN i ∨ Is .SPEC_FUN i → Own m i
  | lemma_ {l i} : l ∈ m.children → Is .SPEC_LEMMA l → nodeChild l .LEMMA = some i → Own m i
  | block {i} : InSpecBlock m i → Is .SPEC_INLINE_FUN i ∨ Is .LEMMA i ∨ Is .GLOBAL_VARIABLE_DECL i → Own m i

/-- A module that can be reached from the file, or something that it declares, of the name and in one of the namespaces. -/
def Candidate (w : Names) (file : Nat) (n : Text) (ns : List Ns) (e : Entry) : Prop :=
  (∃ f ∈ w.files file, ∃ m anc, Declared (w.tree f) m anc ∧ (Stands e f m ∨ ∃ i, Own m i ∧ Stands e f i)) ∧ e.name = n ∧ e.ns ∈ ns

/-- The full name: of a module its address, as it is written, and its name; of an item of the module also its own name. -/
inductive FullName (w : Names) (file : Nat) (e : Entry) : List Text → Prop where
  | module {f m anc b} : f ∈ w.files file → Is .MODULE m → Declares (Elem.root (w.tree f)) m anc b → Stands e f m →
      FullName w file e [addressIdent b, e.name]
  | item {f m anc b mn i} : f ∈ w.files file → Is .MODULE m → Declares (Elem.root (w.tree f)) m anc b → nameText m = some mn →
      i ∈ m.children → Is .CONST i ∨ Is .ENUM i ∨ Is .STRUCT i ∨ Is .SCHEMA i ∨ Is .FUN i ∨ Is .SPEC_FUN i → Stands e f i →
      FullName w file e [addressIdent b, mn, e.name]

/-! ### Candidates -/

theorem mem_allModules (g : Green) (m : Elem) (anc : List Elem) : m :: anc ∈ allModules (Elem.root g) ↔ Declared g m anc := by
  unfold allModules
  simp only [List.mem_append, List.mem_map, List.mem_flatMap, List.mem_filter, isNode_iff, List.cons.injEq]
  constructor
  · rintro (⟨x, ⟨h1, h2⟩, rfl, rfl⟩ | ⟨d, ⟨h1, h2⟩, x, ⟨h3, h4⟩, rfl, rfl⟩)
    · exact .top h1 h2
    · exact .inner h1 h2 h3 h4
  · intro h
    cases h with
    | top h1 h2 => exact .inl ⟨m, ⟨h1, h2⟩, rfl, rfl⟩
    | @inner d h1 h2 h3 h4 => exact .inr ⟨d, ⟨h1, h2⟩, m, ⟨h3, h4⟩, rfl, rfl⟩

theorem allModules_ne {root : Elem} {c : List Elem} (h : c ∈ allModules root) : ∃ m anc, c = m :: anc := by
  unfold allModules at h
  simp only [List.mem_append, List.mem_map, List.mem_flatMap] at h
  rcases h with ⟨x, -, rfl⟩ | ⟨d, -, x, -, rfl⟩ <;> exact ⟨_, _, rfl⟩

theorem own_iff (m i : Elem) : i ∈ namedItems m ++ specDecls m .GLOBAL_VARIABLE_DECL ↔ Own m i := by
  rw [mem_namedItems]
  constructor
  · rintro (⟨h1, h2⟩ | ⟨l, h1, h2, h3⟩ | ⟨h1, h2⟩)
    · exact .item h1 h2
    · exact .lemma_ h1 h2 h3
    · exact .block h1 h2
  · intro h
    cases h with
    | item h1 h2 => exact .inl ⟨h1, h2⟩
    | lemma_ h1 h2 h3 => exact .inr (.inl ⟨_, h1, h2, h3⟩)
    | block h1 h2 => exact .inr (.inr ⟨h1, h2⟩)

theorem mem_importable (f : Nat) (m : Elem) (e : Entry) : e ∈ importableEntries f m ↔ ∃ i, Own m i ∧ Stands e f i := by
  unfold importableEntries
  rw [← List.filterMap_append, List.mem_filterMap]
  simp only [own_iff, itemEntry_iff]

theorem mem_candidates (w : Names) (file : Nat) (e : Entry) :
    e ∈ candidates w file ↔ ∃ f ∈ w.files file, ∃ m anc, Declared (w.tree f) m anc ∧ (Stands e f m ∨ ∃ i, Own m i ∧ Stands e f i) := by
  unfold candidates
  simp only [List.mem_flatMap]
  constructor
  · rintro ⟨f, hf, c, hc, h⟩
    obtain ⟨m, anc, rfl⟩ := allModules_ne hc
    refine ⟨f, hf, m, anc, (mem_allModules _ _ _).1 hc, ?_⟩
    simpa [mem_importable, itemEntry_iff, Option.mem_toList] using h
  · rintro ⟨f, hf, m, anc, hm, h⟩
    refine ⟨f, hf, m :: anc, (mem_allModules _ _ _).2 hm, ?_⟩
    simpa [mem_importable, itemEntry_iff, Option.mem_toList] using h

theorem declared_chain {g : Green} {m : Elem} {anc : List Elem} (h : Declared g m anc) : Chain g (m :: anc) := by
  cases h with
  | top h _ => exact .child .top h
  | inner h _ h2 _ => exact .child (.child .top h) h2

theorem declared_module {g : Green} {m : Elem} {anc : List Elem} (h : Declared g m anc) : Is .MODULE m := by
  cases h <;> assumption

theorem own_not_module {m i : Elem} (h : Own m i) : i.kind ≠ .MODULE := by
  cases h with
  | item _ h => rcases h with h | h | h | h | h | h <;> simp [h.2]
  | lemma_ _ _ h => simp [(nodeChild_mem h).2.2]
  | block _ h => rcases h with h | h | h <;> simp [h.2]

theorem own_suffix {m i : Elem} (h : Own m i) : m.path <:+ i.path := by
  cases h with
  | item h _ => obtain ⟨j, hj, -⟩ := child_index h; exact ⟨[j], by simp [hj]⟩
  | lemma_ h1 _ h =>
    obtain ⟨j, hj, -⟩ := child_index h1
    obtain ⟨k, hk, -⟩ := child_index (nodeChild_mem h).1
    exact ⟨[k, j], by simp [hj, hk]⟩
  | block h _ =>
    obtain ⟨s, h1, -, -, b, h2, h3⟩ := h
    obtain ⟨j, hj, -⟩ := child_index h1
    obtain ⟨k, hk, -⟩ := child_index (nodeChild_mem h2).1
    obtain ⟨l, hl, -⟩ := child_index h3
    exact ⟨[l, k, j], by simp [hj, hk, hl]⟩

theorem declared_apart {g : Green} {m m' : Elem} {anc anc' : List Elem} (h : Declared g m anc) (h' : Declared g m' anc')
    (hs : m.path <:+ m'.path) : m.path = m'.path := by
  have hr : (Elem.root g).path = [] := rfl
  cases h with
  | top h1 h2 =>
    obtain ⟨j, hj, -⟩ := child_index h1
    cases h' with
    | top h3 _ =>
      obtain ⟨k, hk, -⟩ := child_index h3
      rw [hj, hk, hr] at hs ⊢
      exact hs.eq_of_length rfl
    | @inner d h3 h4 h5 h6 =>
      obtain ⟨k, hk, -⟩ := child_index h3
      obtain ⟨l, hl, -⟩ := child_index h5
      exfalso
      rw [hl, List.suffix_cons_iff] at hs
      have : m = d := by
        refine child_eq h1 h3 ?_
        rcases hs with hs | hs
        · rw [hj, hk, hr] at hs; simp at hs
        · exact hs.eq_of_length (by rw [hj, hk]; rfl)
      rw [this] at h2
      have := h2.2.symm.trans h4.2
      cases this
  | @inner d h1 h2 h3 h4 =>
    obtain ⟨j, hj, -⟩ := child_index h1
    obtain ⟨k, hk, -⟩ := child_index h3
    cases h' with
    | top h5 _ =>
      obtain ⟨l, hl, -⟩ := child_index h5
      have := hs.length_le
      rw [hk, hj, hl, hr] at this
      simp at this
    | inner h5 _ h6 _ =>
      obtain ⟨l, hl, -⟩ := child_index h5
      obtain ⟨n, hn, -⟩ := child_index h6
      exact hs.eq_of_length (by rw [hk, hj, hn, hl, hr]; rfl)

theorem candidates_nodup {w : Names} (hw : Sane w) (file : Nat) : (candidates w file).Nodup := by
  unfold candidates List.Nodup
  have hin : ∀ {f : Nat} {c : List Elem} {e : Entry}, c ∈ allModules (Elem.root (w.tree f)) →
      e ∈ (c.head?.bind (itemEntry f)).toList ++ (c.head?.map (importableEntries f)).getD [] →
      e.file = f ∧ ∃ m anc, c = m :: anc ∧ Declared (w.tree f) m anc ∧ m.path <:+ e.path := by
    intro f c e hc he
    obtain ⟨m, anc, rfl⟩ := allModules_ne hc
    have hd := (mem_allModules _ _ _).1 hc
    have : Stands e f m ∨ ∃ i, Own m i ∧ Stands e f i := by simpa [mem_importable, itemEntry_iff, Option.mem_toList] using he
    rcases this with h | ⟨i, hi, h⟩
    · exact ⟨h.2.2.1, m, anc, rfl, hd, by rw [h.2.2.2]⟩
    · exact ⟨h.2.2.1, m, anc, rfl, hd, by rw [h.2.2.2]; exact own_suffix hi⟩
  rw [List.pairwise_flatMap]
  refine ⟨fun f _ => ?_, ?_⟩
  · rw [List.pairwise_flatMap]
    refine ⟨?_, ?_⟩
    · intro c hc
      obtain ⟨m, anc, rfl⟩ := allModules_ne hc
      have hd := (mem_allModules _ _ _).1 hc
      rw [List.pairwise_append]
      refine ⟨?_, ?_, ?_⟩
      · simp only [List.head?_cons, Option.bind_some]
        cases itemEntry f m <;> simp
      · simp only [List.head?_cons, Option.map_some, Option.getD_some]
        unfold importableEntries
        rw [← List.filterMap_append]
        refine List.Pairwise.filterMap (R := PathsApart) _ ?_ (namedItems_apart (declared_chain hd))
        intro x y hne e he e' he' h
        rw [itemEntry_iff] at he he'
        subst h
        exact hne (he.2.2.2.symm.trans he'.2.2.2)
      · intro e he e' he' h
        subst h
        simp only [List.head?_cons, Option.bind_some, Option.mem_toList, itemEntry_iff] at he
        simp only [List.head?_cons, Option.map_some, Option.getD_some, mem_importable] at he'
        obtain ⟨i, hi, hs⟩ := he'
        have h1 : e.ns = .MODULE := by rw [he.2.1, itemNs, (declared_module hd).2]
        exact itemNs_ne (own_not_module hi) (hs.2.1.symm.trans h1)
    · have := allModules_nodup (Elem.root (w.tree f))
      refine (List.Pairwise.and_mem.1 this).imp ?_
      rintro c c' ⟨hc, hc', hne⟩ e he e' he' h
      subst h
      obtain ⟨-, m, anc, rfl, hd, hs⟩ := hin hc he
      obtain ⟨-, m', anc', rfl, hd', hs'⟩ := hin hc' he'
      refine hne ?_
      simp only [headPath, List.head?_cons, Option.map_some, Option.getD_some]
      rcases List.suffix_or_suffix_of_suffix hs hs' with h | h
      · exact declared_apart hd hd' h
      · exact (declared_apart hd' hd h).symm
  · refine (hw.once file).imp ?_
    intro f f' hne e he e' he' h
    subst h
    obtain ⟨c, hc, he⟩ := List.mem_flatMap.1 he
    obtain ⟨c', hc', he'⟩ := List.mem_flatMap.1 he'
    exact hne ((hin hc he).1.symm.trans (hin hc' he').1)

/-! ### What is offered -/

/-- A reference by a name alone. It is not the address of a `use`, a friend declaration or the specification of a module; it is not
the named address of a longer path; and it is not the short form of a field. -/
structure SimpleName (w : Names) (p : Elem) (anc : List Elem) (n : Text) : Prop where
  inside : anc ≠ []
  group : ∀ e ∈ anc, ¬ Is .USE_GROUP e
  alone : nodeChild p .PATH = none
  address : pathAddress p = none
  name : refName p = some n
  use : rootParentKind (p :: anc) ≠ some .USE_SPECK
  friend_ : rootParentKind (p :: anc) ≠ some .FRIEND
  spec : rootParentKind (p :: anc) ≠ some .MODULE_SPEC
  notAddress : w.named n = true → trailingColons (p :: anc) = false
  notField : shorthandField (p :: anc) = none

theorem SimpleName.kind {w : Names} {p : Elem} {anc : List Elem} {n : Text} (h : SimpleName w p anc n) :
    pathKind w.named (p :: anc) = some (.unqualified (pathNamespaces anc)) := by
  have hne : anc.isEmpty = false := by
    cases anc with
    | nil => exact absurd rfl h.inside
    | cons _ _ => rfl
  have h1 : (trailingColons (p :: anc) && w.named n) = false := by
    cases hn : w.named n with
    | false => simp
    | true => simp [h.notAddress hn]
  have hq : qualifierOf (p :: anc) = none := by simp [qualifierOf, h.alone]
  unfold pathKind
  dsimp only
  rw [groupAround_none h.group]
  dsimp only
  rw [hne, hq]
  dsimp only
  rw [h.address, h.name, h.notField]
  simp [h.use, h.friend_, h.spec, h1]

theorem offered_eq {w : Names} {file : Nat} {p : Elem} {anc : List Elem} {n : Text} (h : SimpleName w p anc n) :
    offered w file (p :: anc) =
      (let es := ((candidates w file).filter fun e => (pathNamespaces anc).contains e.ns).filter fun e => decide (e.name = n)
       if 3 < es.length then none else some es) := by
  unfold offered
  rw [List.head?_cons, Option.bind_some, h.name, Option.bind_some, h.kind]
  rfl

theorem mem_matching {w : Names} {file : Nat} {n : Text} {ns : List Ns} (e : Entry) :
    (e ∈ ((candidates w file).filter fun e => ns.contains e.ns).filter fun e => decide (e.name = n)) ↔ Candidate w file n ns e := by
  unfold Candidate
  rw [← mem_candidates]
  simp only [List.mem_filter, List.contains_eq_mem, decide_eq_true_eq]
  tauto

/-- **C69.** For a name there are imports of exactly the modules and items of that name that can be reached and that fit the place of
the name. -/
theorem C69_offered {w : Names} {file : Nat} {p : Elem} {anc : List Elem} {n : Text} (h : SimpleName w p anc n) {L : List Entry}
    (hL : offered w file (p :: anc) = some L) (e : Entry) : e ∈ L ↔ Candidate w file n (pathNamespaces anc) e := by
  rw [offered_eq h] at hL
  dsimp only at hL
  split at hL
  · cases hL
  · cases hL
    exact mem_matching e

/-- None are offered exactly when there are more than three. -/
theorem C69_limit {w : Names} (hw : Sane w) {file : Nat} {p : Elem} {anc : List Elem} {n : Text} (h : SimpleName w p anc n) :
    offered w file (p :: anc) = none ↔ ∃ L : List Entry, L.Nodup ∧ L.length = 4 ∧ ∀ e ∈ L, Candidate w file n (pathNamespaces anc) e := by
  rw [offered_eq h]
  dsimp only
  have hnd : (((candidates w file).filter fun e => (pathNamespaces anc).contains e.ns).filter fun e => decide (e.name = n)).Nodup :=
    ((candidates_nodup hw file).filter _).filter _
  generalize hes : (((candidates w file).filter fun e => (pathNamespaces anc).contains e.ns).filter fun e => decide (e.name = n)) = es at hnd
  have hmem : ∀ e, e ∈ es ↔ Candidate w file n (pathNamespaces anc) e := fun e => by rw [← hes]; exact mem_matching e
  constructor
  · intro h1
    split at h1
    · rename_i h2
      refine ⟨es.take 4, hnd.sublist (List.take_sublist _ _), by rw [List.length_take]; omega, ?_⟩
      intro e he
      exact (hmem e).1 (List.mem_of_mem_take he)
    · cases h1
  · rintro ⟨L, h1, h2, h3⟩
    have hsub : L ⊆ es := fun e he => (hmem e).2 (h3 e he)
    have hl := (List.subperm_of_subset h1 hsub).length_le
    rw [if_pos (by omega)]

/-- None are offered for a path with a qualifier. -/
theorem C69_qualified (w : Names) (file : Nat) {p q : Elem} {anc : List Elem} (hg : ∀ e ∈ anc, ¬ Is .USE_GROUP e)
    (hq : nodeChild p .PATH = some q) : offered w file (p :: anc) = none := by
  have key : ∀ ns, pathKind w.named (p :: anc) ≠ some (.unqualified ns) := by
    intro ns hk
    unfold pathKind at hk
    dsimp only at hk
    rw [groupAround_none hg] at hk
    dsimp only at hk
    split at hk
    · cases hk
    · have h1 : qualifierOf (p :: anc) = some (q :: p :: anc) := by simp [qualifierOf, hq]
      rw [h1] at hk
      dsimp only at hk
      split at hk
      · split at hk
        · cases hk
        · split at hk
          · cases hk
          · split at hk
            · cases hk
            · split at hk
              · cases hk
              · split at hk <;> cases hk
      · split at hk <;> cases hk
  unfold offered
  cases hk : pathKind w.named (p :: anc) with
  | none => simp
  | some k =>
    cases k with
    | unqualified ns => exact absurd hk (key ns)
    | _ => simp [unqualifiedNs]

/-! ### The titles -/

theorem chain_path {g : Green} {a b : Elem} {c d : List Elem} (ha : Chain g (a :: c)) (hb : Chain g (b :: d)) (h : a.path = b.path) :
    a = b ∧ c = d := by
  have h1 := locate ha
  rw [h, locate hb] at h1
  have := List.cons.inj (Option.some.inj h1)
  exact ⟨this.1.symm, this.2.symm⟩

theorem stands_unique {w : Names} {e : Entry} {f f' : Nat} {i i' : Elem} {c c' : List Elem} (h : Stands e f i) (h' : Stands e f' i')
    (hc : Chain (w.tree f) (i :: c)) (hc' : Chain (w.tree f') (i' :: c')) : f = f' ∧ i = i' ∧ c = c' := by
  obtain rfl : f = f' := h.2.2.1.symm.trans h'.2.2.1
  exact ⟨rfl, chain_path hc hc' (h.2.2.2.symm.trans h'.2.2.2)⟩

theorem declares_declared {g : Green} {m : Elem} {anc : List Elem} {b : Address} (hm : Is .MODULE m)
    (h : Declares (Elem.root g) m anc b) : Declared g m anc := by
  cases h with
  | own h _ => exact .top h hm
  | ownInner h hd h2 _ => exact .inner h hd h2 hm
  | outer h hd h2 _ _ => exact .inner h hd h2 hm

theorem moduleName_iff {w : Names} (hw : Sane w) {f : Nat} {m : Elem} {anc : List Elem} (h : Declared (w.tree f) m anc) (name : List Text) :
    moduleName (m :: anc) = some name ↔ ∃ b mn, Declares (Elem.root (w.tree f)) m anc b ∧ nameText m = some mn ∧ name = [addressIdent b, mn] := by
  have hm := declared_module h
  have hall := (mem_allModules _ _ _).2 h
  unfold moduleName
  simp only [Option.bind_eq_some_iff, Option.map_eq_some_iff, List.head?_cons, Option.bind_some]
  constructor
  · rintro ⟨b, hb, mn, hn, rfl⟩
    exact ⟨b, mn, (declares_iff (root := Elem.root (w.tree f)) hm (hw.source f)).1 ⟨hall, hb⟩, hn, rfl⟩
  · rintro ⟨b, mn, hb, hn, rfl⟩
    exact ⟨b, ((declares_iff (root := Elem.root (w.tree f)) hm (hw.source f)).2 hb).2, mn, hn, rfl⟩

/-- The kinds of items that have a full name, when they are directly in a module. -/
def Titled (i : Elem) : Prop := Is .CONST i ∨ Is .ENUM i ∨ Is .STRUCT i ∨ Is .SCHEMA i ∨ Is .FUN i ∨ Is .SPEC_FUN i

theorem Titled.facts {i : Elem} (h : Titled i) : i.green.isTok = false ∧ i.kind ∈ namedKinds ∧ i.kind ≠ .MODULE ∧
    fqKinds.contains i.kind = true := by
  rcases h with h | h | h | h | h | h <;> (rw [h.2]; exact ⟨h.1, by decide, by decide, by decide⟩)

theorem own_chain {g : Green} {m i : Elem} {anc : List Elem} (hm : Chain g (m :: anc)) (h : Own m i) :
    ∃ c, Chain g (i :: c) ∧ i.green.isTok = false ∧ i.kind ∈ namedKinds ∧
      ((Titled i ∧ i ∈ m.children ∧ c = m :: anc) ∨ ((¬ Titled i ∨ ∀ p ∈ c.head?, p.kind ≠ .MODULE) ∧ fqName ⟨0, i, c⟩ = none)) := by
  cases h with
  | item h1 h2 =>
    have := Titled.facts h2
    exact ⟨_, .child hm h1, this.1, this.2.1, .inl ⟨h2, h1, rfl⟩⟩
  | @lemma_ l _ h1 h2 h3 =>
    obtain ⟨h4, h5⟩ := nodeChild_mem h3
    refine ⟨_, .child (.child hm h1) h4, h5.1, by rw [h5.2]; decide, .inr ⟨.inr (by simp [h2.2]), ?_⟩⟩
    have h6 : l.kind ≠ .MODULE := by rw [h2.2]; decide
    unfold fqName
    dsimp only
    rw [h5.2, if_neg (by decide), if_pos (by decide), if_neg h6]
  | block h1 h2 =>
    obtain ⟨s, h3, h4, -, b, h5, h6⟩ := h1
    obtain ⟨h7, h8⟩ := nodeChild_mem h5
    have hb : b.kind ≠ .MODULE := by rw [h8.2]; decide
    refine ⟨_, .child (.child (.child hm h3) h7) h6, ?_, ?_, .inr ⟨.inr (by simp [h8.2]), ?_⟩⟩
    · rcases h2 with h | h | h <;> exact h.1
    · rcases h2 with h | h | h <;> (rw [h.2]; decide)
    · unfold fqName
      dsimp only
      rw [if_neg hb]
      rcases h2 with h | h | h <;> (rw [h.2, if_neg (by decide), ite_self])

theorem fqName_file (f f' : Nat) (i : Elem) (c : List Elem) : fqName ⟨f, i, c⟩ = fqName ⟨f', i, c⟩ := rfl

theorem fullName_of {w : Names} (hw : Sane w) {file : Nat} {e : Entry}
    (hc : ∃ f ∈ w.files file, ∃ m anc, Declared (w.tree f) m anc ∧ (Stands e f m ∨ ∃ i, Own m i ∧ Stands e f i)) (name : List Text) :
    (placeAt w.toWorld e).bind fqName = some name ↔ FullName w file e name := by
  obtain ⟨f, hf, m, anc, hd, hst | ⟨i, hi, hst⟩⟩ := hc
  · have hm := declared_module hd
    have hch := declared_chain hd
    rw [stands_place hst hch hm.1 (by rw [hm.2]; decide), Option.bind_some]
    have : fqName ⟨f, m, anc⟩ = moduleName (m :: anc) := by
      unfold fqName
      exact if_pos hm.2
    rw [this, moduleName_iff hw hd]
    constructor
    · rintro ⟨b, mn, hb, hn, rfl⟩
      obtain rfl : mn = e.name := Option.some.inj (hn.symm.trans hst.1)
      exact .module hf hm hb hst
    · intro h
      cases h with
      | @module f' m' anc' b _ hm' hb hst' =>
        obtain ⟨rfl, rfl, rfl⟩ := stands_unique hst hst' hch (declares_chain hb)
        exact ⟨b, e.name, hb, hst.1, rfl⟩
      | @item f' m' anc' b mn i _ hm' hb hn hi' hk hst' =>
        obtain ⟨rfl, rfl, -⟩ := stands_unique hst hst' hch (.child (declares_chain hb) hi')
        exact absurd hm.2 (Titled.facts hk).2.2.1
  · have hch := declared_chain hd
    obtain ⟨c, hcc, ht, hk, hcase⟩ := own_chain hch hi
    rw [stands_place hst hcc ht hk, Option.bind_some]
    have hmod := own_not_module hi
    rcases hcase with ⟨h1, h2, rfl⟩ | ⟨h1, h2⟩
    · have hq : fqName ⟨f, i, m :: anc⟩ = (moduleName (m :: anc)).bind fun q => (nameText i).map fun n => q ++ [n] := by
        unfold fqName
        dsimp only
        rw [if_neg hmod, if_pos h1.facts.2.2.2, if_pos (declared_module hd).2]
      rw [hq, hst.1]
      simp only [Option.bind_eq_some_iff, moduleName_iff hw hd, Option.map_some, Option.some.injEq]
      constructor
      · rintro ⟨_, ⟨b, mn, hb, hn, rfl⟩, rfl⟩
        exact .item hf (declared_module hd) hb hn h2 h1 hst
      · intro h
        cases h with
        | @module f' m' anc' b _ hm' hb hst' =>
          obtain ⟨rfl, rfl, -⟩ := stands_unique hst hst' hcc (declares_chain hb)
          exact absurd hm'.2 hmod
        | @item f' m' anc' b mn i _ hm' hb hn hi' hk hst' =>
          obtain ⟨rfl, rfl, hcc'⟩ := stands_unique hst hst' hcc (.child (declares_chain hb) hi')
          cases hcc'
          exact ⟨_, ⟨b, mn, hb, hn, rfl⟩, rfl⟩
    · rw [fqName_file f 0, h2]
      constructor
      · intro h; cases h
      · intro h
        exfalso
        cases h with
        | @module f' m' anc' b _ hm' hb hst' =>
          obtain ⟨rfl, rfl, -⟩ := stands_unique hst hst' hcc (declares_chain hb)
          exact absurd hm'.2 hmod
        | @item f' m' anc' b mn i _ hm' hb hn hi' hk hst' =>
          obtain ⟨rfl, rfl, rfl⟩ := stands_unique hst hst' hcc (.child (declares_chain hb) hi')
          rcases h1 with h1 | h1
          · exact h1 hk
          · exact h1 m' rfl hm'.2

/-- **C69.** The titles are the full names of the candidates: the address as it is written, the module and the item. -/
theorem C69_titles {w : Names} (hw : Sane w) {P : Text → Option Green} {file : Nat} {p : Elem} {anc : List Elem} {n : Text}
    (h : SimpleName w p anc n) {F : List (List Text × Fix)} (hF : fixes P w file (p :: anc) = some F) (name : List Text) :
    (∃ x, (name, x) ∈ F) ↔ ∃ e, Candidate w file n (pathNamespaces anc) e ∧ FullName w file e name := by
  unfold fixes at hF
  cases ho : offered w file (p :: anc) with
  | none => rw [ho] at hF; cases hF
  | some L =>
    rw [ho, Option.bind_some] at hF
    cases hi : itemsOwner (p :: anc) with
    | none => rw [hi] at hF; cases hF
    | some o =>
      rw [hi] at hF
      simp only [Option.bind_some, List.head?_cons, Option.map_some, Option.some.injEq] at hF
      subst hF
      simp only [List.mem_map, List.mem_filterMap, Prod.mk.injEq]
      constructor
      · rintro ⟨x, name', ⟨e, he, hn⟩, rfl, -⟩
        have hc := (C69_offered h ho e).1 he
        exact ⟨e, hc, (fullName_of hw hc.1 _).1 hn⟩
      · rintro ⟨e, hc, hn⟩
        exact ⟨_, name, ⟨e, (C69_offered h ho e).2 hc, (fullName_of hw hc.1 _).2 hn⟩, rfl, rfl⟩

end Verif.Nameres.AutoImport
