import Verif.Ide.Complete

/-! C83: what is offered when a path is completed is what the path can mean there. -/

namespace Verif.Ide.Complete
open Verif.Parser (Green)
open Verif.Syntax Verif.Nameres Verif.Nameres.Full

/-! ### Specification -/

/-- The same kind of path with more namespaces. -/
inductive Wider : PathKind → PathKind → Prop where
  | namedAddress (n : Text) : Wider (.namedAddress n) (.namedAddress n)
  | valueAddress (n : Text) : Wider (.valueAddress n) (.valueAddress n)
  | namedOrUnqualified (n : Text) {a b : List Ns} (h : ∀ x ∈ a, x ∈ b) : Wider (.namedOrUnqualified n a) (.namedOrUnqualified n b)
  | shorthand (f : List Elem) : Wider (.shorthand f) (.shorthand f)
  | unqualified {a b : List Ns} (h : ∀ x ∈ a, x ∈ b) : Wider (.unqualified a) (.unqualified b)
  | qualified (q : List Elem) (k : QualifiedKind) {a b : List Ns} (h : ∀ x ∈ a, x ∈ b) : Wider (.qualified q a k) (.qualified q b k)

/-- The same item under the same name. -/
def Same (a b : Entry) : Prop := a.name = b.name ∧ a.file = b.file ∧ a.path = b.path

theorem sameEntry_iff (a b : Entry) : sameEntry a b = true ↔ Same a b := by
  simp [sameEntry, Same, and_assoc]

/-! ### The kind -/

theorem namespaces_wider (b : Bool) (anc : List Elem) : ∀ x ∈ pathNamespaces anc, x ∈ completionNamespaces b anc := by
  intro x
  unfold pathNamespaces completionNamespaces
  generalize kindAt anc 0 = k0
  generalize kindAt anc 1 = k1
  generalize kindAt anc 3 = k3
  have hp : x ∈ nsEnumsModules → x ∈ if b = true then nsImportable ++ nsModules else nsEnumsModules := by
    cases b
    · exact id
    · cases x <;> decide
  have ht : x ∈ nsItemType → x ∈ nsItemType ++ nsModules := by cases x <;> decide
  have hv : x ∈ nsValue → x ∈ nsAll := by cases x <;> decide
  split
  · exact hp
  · exact id
  · dsimp only
    split
    · exact id
    · split
      · exact id
      · exact ht
  · exact id
  · dsimp only
    split
    · exact id
    · split
      · exact id
      · split
        · exact id
        · split
          · exact id
          · exact hv
  all_goals try exact id
  split <;> first | exact id | (exfalso; simp_all)

theorem filter_wider {a b : List Ns} (f : Ns → Bool) (h : ∀ x ∈ a, x ∈ b) : ∀ x ∈ a.filter f, x ∈ b.filter f := by
  intro x hx
  rw [List.mem_filter] at hx ⊢
  exact ⟨h x hx.1, hx.2⟩

theorem append_wider {a b : List Ns} (c : List Ns) (h : ∀ x ∈ a, x ∈ b) : ∀ x ∈ a ++ c, x ∈ b ++ c := by
  intro x hx
  rw [List.mem_append] at hx ⊢
  exact hx.imp (h x) id

theorem kind_wider (named : Text → Bool) (site : List Elem) : Option.Rel Wider (pathKind named site) (completionKind named site) := by
  cases site with
  | nil => exact .none
  | cons p anc =>
    unfold pathKind completionKind
    have hns := namespaces_wider (qualifierOf (p :: anc)).isSome anc
    dsimp only
    rcases groupAround anc with _ | _ | ⟨g, _ | ⟨speck, rest⟩⟩ <;> dsimp only
    · split
      · exact .none
      · cases hq : qualifierOf (p :: anc) with
        | none =>
          rw [hq] at hns
          dsimp only
          cases pathAddress p with
          | some a => exact .some (.valueAddress _)
          | none =>
            dsimp only
            cases refName p with
            | none => exact .none
            | some n =>
              dsimp only
              split
              · exact .some (.namedAddress _)
              · split
                · exact .some (.namedAddress _)
                · split
                  · exact .some (.namedOrUnqualified _ hns)
                  · cases shorthandField (p :: anc) with
                    | some f => exact .some (.shorthand _)
                    | none => exact .some (.unqualified hns)
        | some q =>
          rw [hq] at hns
          dsimp only
          cases qualifierOf q with
          | none =>
            dsimp only
            cases q.head?.bind pathAddress with
            | some a => exact .some (.qualified _ _ fun _ h => h)
            | none =>
              dsimp only
              cases q.head?.bind refName with
              | none => exact .none
              | some m =>
                dsimp only
                split
                · exact .some (.qualified _ _ fun _ h => h)
                · split
                  · exact .some (.qualified _ _ hns)
                  · split
                    · exact .some (.qualified _ _ hns)
                    · exact .some (.qualified _ _ (filter_wider _ hns))
          | some _ =>
            dsimp only
            split
            · exact .some (.qualified _ _ (append_wider _ hns))
            · exact .some (.qualified _ _ (filter_wider _ hns))
    · exact .none
    · exact .none
    · split
      · cases nodeChild speck .PATH with
        | none => exact .none
        | some q => exact .some (.qualified _ _ fun _ h => h)
      · exact .none

/-! ### The entries -/

theorem self_wider {file : Nat} {a b : List Ns} (h : ∀ x ∈ a, x ∈ b) (site : List Elem) (e : Entry) :
    e ∈ selfEntry file a site ↔ e ∈ selfEntry file b site ∧ e.ns ∈ a := by
  unfold selfEntry
  by_cases ha : .MODULE ∈ a
  · have hb := h _ ha
    simp only [List.contains_iff_mem, ha, hb, if_true]
    cases site.tail.find? (isNode .MODULE) with
    | none => simp
    | some m =>
      simp only [List.mem_singleton]
      constructor
      · rintro rfl; exact ⟨rfl, ha⟩
      · exact And.left
  · simp only [List.contains_iff_mem, ha, if_false, List.not_mem_nil, false_iff, not_and]
    intro hb
    split at hb
    · split at hb
      · rw [List.mem_singleton] at hb
        subst hb
        exact ha
      · cases hb
    · cases hb

theorem variants_wider {w : Names} {all : All} (hl : Lists w all) {file : Nat} {n : Text} {site : List Elem}
    {one : List Elem → Option Entry} {k k' : PathKind} (hk : Wider k k') {x : Entry × Option ItemScope} (hx : x.1.name = n) :
    x ∈ variantsFor w file n site one k ↔ x ∈ variantsAll w all file site one k' ∧ Asks k x.1.ns := by
  obtain ⟨e, adj⟩ := x
  have hw : ∀ a b : List Ns, (∀ x ∈ a, x ∈ b) → ((e, adj) ∈ w.walk file a n site ↔ (e, adj) ∈ all file b site ∧ e.ns ∈ a) := by
    intro a b h
    rw [hl.named, hl.narrow file a b site h, List.mem_filter, List.mem_filter]
    simp only [List.contains_iff_mem, decide_eq_true_eq]
    exact ⟨fun h => h.1, fun h => ⟨h, hx⟩⟩
  have hwn : (e, adj) ∈ w.walk file nsNames n site ↔ (e, adj) ∈ all file nsNames site := by
    rw [hl.named, List.mem_filter]
    simp only [decide_eq_true_eq]
    exact ⟨fun h => h.1, fun h => ⟨h, hx⟩⟩
  cases hk with
  | namedAddress m => simp [variantsFor, variantsAll]
  | valueAddress m => simp [variantsFor, variantsAll]
  | shorthand f =>
    simp only [variantsFor, variantsAll, List.mem_append, hwn, Asks, and_true]
  | namedOrUnqualified m h =>
    simp only [variantsFor, variantsAll, List.mem_append, hw _ _ h, Asks, List.mem_map, Prod.mk.injEq, self_wider h]
    constructor
    · rintro (⟨a, ⟨h1, h2⟩, rfl, rfl⟩ | ⟨h1, h2⟩)
      · exact ⟨.inl ⟨a, h1, rfl, rfl⟩, h2⟩
      · exact ⟨.inr h1, h2⟩
    · rintro ⟨⟨a, h1, rfl, rfl⟩ | h1, h2⟩
      · exact .inl ⟨a, ⟨h1, h2⟩, rfl, rfl⟩
      · exact .inr ⟨h1, h2⟩
  | unqualified h =>
    simp only [variantsFor, variantsAll, List.mem_append, hw _ _ h, Asks, List.mem_map, Prod.mk.injEq, self_wider h]
    constructor
    · rintro (⟨a, ⟨h1, h2⟩, rfl, rfl⟩ | ⟨h1, h2⟩)
      · exact ⟨.inl ⟨a, h1, rfl, rfl⟩, h2⟩
      · exact ⟨.inr h1, h2⟩
    · rintro ⟨⟨a, h1, rfl, rfl⟩ | h1, h2⟩
      · exact .inl ⟨a, ⟨h1, h2⟩, rfl, rfl⟩
      · exact .inr ⟨h1, h2⟩
  | qualified q k h =>
    cases k <;> simp only [variantsFor, variantsAll, Asks, and_true]
    all_goals
      simp only [List.mem_map, List.mem_filter, List.contains_iff_mem, Prod.mk.injEq]
      constructor
      · rintro ⟨a, ⟨h1, h2⟩, rfl, rfl⟩
        exact ⟨⟨a, ⟨h1, h _ h2⟩, rfl, rfl⟩, h2⟩
      · rintro ⟨⟨a, ⟨h1, _⟩, rfl, rfl⟩, h2⟩
        exact ⟨a, ⟨h1, h2⟩, rfl, rfl⟩

theorem mem_groupNames (c : Ctx) (n : Text) : n ∈ groupNames c ↔ c.isUse = true ∧ ∃ g s q, c.group = some g ∧ s ∈ g.children ∧
    Is .USE_SPECK s ∧ (c.cursor < s.start ∨ s.stop < c.cursor) ∧ nodeChild s .PATH = some q ∧ refName q = some n := by
  unfold groupNames
  cases hg : c.group with
  | none => simp
  | some g =>
    cases hu : c.isUse with
    | false => simp
    | true =>
      simp only [if_true, List.mem_filterMap, List.mem_filter, Option.bind_eq_some_iff, true_and]
      constructor
      · rintro ⟨s, ⟨⟨h1, h2⟩, h3⟩, q, h4, h5⟩
        refine ⟨g, s, q, rfl, h1, (isNode_iff _ _).1 h2, ?_, h4, h5⟩
        simp at h3
        omega
      · rintro ⟨g', s, q, h0, h1, h2, h3, h4, h5⟩
        cases h0
        refine ⟨s, ⟨⟨h1, (isNode_iff _ _).2 h2⟩, ?_⟩, q, h4, h5⟩
        simp
        omega

theorem held_iff {w : Names} {c : Ctx} {e : Entry} {i : Nameres.Place} (hi : placeAt w.toWorld e = some i) :
    (e.name ∉ groupNames c ∧ (c.msl = true → e.name ∉ builtinNames) ∧ rendered w c e = true) ↔ ¬ Held c e i.elem := by
  have hb : e.name ∈ builtinNames ↔ (e.name = "borrow_global".toList ∨ e.name = "borrow_global_mut".toList ∨
      e.name = "move_to".toList ∨ e.name = "move_from".toList ∨ e.name = "freeze".toList) := by
    simp only [builtinNames, List.mem_cons, List.not_mem_nil, or_false]
  have hr : rendered w c e = true ↔ ¬ (c.isAcquires = true ∧ i.elem.kind ≠ .STRUCT ∧ i.elem.kind ≠ .ENUM) ∧
      ¬ (i.elem.kind ∈ funKinds ∧ HasAttr i.elem.green "test") := by
    unfold rendered
    rw [hi, ← mem_attrTexts]
    dsimp only
    split
    · rename_i h
      simp only [Bool.and_eq_true, Bool.not_eq_true', Bool.or_eq_false_iff, decide_eq_false_iff_not] at h
      constructor
      · intro h; cases h
      · rintro ⟨h1, _⟩; exact absurd h h1
    · rename_i h
      simp only [Bool.and_eq_true, Bool.not_eq_true', Bool.or_eq_false_iff, decide_eq_false_iff_not] at h
      rw [Bool.not_eq_true', ← Bool.not_eq_true, Bool.and_eq_true, List.contains_iff_mem, List.contains_iff_mem]
      exact ⟨fun h1 => ⟨h, h1⟩, And.right⟩
  have hf : i.elem.kind ∈ funKinds ↔ (i.elem.kind = .FUN ∨ i.elem.kind = .SPEC_FUN ∨ i.elem.kind = .SPEC_INLINE_FUN ∨
      i.elem.kind = .LEMMA) := by
    simp only [funKinds, List.mem_cons, List.not_mem_nil, or_false]
  rw [hr, hf, hb, mem_groupNames]
  constructor
  · rintro ⟨h1, h2, h3, h4⟩ hh
    cases hh with
    | group hu hg hs hk hc hq hn => exact h1 ⟨hu, _, _, _, hg, hs, hk, hc, hq, hn⟩
    | resource hm hn => exact h2 hm hn
    | acquires ha hs he => exact h3 ⟨ha, hs, he⟩
    | test hk ht => exact h4 ⟨hk, ht⟩
  · intro h
    refine ⟨?_, ?_, ?_, ?_⟩
    · rintro ⟨hu, g, s, q, hg, hs, hk, hc, hq, hn⟩
      exact h (.group hu hg hs hk hc hq hn)
    · intro hm hn; exact h (.resource hm hn)
    · rintro ⟨ha, hs, he⟩; exact h (.acquires ha hs he)
    · rintro ⟨hk, ht⟩; exact h (.test hk ht)

theorem mem_entriesAt {w : Names} {all : All} {fuel file : Nat} {c : Ctx} {p : Elem} {anc : List Elem} {x : Entry × Option ItemScope} :
    x ∈ entriesAt w all fuel file c (p :: anc) ↔ ∃ k, completionKind w.named (p :: anc) = some k ∧
      x ∈ variantsAll w all file (p :: anc) (fun q => single (resolvePath w fuel file none q)) k ∧
      isVisible w.toWorld x.1.ns x.2 (placeAt w.toWorld x.1) ⟨file, p, anc⟩ = none ∧
      x.1.name ∉ groupNames c ∧ (c.msl = true → x.1.name ∉ builtinNames) := by
  unfold entriesAt
  dsimp only
  cases completionKind w.named (p :: anc) with
  | none => simp
  | some k =>
    simp only [Option.some.injEq, exists_eq_left']
    cases hm : c.msl <;> simp only [Bool.false_eq_true, if_true, if_false, List.mem_filter, Bool.not_eq_true', List.contains_eq_mem,
      decide_eq_false_iff_not, Option.isNone_iff_eq_none, false_implies, and_true, true_implies, and_assoc]

theorem mem_offers {w : Names} {all : All} {fuel file : Nat} {c : Ctx} {p : Elem} {anc : List Elem} {e : Entry} :
    e ∈ offers w all fuel file c (p :: anc) ↔ ∃ (i : Nameres.Place) (k : PathKind) (adj : Option ItemScope), placeAt w.toWorld e = some i ∧
      completionKind w.named (p :: anc) = some k ∧
      (e, adj) ∈ variantsAll w all file (p :: anc) (fun q => single (resolvePath w fuel file none q)) k ∧
      isVisible w.toWorld e.ns adj (some i) ⟨file, p, anc⟩ = none ∧ ¬ Held c e i.elem := by
  unfold offers
  rw [List.mem_filter, List.mem_map]
  constructor
  · rintro ⟨⟨⟨a, adj⟩, h1, rfl⟩, h2⟩
    obtain ⟨k, hk, hv, hvis, hg, hm⟩ := mem_entriesAt.1 h1
    dsimp only at h2 hvis hg hm
    cases hi : placeAt w.toWorld a with
    | none => simp [rendered, hi] at h2
    | some i => exact ⟨i, k, adj, rfl, hk, hv, hi ▸ hvis, (held_iff hi).1 ⟨hg, hm, h2⟩⟩
  · rintro ⟨i, k, adj, hi, hk, hv, hvis, hh⟩
    obtain ⟨hg, hm, hr⟩ := (held_iff hi).2 hh
    exact ⟨⟨(e, adj), mem_entriesAt.2 ⟨k, hk, hv, by rw [hi]; exact hvis, hg, hm⟩, rfl⟩, hr⟩

theorem functionCase_sub {b : Bool} {es : List (Entry × Option Invisible)} {x : Entry × Option Invisible}
    (h : x ∈ functionCase b es) : x ∈ es := by
  unfold functionCase at h
  split at h
  · dsimp only at h
    split at h
    · exact (List.mem_filter.1 h).1
    · exact h
  · split at h
    · dsimp only at h
      split at h
      · exact (List.mem_filter.1 h).1
      · exact h
    · exact h

theorem functionCase_keep {b : Bool} {es : List (Entry × Option Invisible)} {x : Entry × Option Invisible} (hx : x ∈ es)
    (h : x.1.ns = .FUNCTION ↔ b = true) : x ∈ functionCase b es := by
  unfold functionCase
  split
  · rename_i hb
    dsimp only
    split
    · exact List.mem_filter.2 ⟨hx, by simp [h.2 hb]⟩
    · exact hx
  · rename_i hb
    split
    · dsimp only
      split
      · exact List.mem_filter.2 ⟨hx, by simpa using fun h2 => hb (h.1 h2)⟩
      · exact hx
    · exact hx

/-- The item fits what is expected: it is not a variant, or it is a variant of the enum that is expected (where a path through an
enum says itself which one it is). -/
def Fits (w : Names) (fuel file : Nat) (expected : Option (Nat × Elem)) (k : PathKind) (i : Nameres.Place) : Prop :=
  i.elem.kind = .VARIANT → ∃ f n, refineExpected w (fun q => single (resolvePath w fuel file none q)) expected k = some (f, n) ∧
    i.file = f ∧ ∃ v ∈ variantsOf n, v.path = i.elem.path

theorem fits_iff {w : Names} {fuel file : Nat} {expected : Option (Nat × Elem)} {k : PathKind} {e : Entry} {i : Nameres.Place}
    (hi : placeAt w.toWorld e = some i) :
    fitsExpected w (refineExpected w (fun q => single (resolvePath w fuel file none q)) expected k) e = true ↔
      Fits w fuel file expected k i := by
  unfold fitsExpected Fits
  rw [hi]
  dsimp only
  split
  · rename_i h
    exact ⟨fun _ h2 => absurd h2 h, fun _ => rfl⟩
  · rename_i h
    rw [not_not] at h
    split
    · rename_i h2
      simp [h2, h]
    · rename_i f n h2
      simp only [h2, h, Bool.and_eq_true, decide_eq_true_eq, List.any_eq_true, true_implies, Option.some.injEq, Prod.mk.injEq]
      constructor
      · rintro ⟨h3, v, h4, h5⟩
        exact ⟨f, n, ⟨rfl, rfl⟩, h3, v, h4, h5⟩
      · rintro ⟨_, _, ⟨rfl, rfl⟩, h3, v, h4, h5⟩
        exact ⟨h3, v, h4, h5⟩

theorem mem_resolve {w : Names} {all : All} (hl : Lists w all) {fuel file : Nat} {expected : Option (Nat × Elem)} {p : Elem}
    {anc : List Elem} {n : Text} {k k' : PathKind} (hk : pathKind w.named (p :: anc) = some k)
    (hk' : completionKind w.named (p :: anc) = some k') (e : Entry) (r : Option Invisible) :
    (e, r) ∈ ((((variantsFor w file n (p :: anc) (fun q => single (resolvePath w fuel file none q)) k).filter fun x =>
        decide (x.1.name = n)).filter fun x =>
        fitsExpected w (refineExpected w (fun q => single (resolvePath w fuel file none q)) expected k) x.1).map fun x =>
        (x.1, isVisible w.toWorld x.1.ns x.2 (placeAt w.toWorld x.1) ⟨file, p, anc⟩)) ↔
      ∃ (i : Nameres.Place) (adj : Option ItemScope), placeAt w.toWorld e = some i ∧ e.name = n ∧ Asks k e.ns ∧
        (e, adj) ∈ variantsAll w all file (p :: anc) (fun q => single (resolvePath w fuel file none q)) k' ∧
        isVisible w.toWorld e.ns adj (some i) ⟨file, p, anc⟩ = r ∧ Fits w fuel file expected k i := by
  have hw : Wider k k' := by
    have := kind_wider w.named (p :: anc)
    rw [hk, hk'] at this
    cases this with
    | some h => exact h
  simp only [List.mem_map, List.mem_filter, decide_eq_true_eq]
  constructor
  · rintro ⟨⟨a, adj⟩, ⟨⟨h1, h2⟩, h3⟩, h4⟩
    simp only [Prod.mk.injEq] at h4
    obtain ⟨rfl, h4⟩ := h4
    dsimp only at h2 h3
    obtain ⟨h5, h6⟩ := (variants_wider hl hw (x := (a, adj)) h2).1 h1
    cases hi : placeAt w.toWorld a with
    | none => simp [fitsExpected, hi] at h3
    | some i => exact ⟨i, adj, rfl, h2, h6, h5, by rw [← h4, hi], (fits_iff hi).1 h3⟩
  · rintro ⟨i, adj, hi, h2, h6, h5, h4, h3⟩
    exact ⟨(e, adj), ⟨⟨(variants_wider hl hw (x := (e, adj)) h2).2 ⟨h5, h6⟩, h2⟩, (fits_iff hi).2 h3⟩, by rw [hi, h4]⟩

theorem resolve_eq {w : Names} {fuel file : Nat} {expected : Option (Nat × Elem)} {p : Elem} {anc : List Elem} {n : Text}
    (hn : refName p = some n) {k : PathKind} (hk : pathKind w.named (p :: anc) = some k) :
    resolvePath w (fuel + 1) file expected (p :: anc) = functionCase (isCallPath (p :: anc))
      ((((variantsFor w file n (p :: anc) (fun q => single (resolvePath w fuel file none q)) k).filter fun x =>
        decide (x.1.name = n)).filter fun x =>
        fitsExpected w (refineExpected w (fun q => single (resolvePath w fuel file none q)) expected k) x.1).map fun x =>
        (x.1, isVisible w.toWorld x.1.ns x.2 (placeAt w.toWorld x.1) ⟨file, p, anc⟩)) := by
  rw [resolvePath]
  dsimp only
  rw [hn]
  dsimp only
  rw [hk]

/-! ### The theorems -/

/-- Every walk through scopes is as completion needs it: without a name it finds what it finds for each name, and what it finds
for some namespaces is what it finds for more of them, restricted. The imports keep their scopes. -/
theorem C83_walk {w : Names} {all : All} (inlines others : Nat → Elem → List Entry) (outside : Nat → List Elem → List (List Entry))
    (adj : Nat → Entry → Option ItemScope)
    (hw : ∀ file ns n site, w.walk file ns n site =
      (walkScopes file (inlines file) (others file) (outside file site) ns.contains (some n) site).map fun e => (e, adj file e))
    (ha : ∀ file ns site, all file ns site =
      (walkScopes file (inlines file) (others file) (outside file site) ns.contains none site).map fun e => (e, adj file e)) :
    Lists w all where
  named := by
    intro file ns n site
    rw [hw, ha, List.filter_map]
    congr 1
    unfold walkScopes
    rw [walkLists_filter (fun x => decide (n = x.2) && ns.contains x.1) (fun x => ns.contains x.1) ns.contains ns.contains (some n)
      none (fun _ => rfl) (fun _ => (Bool.true_and _).symm) (fun _ h => ((Bool.and_eq_true _ _).mp h).2) _ [] [] (fun _ _ => Iff.rfl)]
    apply List.filter_congr
    intro e he
    have := ((mem_walkLists _ _ _ _ _).1 he).1.2
    rw [this, Bool.and_true]
    simp [eq_comm]
  narrow := by
    intro file ns wide site h
    rw [ha, ha, List.filter_map]
    congr 1
    unfold walkScopes
    exact walkLists_filter (fun x => ns.contains x.1) (fun x => wide.contains x.1) ns.contains wide.contains none
      none (fun _ => (Bool.true_and _).symm) (fun _ => (Bool.true_and _).symm)
      (fun x hx => List.contains_iff_mem.2 (h _ (List.contains_iff_mem.1 hx))) _ [] [] (fun _ _ => Iff.rfl)

/-- Whatever a path means at a place, completion offers it there, unless it is held back on purpose. -/
theorem C83_complete {w : Names} {all : All} (hl : Lists w all) {fuel file : Nat} {expected : Option (Nat × Elem)} {c : Ctx} {p : Elem}
    {anc : List Elem} {e : Entry} (he : (e, none) ∈ resolvePath w (fuel + 1) file expected (p :: anc)) :
    ∃ i, placeAt w.toWorld e = some i ∧ (e ∈ offers w all fuel file c (p :: anc) ↔ ¬ Held c e i.elem) := by
  cases hn : refName p with
  | none => simp [resolvePath, hn] at he
  | some n =>
    cases hk : pathKind w.named (p :: anc) with
    | none => simp [resolvePath, hn, hk] at he
    | some k =>
      cases hk' : completionKind w.named (p :: anc) with
      | none =>
        have := kind_wider w.named (p :: anc)
        rw [hk, hk'] at this
        cases this
      | some k' =>
        rw [resolve_eq hn hk] at he
        obtain ⟨i, adj, hi, h1, h2, h3, h4, h5⟩ := (mem_resolve hl hk hk' e none).1 (functionCase_sub he)
        refine ⟨i, hi, ?_⟩
        rw [mem_offers]
        constructor
        · rintro ⟨i', _, _, hi', _, _, _, hh⟩
          rw [hi] at hi'
          cases hi'
          exact hh
        · intro hh
          exact ⟨i, k', adj, hi, hk', h3, h4, hh⟩

/-- What completion offers under the name that a path has, in the namespaces of such a path, is what the path means: functions
where it is called and other items where it is not. -/
theorem C83_sound {w : Names} {all : All} (hl : Lists w all) {fuel file : Nat} {expected : Option (Nat × Elem)} {c : Ctx} {p : Elem}
    {anc : List Elem} {e : Entry} (he : e ∈ offers w all fuel file c (p :: anc)) (hn : refName p = some e.name) {k : PathKind}
    (hk : pathKind w.named (p :: anc) = some k) (ha : Asks k e.ns)
    (hf : ∀ i, placeAt w.toWorld e = some i → Fits w fuel file expected k i)
    (hc : e.ns = .FUNCTION ↔ isCallPath (p :: anc) = true) :
    (e, none) ∈ resolvePath w (fuel + 1) file expected (p :: anc) := by
  obtain ⟨i, k', adj, hi, hk', hv, hvis, _⟩ := mem_offers.1 he
  rw [resolve_eq hn hk]
  exact functionCase_keep ((mem_resolve hl hk hk' e none).2 ⟨i, adj, hi, rfl, ha, hv, hvis, hf i hi⟩) hc

/-- For a name without qualifier completion offers what is in scope and visible and not hidden by the same name in an inner
scope, besides `Self`. -/
theorem C83_scope {w : Names} {all : All} {fuel file : Nat} {c : Ctx} {p : Elem} {anc : List Elem} {ns : List Ns}
    (hk : completionKind w.named (p :: anc) = some (.unqualified ns)) {inlines others : Elem → List Entry}
    {outside : List (List Entry)} {adj : Entry → Option ItemScope}
    (ha : all file ns (p :: anc) = (walkScopes file inlines others outside ns.contains none (p :: anc)).map fun e => (e, adj e))
    {e : Entry} (hs : e.name ≠ "Self".toList) :
    e ∈ offers w all fuel file c (p :: anc) ↔ ∃ i, placeAt w.toWorld e = some i ∧ e.ns ∈ ns ∧
      Innermost (scopesAround file inlines others outside (p :: anc)) e ∧
      isVisible w.toWorld e.ns (adj e) (some i) ⟨file, p, anc⟩ = none ∧ ¬ Held c e i.elem := by
  rw [mem_offers]
  have hm : ∀ a, (e, a) ∈ variantsAll w all file (p :: anc) (fun q => single (resolvePath w fuel file none q)) (.unqualified ns) ↔
      a = adj e ∧ e.ns ∈ ns ∧ Innermost (scopesAround file inlines others outside (p :: anc)) e := by
    intro a
    rw [variantsAll, ha, List.mem_append, List.mem_map, List.mem_map]
    constructor
    · rintro (⟨x, h1, h2⟩ | ⟨x, h1, h2⟩)
      · exfalso
        cases h2
        unfold selfEntry at h1
        split at h1
        · split at h1
          · rw [List.mem_singleton] at h1
            subst h1
            exact hs rfl
          · cases h1
        · cases h1
      · cases h2
        rw [C59_innermost] at h1
        exact ⟨rfl, List.contains_iff_mem.1 h1.1.2, h1.2⟩
    · rintro ⟨rfl, h1, h2⟩
      exact .inr ⟨e, (C59_innermost ..).2 ⟨⟨(by simp), List.contains_iff_mem.2 h1⟩, h2⟩, rfl⟩
  constructor
  · rintro ⟨i, k, a, hi, hk', hv, hvis, hh⟩
    rw [hk] at hk'
    cases hk'
    obtain ⟨rfl, h1, h2⟩ := (hm a).1 hv
    exact ⟨i, hi, h1, h2, hvis, hh⟩
  · rintro ⟨i, hi, h1, h2, hvis, hh⟩
    exact ⟨i, _, adj e, hi, hk, (hm _).2 ⟨rfl, h1, h2⟩, hvis, hh⟩

theorem mem_imports {w : Names} {all : All} {fuel file : Nat} {c : Ctx} {p : Elem} {anc : List Elem} {e : Entry} :
    e ∈ imports w all fuel file c (p :: anc) ↔ c.isUse = false ∧ c.isAcquires = false ∧
      ∃ ns, completionKind w.named (p :: anc) = some (.unqualified ns) ∧ e ∈ AutoImport.candidates w file ∧ e.ns ∈ ns ∧
        isVisible w.toWorld e.ns none (placeAt w.toWorld e) ⟨file, p, anc⟩ = none ∧
        (∀ x ∈ entriesAt w all fuel file c (p :: anc), ¬ Same x.1 e) ∧ rendered w c e = true ∧
        ∃ i q, placeAt w.toWorld e = some i ∧ AutoImport.fqName i = some q := by
  unfold imports
  dsimp only
  cases hu : c.isUse <;> cases ha : c.isAcquires <;> simp only [Bool.or_self, Bool.or_true, Bool.true_or, if_true, Bool.false_eq_true, if_false,
    List.not_mem_nil, false_and, true_and, reduceCtorEq]
  cases hk : completionKind w.named (p :: anc) with
  | none => simp
  | some k =>
    cases k <;> simp only [Option.bind_some, AutoImport.unqualifiedNs, List.not_mem_nil, Option.some.injEq, reduceCtorEq, false_and, exists_false]
    rename_i ns
    simp only [List.mem_filter, List.contains_iff_mem, Bool.and_eq_true, Option.isNone_iff_eq_none, Option.isSome_iff_exists,
      Option.bind_eq_some_iff, PathKind.unqualified.injEq, exists_eq_left']
    constructor
    · rintro ⟨⟨⟨h1, h2⟩, h3⟩, ⟨h4, h5⟩, q, i, h6, h7⟩
      refine ⟨h1, h2, h3, ?_, h5, i, q, h6, h7⟩
      intro x hx hs
      rw [Bool.not_eq_true', List.any_eq_false] at h4
      exact h4 x hx ((sameEntry_iff _ _).2 hs)
    · rintro ⟨h1, h2, h3, h4, h5, i, q, h6, h7⟩
      refine ⟨⟨⟨h1, h2⟩, h3⟩, ⟨?_, h5⟩, q, i, h6, h7⟩
      rw [Bool.not_eq_true', List.any_eq_false]
      intro x hx hs
      exact h4 x hx ((sameEntry_iff _ _).1 hs)

/-- No item is offered both as it is and with an import. -/
theorem C83_once {w : Names} {all : All} {fuel file : Nat} {c : Ctx} {site : List Elem} {e x : Entry}
    (he : e ∈ imports w all fuel file c site) (hx : x ∈ offers w all fuel file c site) : ¬ Same x e := by
  cases site with
  | nil => simp [imports] at he
  | cons p anc =>
    obtain ⟨_, _, _, _, _, _, _, h, _⟩ := mem_imports.1 he
    unfold offers at hx
    obtain ⟨y, hy, rfl⟩ := List.mem_map.1 (List.mem_filter.1 hx).1
    exact h y hy

/-- Every item of the modules that can be reached that may be used at a name without qualifier, and that is no test, is offered:
as it is if it is in scope, with an import otherwise. -/
theorem C83_reach {w : Names} {all : All} {fuel file : Nat} {c : Ctx} {p : Elem} {anc : List Elem} {e : Entry} {ns : List Ns} {i : Nameres.Place}
    {q : List Text} (hu : c.isUse = false) (ha : c.isAcquires = false)
    (hk : completionKind w.named (p :: anc) = some (.unqualified ns)) (he : e ∈ AutoImport.candidates w file) (hns : e.ns ∈ ns)
    (hv : isVisible w.toWorld e.ns none (placeAt w.toWorld e) ⟨file, p, anc⟩ = none)
    (hi : placeAt w.toWorld e = some i) (hq : AutoImport.fqName i = some q) (hh : ¬ HasAttr i.elem.green "test") :
    e ∈ imports w all fuel file c (p :: anc) ∨ ∃ x ∈ offers w all fuel file c (p :: anc), Same x e := by
  have hr : ∀ x : Entry, x.file = e.file → x.path = e.path → rendered w c x = true := by
    intro x h1 h2
    have : placeAt w.toWorld x = some i := by
      unfold placeAt at hi ⊢
      rw [h1, h2]
      exact hi
    unfold rendered
    rw [this, ha]
    dsimp only
    have ht : (attrTexts i.elem.green).contains "test".toList = false := by
      rw [← Bool.not_eq_true, List.contains_iff_mem, mem_attrTexts]
      exact hh
    rw [ht, Bool.and_false, Bool.false_and]
    rfl
  by_cases h : ∃ x ∈ entriesAt w all fuel file c (p :: anc), Same x.1 e
  · obtain ⟨x, hx, hs⟩ := h
    refine .inr ⟨x.1, ?_, hs⟩
    unfold offers
    exact List.mem_filter.2 ⟨List.mem_map.2 ⟨x, hx, rfl⟩, hr _ hs.2.1 hs.2.2⟩
  · refine .inl (mem_imports.2 ⟨hu, ha, ns, hk, he, hns, hv, ?_, hr e rfl rfl, i, q, hi, hq⟩)
    intro x hx hs
    exact h ⟨x, hx, hs⟩

/-- When nothing in the scopes has the name of an item in its namespace, and the import is added to one of them, then the name
means the item. Missing: the case that the name is in use, where this is false (`C83_import_fails`). -/
theorem C83_import_partial (inner outer : List (List Entry)) (s s' : List Entry) (c : Entry) (allowed : Ns → Bool)
    (ha : allowed c.ns = true) (hs : ∀ x, x ∈ s' ↔ x = c ∨ x ∈ s)
    (hfree : ∀ t ∈ inner ++ s :: outer, ∀ x ∈ t, ¬ (x.ns = c.ns ∧ x.name = c.name)) (x : Entry) :
    x ∈ walkLists allowed (some c.name) [] (inner ++ s' :: outer) ∧ x.ns = c.ns ↔ x = c := by
  rw [mem_walkLists]
  constructor
  · rintro ⟨⟨h1, _, i, t, o, h2, h3, _⟩, h5⟩
    have hn := h1.1 _ rfl
    have ht : t ∈ inner ++ s' :: outer := by rw [h2]; simp
    rw [List.mem_append, List.mem_cons] at ht
    rcases ht with ht | rfl | ht
    · exact absurd ⟨h5, hn.symm⟩ (hfree t (by simp [ht]) x h3)
    · rcases (hs x).1 h3 with rfl | h6
      · rfl
      · exact absurd ⟨h5, hn.symm⟩ (hfree s (by simp) x h6)
    · exact absurd ⟨h5, hn.symm⟩ (hfree t (by simp [ht]) x h3)
  · rintro rfl
    refine ⟨⟨⟨fun n hn => (Option.some.inj hn).symm, ha⟩, by simp, inner, s', outer, rfl, (hs x).2 (.inl rfl), ?_⟩, rfl⟩
    intro t ht y hy
    exact hfree t (by simp [ht]) y hy

end Verif.Ide.Complete
