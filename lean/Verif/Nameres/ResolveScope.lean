import Verif.Nameres.ResolvePaths

/-! C67: paths that begin with a name in scope. -/

namespace Verif.Nameres.Full
open Verif.Parser (Green)
open Verif.Syntax

/-- A path of one element that stands for itself: it is not in a `use`, and no part of a friend declaration, of the head of a
specification of a module, or of the shorthand of a field. -/
structure Plain (p : Elem) (anc : List Elem) : Prop where
  one : nodeChild p .PATH = none
  name : pathAddress p = none
  use : ∀ e ∈ anc, ¬ Is .USE_GROUP e
  speck : ∀ e ∈ anc, e.kind ≠ .USE_SPECK
  friend : ∀ e ∈ anc, e.kind ≠ .FRIEND
  spec : rootParentKind (p :: anc) ≠ some .MODULE_SPEC
  field : shorthandField (p :: anc) = none
  inside : anc ≠ []

theorem plain_kind {named : Text → Bool} {p : Elem} {anc : List Elem} {n : Text} (h : Plain p anc) (hn : refName p = some n) :
    pathKind named (p :: anc) = some (.namedOrUnqualified n (pathNamespaces anc)) ∨
      pathKind named (p :: anc) = some (.unqualified (pathNamespaces anc)) := by
  have hne' : anc.isEmpty = false := by have := h.inside; cases anc <;> simp_all
  have h1 : rootParentKind (p :: anc) ≠ some .USE_SPECK := rootParent_not (by simpa using h.speck)
  have h2 : rootParentKind (p :: anc) ≠ some .FRIEND := rootParent_not (by simpa using h.friend)
  have hs := h.spec
  unfold pathKind
  dsimp only
  rw [groupAround_none h.use]
  dsimp only
  rw [hne']
  simp only [qualifierOf, h.one, Option.map_none, h.name, hn, h1, h2, hs, h.field]
  cases trailingColons (p :: anc) <;> cases named n <;> simp

/-- What the name of a plain path may mean: what the scopes around it say, and the module for `Self`. -/
def InScope (w : Names) (file : Nat) (p : Elem) (anc : List Elem) (n : Text) (e : Entry) : Prop :=
  (∃ s, (e, s) ∈ w.walk file (pathNamespaces anc) n (p :: anc)) ∨
    (n = "Self".toList ∧ .MODULE ∈ pathNamespaces anc ∧ ∃ m, anc.find? (isNode .MODULE) = some m ∧ e = ⟨n, .MODULE, file, m.path⟩)

theorem functionCase_sub {c : Bool} {l : List (Entry × Option Invisible)} {x} (h : x ∈ functionCase c l) : x ∈ l := by
  unfold functionCase at h
  dsimp only at h
  split at h
  · split at h
    · exact (List.mem_filter.1 h).1
    · exact h
  · split at h
    · split at h
      · exact (List.mem_filter.1 h).1
      · exact h
    · exact h

/-- A path of one element means only things of that name that are in scope. -/
theorem C67_plain_sound {w : Names} {fuel file : Nat} {expected : Option (Nat × Elem)} {p : Elem} {anc : List Elem} {n : Text}
    (h : Plain p anc) (hn : refName p = some n) {e : Entry} {r : Option Invisible}
    (he : (e, r) ∈ resolvePath w (fuel + 1) file expected (p :: anc)) : e.name = n ∧ InScope w file p anc n e := by
  rw [resolvePath] at he
  dsimp only at he
  rw [hn] at he
  dsimp only at he
  have key : ∀ kind, kind = .namedOrUnqualified n (pathNamespaces anc) ∨ kind = .unqualified (pathNamespaces anc) →
      ∀ x ∈ variantsFor w file n (p :: anc) (fun q => single (resolvePath w fuel file none q)) kind, x.1.name = n → InScope w file p anc n x.1 := by
    rintro kind hk x hx hname
    have hx' : x ∈ ((selfEntry file (pathNamespaces anc) (p :: anc)).map fun e => (e, none)) ++ w.walk file (pathNamespaces anc) n (p :: anc) := by
      rcases hk with rfl | rfl <;> exact hx
    rcases List.mem_append.1 hx' with hx' | hx'
    · obtain ⟨y, hy, rfl⟩ := List.mem_map.1 hx'
      unfold selfEntry at hy
      split at hy
      · rename_i hm
        dsimp only [List.tail_cons] at hy
        cases hf : anc.find? (isNode .MODULE) with
        | none => rw [hf] at hy; cases hy
        | some m =>
          rw [hf] at hy
          rw [List.mem_singleton] at hy
          subst hy
          exact .inr ⟨hname.symm, by simpa using hm, m, hf, by rw [← hname]⟩
      · cases hy
    · exact .inl ⟨x.2, hx'⟩
  rcases plain_kind (named := w.named) h hn with hk | hk
  all_goals
    rw [hk] at he
    have he := functionCase_sub he
    obtain ⟨x, hx, h2⟩ := List.mem_map.1 he
    cases h2
    obtain ⟨hx, -⟩ := List.mem_filter.1 hx
    obtain ⟨hx, hname⟩ := List.mem_filter.1 hx
    have hname := of_decide_eq_true hname
    exact ⟨hname, key _ (by simp) x hx hname⟩

theorem functionCase_single (c : Bool) (x : Entry × Option Invisible) : functionCase c [x] = [x] := by
  unfold functionCase
  cases c
  · simp
  · by_cases h : x.1.ns = .FUNCTION <;> simp [h]

/-- If one thing of that name is in scope, a path of one element means it, be its name that of an address or not; variants only
mean something where they are expected. -/
theorem C67_plain {w : Names} {fuel file : Nat} {expected : Option (Nat × Elem)} {p : Elem} {anc : List Elem} {n : Text}
    (h : Plain p anc) (hn : refName p = some n) (hself : n ≠ "Self".toList) {e : Entry} {s : Option ItemScope}
    (hw : w.walk file (pathNamespaces anc) n (p :: anc) = [(e, s)]) (hname : e.name = n) {at_ : Place}
    (hplace : placeAt w.toWorld e = some at_) (hvar : at_.elem.kind ≠ .VARIANT) :
    resolvePath w (fuel + 1) file expected (p :: anc) = [(e, isVisible w.toWorld e.ns s (some at_) ⟨file, p, anc⟩)] := by
  rw [resolvePath]
  dsimp only
  rw [hn]
  dsimp only
  have key : ∀ kind, kind = .namedOrUnqualified n (pathNamespaces anc) ∨ kind = .unqualified (pathNamespaces anc) →
      (variantsFor w file n (p :: anc) (fun q => single (resolvePath w fuel file none q)) kind).filter (fun x => decide (x.1.name = n)) =
        [(e, s)] := by
    intro kind hk
    have hx : variantsFor w file n (p :: anc) (fun q => single (resolvePath w fuel file none q)) kind =
        ((selfEntry file (pathNamespaces anc) (p :: anc)).map fun e => (e, none)) ++ [(e, s)] := by
      rw [← hw]
      rcases hk with rfl | rfl <;> rfl
    rw [hx, List.filter_append]
    have h1 : ((selfEntry file (pathNamespaces anc) (p :: anc)).map fun e => (e, (none : Option ItemScope))).filter
        (fun x => decide (x.1.name = n)) = [] := by
      rw [List.filter_eq_nil_iff]
      intro x hx
      obtain ⟨y, hy, rfl⟩ := List.mem_map.1 hx
      unfold selfEntry at hy
      split at hy
      · split at hy
        · rw [List.mem_singleton] at hy
          subst hy
          rw [decide_eq_true_eq]
          exact fun h => hself h.symm
        · cases hy
      · cases hy
    rw [h1]
    simp [hname]
  have hfit : ∀ ex, fitsExpected w ex e = true := by
    intro ex
    unfold fitsExpected
    rw [hplace]
    simp [hvar]
  rcases plain_kind (named := w.named) h hn with hk | hk
  all_goals
    rw [hk]
    dsimp only
    rw [key _ (by simp)]
    simp only [List.filter_cons, hfit, if_true, List.filter_nil, List.map_cons, List.map_nil, hplace]
    exact functionCase_single _ _

/-! ### Paths of two elements -/

theorem short_kind {named : Text → Bool} {p q : Elem} {anc : List Elem} {m : Text} (hg : ∀ e ∈ anc, ¬ Is .USE_GROUP e)
    (hu : ∀ e ∈ anc, e.kind ≠ .USE_SPECK) (hf : ∀ e ∈ anc, e.kind ≠ .FRIEND) (hs : rootParentKind (p :: anc) ≠ some .MODULE_SPEC)
    (hne : anc ≠ []) (hp : nodeChild p .PATH = some q) (hq : nodeChild q .PATH = none) (hx : pathAddress q = none) (hm : refName q = some m) :
    ∃ ns k, pathKind named (p :: anc) = some (.qualified (q :: p :: anc) ns k) ∧ (∀ a, k ≠ .module a) ∧
      (∀ x, x ≠ Ns.MODULE → (x ∈ ns ↔ x ∈ pathNamespaces anc)) ∧
      (named m = false → trailingColons (p :: anc) = false → ns = (pathNamespaces anc).filter (· ≠ .MODULE) ∧ k = .itemOrVariant) := by
  have hk := kind_named (named := named) (groupAround_none hg) hne hp hq hx hm
  have h1 : rootParentKind (p :: anc) ≠ some .USE_SPECK := rootParent_not (by simpa using hu)
  have h2 : rootParentKind (p :: anc) ≠ some .FRIEND := rootParent_not (by simpa using hf)
  rw [if_neg (by simp [h1, h2, hs])] at hk
  split at hk
  · rename_i h
    exact ⟨_, _, hk, by simp, by simp, by simp [h]⟩
  · split at hk
    · rename_i h
      exact ⟨_, _, hk, by simp, by simp, by simp [h]⟩
    · refine ⟨_, _, hk, by simp, ?_, fun _ _ => ⟨rfl, rfl⟩⟩
      intro x hx
      simp [hx]

/-- `m::f` means the items `f` of the module that `m` means at the place. -/
theorem C67_short {w : Names} (hw : Sane w) {fuel file : Nat} {expected : Option (Nat × Elem)} {p q : Elem} {anc : List Elem} {n mn : Text}
    (hg : ∀ e ∈ anc, ¬ Is .USE_GROUP e) (hu : ∀ e ∈ anc, e.kind ≠ .USE_SPECK) (hf : ∀ e ∈ anc, e.kind ≠ .FRIEND)
    (hs : rootParentKind (p :: anc) ≠ some .MODULE_SPEC) (hne : anc ≠ []) (hp : nodeChild p .PATH = some q)
    (hq : nodeChild q .PATH = none) (hx : pathAddress q = none) (hm : refName q = some mn) (hn : refName p = some n)
    {f : Nat} {m : Elem} {c : List Elem} {A : Address} {an : Text} (hmod : Is .MODULE m) (hd : Declares (Elem.root (w.tree f)) m c A)
    (hone : single (resolvePath w fuel file none (q :: p :: anc)) = some ⟨an, .MODULE, f, m.path⟩) (e : Entry) (r : Option Invisible) :
    (e, r) ∈ resolvePath w (fuel + 1) file expected (p :: anc) ↔
      Chosen (isCallPath (p :: anc)) (Member w f m n (pathNamespaces anc)) e ∧
        r = isVisible w.toWorld e.ns none (placeAt w.toWorld e) ⟨file, p, anc⟩ := by
  obtain ⟨ns, k, hk, hkk, hns, -⟩ := short_kind (named := w.named) hg hu hf hs hne hp hq hx hm
  have huse : anc.any (isNode .USE_SPECK) = false := by
    rw [List.any_eq_false]
    intro y hy
    have := hu y hy
    simp [isNode, this]
  rw [after_module hw hn hk hkk hmod hd hone]
  have hC : ModuleCandidate w (anc.any (isNode .USE_SPECK)) n ns f m = Member w f m n (pathNamespaces anc) := by
    funext z
    unfold ModuleCandidate Member
    rw [huse]
    simp only [Bool.false_eq_true, false_and, false_or, eq_iff_iff]
    refine and_congr_right ?_
    rintro ⟨g, i, hi, hst⟩
    refine and_congr_right fun _ => hns _ ?_
    rw [hst.2.1]
    exact itemNs_ne (item_chain hw (declares_chain hd) hi).2.2.2.2
  rw [hC]

/-- `E::V` means the variants `V` of the enum that `E` means at the place, be it expected there or not, unless an address has the
name of the enum. -/
theorem C67_short_variant_partial {w : Names} {fuel file : Nat} {expected : Option (Nat × Elem)} {p q : Elem} {anc : List Elem}
    {n en : Text} (hg : ∀ e ∈ anc, ¬ Is .USE_GROUP e) (hu : ∀ e ∈ anc, e.kind ≠ .USE_SPECK) (hf : ∀ e ∈ anc, e.kind ≠ .FRIEND)
    (hs : rootParentKind (p :: anc) ≠ some .MODULE_SPEC) (hne : anc ≠ []) (hp : nodeChild p .PATH = some q)
    (hq : nodeChild q .PATH = none) (hx : pathAddress q = none) (hm : refName q = some en) (hn : refName p = some n)
    (hnamed : w.named en = false) (hcol : trailingColons (p :: anc) = false)
    {f : Nat} {i : Elem} {c : List Elem} {an : Text} (henum : Is .ENUM i) (hc : Chain (w.tree f) (i :: c))
    (hone : single (resolvePath w fuel file none (q :: p :: anc)) = some ⟨an, .ENUM, f, i.path⟩) (e : Entry) (r : Option Invisible) :
    (e, r) ∈ resolvePath w (fuel + 1) file expected (p :: anc) ↔
      (∃ l v, nodeChild i .VARIANT_LIST = some l ∧ v ∈ l.children ∧ Is .VARIANT v ∧ nameText v = some n ∧
        e = ⟨n, .ENUM_VARIANT, f, v.path⟩) ∧ .ENUM_VARIANT ∈ pathNamespaces anc ∧
      r = isVisible w.toWorld e.ns none (placeAt w.toWorld e) ⟨file, p, anc⟩ := by
  obtain ⟨ns, k, hk, -, -, h⟩ := short_kind (named := w.named) hg hu hf hs hne hp hq hx hm
  obtain ⟨rfl, rfl⟩ := h hnamed hcol
  have hplace : placeAt w.toWorld ⟨an, .ENUM, f, i.path⟩ = some ⟨f, i, c⟩ :=
    placeAt_of hc rfl henum.1 (by rw [henum.2]; decide)
  let all := (variantsOf i).filterMap (itemEntry f)
  have hqe : qualifiedEntries w file (p :: anc) (q :: p :: anc) (single (resolvePath w fuel file none (q :: p :: anc))) = all := by
    rw [hone]
    unfold qualifiedEntries
    dsimp only
    rw [hplace]
    simp [henum.2]
    rfl
  have hvmem : ∀ v, v ∈ variantsOf i ↔ ∃ l, nodeChild i .VARIANT_LIST = some l ∧ v ∈ l.children ∧ Is .VARIANT v := by
    intro v
    unfold variantsOf
    cases nodeChild i .VARIANT_LIST with
    | none => simp
    | some l => simp [isNode_iff]
  have hall : ∀ z, z ∈ all ↔ ∃ l v, nodeChild i .VARIANT_LIST = some l ∧ v ∈ l.children ∧ Is .VARIANT v ∧ nameText v = some z.name ∧
      z = ⟨z.name, .ENUM_VARIANT, f, v.path⟩ := by
    intro z
    show z ∈ List.filterMap _ _ ↔ _
    simp only [List.mem_filterMap, hvmem, itemEntry_iff]
    constructor
    · rintro ⟨v, ⟨l, h3, h4, h5⟩, h6, h7, h8, h9⟩
      refine ⟨l, v, h3, h4, h5, h6, ?_⟩
      obtain ⟨zn, zns, zf, zp⟩ := z
      simp only [itemNs, h5.2] at h7 h8 h9
      subst h7 h8 h9
      rfl
    · rintro ⟨l, v, h3, h4, h5, h6, h7⟩
      refine ⟨v, ⟨l, h3, h4, h5⟩, h6, ?_, ?_, ?_⟩ <;> rw [h7]
      simp [itemNs, h5.2]
  have hvar : variantsFor w file n (p :: anc) (fun q => single (resolvePath w fuel file none q))
      (.qualified (q :: p :: anc) ((pathNamespaces anc).filter (· ≠ .MODULE)) .itemOrVariant) =
      (all.filter fun e => ((pathNamespaces anc).filter (· ≠ .MODULE)).contains e.ns).map fun e => (e, none) := by
    rw [← hqe]; rfl
  have hfits : ∀ z ∈ all.filter (fun e => ((pathNamespaces anc).filter (· ≠ .MODULE)).contains e.ns),
      fitsExpected w (refineExpected w (fun q => single (resolvePath w fuel file none q)) expected
        (.qualified (q :: p :: anc) ((pathNamespaces anc).filter (· ≠ .MODULE)) .itemOrVariant)) z = true := by
    intro z hz
    obtain ⟨l, v, h3, h4, h5, h6, h7⟩ := (hall z).1 (List.mem_filter.1 hz).1
    have hpl : placeAt w.toWorld z = some ⟨f, v, l :: i :: c⟩ := by
      rw [h7]
      exact placeAt_of (.child (.child hc (nodeChild_mem h3).1) h4) rfl h5.1 (by rw [h5.2]; decide)
    unfold fitsExpected
    rw [hpl]
    have hr : refineExpected w (fun q => single (resolvePath w fuel file none q)) expected
        (.qualified (q :: p :: anc) ((pathNamespaces anc).filter (· ≠ .MODULE)) .itemOrVariant) = some (f, i) := by
      unfold refineExpected
      dsimp only
      rw [hone]
      simp [hplace, henum.2]
    rw [hr]
    simp only [h5.2, ne_eq, not_true, if_false, decide_true, Bool.true_and, List.any_eq_true, decide_eq_true_eq]
    exact ⟨v, (hvmem v).2 ⟨l, h3, h4, h5⟩, rfl⟩
  have hcand : ∀ z, z ∈ (all.filter fun e => ((pathNamespaces anc).filter (· ≠ .MODULE)).contains e.ns).filter
      (fun e => decide (e.name = n)) ↔ (∃ l v, nodeChild i .VARIANT_LIST = some l ∧ v ∈ l.children ∧ Is .VARIANT v ∧
        nameText v = some n ∧ z = ⟨n, .ENUM_VARIANT, f, v.path⟩) ∧ .ENUM_VARIANT ∈ pathNamespaces anc := by
    intro z
    simp only [List.mem_filter, decide_eq_true_eq, List.contains_iff_mem, hall]
    constructor
    · rintro ⟨⟨⟨l, v, h3, h4, h5, h6, h7⟩, h8, -⟩, h9⟩
      rw [h7] at h8
      rw [h9] at h6 h7
      exact ⟨⟨l, v, h3, h4, h5, h6, h7⟩, h8⟩
    · rintro ⟨⟨l, v, h3, h4, h5, h6, rfl⟩, h8⟩
      exact ⟨⟨⟨l, v, h3, h4, h5, h6, rfl⟩, h8, by simp⟩, rfl⟩
  rw [resolve_step hn hk hvar hfits, functionCase_none]
  · unfold withVis
    rw [List.mem_map]
    constructor
    · rintro ⟨z, hz, h3⟩
      cases h3
      obtain ⟨h4, h5⟩ := (hcand _).1 hz
      exact ⟨h4, h5, rfl⟩
    · rintro ⟨h5, h6, rfl⟩
      exact ⟨e, (hcand e).2 ⟨h5, h6⟩, rfl⟩
  · intro z hz
    obtain ⟨z', hz', rfl⟩ := List.mem_map.1 hz
    obtain ⟨⟨l, v, -, -, -, -, rfl⟩, -⟩ := (hcand z').1 hz'
    simp

end Verif.Nameres.Full
