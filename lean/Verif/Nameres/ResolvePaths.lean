import Verif.Nameres.ResolveProps

/-! C67: the theorems about qualified paths. -/

namespace Verif.Nameres.Full
open Verif.Parser (Green)
open Verif.Syntax

/-! ### Kinds of paths -/

theorem kind_module {named : Text → Bool} {q a x : Elem} {anc : List Elem} (hg : groupAround anc = none) (hne : anc ≠ [])
    (hq : nodeChild q .PATH = some a) (ha : nodeChild a .PATH = none) (hx : pathAddress a = some x) :
    pathKind named (q :: anc) = some (.qualified (a :: q :: anc) nsModules (.module (.value (addressText x)))) := by
  have h1 : qualifierOf (a :: q :: anc) = none := by simp [qualifierOf, ha]
  have hne' : anc.isEmpty = false := by cases anc <;> simp_all
  unfold pathKind
  dsimp only
  rw [hg]
  dsimp only
  rw [hne']
  simp [qualifierOf, hq, ha, hx]

theorem kind_named {named : Text → Bool} {q a : Elem} {anc : List Elem} {m : Text} (hg : groupAround anc = none) (hne : anc ≠ [])
    (hq : nodeChild q .PATH = some a) (ha : nodeChild a .PATH = none) (hx : pathAddress a = none) (hm : refName a = some m) :
    pathKind named (q :: anc) =
      if rootParentKind (q :: anc) = some .USE_SPECK ∨ rootParentKind (q :: anc) = some .FRIEND ∨
          rootParentKind (q :: anc) = some .MODULE_SPEC then
        some (.qualified (a :: q :: anc) nsModules (.module (.named m)))
      else if named m then some (.qualified (a :: q :: anc) (pathNamespaces anc) (.moduleOrItem (.named m)))
      else if trailingColons (q :: anc) then some (.qualified (a :: q :: anc) (pathNamespaces anc) (.moduleOrItem (.named m)))
      else some (.qualified (a :: q :: anc) ((pathNamespaces anc).filter (· ≠ .MODULE)) .itemOrVariant) := by
  have hne' : anc.isEmpty = false := by cases anc <;> simp_all
  unfold pathKind
  dsimp only
  rw [hg]
  dsimp only
  rw [hne']
  simp [qualifierOf, hq, ha, hx, hm, or_assoc]

theorem kind_item {named : Text → Bool} {p q a : Elem} {anc : List Elem} (hg : groupAround anc = none) (hne : anc ≠ [])
    (hp : nodeChild p .PATH = some q) (hq : nodeChild q .PATH = some a) :
    pathKind named (p :: anc) = some (.qualified (q :: p :: anc)
      (if rootParentKind (p :: anc) = some .USE_SPECK then pathNamespaces anc ++ nsModules else (pathNamespaces anc).filter (· ≠ .MODULE))
      .fqItem) := by
  have hne' : anc.isEmpty = false := by cases anc <;> simp_all
  unfold pathKind
  dsimp only
  rw [hg]
  dsimp only
  rw [hne']
  simp only [qualifierOf, hp, hq, Option.map_some, Bool.false_eq_true, if_false]
  split <;> rfl

theorem groupAround_cons {p : Elem} {anc : List Elem} (hp : isNode .PATH p = true) (h : groupAround anc = none) :
    groupAround (p :: anc) = none := by
  have : isNode .USE_GROUP p = false := by
    obtain ⟨-, h2⟩ := (isNode_iff _ _).1 hp
    simp [isNode, h2]
  unfold groupAround at h ⊢
  rw [List.dropWhile_cons_of_pos (by simp [this])]
  exact h

theorem groupAround_none {anc : List Elem} (h : ∀ e ∈ anc, ¬ Is .USE_GROUP e) : groupAround anc = none := by
  have : anc.dropWhile (fun e => !isNode .USE_GROUP e) = [] := by
    rw [List.dropWhile_eq_nil_iff]
    intro e he
    have := h e he
    rw [← isNode_iff] at this
    simpa using this
  simp [groupAround, this]

theorem rootPath_mem {site : List Elem} : ∀ e ∈ (rootPath site).tail, e ∈ site.tail := by
  induction site with
  | nil => simp [rootPath]
  | cons p l ih =>
    cases l with
    | nil => simp [rootPath]
    | cons q l =>
      rw [rootPath]
      split
      · intro e he
        exact List.mem_cons_of_mem _ (ih e he)
      · simp

theorem rootParent_not {site : List Elem} {k : SyntaxKind} (h : ∀ e ∈ site.tail, e.kind ≠ k) : rootParentKind site ≠ some k := by
  unfold rootParentKind
  intro hk
  cases hh : (rootPath site).tail.head? with
  | none => rw [hh] at hk; cases hk
  | some e =>
    rw [hh] at hk
    exact h e (rootPath_mem e (List.mem_of_head? hh)) (Option.some.inj hk)

/-! ### Paths after a qualifier -/

/-- What the path may mean, when its qualifier is a module. -/
def ModuleCandidate (w : Names) (inUse : Bool) (n : Text) (ns : List Ns) (f : Nat) (m : Elem) (e : Entry) : Prop :=
  ((inUse = true ∧ e = ⟨selfText, .MODULE, f, m.path⟩) ∨ ∃ g i, Item w f m g i ∧ Stands e g i) ∧ e.name = n ∧ e.ns ∈ ns

theorem itemNs_ne {i : Elem} (h : i.kind ≠ .MODULE) : itemNs i ≠ .MODULE := by
  unfold itemNs
  split <;> first | contradiction | (split <;> decide) | decide

theorem stands_place {w : Names} {e : Entry} {g : Nat} {i : Elem} {c : List Elem} (hs : Stands e g i) (hc : Chain (w.tree g) (i :: c))
    (ht : i.green.isTok = false) (hk : i.kind ∈ namedKinds) : placeAt w.toWorld e = some ⟨g, i, c⟩ := by
  obtain ⟨-, -, rfl, h4⟩ := hs
  exact placeAt_of hc h4 ht hk

/-- The resolution of a path after a module. -/
theorem after_module_list {w : Names} (hw : Sane w) {fuel file : Nat} {expected : Option (Nat × Elem)} {p : Elem} {anc q : List Elem} {n : Text}
    {ns : List Ns} {k : QualifiedKind} (hn : refName p = some n) (hk : pathKind w.named (p :: anc) = some (.qualified q ns k))
    (hkk : ∀ a, k ≠ .module a) {f : Nat} {m : Elem} {c : List Elem} {b : Address} {mn : Text} (hm : Is .MODULE m)
    (hd : Declares (Elem.root (w.tree f)) m c b) (hone : single (resolvePath w fuel file none q) = some ⟨mn, .MODULE, f, m.path⟩) :
    ∃ L : List Entry, L.Nodup ∧ (∀ x, x ∈ L ↔ ModuleCandidate w (anc.any (isNode .USE_SPECK)) n ns f m x) ∧
      resolvePath w (fuel + 1) file expected (p :: anc) = functionCase (isCallPath (p :: anc)) (withVis w ⟨file, p, anc⟩ L) := by
  have hplace : placeAt w.toWorld ⟨mn, .MODULE, f, m.path⟩ = some ⟨f, m, c⟩ :=
    placeAt_of (declares_chain hd) rfl hm.1 (by rw [hm.2]; decide)
  have hself : ∀ x, placeAt w.toWorld ⟨x, .MODULE, f, m.path⟩ = some ⟨f, m, c⟩ := fun x =>
    placeAt_of (declares_chain hd) rfl hm.1 (by rw [hm.2]; decide)
  let all := (if anc.any (isNode .USE_SPECK) then [(⟨selfText, .MODULE, f, m.path⟩ : Entry)] else []) ++
    (importableEntries f m ++ relatedEntries w f m)
  have hqe : qualifiedEntries w file (p :: anc) q (single (resolvePath w fuel file none q)) = all := by
    rw [hone]
    unfold qualifiedEntries
    dsimp only
    rw [hplace]
    simp only [hm.2, if_true, List.tail_cons, List.append_assoc]
    rfl
  have hvar : variantsFor w file n (p :: anc) (fun q => single (resolvePath w fuel file none q)) (.qualified q ns k) =
      (all.filter fun e => ns.contains e.ns).map fun e => (e, none) := by
    cases k with
    | module a => exact absurd rfl (hkk a)
    | moduleOrItem a => rw [← hqe]; rfl
    | itemOrVariant => rw [← hqe]; rfl
    | fqItem => rw [← hqe]; rfl
    | groupItem => rw [← hqe]; rfl
  have hmemAll : ∀ x, x ∈ all ↔ (anc.any (isNode .USE_SPECK) = true ∧ x = ⟨selfText, .MODULE, f, m.path⟩) ∨
      ∃ g i, Item w f m g i ∧ Stands x g i := by
    intro x
    show x ∈ _ ++ _ ↔ _
    rw [List.mem_append, mem_entries]
    split
    · simp_all
    · simp_all
  have hfits : ∀ x ∈ all.filter (fun e => ns.contains e.ns),
      fitsExpected w (refineExpected w (fun q => single (resolvePath w fuel file none q)) expected (.qualified q ns k)) x = true := by
    intro x hx
    rcases (hmemAll x).1 (List.mem_filter.1 hx).1 with ⟨-, rfl⟩ | ⟨g, i, hi, hs⟩
    · unfold fitsExpected
      rw [hself]
      simp [hm.2]
    · obtain ⟨⟨c', hc'⟩, h1, h2, h3, -⟩ := item_chain hw (declares_chain hd) hi
      unfold fitsExpected
      rw [stands_place hs hc' h1 h2]
      simp [h3]
  have hnodup : all.Nodup := by
    show (_ ++ _ : List Entry).Nodup
    rw [List.nodup_append]
    refine ⟨?_, entries_nodup hw hm hd, ?_⟩
    · split <;> simp
    · intro x hx y hy hxy
      obtain ⟨g, i, hi, hs⟩ := (mem_entries w f m y).1 hy
      obtain ⟨-, -, -, -, h4⟩ := item_chain hw (declares_chain hd) hi
      split at hx
      · simp only [List.mem_singleton] at hx
        subst hx
        rw [← hxy] at hs
        exact itemNs_ne h4 hs.2.1.symm
      · cases hx
  refine ⟨_, (hnodup.filter _).filter _, ?_, resolve_step hn hk hvar hfits⟩
  intro x
  simp only [List.mem_filter, decide_eq_true_eq, List.contains_iff_mem, hmemAll, ModuleCandidate]
  tauto

theorem after_module {w : Names} (hw : Sane w) {fuel file : Nat} {expected : Option (Nat × Elem)} {p : Elem} {anc q : List Elem} {n : Text}
    {ns : List Ns} {k : QualifiedKind} (hn : refName p = some n) (hk : pathKind w.named (p :: anc) = some (.qualified q ns k))
    (hkk : ∀ a, k ≠ .module a) {f : Nat} {m : Elem} {c : List Elem} {b : Address} {mn : Text} (hm : Is .MODULE m)
    (hd : Declares (Elem.root (w.tree f)) m c b) (hone : single (resolvePath w fuel file none q) = some ⟨mn, .MODULE, f, m.path⟩)
    (e : Entry) (r : Option Invisible) :
    (e, r) ∈ resolvePath w (fuel + 1) file expected (p :: anc) ↔
      Chosen (isCallPath (p :: anc)) (ModuleCandidate w (anc.any (isNode .USE_SPECK)) n ns f m) e ∧
      r = isVisible w.toWorld e.ns none (placeAt w.toWorld e) ⟨file, p, anc⟩ := by
  obtain ⟨L, h1, h2, h3⟩ := after_module_list hw (expected := expected) hn hk hkk hm hd hone
  rw [h3]
  unfold withVis
  rw [functionCase_iff h1]
  have hC : (fun x => x ∈ L) = ModuleCandidate w (anc.any (isNode .USE_SPECK)) n ns f m := by
    funext x
    exact propext (h2 x)
  rw [hC]

theorem after_nothing {w : Names} (hw : Sane w) {fuel file : Nat} {expected : Option (Nat × Elem)} {p : Elem} {anc q : List Elem}
    {ns : List Ns} {k : QualifiedKind} (hk : pathKind w.named (p :: anc) = some (.qualified q ns k))
    (hkk : ∀ a, k ≠ .module a) (hns : .MODULE ∉ ns) (hone : single (resolvePath w fuel file none q) = none) :
    resolvePath w (fuel + 1) file expected (p :: anc) = [] := by
  cases hn : refName p with
  | none => rw [resolvePath]; dsimp only; rw [hn]
  | some n =>
    have hvar : variantsFor w file n (p :: anc) (fun q => single (resolvePath w fuel file none q)) (.qualified q ns k) =
        ([] : List Entry).map fun e => (e, none) := by
      have hqe : (qualifiedEntries w file (p :: anc) q (single (resolvePath w fuel file none q))).filter (fun e => ns.contains e.ns) = [] := by
        rw [hone, List.filter_eq_nil_iff]
        intro e he
        unfold qualifiedEntries at he
        dsimp only at he
        split at he
        · obtain ⟨m, c, -, h2, -⟩ := module_place hw he
          rw [h2]
          simpa using hns
        · cases he
      cases k with
      | module a => exact absurd rfl (hkk a)
      | moduleOrItem a => exact congrArg (List.map fun e => (e, none)) hqe
      | itemOrVariant => exact congrArg (List.map fun e => (e, none)) hqe
      | fqItem => exact congrArg (List.map fun e => (e, none)) hqe
      | groupItem => exact congrArg (List.map fun e => (e, none)) hqe
    rw [resolve_step hn hk hvar (by simp)]
    simp only [List.filter_nil, withVis, List.map_nil]
    unfold functionCase
    cases isCallPath (p :: anc) <;> rfl

/-! ### Theorems -/

/-- The module part of a path, `a::m` with an address that is a number, resolves to the modules of that name at that address. -/
theorem module_part {w : Names} (hw : Sane w) {fuel file : Nat} {expected : Option (Nat × Elem)} {q a x : Elem} {anc : List Elem} {mn : Text}
    (hg : groupAround anc = none) (hne : anc ≠ []) (hq : nodeChild q .PATH = some a) (ha : nodeChild a .PATH = none)
    (hx : pathAddress a = some x) (hm : refName q = some mn) :
    resolvePath w (fuel + 1) file expected (q :: anc) = withVis w ⟨file, q, anc⟩
      ((modulesAsEntries w file (.value (addressText x))).filter fun e => decide (e.name = mn)) :=
  resolve_modules hw hm (kind_module hg hne hq ha hx) rfl

/-- What names the address in `a::m`: a number anywhere; a name in a `use`, a friend declaration or the head of a specification of a
module. -/
inductive ModuleAddress (q : Elem) (anc : List Elem) (a : Elem) : Address → Prop where
  | value {x} : pathAddress a = some x → ModuleAddress q anc a (.value (addressText x))
  | named {n} : pathAddress a = none → refName a = some n →
      (rootParentKind (q :: anc) = some .USE_SPECK ∨ rootParentKind (q :: anc) = some .FRIEND ∨
        rootParentKind (q :: anc) = some .MODULE_SPEC) → ModuleAddress q anc a (.named n)

/-- A path to a module by its address, `0x1::m`, means the modules of that name at that address. -/
theorem C67_module {w : Names} (hw : Sane w) {fuel file : Nat} {expected : Option (Nat × Elem)} {q a : Elem} {anc : List Elem} {mn : Text}
    {A : Address} (hg : ∀ e ∈ anc, ¬ Is .USE_GROUP e) (hne : anc ≠ []) (hq : nodeChild q .PATH = some a) (ha : nodeChild a .PATH = none)
    (hA : ModuleAddress q anc a A) (hm : refName q = some mn) (e : Entry) :
    (∃ r, (e, r) ∈ resolvePath w (fuel + 1) file expected (q :: anc)) ↔
      ∃ m c, ModuleAt w file A mn e.file m c ∧ e = ⟨mn, .MODULE, e.file, m.path⟩ := by
  have hres : resolvePath w (fuel + 1) file expected (q :: anc) = withVis w ⟨file, q, anc⟩
      ((modulesAsEntries w file A).filter fun e => decide (e.name = mn)) := by
    cases hA with
    | value hx => exact module_part hw (groupAround_none hg) hne hq ha hx hm
    | named hx hn hr =>
      have hk := kind_named (named := w.named) (groupAround_none hg) hne hq ha hx hn
      rw [if_pos hr] at hk
      exact resolve_modules hw hm hk rfl
  rw [hres]
  unfold withVis
  simp only [List.mem_map, List.mem_filter, decide_eq_true_eq, Prod.mk.injEq, mem_modulesAsEntries hw]
  constructor
  · rintro ⟨r, y, ⟨⟨f, m, c, h1, h2, h3, h4⟩, h5⟩, rfl, -⟩
    obtain ⟨yn, yns, yf, yp⟩ := y
    dsimp only at h1 h2 h3 h4 h5
    subst h2 h3 h4 h5
    exact ⟨m, c, h1, rfl⟩
  · rintro ⟨m, c, h1, h2⟩
    refine ⟨_, e, ⟨⟨e.file, m, c, ?_, ?_, rfl, ?_⟩, ?_⟩, rfl, rfl⟩ <;> rw [h2]
    exact h1

/-- A path after a module part, outside of `use`. -/
theorem item_after {w : Names} (hw : Sane w) {fuel file : Nat} {expected : Option (Nat × Elem)} {p q a : Elem} {anc : List Elem} {n mn : Text}
    {A : Address} (hg : groupAround anc = none) (hu : ∀ e ∈ anc, e.kind ≠ .USE_SPECK) (hne : anc ≠ [])
    (hp : nodeChild p .PATH = some q) (hq : nodeChild q .PATH = some a) (hn : refName p = some n)
    (hres : resolvePath w fuel file none (q :: p :: anc) =
      withVis w ⟨file, q, p :: anc⟩ ((modulesAsEntries w file A).filter fun e => decide (e.name = mn))) (e : Entry) (r : Option Invisible) :
    (e, r) ∈ resolvePath w (fuel + 1) file expected (p :: anc) ↔
      ∃ f m c, OnlyModule w ⟨file, q, p :: anc⟩ A mn f m c ∧
        Chosen (isCallPath (p :: anc)) (Member w f m n (pathNamespaces anc)) e ∧
        r = isVisible w.toWorld e.ns none (placeAt w.toWorld e) ⟨file, p, anc⟩ := by
  have hroot : rootParentKind (p :: anc) ≠ some .USE_SPECK := rootParent_not (by simpa using hu)
  have hk := kind_item (named := w.named) hg hne hp hq
  rw [if_neg hroot] at hk
  have hsingle := single_modules hw (a := A) (n := mn) (ctx := ⟨file, q, p :: anc⟩)
  have huse : anc.any (isNode .USE_SPECK) = false := by
    rw [List.any_eq_false]
    intro y hy
    have := hu y hy
    simp [isNode, this]
  cases hone : single (resolvePath w fuel file none (q :: p :: anc)) with
  | none =>
    rw [after_nothing hw hk (by simp) (by simp) hone]
    simp only [List.not_mem_nil, false_iff]
    rintro ⟨f, m, c, h1, -⟩
    rw [hres] at hone
    have := (hsingle ⟨mn, .MODULE, f, m.path⟩).2 ⟨m, c, h1, rfl⟩
    dsimp only at this hone
    rw [hone] at this
    cases this
  | some y =>
    have hone' := hone
    rw [hres] at hone'
    obtain ⟨m, c, h1, h2⟩ := (hsingle y).1 hone'
    obtain ⟨b, hd, -⟩ := h1.1.2.2.2
    rw [h2] at hone
    rw [after_module hw hn hk (by simp) h1.1.2.1 hd hone]
    have hC : ModuleCandidate w (anc.any (isNode .USE_SPECK)) n ((pathNamespaces anc).filter (· ≠ .MODULE)) y.file m =
        Member w y.file m n (pathNamespaces anc) := by
      funext z
      unfold ModuleCandidate Member
      rw [huse]
      simp only [Bool.false_eq_true, false_and, false_or, List.mem_filter, decide_eq_true_eq, eq_iff_iff]
      constructor
      · rintro ⟨h3, h4, h5, -⟩; exact ⟨h3, h4, h5⟩
      · rintro ⟨h3, h4, h5⟩
        refine ⟨h3, h4, h5, ?_⟩
        obtain ⟨g, i, hi, hs⟩ := h3
        rw [hs.2.1]
        exact itemNs_ne (item_chain hw (declares_chain hd) hi).2.2.2.2
    rw [hC]
    constructor
    · rintro ⟨h3, h4⟩
      exact ⟨y.file, m, c, h1, h3, h4⟩
    · rintro ⟨f', m', c', h3, h4, h5⟩
      obtain ⟨rfl, hmp⟩ := h1.2.2 f' m' c' h3.1 h3.2.1
      obtain ⟨b', hd', -⟩ := h3.1.2.2.2
      have := chain_eq (declares_chain hd) (declares_chain hd') hmp.symm
      subst this
      exact ⟨h4, h5⟩

/-- A path after a module part in a `use`, when there is exactly one module that it can mean. -/
theorem use_after {w : Names} (hw : Sane w) {fuel file : Nat} {expected : Option (Nat × Elem)} {p : Elem} {anc : List Elem} {q : Elem}
    {qanc : List Elem} {n mn : Text} {A : Address} {ns : List Ns} {k : QualifiedKind} (hn : refName p = some n)
    (hk : pathKind w.named (p :: anc) = some (.qualified (q :: qanc) ns k)) (hkk : ∀ a, k ≠ .module a)
    (hu : anc.any (isNode .USE_SPECK) = true)
    (hres : resolvePath w fuel file none (q :: qanc) =
      withVis w ⟨file, q, qanc⟩ ((modulesAsEntries w file A).filter fun e => decide (e.name = mn)))
    {f : Nat} {m : Elem} {c : List Elem} (hm : OnlyModule w ⟨file, q, qanc⟩ A mn f m c) (e : Entry) (r : Option Invisible) :
    (e, r) ∈ resolvePath w (fuel + 1) file expected (p :: anc) ↔
      Chosen (isCallPath (p :: anc)) (ModuleCandidate w true n ns f m) e ∧
        r = isVisible w.toWorld e.ns none (placeAt w.toWorld e) ⟨file, p, anc⟩ := by
  have hone : single (resolvePath w fuel file none (q :: qanc)) = some ⟨mn, .MODULE, f, m.path⟩ := by
    rw [hres]
    exact (single_modules hw (ctx := ⟨file, q, qanc⟩) ⟨mn, .MODULE, f, m.path⟩).2 ⟨m, c, hm, rfl⟩
  obtain ⟨b, hd, -⟩ := hm.1.2.2.2
  rw [after_module hw hn hk hkk hm.1.2.1 hd hone, hu]

/-- A fully qualified path with a numeric address, outside of `use`, means exactly the items of that name in the one module of that
name at that address that may be used there. No scope has a part in it. -/
theorem C67_value {w : Names} (hw : Sane w) {fuel file : Nat} {expected : Option (Nat × Elem)} {p q a x : Elem} {anc : List Elem} {n mn : Text}
    (hpath : Is .PATH p) (hg : ∀ e ∈ anc, ¬ Is .USE_GROUP e) (hu : ∀ e ∈ anc, e.kind ≠ .USE_SPECK) (hne : anc ≠ [])
    (hp : nodeChild p .PATH = some q) (hq : nodeChild q .PATH = some a) (ha : nodeChild a .PATH = none)
    (hx : pathAddress a = some x) (hn : refName p = some n) (hm : refName q = some mn) (e : Entry) (r : Option Invisible) :
    (e, r) ∈ resolvePath w (fuel + 2) file expected (p :: anc) ↔
      ∃ f m c, OnlyModule w ⟨file, q, p :: anc⟩ (.value (addressText x)) mn f m c ∧
        Chosen (isCallPath (p :: anc)) (Member w f m n (pathNamespaces anc)) e ∧
        r = isVisible w.toWorld e.ns none (placeAt w.toWorld e) ⟨file, p, anc⟩ :=
  item_after hw (groupAround_none hg) hu hne hp hq hn
    (module_part hw (groupAround_cons ((isNode_iff _ _).2 hpath) (groupAround_none hg)) (by simp) hq ha hx hm) e r

/-- The module part of a path with a named address outside of `use`, when the name of the address means nothing else there. -/
theorem named_part {w : Names} (hw : Sane w) {fuel file : Nat} {expected : Option (Nat × Elem)} {q p a : Elem} {anc : List Elem} {mn an : Text}
    (hpath : Is .PATH p) (hg : groupAround (p :: anc) = none) (hq : nodeChild q .PATH = some a) (ha : nodeChild a .PATH = none)
    (hx : pathAddress a = none) (han : refName a = some an) (hm : refName q = some mn) (hnamed : w.named an = true)
    (hnone : single (resolvePath w fuel file none (a :: q :: p :: anc)) = none) :
    resolvePath w (fuel + 1) file expected (q :: p :: anc) = withVis w ⟨file, q, p :: anc⟩
      ((modulesAsEntries w file (.named an)).filter fun e => decide (e.name = mn)) := by
  have hk := kind_named (named := w.named) hg (by simp) hq ha hx han
  split at hk
  · exact resolve_modules hw hm hk rfl
  · refine resolve_modules hw hm hk ?_
    have hns : pathNamespaces (p :: anc) = nsEnumsModules := by
      simp [pathNamespaces, kindAt, hpath.2]
    have hqe : qualifiedEntries w file (q :: p :: anc) (a :: q :: p :: anc)
        (single (resolvePath w fuel file none (a :: q :: p :: anc))) = modulesAsEntries w file (.named an) := by
      rw [hnone]
      simp [qualifiedEntries, han]
    show List.map _ (List.filter _ (qualifiedEntries w file (q :: p :: anc) (a :: q :: p :: anc)
      (single (resolvePath w fuel file none (a :: q :: p :: anc))))) = _
    rw [hqe, hns, List.filter_eq_self.2]
    intro y hy
    obtain ⟨m, c, -, h2, -⟩ := module_place hw hy
    rw [h2]
    decide

/-- A fully qualified path with a named address, outside of `use`, means the same as long as the name of the address means nothing
in the scopes around. Missing: paths that begin with a name that is also that of a module or enum in scope, see `C67_named_fails`. -/
theorem C67_named_partial {w : Names} (hw : Sane w) {fuel file : Nat} {expected : Option (Nat × Elem)} {p q a : Elem} {anc : List Elem}
    {n mn an : Text} (hpath : Is .PATH p) (hg : ∀ e ∈ anc, ¬ Is .USE_GROUP e) (hu : ∀ e ∈ anc, e.kind ≠ .USE_SPECK) (hne : anc ≠ [])
    (hp : nodeChild p .PATH = some q) (hq : nodeChild q .PATH = some a) (ha : nodeChild a .PATH = none) (hx : pathAddress a = none)
    (han : refName a = some an) (hn : refName p = some n) (hm : refName q = some mn) (hnamed : w.named an = true)
    (hnone : single (resolvePath w fuel file none (a :: q :: p :: anc)) = none) (e : Entry) (r : Option Invisible) :
    (e, r) ∈ resolvePath w (fuel + 2) file expected (p :: anc) ↔
      ∃ f m c, OnlyModule w ⟨file, q, p :: anc⟩ (.named an) mn f m c ∧
        Chosen (isCallPath (p :: anc)) (Member w f m n (pathNamespaces anc)) e ∧
        r = isVisible w.toWorld e.ns none (placeAt w.toWorld e) ⟨file, p, anc⟩ :=
  item_after hw (groupAround_none hg) hu hne hp hq hn
    (named_part hw hpath (groupAround_cons ((isNode_iff _ _).2 hpath) (groupAround_none hg)) hq ha hx han hm hnamed hnone) e r

/-- What a path begins with in a `use`: a number or the name of an address. -/
inductive Begins (a : Elem) : Address → Prop where
  | value {x} : pathAddress a = some x → Begins a (.value (addressText x))
  | named {n} : pathAddress a = none → refName a = some n → Begins a (.named n)

theorem use_part {w : Names} (hw : Sane w) {fuel file : Nat} {expected : Option (Nat × Elem)} {q a : Elem} {anc : List Elem} {mn : Text}
    {A : Address} (hg : groupAround anc = none) (hne : anc ≠ []) (hroot : rootParentKind (q :: anc) = some .USE_SPECK)
    (hq : nodeChild q .PATH = some a) (ha : nodeChild a .PATH = none) (hA : Begins a A) (hm : refName q = some mn) :
    resolvePath w (fuel + 1) file expected (q :: anc) = withVis w ⟨file, q, anc⟩
      ((modulesAsEntries w file A).filter fun e => decide (e.name = mn)) := by
  cases hA with
  | value hx => exact module_part hw hg hne hq ha hx hm
  | named hx hn =>
    have hk := kind_named (named := w.named) hg hne hq ha hx hn
    rw [if_pos (.inl hroot)] at hk
    exact resolve_modules hw hm hk rfl

/-- `use a::m::n` imports the items named `n` of the one usable module `m` at the address, for `Self` the module. Missing: when
there is no such module, see `C67_use_fails`. -/
theorem C67_use_partial {w : Names} (hw : Sane w) {fuel file : Nat} {expected : Option (Nat × Elem)} {p q a s : Elem} {anc : List Elem}
    {n mn : Text} {A : Address} (hpath : Is .PATH p) (hs : Is .USE_SPECK s) (hg : ∀ e ∈ anc, ¬ Is .USE_GROUP e)
    (hp : nodeChild p .PATH = some q) (hq : nodeChild q .PATH = some a) (ha : nodeChild a .PATH = none) (hA : Begins a A)
    (hn : refName p = some n) (hm : refName q = some mn) {f : Nat} {m : Elem} {c : List Elem}
    (hmod : OnlyModule w ⟨file, q, p :: s :: anc⟩ A mn f m c) (e : Entry) (r : Option Invisible) :
    (e, r) ∈ resolvePath w (fuel + 2) file expected (p :: s :: anc) ↔
      Chosen false (ModuleCandidate w true n (nsImportable ++ nsModules) f m) e ∧
        r = isVisible w.toWorld e.ns none (placeAt w.toWorld e) ⟨file, p, s :: anc⟩ := by
  have hsg : groupAround (s :: anc) = none := groupAround_none (by
    intro e he
    rcases List.mem_cons.1 he with rfl | he
    · intro h; have := h.2.symm.trans hs.2; cases this
    · exact hg e he)
  have hgq := groupAround_cons ((isNode_iff _ _).2 hpath) hsg
  have hsp : isNode .PATH s = false := by simp [isNode, hs.2]
  have hrp : rootPath (p :: s :: anc) = p :: s :: anc := by rw [rootPath, hsp]; rfl
  have hrq : rootPath (q :: p :: s :: anc) = p :: s :: anc := by
    rw [rootPath, if_pos ((isNode_iff _ _).2 hpath), hrp]
  have hroot : rootParentKind (p :: s :: anc) = some .USE_SPECK := by simp [rootParentKind, hrp, hs.2]
  have hrootq : rootParentKind (q :: p :: s :: anc) = some .USE_SPECK := by simp [rootParentKind, hrq, hs.2]
  have hk := kind_item (named := w.named) hsg (by simp) hp hq
  rw [if_pos hroot] at hk
  have hns : pathNamespaces (s :: anc) = nsImportable := by simp [pathNamespaces, kindAt, hs.2]
  have hcall : isCallPath (p :: s :: anc) = false := by simp [isCallPath, hrp, kindAt, hs.2]
  rw [hns] at hk
  have := use_after hw (expected := expected) hn hk (by simp) (by simp [(isNode_iff .USE_SPECK s).2 hs])
    (use_part hw (fuel := fuel) hgq (by simp) hrootq hq ha hA hm) hmod e r
  rw [hcall] at this
  exact this

/-- So does `use a::m::{…, n, …}`. -/
theorem C67_group_partial {w : Names} (hw : Sane w) {fuel file : Nat} {expected : Option (Nat × Elem)} {p q a s g : Elem}
    {inner anc : List Elem} {n mn : Text} {A : Address} (hg : Is .USE_GROUP g) (hi : ∀ e ∈ inner, ¬ Is .USE_GROUP e) (hs : Is .USE_SPECK s)
    (hout : ∀ e ∈ anc, ¬ Is .USE_GROUP e) (hp : nodeChild s .PATH = some q) (hq : nodeChild q .PATH = some a)
    (ha : nodeChild a .PATH = none) (hA : Begins a A)
    (hn : refName p = some n) (hm : refName q = some mn) {f : Nat} {m : Elem} {c : List Elem}
    (hmod : OnlyModule w ⟨file, q, s :: anc⟩ A mn f m c) (e : Entry) (r : Option Invisible) :
    (e, r) ∈ resolvePath w (fuel + 2) file expected (p :: (inner ++ g :: s :: anc)) ↔
      Chosen (isCallPath (p :: (inner ++ g :: s :: anc))) (ModuleCandidate w true n (nsImportable ++ nsModules) f m) e ∧
        r = isVisible w.toWorld e.ns none (placeAt w.toWorld e) ⟨file, p, inner ++ g :: s :: anc⟩ := by
  have hgr : groupAround (inner ++ g :: s :: anc) = some (g :: s :: anc) := by
    have h1 : (inner ++ g :: s :: anc).dropWhile (fun e => !isNode .USE_GROUP e) = g :: s :: anc := by
      rw [List.dropWhile_append_of_pos]
      · rw [List.dropWhile_cons_of_neg]
        simpa using (isNode_iff _ _).2 hg
      · intro e he
        have := hi e he
        rw [← isNode_iff] at this
        simpa using this
    simp [groupAround, h1]
  have hk : pathKind w.named (p :: (inner ++ g :: s :: anc)) =
      some (.qualified (q :: s :: anc) (nsImportable ++ nsModules) .groupItem) := by
    unfold pathKind
    dsimp only
    rw [hgr]
    simp [(isNode_iff .USE_SPECK s).2 hs, hp]
  have hsg : groupAround (s :: anc) = none := groupAround_none (by
    intro e he
    rcases List.mem_cons.1 he with rfl | he
    · intro h; have := h.2.symm.trans hs.2; cases this
    · exact hout e he)
  have hsp : isNode .PATH s = false := by simp [isNode, hs.2]
  have hrootq : rootParentKind (q :: s :: anc) = some .USE_SPECK := by simp [rootParentKind, rootPath, hsp, hs.2]
  exact use_after hw (expected := expected) hn hk (by simp) (by simp [(isNode_iff .USE_SPECK s).2 hs])
    (use_part hw (fuel := fuel) hsg (by simp) hrootq hq ha hA hm) hmod e r

/-! ### Variants -/

/-- It is the only enum of the name in the module that may be used at the place. -/
def OnlyEnum (w : Names) (ctx : Place) (f : Nat) (m : Elem) (n : Text) (i : Elem) : Prop :=
  let usable := fun j : Elem => j ∈ m.children ∧ Is .ENUM j ∧ nameText j = some n ∧
    isVisible w.toWorld .ENUM none (placeAt w.toWorld ⟨n, .ENUM, f, j.path⟩) ctx = none
  usable i ∧ ∀ j, usable j → j = i

theorem itemNs_enum (i : Elem) : itemNs i = .ENUM ↔ i.kind = .ENUM := by
  constructor
  · intro h
    unfold itemNs at h
    split at h
    all_goals first | assumption | (split at h <;> cases h) | cases h
  · intro h
    simp [itemNs, h]

theorem item_enum {w : Names} {f : Nat} {m : Elem} {g : Nat} {i : Elem} (h : Item w f m g i) (hk : i.kind = .ENUM) :
    g = f ∧ i ∈ m.children ∧ Is .ENUM i := by
  cases h with
  | item h1 h2 => exact ⟨rfl, h1, by rcases h2 with h | h | h | h | h | h <;> exact ⟨h.1, hk⟩⟩
  | lemma_ h1 h2 h3 => have := (nodeChild_mem h3).2.2; rw [hk] at this; cases this
  | block h1 h2 => rcases h2 with h | h | h <;> (have := h.2; rw [hk] at this; cases this)
  | spec h0 h1 h2 => rcases h2 with h | h <;> (have := h.2; rw [hk] at this; cases this)
  | specBlock h0 h1 h2 => rcases h2 with h | h <;> (have := h.2; rw [hk] at this; cases this)

/-- `0x1::m::E::V` means the variant `V` of the one usable enum `E` of the one usable module `m` at the address. -/
theorem C67_variant {w : Names} (hw : Sane w) {fuel file : Nat} {expected : Option (Nat × Elem)} {p t q a x : Elem} {anc : List Elem}
    {n tn mn : Text} (hpath : Is .PATH p) (hpath' : Is .PATH t) (hg : ∀ e ∈ anc, ¬ Is .USE_GROUP e) (hu : ∀ e ∈ anc, e.kind ≠ .USE_SPECK)
    (hne : anc ≠ []) (hp : nodeChild p .PATH = some t) (ht : nodeChild t .PATH = some q) (hq : nodeChild q .PATH = some a)
    (ha : nodeChild a .PATH = none) (hx : pathAddress a = some x) (hn : refName p = some n) (htn : refName t = some tn)
    (hm : refName q = some mn) (e : Entry) (r : Option Invisible) :
    (e, r) ∈ resolvePath w (fuel + 3) file expected (p :: anc) ↔
      ∃ f m c, OnlyModule w ⟨file, q, t :: p :: anc⟩ (.value (addressText x)) mn f m c ∧
        ∃ i, OnlyEnum w ⟨file, t, p :: anc⟩ f m tn i ∧
          (∃ l v, nodeChild i .VARIANT_LIST = some l ∧ v ∈ l.children ∧ Is .VARIANT v ∧ nameText v = some n ∧
            e = ⟨n, .ENUM_VARIANT, f, v.path⟩) ∧ .ENUM_VARIANT ∈ pathNamespaces anc ∧
          r = isVisible w.toWorld e.ns none (placeAt w.toWorld e) ⟨file, p, anc⟩ := by
  have hg0 := groupAround_none hg
  have hgp := groupAround_cons ((isNode_iff _ _).2 hpath) hg0
  have hgt := groupAround_cons ((isNode_iff _ _).2 hpath') hgp
  have hpU : ∀ e ∈ p :: anc, e.kind ≠ .USE_SPECK := by
    intro e he
    rcases List.mem_cons.1 he with rfl | he
    · rw [hpath.2]; decide
    · exact hu e he
  have huse : (p :: anc).any (isNode .USE_SPECK) = false := by
    rw [List.any_eq_false]
    intro y hy
    have := hpU y hy
    simp [isNode, this]
  have hres := module_part hw (fuel := fuel) (file := file) (expected := none) hgt (by simp) hq ha hx hm
  have hkp := kind_item (named := w.named) hg0 hne hp ht
  rw [if_neg (rootParent_not (by simpa using hu))] at hkp
  have hkt := kind_item (named := w.named) hgp (by simp) ht hq
  rw [if_neg (rootParent_not (by simpa using hpU))] at hkt
  have hns : (pathNamespaces (p :: anc)).filter (· ≠ .MODULE) = [.ENUM] := by
    simp [pathNamespaces, kindAt, hpath.2, nsEnumsModules]
  rw [hns] at hkt
  have hsingle := single_modules hw (a := .value (addressText x)) (n := mn) (ctx := ⟨file, q, t :: p :: anc⟩)
  cases hone : single (resolvePath w (fuel + 1) file none (q :: t :: p :: anc)) with
  | none =>
    have h0 := after_nothing hw (expected := none) hkt (by simp) (by simp) hone
    have h1 := after_nothing hw (expected := expected) hkp (by simp) (by simp) (show single (resolvePath w (fuel + 2) file none (t :: p :: anc)) = none by rw [h0]; rfl)
    rw [h1]
    simp only [List.not_mem_nil, false_iff]
    rintro ⟨f, m, c, h1, -⟩
    rw [hres] at hone
    have := (hsingle ⟨mn, .MODULE, f, m.path⟩).2 ⟨m, c, h1, rfl⟩
    dsimp only at this hone
    rw [hone] at this
    cases this
  | some y =>
    have hone' := hone
    rw [hres] at hone'
    obtain ⟨m, c, hmod, h2⟩ := (hsingle y).1 hone'
    obtain ⟨b, hd, -⟩ := hmod.1.2.2.2
    rw [h2] at hone
    obtain ⟨L, hL1, hL2, hL3⟩ := after_module_list hw (expected := none) htn hkt (by simp) hmod.1.2.1 hd hone
    rw [huse] at hL2
    have hmem : ∀ z, z ∈ L ↔ ∃ j, j ∈ m.children ∧ Is .ENUM j ∧ nameText j = some tn ∧ z = ⟨tn, .ENUM, y.file, j.path⟩ := by
      intro z
      rw [hL2 z]
      unfold ModuleCandidate
      simp only [Bool.false_eq_true, false_and, false_or, List.mem_singleton]
      constructor
      · rintro ⟨⟨g, j, hj, hs⟩, h3, h4⟩
        have hk : j.kind = .ENUM := (itemNs_enum j).1 (hs.2.1.symm.trans h4)
        obtain ⟨rfl, h5, h6⟩ := item_enum hj hk
        refine ⟨j, h5, h6, by rw [hs.1, h3], ?_⟩
        obtain ⟨zn, zns, zf, zp⟩ := z
        obtain ⟨-, -, h7, h8⟩ := hs
        dsimp only at h3 h4 h7 h8
        rw [h3, h4, h7, h8]
      · rintro ⟨j, h3, h4, h5, rfl⟩
        exact ⟨⟨y.file, j, .item h3 (.inr (.inl h4)), h5, ((itemNs_enum j).2 h4.2).symm, rfl, rfl⟩, rfl, rfl⟩
    have hfc : functionCase (isCallPath (t :: p :: anc)) (withVis w ⟨file, t, p :: anc⟩ L) = withVis w ⟨file, t, p :: anc⟩ L := by
      refine functionCase_none ?_ _
      intro z hz
      obtain ⟨z', hz', rfl⟩ := List.mem_map.1 hz
      obtain ⟨j, -, -, -, rfl⟩ := (hmem z').1 hz'
      simp
    rw [hfc] at hL3
    have honeE : ∀ z, single (resolvePath w (fuel + 2) file none (t :: p :: anc)) = some z ↔
        ∃ i, OnlyEnum w ⟨file, t, p :: anc⟩ y.file m tn i ∧ z = ⟨tn, .ENUM, y.file, i.path⟩ := by
      intro z
      rw [hL3]
      unfold withVis
      rw [single_iff hL1]
      constructor
      · rintro ⟨h3, h4, h5⟩
        obtain ⟨i, h6, h7, h8, rfl⟩ := (hmem z).1 h3
        refine ⟨i, ⟨⟨h6, h7, h8, h4⟩, ?_⟩, rfl⟩
        rintro j ⟨h9, h10, h11, h12⟩
        have := h5 _ ((hmem ⟨tn, .ENUM, y.file, j.path⟩).2 ⟨j, h9, h10, h11, rfl⟩) h12
        exact child_eq h9 h6 (by simpa using this)
      · rintro ⟨i, ⟨⟨h6, h7, h8, h4⟩, h5⟩, rfl⟩
        refine ⟨(hmem _).2 ⟨i, h6, h7, h8, rfl⟩, h4, ?_⟩
        intro z hz hv
        obtain ⟨j, h9, h10, h11, rfl⟩ := (hmem z).1 hz
        rw [h5 j ⟨h9, h10, h11, hv⟩]
    have huniq : ∀ f' m' c', OnlyModule w ⟨file, q, t :: p :: anc⟩ (.value (addressText x)) mn f' m' c' → f' = y.file ∧ m' = m := by
      intro f' m' c' h3
      obtain ⟨rfl, hmp⟩ := hmod.2.2 f' m' c' h3.1 h3.2.1
      obtain ⟨b', hd', -⟩ := h3.1.2.2.2
      exact ⟨rfl, (chain_eq (declares_chain hd) (declares_chain hd') hmp.symm).symm⟩
    cases honet : single (resolvePath w (fuel + 2) file none (t :: p :: anc)) with
    | none =>
      rw [after_nothing hw hkp (by simp) (by simp) honet]
      simp only [List.not_mem_nil, false_iff]
      rintro ⟨f', m', c', h3, i, h4, -⟩
      obtain ⟨rfl, rfl⟩ := huniq f' m' c' h3
      have := (honeE _).2 ⟨i, h4, rfl⟩
      rw [honet] at this
      cases this
    | some z =>
      obtain ⟨i, hi, rfl⟩ := (honeE z).1 honet
      have hi1 := hi.1
      have hci : Chain (w.tree y.file) (i :: m :: c) := .child (declares_chain hd) hi1.1
      have hplace : placeAt w.toWorld ⟨tn, .ENUM, y.file, i.path⟩ = some ⟨y.file, i, m :: c⟩ :=
        placeAt_of hci rfl hi1.2.1.1 (by rw [hi1.2.1.2]; decide)
      let all := (variantsOf i).filterMap (itemEntry y.file)
      have hqe : qualifiedEntries w file (p :: anc) (t :: p :: anc) (single (resolvePath w (fuel + 2) file none (t :: p :: anc))) = all := by
        rw [honet]
        unfold qualifiedEntries
        dsimp only
        rw [hplace]
        simp [hi1.2.1.2]
        rfl
      have hvmem : ∀ v, v ∈ variantsOf i ↔ ∃ l, nodeChild i .VARIANT_LIST = some l ∧ v ∈ l.children ∧ Is .VARIANT v := by
        intro v
        unfold variantsOf
        cases nodeChild i .VARIANT_LIST with
        | none => simp
        | some l => simp [isNode_iff]
      have hall : ∀ z, z ∈ all ↔ ∃ l v, nodeChild i .VARIANT_LIST = some l ∧ v ∈ l.children ∧ Is .VARIANT v ∧ nameText v = some z.name ∧
          z = ⟨z.name, .ENUM_VARIANT, y.file, v.path⟩ := by
        intro z
        show z ∈ List.filterMap _ _ ↔ _
        simp only [List.mem_filterMap, hvmem, itemEntry_iff]
        constructor
        · rintro ⟨v, ⟨l, h3, h4, h5⟩, h6, h7, h8, h9⟩
          refine ⟨l, v, h3, h4, h5, h6, ?_⟩
          obtain ⟨zn, zns, zf, zp⟩ := z
          simp only [itemNs, h5.2] at h7 h8 h9
          subst h7 h8 h9
          rfl
        · rintro ⟨l, v, h3, h4, h5, h6, h7⟩
          refine ⟨v, ⟨l, h3, h4, h5⟩, h6, ?_, ?_, ?_⟩ <;> rw [h7]
          simp [itemNs, h5.2]
      have hvar : variantsFor w file n (p :: anc) (fun q => single (resolvePath w (fuel + 2) file none q))
          (.qualified (t :: p :: anc) ((pathNamespaces anc).filter (· ≠ .MODULE)) .fqItem) =
          (all.filter fun e => ((pathNamespaces anc).filter (· ≠ .MODULE)).contains e.ns).map fun e => (e, none) := by
        rw [← hqe]; rfl
      have hfits : ∀ z ∈ all.filter (fun e => ((pathNamespaces anc).filter (· ≠ .MODULE)).contains e.ns),
          fitsExpected w (refineExpected w (fun q => single (resolvePath w (fuel + 2) file none q)) expected
            (.qualified (t :: p :: anc) ((pathNamespaces anc).filter (· ≠ .MODULE)) .fqItem)) z = true := by
        intro z hz
        obtain ⟨l, v, h3, h4, h5, h6, h7⟩ := (hall z).1 (List.mem_filter.1 hz).1
        have hpl : placeAt w.toWorld z = some ⟨y.file, v, l :: i :: m :: c⟩ := by
          rw [h7]
          exact placeAt_of (.child (.child hci (nodeChild_mem h3).1) h4) rfl h5.1 (by rw [h5.2]; decide)
        unfold fitsExpected
        rw [hpl]
        have hr : refineExpected w (fun q => single (resolvePath w (fuel + 2) file none q)) expected
            (.qualified (t :: p :: anc) ((pathNamespaces anc).filter (· ≠ .MODULE)) .fqItem) = some (y.file, i) := by
          unfold refineExpected
          dsimp only
          rw [honet]
          simp [hplace, hi1.2.1.2]
        rw [hr]
        simp only [h5.2, ne_eq, not_true, if_false, decide_true, Bool.true_and, List.any_eq_true, decide_eq_true_eq]
        exact ⟨v, (hvmem v).2 ⟨l, h3, h4, h5⟩, rfl⟩
      have hcand : ∀ z, z ∈ (all.filter fun e => ((pathNamespaces anc).filter (· ≠ .MODULE)).contains e.ns).filter
          (fun e => decide (e.name = n)) ↔ (∃ l v, nodeChild i .VARIANT_LIST = some l ∧ v ∈ l.children ∧ Is .VARIANT v ∧
            nameText v = some n ∧ z = ⟨n, .ENUM_VARIANT, y.file, v.path⟩) ∧ .ENUM_VARIANT ∈ pathNamespaces anc := by
        intro z
        simp only [List.mem_filter, decide_eq_true_eq, List.contains_iff_mem, hall]
        constructor
        · rintro ⟨⟨⟨l, v, h3, h4, h5, h6, h7⟩, h8, -⟩, h9⟩
          rw [h7] at h8
          rw [h9] at h6 h7
          exact ⟨⟨l, v, h3, h4, h5, h6, h7⟩, h8⟩
        · rintro ⟨⟨l, v, h3, h4, h5, h6, rfl⟩, h8⟩
          exact ⟨⟨⟨l, v, h3, h4, h5, h6, rfl⟩, h8, by simp⟩, rfl⟩
      rw [resolve_step hn hkp hvar hfits, functionCase_none]
      · unfold withVis
        rw [List.mem_map]
        constructor
        · rintro ⟨z, hz, h3⟩
          cases h3
          obtain ⟨h4, h5⟩ := (hcand _).1 hz
          exact ⟨y.file, m, c, hmod, i, hi, h4, h5, rfl⟩
        · rintro ⟨f', m', c', h3, i', h4, h5, h6, rfl⟩
          obtain ⟨rfl, rfl⟩ := huniq f' m' c' h3
          have := hi.2 i' h4.1
          subst this
          exact ⟨e, (hcand e).2 ⟨h5, h6⟩, rfl⟩
      · intro z hz
        obtain ⟨z', hz', rfl⟩ := List.mem_map.1 hz
        obtain ⟨⟨l, v, -, -, -, -, rfl⟩, -⟩ := (hcand z').1 hz'
        simp

/-! ### What functions, calls and types are -/

/-- The first list of fields of a struct is in parentheses. -/
def TupleFields (i : Elem) : Prop :=
  ∃ pre l post, i.children = pre ++ l :: post ∧ Is .TUPLE_FIELD_LIST l ∧ ∀ x ∈ pre, ¬ Is .NAMED_FIELD_LIST x ∧ ¬ Is .TUPLE_FIELD_LIST x

/-- The namespace of an item of a module. -/
inductive Belongs (i : Elem) : Ns → Prop where
  | fn : i.kind = .FUN ∨ i.kind = .SPEC_FUN ∨ i.kind = .SPEC_INLINE_FUN → Belongs i .FUNCTION
  | tuple : i.kind = .STRUCT → TupleFields i → Belongs i .TUPLE_STRUCT
  | type : i.kind = .STRUCT → ¬ TupleFields i → Belongs i .TYPE
  | enum : i.kind = .ENUM → Belongs i .ENUM
  | schema : i.kind = .SCHEMA → Belongs i .SCHEMA
  | lemma_ : i.kind = .LEMMA → Belongs i .LEMMA
  | name : i.kind = .CONST ∨ i.kind = .GLOBAL_VARIABLE_DECL → Belongs i .NAME

theorem tuple_iff (i : Elem) : isTupleStruct i = true ↔ TupleFields i := by
  unfold isTupleStruct TupleFields
  constructor
  · intro h
    split at h
    · rename_i l hl
      have hk := of_decide_eq_true h
      rw [List.find?_eq_some_iff_append] at hl
      obtain ⟨h1, pre, post, h2, h3⟩ := hl
      refine ⟨pre, l, post, h2, ?_, ?_⟩
      · rw [Bool.or_eq_true, isNode_iff, isNode_iff] at h1
        rcases h1 with h1 | h1
        · rw [h1.2] at hk; cases hk
        · exact h1
      · intro x hx
        have := h3 x hx
        rw [Bool.not_eq_true', Bool.or_eq_false_iff] at this
        exact ⟨fun h => (by rw [(isNode_iff _ _).2 h] at this; cases this.1), fun h => (by rw [(isNode_iff _ _).2 h] at this; cases this.2)⟩
    · cases h
  · rintro ⟨pre, l, post, h1, h2, h3⟩
    have : i.children.find? (fun c => isNode .NAMED_FIELD_LIST c || isNode .TUPLE_FIELD_LIST c) = some l := by
      rw [List.find?_eq_some_iff_append]
      refine ⟨by rw [(isNode_iff _ _).2 h2, Bool.or_true], pre, post, h1, ?_⟩
      intro x hx
      obtain ⟨h4, h5⟩ := h3 x hx
      rw [← isNode_iff] at h4 h5
      simp [h4, h5]
    rw [this]
    exact decide_eq_true h2.2

/-- **C67.** The namespace of every item that a path may name. -/
theorem C67_namespace {w : Names} {f g : Nat} {m i : Elem} (h : Item w f m g i) (ns : Ns) : itemNs i = ns ↔ Belongs i ns := by
  have hk : i.kind ∈ [SyntaxKind.CONST, .ENUM, .STRUCT, .SCHEMA, .FUN, .SPEC_FUN, .LEMMA, .SPEC_INLINE_FUN, .GLOBAL_VARIABLE_DECL] := by
    cases h with
    | item _ h => rcases h with h | h | h | h | h | h <;> simp [h.2]
    | lemma_ _ _ h => simp [(nodeChild_mem h).2.2]
    | block _ h => rcases h with h | h | h <;> simp [h.2]
    | spec _ _ h => rcases h with h | h <;> simp [h.2]
    | specBlock _ _ h => rcases h with h | h <;> simp [h.2]
  simp only [List.mem_cons, List.not_mem_nil, or_false] at hk
  rcases hk with hk | hk | hk | hk | hk | hk | hk | hk | hk
  all_goals
    unfold itemNs
    rw [hk]
    dsimp only
    constructor
    · intro hn
      subst hn
      first
        | exact .name (.inl hk)
        | exact .name (.inr hk)
        | exact .enum hk
        | exact .schema hk
        | exact .lemma_ hk
        | exact .fn (.inl hk)
        | exact .fn (.inr (.inl hk))
        | exact .fn (.inr (.inr hk))
        | (split
           · rename_i ht; exact .tuple hk ((tuple_iff i).1 ht)
           · rename_i ht; exact .type hk fun h => ht ((tuple_iff i).2 h))
    · intro hb
      cases hb <;> simp_all [tuple_iff]

/-- The path is what is called: its outermost path is an expression, and that is the function of a call. -/
def Called (anc : List Elem) : Prop :=
  ∃ qs x c rest, anc = qs ++ x :: c :: rest ∧ (∀ q ∈ qs, Is .PATH q) ∧ x.kind = .PATH_EXPR ∧ c.kind = .CALL_EXPR

/-- **C67.** In which places functions are preferred. -/
theorem C67_called (p : Elem) (anc : List Elem) : isCallPath (p :: anc) = true ↔ Called anc := by
  induction anc generalizing p with
  | nil =>
    constructor
    · intro h; simp [isCallPath, rootPath, kindAt] at h
    · rintro ⟨qs, x, c, rest, h, -⟩; simp at h
  | cons q anc ih =>
    by_cases hq : isNode .PATH q = true
    · have h1 : isCallPath (p :: q :: anc) = isCallPath (q :: anc) := by
        unfold isCallPath
        rw [rootPath, if_pos hq]
      rw [h1, ih q]
      constructor
      · rintro ⟨qs, x, c, rest, rfl, h2, h3, h4⟩
        refine ⟨q :: qs, x, c, rest, rfl, ?_, h3, h4⟩
        intro y hy
        rcases List.mem_cons.1 hy with rfl | hy
        · exact (isNode_iff _ _).1 hq
        · exact h2 y hy
      · rintro ⟨qs, x, c, rest, h, h2, h3, h4⟩
        cases qs with
        | nil =>
          obtain ⟨rfl, -⟩ := List.cons.inj h
          have := ((isNode_iff _ _).1 hq).2
          rw [h3] at this
          cases this
        | cons y qs =>
          obtain ⟨rfl, rfl⟩ := List.cons.inj h
          exact ⟨qs, x, c, rest, rfl, fun y hy => h2 y (List.mem_cons_of_mem _ hy), h3, h4⟩
    · have h1 : rootPath (p :: q :: anc) = p :: q :: anc := by rw [rootPath, if_neg hq]
      unfold isCallPath
      rw [h1, Bool.and_eq_true, decide_eq_true_eq, decide_eq_true_eq]
      constructor
      · rintro ⟨h2, h3⟩
        cases anc with
        | nil => simp [kindAt] at h3
        | cons c rest =>
          simp only [kindAt, List.getElem?_cons_succ, List.getElem?_cons_zero, Option.map_some, Option.some.injEq] at h2 h3
          exact ⟨[], q, c, rest, rfl, by simp, h2, h3⟩
      · rintro ⟨qs, x, c, rest, h, h2, h3, h4⟩
        cases qs with
        | nil =>
          obtain ⟨rfl, rfl⟩ := List.cons.inj h
          simp [kindAt, h3, h4]
        | cons y qs =>
          obtain ⟨rfl, rfl⟩ := List.cons.inj h
          exact absurd ((isNode_iff _ _).2 (h2 _ List.mem_cons_self)) hq

/-- `a::f()`, for the path `a` and for the path `a::f`. -/
example : Called [⟨[0, 0], 0, .node .PATH []⟩, ⟨[0], 0, .node .PATH_EXPR []⟩, ⟨[], 0, .node .CALL_EXPR []⟩] :=
  ⟨[⟨[0, 0], 0, .node .PATH []⟩], _, _, _, rfl, by simp [Is, Green.isTok, Elem.kind, Green.kind], rfl, rfl⟩

/-- `struct S(u8)` -/
example : Belongs ⟨[], 0, .node .STRUCT [.tok .STRUCT_KW [], .node .TUPLE_FIELD_LIST []]⟩ .TUPLE_STRUCT :=
  .tuple rfl ((tuple_iff _).1 (by decide))

/-! ### Variants and the expected type -/

/-- The element `x` in the file `g` is a variant of the enum `e` of the file `f`: it is a node `VARIANT` right inside the first
list of variants of the enum. -/
def VariantIn (f : Nat) (e : Elem) (g : Nat) (x : Elem) : Prop :=
  g = f ∧ ∃ l v, nodeChild e .VARIANT_LIST = some l ∧ v ∈ l.children ∧ Is .VARIANT v ∧ v.path = x.path

/-- **C67.** What the expected type decides: an entry that is a variant is kept when the expected type is the enum the variant
belongs to, in the file of the enum, and no variant is kept when the expected type is no enum. Everything else is kept. -/
theorem C67_expected (w : Names) (expected : Option (Nat × Elem)) (e : Entry) (p : Place) (hp : placeAt w.toWorld e = some p) :
    fitsExpected w expected e = true ↔
      (p.elem.kind = .VARIANT → ∃ f enum_, expected = some (f, enum_) ∧ VariantIn f enum_ e.file p.elem) := by
  have hfile : p.file = e.file := by
    unfold placeAt at hp
    split at hp
    · split at hp
      · cases hp; rfl
      · cases hp
    · cases hp
  unfold fitsExpected
  rw [hp]
  dsimp only
  by_cases hv : p.elem.kind = .VARIANT
  · rw [if_neg (by simpa using hv)]
    cases expected with
    | none => simp [hv]
    | some fe =>
      obtain ⟨f, en⟩ := fe
      dsimp only
      rw [Bool.and_eq_true, decide_eq_true_eq, List.any_eq_true, hfile]
      unfold variantsOf
      constructor
      · rintro ⟨h1, v, h2, h3⟩ -
        refine ⟨f, en, rfl, h1, ?_⟩
        cases hl : nodeChild en .VARIANT_LIST with
        | none => rw [hl] at h2; cases h2
        | some l =>
          rw [hl] at h2
          obtain ⟨h2, h4⟩ := List.mem_filter.1 h2
          exact ⟨l, v, rfl, h2, (isNode_iff _ _).1 h4, by simpa using h3⟩
      · intro h
        obtain ⟨f', en', h1, h2, l, v, hl, h3, h4, h5⟩ := h hv
        cases h1
        refine ⟨h2, v, ?_, by simpa using h5⟩
        rw [hl]
        exact List.mem_filter.2 ⟨h3, (isNode_iff _ _).2 h4⟩
  · rw [if_pos (by simpa using hv)]
    simp [hv]

/-- `enum E { V }` and its variant. -/
example : VariantIn 0 ⟨[], 0, .node .ENUM [.node .VARIANT_LIST [.node .VARIANT []]]⟩ 0 ⟨[0, 0], 0, .node .VARIANT []⟩ :=
  ⟨rfl, _, _, rfl, List.mem_cons_self, by constructor <;> rfl, rfl⟩

end Verif.Nameres.Full
