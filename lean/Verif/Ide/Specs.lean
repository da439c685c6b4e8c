import Verif.Ide.CompleteFields
import Verif.Ide.RunnablesProps

/-! C86: the specifications of functions.

`get_item_specs_for_items_in_file` (lang/src/item_specs.rs), `goto_specification` (ide/src/goto_specification.rs) and the lenses for
specifications of `annotations` (ide/src/annotations.rs).

Parameters are the files that are related to a file and the modules that the paths of `spec 0x1::m {}` lead to. The function at the cursor
is given. -/

namespace Verif.Ide.Specs
open Verif Verif.Syntax Verif.Nameres
open Verif.Parser (Green)
open Verif.Nameres.Full (Is isNode_iff nodeChild_mem mem_itemsOfKind)
open Verif.Nameres.AutoImport (Declared mem_allModules allModules_ne declared_chain declared_module)
open Verif.Nameres.Locs (Loc locOf Direct Doubled C78_different C78_back_partial)
open Verif.Ide.Usages (Parsed)
open Verif.Ide.Counts (First nodeChild_iff)
open Verif.Ide.CompleteFields (verifiable specTargets Specified C85_specs)
open Verif.Outline (NameOf nodeChild_spec nodeChild_of)
open Verif.Symbols (nameText_parsed)

/-! ### Model -/

structure World where
  tree : Nat → Green
  /-- `spec_related_files` (base-db/src/source_db.rs:85). -/
  related : Nat → List Nat
  /-- `ModuleSpec::module` (lang/src/node_ext/item.rs:17–22): the file and the place of the module that the path of the specification of
  a module leads to. -/
  target : Nat → Elem → Option (Nat × List Nat)

/-- `spec_union_file_set` (source_db.rs:83–87). Its order is not fixed. -/
def specFiles (w : World) (a : Nat) : List Nat := (a :: w.related a).eraseDups

/-- `related_module_specs` (lang/src/nameres/node_ext.rs:42–58). -/
def relatedSpecs (w : World) (a : Nat) (m : Elem) : List (Nat × Elem) :=
  (specFiles w a).flatMap fun b =>
    (((Elem.root (w.tree b)).children.filter (isNode .MODULE_SPEC)).filter fun s => decide (w.target b s = some (a, m.path))).map fun s => (b, s)

/-- `all_item_specs` (syntax/src/ast/traits/has_item_list.rs:48–50). -/
def itemSpecs (o : Elem) : List Elem := o.children.filter (isNode .ITEM_SPEC)

/-- `ItemSpec::module` (lang/src/node_ext/item.rs:63–76), for the parent of the specification. -/
def moduleOf (w : World) (b : Nat) (parent : Elem) : Option (Nat × Elem) :=
  if parent.kind = .MODULE then some (b, parent)
  else if parent.kind = .MODULE_SPEC then
    (w.target b parent).bind fun (c, p) =>
      (((allModules (Elem.root (w.tree c))).filterMap List.head?).find? fun m => decide (m.path = p)).map fun m => (c, m)
  else none

/-- `item_spec_ref()?.name_ref()?.as_string()`. -/
def specName (s : Elem) : Option (List Char) := (nodeChild s .ITEM_SPEC_REF).bind fun r => (nodeChild r .NAME_REF).map nameRefText

/-- `ItemSpec::item` (lang/src/node_ext/item_spec.rs:22–28) with `resolve` (nameres.rs:38–45): the only one of the name. -/
def itemOf (w : World) (b : Nat) (parent s : Elem) : Option (Nat × Elem) :=
  (specName s).bind fun n => (moduleOf w b parent).bind fun (a, m) =>
    match specTargets m n with
    | [i] => some (a, i)
    | _ => none

/-- The specifications that are looked at for a module (item_specs.rs:34–41), with their parents. -/
def specsNear (w : World) (a : Nat) (m : Elem) : List (Nat × Elem × Elem) :=
  ((itemSpecs m).map fun s => (a, m, s)) ++
    (relatedSpecs w a m).flatMap fun (b, o) => (itemSpecs o).map fun s => (b, o, s)

/-- The entries of `get_item_specs_for_items_in_file` (item_specs.rs:20–50), in the order in which they are added. -/
def entries (w : World) (a : Nat) : List (Loc × Loc) :=
  (allModules (Elem.root (w.tree a))).flatMap fun
    | [] => []
    | m :: _ => (specsNear w a m).filterMap fun (b, o, s) => (itemOf w b o s).map fun (c, i) => (locOf c i, locOf b s)

/-- `get_item_specs_for_fun` (item_specs.rs:13–18). -/
def specsFor (w : World) (a : Nat) (f : Elem) : List Loc := ((entries w a).filter fun p => decide (p.1 = locOf a f)).map Prod.snd

/-- `AnnotationLocation` (annotations.rs:41–45). -/
inductive Where where
  | aboveName
  | aboveItem
  deriving DecidableEq

/-- `make_ranges` (annotations.rs:102–122): the range of the lens and the position that it is for. -/
def ranges (at_ : Where) (f : Elem) : (Nat × Nat) × Nat :=
  let cmd := match nodeChild f .NAME with
    | some n => (n.start, n.stop)
    | none => (f.start, f.stop)
  (match at_ with
    | .aboveName => cmd
    | .aboveItem => (f.start, f.stop), cmd.1)

/-- The lenses for specifications (annotations.rs:63–90), before those of tests are mixed in; `IndexSet` keeps the first of equal ones. -/
def lenses (w : World) (at_ : Where) (a : Nat) : List ((Nat × Nat) × Nat) :=
  sortByKey (fun l => [l.1.1, l.1.2]) ((allModules (Elem.root (w.tree a))).flatMap fun
    | [] => []
    | m :: _ => (namedItems m).filterMap fun i =>
        if isNode .FUN i && !(specsFor w a i).isEmpty then some (ranges at_ i) else none).eraseDups

/-- The part of `goto_specification` (goto_specification.rs:29–43) after the function is found: the file, the name and the range of each. -/
def goto (w : World) (a : Nat) (f : Elem) : Option (List (Nat × List Char × (Nat × Nat))) :=
  if (specsFor w a f).isEmpty then none
  else some ((specsFor w a f).filterMap fun l =>
    (Locs.resolve w.tree (fun k => decide (k = .ITEM_SPEC)) l).bind fun s =>
      (nodeChild s .ITEM_SPEC_REF).bind fun r => (nodeChild r .NAME_REF).map fun n => (l.file, nameRefText n, (r.start, r.stop)))

/-! ### Specification -/

/-- The specification, in the file `b`, stands in the module or in a specification of the module, there or in a related file. -/
inductive About (w : World) (a : Nat) (m : Elem) : Nat → Elem → Elem → Prop where
  | own {s} : s ∈ m.children → Is .ITEM_SPEC s → About w a m a m s
  | apart {b o s} : b = a ∨ b ∈ w.related a → o ∈ (Elem.root (w.tree b)).children → Is .MODULE_SPEC o → w.target b o = some (a, m.path) →
      s ∈ o.children → Is .ITEM_SPEC s → About w a m b o s

/-- The reference of the specification, with the name that is written there. -/
def Refers (s r : Elem) (n : List Char) : Prop := First [.ITEM_SPEC_REF] s r ∧ ∃ x, First [.NAME_REF] r x ∧ n = nameRefText x

/-- `f` is the only item of the module with the name that can be specified. -/
def OnlyOne (m f : Elem) (n : List Char) : Prop :=
  Specified m f ∧ nameText f = some n ∧ ∀ i, Specified m i → nameText i = some n → i = f

/-- The specification is one of the function. -/
def SpecOf (w : World) (a : Nat) (m f : Elem) (b : Nat) (o s : Elem) : Prop :=
  About w a m b o s ∧ ∃ r n, Refers s r n ∧ OnlyOne m f n

/-! ### Proofs -/

theorem mem_specFiles (w : World) (a b : Nat) : b ∈ specFiles w a ↔ b = a ∨ b ∈ w.related a := by
  unfold specFiles
  rw [List.mem_eraseDups, List.mem_cons]

theorem mem_specsNear (w : World) (a b : Nat) (m o s : Elem) : (b, o, s) ∈ specsNear w a m ↔ About w a m b o s := by
  unfold specsNear relatedSpecs itemSpecs
  simp only [List.mem_append, List.mem_map, List.mem_flatMap, List.mem_filter, isNode_iff, Prod.mk.injEq, Prod.exists, mem_specFiles,
    decide_eq_true_eq]
  constructor
  · rintro (⟨x, ⟨h1, h2⟩, rfl, rfl, rfl⟩ | ⟨b', o', ⟨c, h1, x, ⟨⟨h2, h3⟩, h4⟩, rfl, rfl⟩, y, ⟨h5, h6⟩, rfl, rfl, rfl⟩)
    · exact .own h1 h2
    · exact .apart h1 h2 h3 h4 h5 h6
  · intro h
    cases h with
    | own h1 h2 => exact .inl ⟨s, ⟨h1, h2⟩, rfl, rfl, rfl⟩
    | apart h1 h2 h3 h4 h5 h6 => exact .inr ⟨b, o, ⟨b, h1, o, ⟨⟨h2, h3⟩, h4⟩, rfl, rfl⟩, s, ⟨h5, h6⟩, rfl, rfl, rfl⟩

theorem specName_iff (s : Elem) (n : List Char) : specName s = some n ↔ ∃ r, Refers s r n := by
  unfold specName Refers
  simp only [Option.bind_eq_some_iff, Option.map_eq_some_iff, nodeChild_iff]
  constructor
  · rintro ⟨r, h1, x, h2, h3⟩; exact ⟨r, h1, x, h2, h3.symm⟩
  · rintro ⟨r, h1, x, h2, h3⟩; exact ⟨r, h1, x, h2, h3.symm⟩

theorem verifiable_nodup (m : Elem) : (verifiable m).Nodup := by
  have hc : m.children.Nodup := (Full.children_nodup m).imp fun h1 h2 => h1 (congrArg Elem.path h2)
  unfold verifiable itemsOfKind
  have apart : ∀ {k j : SyntaxKind} {x : Elem}, k ≠ j → isNode k x = true → isNode j x = true → False := by
    intro k j x hkj h1 h2
    exact hkj (((isNode_iff k x).1 h1).2.symm.trans ((isNode_iff j x).1 h2).2)
  refine List.nodup_append'.2 ⟨List.nodup_append'.2 ⟨(hc.filter _).filter _, hc.filter _, ?_⟩, hc.filter _, ?_⟩
  · intro x h1 h2
    exact apart (by decide) (List.mem_filter.1 (List.mem_filter.1 h1).1).2 (List.mem_filter.1 h2).2
  · intro x h1 h2
    rcases List.mem_append.1 h1 with h1 | h1
    · exact apart (by decide) (List.mem_filter.1 (List.mem_filter.1 h1).1).2 (List.mem_filter.1 h2).2
    · exact apart (by decide) (List.mem_filter.1 h1).2 (List.mem_filter.1 h2).2

theorem single_iff {α} {l : List α} (h : l.Nodup) (x : α) : l = [x] ↔ x ∈ l ∧ ∀ y ∈ l, y = x := by
  constructor
  · rintro rfl; simp
  · rintro ⟨h1, h2⟩
    match l, h, h1, h2 with
    | [y], _, _, h2 => rw [h2 y (by simp)]
    | y :: z :: l, h, _, h2 =>
      have := h2 y (by simp)
      have := h2 z (by simp)
      simp_all

theorem targets_single (m f : Elem) (n : List Char) : specTargets m n = [f] ↔ OnlyOne m f n := by
  have hn : (specTargets m n).Nodup := (verifiable_nodup m).filter _
  rw [single_iff hn]
  simp only [(C85_specs m n).2]
  unfold OnlyOne
  constructor
  · rintro ⟨⟨h1, h2⟩, h3⟩; exact ⟨h1, h2, fun i h4 h5 => h3 i ⟨h4, h5⟩⟩
  · rintro ⟨h1, h2, h3⟩; exact ⟨⟨h1, h2⟩, fun i h4 => h3 i h4.1 h4.2⟩

theorem find_module {g : Green} {m : Elem} {anc : List Elem} (hd : Declared g m anc) :
    (((allModules (Elem.root g)).filterMap List.head?).find? fun x => decide (x.path = m.path)) = some m := by
  have h1 := (mem_allModules _ _ _).2 hd
  have h2 : m ∈ (allModules (Elem.root g)).filterMap List.head? := List.mem_filterMap.2 ⟨_, h1, rfl⟩
  cases h : ((allModules (Elem.root g)).filterMap List.head?).find? fun x => decide (x.path = m.path) with
  | none => have := List.find?_eq_none.1 h m h2; simp at this
  | some x =>
    have h3 : x.path = m.path := by simpa using List.find?_some h
    obtain ⟨c, h4, h5⟩ := List.mem_filterMap.1 (List.mem_of_find?_eq_some h)
    obtain ⟨x', anc', rfl⟩ := allModules_ne h4
    cases h5
    exact congrArg some (Full.chain_eq (declared_chain ((mem_allModules _ _ _).1 h4)) (declared_chain hd) h3)

theorem moduleOf_about {w : World} {a b : Nat} {m o s : Elem} {anc : List Elem} (hd : Declared (w.tree a) m anc) (h : About w a m b o s) :
    moduleOf w b o = some (a, m) := by
  have hm := declared_module hd
  unfold moduleOf
  cases h with
  | own h1 h2 => rw [if_pos hm.2]
  | apart h1 h2 h3 h4 h5 h6 =>
    have : o.kind = .MODULE_SPEC := h3.2
    rw [this, if_neg (by decide), if_pos rfl, h4, Option.bind_some]
    dsimp only
    rw [find_module hd, Option.map_some]

theorem itemOf_iff {w : World} {a b : Nat} {m o s : Elem} {anc : List Elem} (hd : Declared (w.tree a) m anc)
    (h : About w a m b o s) (c : Nat) (f : Elem) :
    itemOf w b o s = some (c, f) ↔ c = a ∧ ∃ r n, Refers s r n ∧ OnlyOne m f n := by
  unfold itemOf
  rw [moduleOf_about hd h]
  simp only [Option.bind_eq_some_iff, Option.bind_some, specName_iff]
  constructor
  · rintro ⟨n, ⟨r, h1⟩, h2⟩
    split at h2
    · rename_i i hi
      cases h2
      exact ⟨rfl, r, n, h1, (targets_single _ _ _).1 hi⟩
    · cases h2
  · rintro ⟨rfl, r, n, h1, h2⟩
    refine ⟨n, ⟨r, h1⟩, ?_⟩
    rw [(targets_single _ _ _).2 h2]

theorem mem_entries (w : World) (a : Nat) (p : Loc × Loc) :
    p ∈ entries w a ↔ ∃ m anc f b o s, Declared (w.tree a) m anc ∧ SpecOf w a m f b o s ∧ p = (locOf a f, locOf b s) := by
  unfold entries
  rw [List.mem_flatMap]
  constructor
  · rintro ⟨c, hc, hp⟩
    obtain ⟨m, anc, rfl⟩ := allModules_ne hc
    have hd := (mem_allModules _ _ _).1 hc
    dsimp only at hp
    obtain ⟨⟨b, o, s⟩, h1, h2⟩ := List.mem_filterMap.1 hp
    obtain ⟨⟨c, f⟩, h3, h4⟩ := Option.map_eq_some_iff.1 h2
    have h1 := (mem_specsNear w a b m o s).1 h1
    obtain ⟨rfl, h5⟩ := (itemOf_iff hd h1 c f).1 h3
    exact ⟨m, anc, f, b, o, s, hd, ⟨h1, h5⟩, h4.symm⟩
  · rintro ⟨m, anc, f, b, o, s, hd, ⟨h1, h2⟩, rfl⟩
    refine ⟨m :: anc, (mem_allModules _ _ _).2 hd, ?_⟩
    dsimp only
    refine List.mem_filterMap.2 ⟨(b, o, s), (mem_specsNear w a b m o s).2 h1, ?_⟩
    dsimp only
    rw [(itemOf_iff hd h1 a f).2 ⟨rfl, h2⟩]
    rfl

theorem nodup_eraseDups {α} [BEq α] [LawfulBEq α] : ∀ l : List α, l.eraseDups.Nodup := by
  intro l
  induction h : l.length using Nat.strong_induction_on generalizing l with
  | _ n ih =>
    cases l with
    | nil => simp
    | cons x l =>
      rw [List.eraseDups_cons, List.nodup_cons]
      refine ⟨?_, ih _ ?_ _ rfl⟩
      · rw [List.mem_eraseDups, List.mem_filter]
        simp
      · have := List.length_filter_le (fun b => !b == x) l
        simp only [List.length_cons] at h
        omega

theorem named_direct {f : Elem} {n : List Char} (h : nameText f = some n) : Direct f := by
  rw [nameText, Option.map_eq_some_iff] at h
  obtain ⟨x, h, -⟩ := h
  obtain ⟨h1, h2⟩ := nodeChild_mem h
  exact ⟨x, h1, .inr h2.2⟩

/-- Functions in modules are only in modules, in blocks of addresses and in the file. -/
theorem fun_above {g : Green} (hp : Parsed g) {m f y : Elem} {anc k : List Elem} (hd : Declared g m anc) (hf : f ∈ m.children)
    {j : List Elem} (hy : Chain g (y :: j)) (hk : y.kind = .FUN) (h : Up y (f :: k)) : y = f := by
  obtain ⟨l, h1, h2⟩ := Locs.up_append hy h
  have hl := Locs.path_unique h1 (.child (declared_chain hd) hf) rfl
  subst hl
  rcases h2 with h2 | h2
  · exact h2.symm
  · exfalso
    have hr : (Elem.root g).kind = .SOURCE_FILE := Runnables.parsed_source hp
    cases hd with
    | top _ h3 =>
      simp only [List.mem_cons, List.not_mem_nil, or_false] at h2
      rcases h2 with rfl | rfl
      · rw [h3.2] at hk; cases hk
      · rw [hr] at hk; cases hk
    | inner _ h3 _ h4 =>
      simp only [List.mem_cons, List.not_mem_nil, or_false] at h2
      rcases h2 with rfl | rfl | rfl
      · rw [h4.2] at hk; cases hk
      · rw [h3.2] at hk; cases hk
      · rw [hr] at hk; cases hk

/-- The specifications of a function are exactly those that name it in its module, or in a specification of the module in the same file
or in a related one, if nothing else of the module has that name. -/
theorem C86_specs {w : World} {a : Nat} (hp : Parsed (w.tree a)) {m f : Elem} {anc : List Elem} (hd : Declared (w.tree a) m anc)
    (hf : f ∈ m.children) (hk : Is .FUN f) (l : Loc) :
    l ∈ specsFor w a f ↔ ∃ b o s, SpecOf w a m f b o s ∧ l = locOf b s := by
  unfold specsFor
  simp only [List.mem_map, List.mem_filter, mem_entries, decide_eq_true_eq]
  constructor
  · rintro ⟨p, ⟨⟨m', anc', f', b, o, s, h1, h2, rfl⟩, h3⟩, rfl⟩
    obtain ⟨r, n, h4, h5⟩ := h2.2
    have hc : Chain (w.tree a) (f :: m :: anc) := .child (declared_chain hd) hf
    have hc' : Chain (w.tree a) (f' :: m' :: anc') := .child (declared_chain h1) h5.1.1
    have he : Elem.ptr f = Elem.ptr f' := by
      have := congrArg Loc.ptr h3
      exact this.symm
    have key : f = f' := by
      rcases Locs.other_outside hp hc' (named_direct h5.2.1) hc hk.1 he with h | ⟨k, h⟩
      · exact h
      · exact fun_above hp h1 h5.1.1 hc hk.2 h
    subst key
    have h6 := Locs.path_unique hc hc' rfl
    cases h6
    exact ⟨b, o, s, h2, rfl⟩
  · rintro ⟨b, o, s, h1, rfl⟩
    exact ⟨_, ⟨⟨m, anc, f, b, o, s, hd, h1, rfl⟩, rfl⟩, rfl⟩

/-- There is a lens at the name of a function, or at the whole function, exactly if it has a specification, and its command is for the
start of the name. No two lenses are the same, and they are in the order of the text. -/
theorem C86_lenses {w : World} {a : Nat} (hp : Parsed (w.tree a)) (at_ : Where) :
    (∀ x, x ∈ lenses w at_ a ↔ ∃ m anc f n b o s, Declared (w.tree a) m anc ∧ f ∈ m.children ∧ Is .FUN f ∧ NameOf f n ∧
      SpecOf w a m f b o s ∧ x = ((match at_ with | .aboveName => (n.start, n.stop) | .aboveItem => (f.start, f.stop)), n.start)) ∧
    (lenses w at_ a).Nodup ∧
    (lenses w at_ a).Pairwise fun x y => x.1.1 < y.1.1 ∨ (x.1.1 = y.1.1 ∧ x.1.2 ≤ y.1.2) := by
  refine ⟨fun x => ?_, ?_, ?_⟩
  · unfold lenses
    rw [mem_sortByKey, List.mem_eraseDups, List.mem_flatMap]
    constructor
    · rintro ⟨c, hc, hx⟩
      obtain ⟨m, anc, rfl⟩ := allModules_ne hc
      have hd := (mem_allModules _ _ _).1 hc
      dsimp only at hx
      obtain ⟨f, hf, hx⟩ := List.mem_filterMap.1 hx
      split at hx
      · rename_i hk
        simp only [Bool.and_eq_true, Bool.not_eq_true', List.isEmpty_eq_false_iff] at hk
        have hk1 := (isNode_iff _ _).1 hk.1
        have hfm := ((Runnables.mem_fun_items m f).1 ⟨hf, hk1⟩).1
        obtain ⟨l, hl⟩ := List.exists_mem_of_ne_nil _ hk.2
        obtain ⟨b, o, s, h1, -⟩ := (C86_specs hp hd hfm hk1 l).1 hl
        obtain ⟨r, n, -, h2⟩ := h1.2
        have h3 := h2.2.1
        rw [nameText, Option.map_eq_some_iff] at h3
        obtain ⟨nn, h3, -⟩ := h3
        refine ⟨m, anc, f, nn, b, o, s, hd, hfm, hk1, nodeChild_spec h3, h1, ?_⟩
        have := Option.some.inj hx
        rw [← this]
        unfold ranges
        rw [h3]
      · cases hx
    · rintro ⟨m, anc, f, n, b, o, s, hd, hfm, hk, hn, h1, rfl⟩
      refine ⟨m :: anc, (mem_allModules _ _ _).2 hd, ?_⟩
      dsimp only
      refine List.mem_filterMap.2 ⟨f, ((Runnables.mem_fun_items m f).2 ⟨hfm, hk⟩).1, ?_⟩
      have hl : locOf b s ∈ specsFor w a f := (C86_specs hp hd hfm hk _).2 ⟨b, o, s, h1, rfl⟩
      rw [if_pos]
      · unfold ranges
        rw [nodeChild_of hn]
      · rw [(isNode_iff _ _).2 hk, Bool.true_and, Bool.not_eq_true', List.isEmpty_eq_false_iff]
        exact List.ne_nil_of_mem hl
  · exact (sortByKey_perm _ _).nodup_iff.2 (nodup_eraseDups _)
  · refine List.Pairwise.imp ?_ (sorted_sortByKey _ _)
    intro x y h
    have h := not_lt.2 h
    rw [List.cons_lt_cons_iff, List.cons_lt_cons_iff] at h
    have : ¬ (([] : List Nat) < []) := lt_irrefl _
    omega

theorem about_chain {w : World} {a b : Nat} {m o s : Elem} {anc : List Elem} (hd : Declared (w.tree a) m anc) (h : About w a m b o s)
    (hp : Parsed (w.tree b)) : ∃ l, Chain (w.tree b) (s :: l) ∧ Is .ITEM_SPEC s ∧ ∀ z ∈ l, z.kind ≠ .ITEM_SPEC := by
  have hr : ∀ {c}, Parsed (w.tree c) → (Elem.root (w.tree c)).kind = .SOURCE_FILE := fun h => Runnables.parsed_source h
  cases h with
  | own h1 h2 =>
    refine ⟨_, .child (declared_chain hd) h1, h2, ?_⟩
    cases hd with
    | top _ h3 =>
      simp only [List.mem_cons, List.not_mem_nil, or_false]
      rintro z (rfl | rfl)
      · rw [h3.2]; decide
      · rw [hr hp]; decide
    | inner _ h3 _ h4 =>
      simp only [List.mem_cons, List.not_mem_nil, or_false]
      rintro z (rfl | rfl | rfl)
      · rw [h4.2]; decide
      · rw [h3.2]; decide
      · rw [hr hp]; decide
  | apart h1 h2 h3 h4 h5 h6 =>
    refine ⟨_, .child (.child .top h2) h5, h6, ?_⟩
    simp only [List.mem_cons, List.not_mem_nil, or_false]
    rintro z (rfl | rfl)
    · rw [h3.2]; decide
    · rw [hr hp]; decide

/-- Going to the specifications of a function leads exactly to the places where its specifications name it, and nowhere if it has none.
Asked of the specifications is that their keyword is there. -/
theorem C86_goto {w : World} (hp : ∀ b, Parsed (w.tree b)) {a : Nat} {m f : Elem} {anc : List Elem} (hd : Declared (w.tree a) m anc)
    (hf : f ∈ m.children) (hk : Is .FUN f) (hs : ∀ b o s, SpecOf w a m f b o s → ∃ t ∈ s.children, t.green.isTok = true) :
    (goto w a f = none ↔ ¬ ∃ b o s, SpecOf w a m f b o s) ∧
    ∀ navs, goto w a f = some navs → ∀ b n i j, (b, n, (i, j)) ∈ navs ↔
      ∃ o s r, SpecOf w a m f b o s ∧ Refers s r n ∧ i = r.start ∧ j = r.stop := by
  have hm := C86_specs (hp a) hd hf hk
  have back : ∀ {b o s}, SpecOf w a m f b o s → Locs.resolve w.tree (fun k => decide (k = .ITEM_SPEC)) (locOf b s) = some s := by
    intro b o s h
    obtain ⟨l, h1, h2, h3⟩ := about_chain hd h.1 (hp b)
    obtain ⟨t, ht, ht'⟩ := hs b o s h
    refine C78_back_partial (hp b) h1 h2.1 ⟨t, ht, .inl ht'⟩ ?_ (by simp [h2.2])
    rintro ⟨z, hz, h4, -⟩
    exact h3 z hz (h4.trans h2.2)
  unfold goto
  constructor
  · constructor
    · intro h
      rintro ⟨b, o, s, h1⟩
      have := List.ne_nil_of_mem ((hm _).2 ⟨b, o, s, h1, rfl⟩)
      rw [if_neg (by simpa using this)] at h
      cases h
    · intro h
      rw [if_pos]
      rw [List.isEmpty_iff]
      by_contra hne
      obtain ⟨l, hl⟩ := List.exists_mem_of_ne_nil _ hne
      obtain ⟨b, o, s, h1, -⟩ := (hm l).1 hl
      exact h ⟨b, o, s, h1⟩
  · intro navs h b n i j
    split at h
    · cases h
    · cases h
      rw [List.mem_filterMap]
      constructor
      · rintro ⟨l, hl, h⟩
        obtain ⟨b', o, s, h1, rfl⟩ := (hm l).1 hl
        rw [back h1, Option.bind_some] at h
        obtain ⟨r, h2, h⟩ := Option.bind_eq_some_iff.1 h
        obtain ⟨x, h3, h⟩ := Option.map_eq_some_iff.1 h
        cases h
        exact ⟨o, s, r, h1, ⟨nodeChild_iff.1 h2, x, nodeChild_iff.1 h3, rfl⟩, rfl, rfl⟩
      · rintro ⟨o, s, r, h1, ⟨h2, x, h3, rfl⟩, rfl, rfl⟩
        refine ⟨locOf b s, (hm _).2 ⟨b, o, s, h1, rfl⟩, ?_⟩
        rw [back h1, Option.bind_some, nodeChild_iff.2 h2, Option.bind_some, nodeChild_iff.2 h3]
        rfl

theorem specsNear_nodup {w : World} {a : Nat} {m : Elem} (hm : Is .MODULE m) : (specsNear w a m).Nodup := by
  have hc : ∀ e : Elem, e.children.Nodup := fun e => (Full.children_nodup e).imp fun h1 h2 => h1 (congrArg Elem.path h2)
  have inj : ∀ (b : Nat) (o : Elem), ((itemSpecs o).map fun s => (b, o, s)).Nodup := fun b o =>
    ((hc o).filter _).map fun x y h => (Prod.mk.inj (Prod.mk.inj h).2).2
  unfold specsNear
  refine List.nodup_append'.2 ⟨inj a m, List.nodup_flatMap.2 ⟨fun x _ => inj x.1 x.2, ?_⟩, ?_⟩
  · have h1 : (relatedSpecs w a m).Nodup := by
      unfold relatedSpecs
      refine List.nodup_flatMap.2 ⟨fun b _ => (((hc _).filter _).filter _).map fun x y h => (Prod.mk.inj h).2, ?_⟩
      refine (nodup_eraseDups _).imp ?_
      intro b c hbc x h2 h3
      obtain ⟨y, -, rfl⟩ := List.mem_map.1 h2
      obtain ⟨z, -, h4⟩ := List.mem_map.1 h3
      exact hbc (Prod.mk.inj h4).1.symm
    refine h1.imp ?_
    rintro ⟨b, o⟩ ⟨c, u⟩ hne x h2 h3
    obtain ⟨y, -, rfl⟩ := List.mem_map.1 h2
    obtain ⟨z, -, h4⟩ := List.mem_map.1 h3
    have h5 := Prod.mk.inj h4
    exact hne (Prod.ext h5.1.symm (Prod.mk.inj h5.2).1.symm)
  · intro x h1 h2
    obtain ⟨y, -, rfl⟩ := List.mem_map.1 h1
    obtain ⟨⟨b, o⟩, h3, h4⟩ := List.mem_flatMap.1 h2
    obtain ⟨z, -, h5⟩ := List.mem_map.1 h4
    have h6 : o = m := (Prod.mk.inj (Prod.mk.inj h5).2).1
    subst h6
    obtain ⟨c, -, h7⟩ := List.mem_flatMap.1 h3
    obtain ⟨v, h8, h9⟩ := List.mem_map.1 h7
    cases h9
    have := ((isNode_iff _ _).1 (List.mem_filter.1 (List.mem_filter.1 h8).1).2).2
    rw [hm.2] at this
    cases this

/-- Every specification is found once. Asked of the specifications is that their keyword is there. -/
theorem C86_once {w : World} (hp : ∀ b, Parsed (w.tree b)) {a : Nat} (f : Elem)
    (hs : ∀ m anc f b o s, Declared (w.tree a) m anc → SpecOf w a m f b o s → ∃ t ∈ s.children, t.green.isTok = true) :
    (specsFor w a f).Nodup := by
  have hent : (entries w a).Nodup := by
    unfold entries
    refine List.nodup_flatMap.2 ⟨?_, ?_⟩
    · intro c hc
      obtain ⟨m, anc, rfl⟩ := allModules_ne hc
      have hd := (mem_allModules _ _ _).1 hc
      dsimp only
      rw [List.Nodup, List.pairwise_filterMap]
      refine List.Pairwise.imp_of_mem ?_ (specsNear_nodup (declared_module hd))
      rintro ⟨b, o, s⟩ ⟨b', o', s'⟩ h1 h2 hne p h3 p' h4 he
      have h1 := (mem_specsNear w a b m o s).1 h1
      have h2 := (mem_specsNear w a b' m o' s').1 h2
      obtain ⟨⟨c, i⟩, h5, rfl⟩ := Option.map_eq_some_iff.1 h3
      obtain ⟨⟨c', i'⟩, h6, rfl⟩ := Option.map_eq_some_iff.1 h4
      have hl : locOf b s = locOf b' s' := (Prod.mk.inj he).2
      obtain ⟨t, ht, ht'⟩ := hs m anc i b o s hd ⟨h1, ((itemOf_iff hd h1 c i).1 h5).2⟩
      obtain ⟨t', hu, hu'⟩ := hs m anc i' b' o' s' hd ⟨h2, ((itemOf_iff hd h2 c' i').1 h6).2⟩
      have par : ∀ {b o s}, About w a m b o s → ∃ l, Chain (w.tree b) (s :: o :: l) ∧ s.green.isTok = false := by
        intro b o s h
        cases h with
        | own h1 h2 => exact ⟨_, .child (declared_chain hd) h1, h2.1⟩
        | apart h1 h2 h3 h4 h5 h6 => exact ⟨_, .child (.child .top h2) h5, h6.1⟩
      obtain ⟨l, h7, h8⟩ := par h1
      obtain ⟨l', h9, h10⟩ := par h2
      obtain ⟨rfl, rfl, h11⟩ := C78_different (hp b) h7 h9 h8 h10 ⟨t, ht, .inl ht'⟩ ⟨t', hu, .inl hu'⟩ hl
      cases h11
      exact hne rfl
    · refine List.Pairwise.imp_of_mem ?_ (Full.allModules_nodup (Elem.root (w.tree a)))
      intro c c' hc hc' hne p h1 h2
      obtain ⟨m, anc, rfl⟩ := allModules_ne hc
      obtain ⟨m', anc', rfl⟩ := allModules_ne hc'
      have hd := (mem_allModules _ _ _).1 hc
      have hd' := (mem_allModules _ _ _).1 hc'
      dsimp only at h1 h2
      obtain ⟨⟨b, o, s⟩, h3, h4⟩ := List.mem_filterMap.1 h1
      obtain ⟨⟨b', o', s'⟩, h5, h6⟩ := List.mem_filterMap.1 h2
      obtain ⟨⟨c, i⟩, h7, rfl⟩ := Option.map_eq_some_iff.1 h4
      obtain ⟨⟨c', i'⟩, h8, h9⟩ := Option.map_eq_some_iff.1 h6
      obtain ⟨rfl, r, n, -, h10⟩ := (itemOf_iff hd ((mem_specsNear w a b m o s).1 h3) c i).1 h7
      obtain ⟨rfl, r', n', -, h11⟩ := (itemOf_iff hd' ((mem_specsNear w c b' m' o' s').1 h5) c' i').1 h8
      have hl : locOf c' i' = locOf c' i := (Prod.mk.inj h9).1
      have nt : ∀ {m i n}, OnlyOne m i n → i.green.isTok = false := by
        intro m i n h
        rcases h.1.2 with h | h | h
        · exact h.1.1
        · exact h.1
        · exact h.1
      obtain ⟨-, -, h12⟩ := C78_different (hp c') (.child (declared_chain hd') h11.1.1) (.child (declared_chain hd) h10.1.1)
        (nt h11) (nt h10) (named_direct h11.2.1) (named_direct h10.2.1) hl
      cases h12
      exact hne rfl
  unfold specsFor
  refine List.Nodup.map_on ?_ (hent.filter _)
  intro x hx y hy h
  have h1 := (List.mem_filter.1 hx).2
  have h2 := (List.mem_filter.1 hy).2
  rw [decide_eq_true_eq] at h1 h2
  exact Prod.ext (h1.trans h2.symm) h

end Verif.Ide.Specs
