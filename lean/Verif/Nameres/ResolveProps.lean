import Verif.Nameres.Resolve

/-! C67: a fully qualified path means the items of that name in the module at that address, whatever is in scope. -/

namespace Verif.Nameres.Full
open Verif.Parser (Green)
open Verif.Syntax

/-! ### Specification -/

/-- The addresses are the same: written the same, or with the same number behind them (`C40`). -/
def SameAddress (w : Names) (a b : Address) : Prop :=
  a = b ∨ ∃ x y, a.numeric w.framework w.addresses = some x ∧ b.numeric w.framework w.addresses = some y ∧
    x ≠ ['_'] ∧ y ≠ ['_'] ∧ short x = short y

/-- The element is a node of the kind. -/
def Is (k : SyntaxKind) (e : Elem) : Prop := e.green.isTok = false ∧ e.kind = k

/-- What a module, or the address block around it, writes as its address. -/
inductive Declares (root : Elem) (m : Elem) : List Elem → Address → Prop where
  | own {r} : m ∈ root.children → addressRef m = some r → Declares root m [root] (refAddress r)
  | ownInner {d r} : d ∈ root.children → Is .ADDRESS_DEF d → m ∈ d.children → addressRef m = some r →
      Declares root m [d, root] (refAddress r)
  | outer {d r} : d ∈ root.children → Is .ADDRESS_DEF d → m ∈ d.children → addressRef m = none → addressRef d = some r →
      Declares root m [d, root] (refAddress r)

/-- `m` is a module named `n` at the address, in a file `f` of the dependencies of `file`; `anc` are its ancestors. -/
def ModuleAt (w : Names) (file : Nat) (a : Address) (n : Text) (f : Nat) (m : Elem) (anc : List Elem) : Prop :=
  f ∈ w.files file ∧ Is .MODULE m ∧ nameText m = some n ∧ ∃ b, Declares (Elem.root (w.tree f)) m anc b ∧ SameAddress w b a

/-- The module may be used at the place (`C41`). -/
def UsableModule (w : Names) (ctx : Place) (f : Nat) (m : Elem) (anc : List Elem) : Prop :=
  isVisible w.toWorld .MODULE none (some ⟨f, m, anc⟩) ctx = none

/-- It is the only module of that name at that address that may be used at the place. -/
def OnlyModule (w : Names) (ctx : Place) (a : Address) (n : Text) (f : Nat) (m : Elem) (anc : List Elem) : Prop :=
  ModuleAt w ctx.file a n f m anc ∧ UsableModule w ctx f m anc ∧
    ∀ f' m' anc', ModuleAt w ctx.file a n f' m' anc' → UsableModule w ctx f' m' anc' → f' = f ∧ m'.path = m.path

/-- A declaration in a `spec module` block of a module or of a module specification. -/
def InSpecBlock (m i : Elem) : Prop :=
  ∃ s ∈ m.children, Is .ITEM_SPEC s ∧ (∃ t ∈ s.children, isToken .MODULE_KW t = true) ∧ ∃ b, nodeChild s .BLOCK_EXPR = some b ∧
    i ∈ b.children

/-- The items of a module: its constants, types, functions, schemas, specification functions and lemmas, what its `spec module`
blocks declare, and what its specifications in other places declare. -/
inductive Item (w : Names) (f : Nat) (m : Elem) : Nat → Elem → Prop where
  | item {i} : i ∈ m.children → Is .CONST i ∨ Is .ENUM i ∨ Is .STRUCT i ∨ Is .SCHEMA i ∨ Is .FUN i ∨ Is .SPEC_FUN i → Item w f m f i
  | lemma_ {l i} : l ∈ m.children → Is .SPEC_LEMMA l → nodeChild l .LEMMA = some i → Item w f m f i
  | block {i} : InSpecBlock m i → Is .SPEC_INLINE_FUN i ∨ Is .LEMMA i ∨ Is .GLOBAL_VARIABLE_DECL i → Item w f m f i
  | spec {g s i} : (g, s) ∈ w.specs f m → i ∈ s.children → Is .SCHEMA i ∨ Is .SPEC_FUN i → Item w f m g i
  | specBlock {g s i} : (g, s) ∈ w.specs f m → InSpecBlock s i → Is .SPEC_INLINE_FUN i ∨ Is .GLOBAL_VARIABLE_DECL i → Item w f m g i

/-- The entry stands for the element. -/
def Stands (e : Entry) (f : Nat) (i : Elem) : Prop := nameText i = some e.name ∧ e.ns = itemNs i ∧ e.file = f ∧ e.path = i.path

/-- Entries that the module has for the name in some namespaces. -/
def Member (w : Names) (f : Nat) (m : Elem) (n : Text) (ns : List Ns) (e : Entry) : Prop :=
  (∃ g i, Item w f m g i ∧ Stands e g i) ∧ e.name = n ∧ e.ns ∈ ns

/-- Which of the candidates are taken: functions in calls, if there are any; elsewhere the one that is no function, if there is
exactly one. -/
def Chosen (isCall : Bool) (C : Entry → Prop) (e : Entry) : Prop :=
  C e ∧ (isCall = true → e.ns = .FUNCTION ∨ ∀ x, C x → x.ns ≠ .FUNCTION) ∧
    (isCall = false → e.ns ≠ .FUNCTION ∨ ¬ ∃ x, C x ∧ x.ns ≠ .FUNCTION ∧ ∀ y, C y → y.ns ≠ .FUNCTION → y = x)

/-! ### Elements at their locations -/

theorem placed_index {path : List Nat} {i s : Nat} {gs : List Green} {e : Elem} (h : e ∈ placed path i s gs) :
    ∃ j, e.path = (i + j) :: path ∧ (placed path i s gs)[j]? = some e := by
  induction gs generalizing i s with
  | nil => cases h
  | cons g gs ih =>
    rw [placed] at h ⊢
    rcases List.mem_cons.1 h with rfl | h
    · exact ⟨0, rfl, rfl⟩
    · obtain ⟨j, h1, h2⟩ := ih h
      refine ⟨j + 1, ?_, by simpa using h2⟩
      rw [h1, Nat.add_assoc, Nat.add_comm 1]

theorem child_index {e c : Elem} (h : c ∈ e.children) : ∃ j, c.path = j :: e.path ∧ e.children[j]? = some c := by
  obtain ⟨j, h1, h2⟩ := placed_index h
  exact ⟨j, by simpa using h1, h2⟩

/-- Children at the same path are the same. -/
theorem child_eq {e c d : Elem} (hc : c ∈ e.children) (hd : d ∈ e.children) (h : c.path = d.path) : c = d := by
  obtain ⟨i, h1, h2⟩ := child_index hc
  obtain ⟨j, h3, h4⟩ := child_index hd
  rw [h1, h3] at h
  cases h
  rw [h2] at h4
  exact Option.some.inj h4

theorem down_snoc (l : List Elem) (is : List Nat) (i : Nat) : down l (is ++ [i]) = (down l is).bind fun m => down m [i] := by
  induction is generalizing l with
  | nil => simp [down]
  | cons k ks ih =>
    cases l with
    | nil => simp [down]
    | cons e es =>
      simp only [List.cons_append, down]
      cases e.children[k]? with
      | none => rfl
      | some c => exact ih _

theorem locate {g : Green} {e : Elem} {anc : List Elem} (h : Chain g (e :: anc)) : down [Elem.root g] e.path.reverse = some (e :: anc) := by
  generalize hl : e :: anc = l at h
  induction h generalizing e anc with
  | top => cases hl; rfl
  | @child c p ps h1 h2 ih =>
    cases hl
    obtain ⟨j, h3, h4⟩ := child_index h2
    rw [h3, List.reverse_cons, down_snoc, ih rfl]
    simp [down, h4]

theorem isNode_iff (k : SyntaxKind) (e : Elem) : isNode k e = true ↔ Is k e := by
  simp [isNode, Is]

theorem nodeChild_mem {e c : Elem} {k : SyntaxKind} (h : nodeChild e k = some c) : c ∈ e.children ∧ Is k c := by
  unfold nodeChild at h
  exact ⟨List.mem_of_find?_eq_some h, (isNode_iff k c).1 (List.find?_some h)⟩

theorem placeAt_of {w : World} {e : Entry} {i : Elem} {anc : List Elem} (hc : Chain (w.tree e.file) (i :: anc)) (hp : e.path = i.path)
    (ht : i.green.isTok = false) (hk : i.kind ∈ namedKinds) : placeAt w e = some ⟨e.file, i, anc⟩ := by
  unfold placeAt
  rw [hp, locate hc]
  simp [ht, hk]

/-! ### Modules at an address -/

theorem equalsTo_iff (w : Names) (a b : Address) : a.equalsTo w.framework w.addresses b false = true ↔ SameAddress w a b := by
  unfold Address.equalsTo SameAddress
  split
  · rename_i h; simp [h]
  · rename_i h
    simp only [Bool.and_false, Bool.false_eq_true, if_false, h, false_or]
    cases a.numeric w.framework w.addresses with
    | none => simp
    | some x => cases b.numeric w.framework w.addresses with
      | none => simp
      | some y => simp [and_assoc]

theorem declares_iff {root m : Elem} {c : List Elem} {b : Address} (hm : Is .MODULE m) (hr : root.kind = .SOURCE_FILE) :
    (m :: c ∈ allModules root ∧ moduleAddress (m :: c) = some b) ↔ Declares root m c b := by
  have hroot : isNode .ADDRESS_DEF root = false := by simp [isNode, hr]
  have hm' : isNode .MODULE m = true := (isNode_iff _ _).2 hm
  unfold allModules
  constructor
  · rintro ⟨h1, h2⟩
    rcases List.mem_append.1 h1 with h1 | h1
    · obtain ⟨x, hx, h3⟩ := List.mem_map.1 h1
      cases h3
      have hx' := (List.mem_filter.1 hx).1
      unfold moduleAddress at h2
      split at h2
      · cases h2
      · rename_i h4; cases h4
      · rename_i h4
        cases h4
        cases ha : addressRef m with
        | some r => rw [ha] at h2; cases h2; exact .own hx' ha
        | none => rw [ha] at h2; simp [hroot] at h2
    · obtain ⟨d, hd, h3⟩ := List.mem_flatMap.1 h1
      obtain ⟨x, hx, h4⟩ := List.mem_map.1 h3
      cases h4
      obtain ⟨hd1, hd2⟩ := List.mem_filter.1 hd
      have hx' := (List.mem_filter.1 hx).1
      unfold moduleAddress at h2
      split at h2
      · cases h2
      · rename_i h4; cases h4
      · rename_i h4
        cases h4
        cases ha : addressRef m with
        | some r => rw [ha] at h2; cases h2; exact .ownInner hd1 ((isNode_iff _ _).1 hd2) hx' ha
        | none =>
          rw [ha] at h2
          simp only [hd2, if_true] at h2
          cases hb : addressRef d with
          | none => rw [hb] at h2; cases h2
          | some r => rw [hb] at h2; cases h2; exact .outer hd1 ((isNode_iff _ _).1 hd2) hx' ha hb
  · intro h
    cases h with
    | own h ha =>
      refine ⟨List.mem_append.2 (.inl (List.mem_map.2 ⟨m, List.mem_filter.2 ⟨h, hm'⟩, rfl⟩)), ?_⟩
      simp [moduleAddress, ha]
    | @ownInner d r h hd h2 ha =>
      have hd' := (isNode_iff _ _).2 hd
      refine ⟨List.mem_append.2 (.inr (List.mem_flatMap.2 ⟨d, List.mem_filter.2 ⟨h, hd'⟩, List.mem_map.2
        ⟨m, List.mem_filter.2 ⟨h2, hm'⟩, rfl⟩⟩)), ?_⟩
      simp [moduleAddress, ha]
    | @outer d r h hd h2 ha hb =>
      have hd' := (isNode_iff _ _).2 hd
      refine ⟨List.mem_append.2 (.inr (List.mem_flatMap.2 ⟨d, List.mem_filter.2 ⟨h, hd'⟩, List.mem_map.2
        ⟨m, List.mem_filter.2 ⟨h2, hm'⟩, rfl⟩⟩)), ?_⟩
      simp [moduleAddress, ha, hb, hd']

theorem allModules_module {root m : Elem} {c : List Elem} (h : m :: c ∈ allModules root) : Is .MODULE m := by
  unfold allModules at h
  rcases List.mem_append.1 h with h1 | h1
  · obtain ⟨x, hx, h3⟩ := List.mem_map.1 h1
    cases h3
    exact (isNode_iff _ _).1 (List.mem_filter.1 hx).2
  · obtain ⟨d, hd, h3⟩ := List.mem_flatMap.1 h1
    obtain ⟨x, hx, h4⟩ := List.mem_map.1 h3
    cases h4
    exact (isNode_iff _ _).1 (List.mem_filter.1 hx).2

theorem declares_chain {g : Green} {m : Elem} {anc : List Elem} {b : Address} (h : Declares (Elem.root g) m anc b) : Chain g (m :: anc) := by
  cases h with
  | own h _ => exact .child .top h
  | ownInner h _ h2 _ => exact .child (.child .top h) h2
  | outer h _ h2 _ _ => exact .child (.child .top h) h2

/-- What the database keeps: files are source files, no file is listed twice, and the specifications of a module are module
specifications of their files, none listed twice. -/
structure Sane (w : Names) : Prop where
  source : ∀ f, (w.tree f).kind = .SOURCE_FILE
  once : ∀ f, (w.files f).Nodup
  specs : ∀ f m g s, (g, s) ∈ w.specs f m → s ∈ (Elem.root (w.tree g)).children ∧ Is .MODULE_SPEC s
  specsOnce : ∀ f m, (w.specs f m).Nodup

theorem itemEntry_iff (f : Nat) (i : Elem) (e : Entry) : itemEntry f i = some e ↔ Stands e f i := by
  unfold itemEntry Stands
  cases nameText i with
  | none => simp
  | some n =>
    obtain ⟨n', ns, g, p⟩ := e
    simp [eq_comm]

theorem mem_modulesInFile {w : Names} (hw : Sane w) (f : Nat) (a : Address) (m : Elem) :
    m ∈ modulesInFile w f a ↔ Is .MODULE m ∧ ∃ anc b, Declares (Elem.root (w.tree f)) m anc b ∧ SameAddress w b a := by
  unfold modulesInFile
  rw [List.mem_filterMap]
  constructor
  · rintro ⟨c, hc, h⟩
    unfold moduleIfAt at h
    cases c with
    | nil => simp [moduleAddress] at h
    | cons x c =>
      cases hb : moduleAddress (x :: c) with
      | none => rw [hb] at h; cases h
      | some b =>
        rw [hb] at h
        dsimp only at h
        split at h
        · rename_i hs
          cases h
          have hm := allModules_module hc
          exact ⟨hm, c, b, (declares_iff (root := Elem.root (w.tree f)) hm (hw.source f)).1 ⟨hc, hb⟩, (equalsTo_iff w b a).1 hs⟩
        · cases h
  · rintro ⟨hm, anc, b, hd, hs⟩
    obtain ⟨h1, h2⟩ := (declares_iff (root := Elem.root (w.tree f)) hm (hw.source f)).2 hd
    exact ⟨m :: anc, h1, by simp [moduleIfAt, h2, (equalsTo_iff w b a).2 hs]⟩

theorem mem_modulesAsEntries {w : Names} (hw : Sane w) (file : Nat) (a : Address) (e : Entry) :
    e ∈ modulesAsEntries w file a ↔ ∃ f m anc, ModuleAt w file a e.name f m anc ∧ e.ns = .MODULE ∧ e.file = f ∧ e.path = m.path := by
  unfold modulesAsEntries
  simp only [List.mem_flatMap, List.mem_filterMap, mem_modulesInFile hw, itemEntry_iff]
  constructor
  · rintro ⟨f, hf, m, ⟨hm, anc, b, hd, hs⟩, h1, h2, h3, h4⟩
    refine ⟨f, m, anc, ⟨hf, hm, h1, b, hd, hs⟩, ?_, h3, h4⟩
    rw [h2, itemNs, hm.2]
  · rintro ⟨f, m, anc, ⟨hf, hm, h1, b, hd, hs⟩, h2, h3, h4⟩
    refine ⟨f, hf, m, ⟨hm, anc, b, hd, hs⟩, h1, ?_, h3, h4⟩
    rw [h2, itemNs, hm.2]

theorem placed_nodup (path : List Nat) (i s : Nat) (gs : List Green) :
    (placed path i s gs).Pairwise fun a b => a.path ≠ b.path := by
  induction gs generalizing i s with
  | nil => exact .nil
  | cons g gs ih =>
    refine .cons (fun e he => ?_) (ih _ _)
    obtain ⟨j, hj, -⟩ := placed_index he
    rw [hj]
    intro h
    have := (List.cons.inj h).1
    omega

theorem children_nodup (e : Elem) : e.children.Pairwise fun a b => a.path ≠ b.path := placed_nodup _ _ _ _

def headPath (c : List Elem) : List Nat := (c.head?.map Elem.path).getD []

theorem allModules_nodup (root : Elem) : (allModules root).Pairwise fun a b => headPath a ≠ headPath b := by
  unfold allModules
  rw [List.pairwise_append]
  refine ⟨?_, ?_, ?_⟩
  · rw [List.pairwise_map]
    exact ((children_nodup root).filter _).imp fun h => h
  · rw [List.pairwise_flatMap]
    refine ⟨fun d _ => ?_, ?_⟩
    · rw [List.pairwise_map]
      exact ((children_nodup d).filter _).imp fun h => h
    · refine ((children_nodup root).filter _).imp ?_
      intro d d' hne x hx y hy
      obtain ⟨m, hm, rfl⟩ := List.mem_map.1 hx
      obtain ⟨m', hm', rfl⟩ := List.mem_map.1 hy
      obtain ⟨j, hj, -⟩ := child_index (List.mem_filter.1 hm).1
      obtain ⟨j', hj', -⟩ := child_index (List.mem_filter.1 hm').1
      simp only [headPath, List.head?_cons, Option.map_some, Option.getD_some, hj, hj']
      intro h
      exact hne (List.cons.inj h).2
  · intro x hx y hy
    obtain ⟨m, hm, rfl⟩ := List.mem_map.1 hx
    obtain ⟨d, hd, hy⟩ := List.mem_flatMap.1 hy
    obtain ⟨m', hm', rfl⟩ := List.mem_map.1 hy
    obtain ⟨j, hj, -⟩ := child_index (List.mem_filter.1 hm).1
    obtain ⟨j', hj', -⟩ := child_index (List.mem_filter.1 hm').1
    obtain ⟨k, hk, -⟩ := child_index (List.mem_filter.1 hd).1
    simp only [headPath, List.head?_cons, Option.map_some, Option.getD_some, hj, hj', hk]
    intro h
    have := congrArg List.length h
    simp at this

theorem modulesAsEntries_nodup {w : Names} (hw : Sane w) (file : Nat) (a : Address) : (modulesAsEntries w file a).Nodup := by
  unfold modulesAsEntries List.Nodup
  rw [List.pairwise_flatMap]
  refine ⟨fun f _ => ?_, ?_⟩
  · refine List.Pairwise.filterMap (R := fun a b : Elem => a.path ≠ b.path) _ ?_ ?_
    · intro x y hne e he e' he' h
      rw [itemEntry_iff] at he he'
      subst h
      exact hne (he.2.2.2.symm.trans he'.2.2.2)
    · unfold modulesInFile
      refine List.Pairwise.filterMap (R := fun a b : List Elem => headPath a ≠ headPath b) _ ?_ (allModules_nodup _)
      intro x y hne e he e' he' h
      have key : ∀ c m, moduleIfAt w a c = some m → headPath c = m.path := by
        intro c m hc
        unfold moduleIfAt at hc
        split at hc
        · split at hc
          · simp [headPath, hc]
          · cases hc
        · cases hc
      exact hne ((key x e he).trans (h.trans (key y e' he').symm))
  · refine (hw.once file).imp ?_
    intro f f' hne x hx y hy h
    obtain ⟨m, -, hm⟩ := List.mem_filterMap.1 hx
    obtain ⟨m', -, hm'⟩ := List.mem_filterMap.1 hy
    rw [itemEntry_iff] at hm hm'
    subst h
    exact hne (hm.2.2.1.symm.trans hm'.2.2.1)

/-! ### What a qualifier resolves to -/

theorem single_iff {L : List Entry} (hL : L.Nodup) (v : Entry → Option Invisible) (e : Entry) :
    single (L.map fun e => (e, v e)) = some e ↔ e ∈ L ∧ v e = none ∧ ∀ x ∈ L, v x = none → x = e := by
  have key : (L.map fun e => (e, v e)).filter (fun x => x.2.isNone) = (L.filter fun x => (v x).isNone).map fun e => (e, v e) := by
    rw [List.filter_map]; rfl
  unfold single
  rw [key]
  have hN : (L.filter fun x => (v x).isNone).Nodup := hL.filter _
  have hmem : ∀ x, x ∈ (L.filter fun x => (v x).isNone) ↔ x ∈ L ∧ v x = none := by
    intro x; simp [List.mem_filter]
  generalize L.filter (fun x => (v x).isNone) = M at *
  match M with
  | [] =>
    simp only [List.map_nil, reduceCtorEq, false_iff]
    rintro ⟨h1, h2, -⟩
    exact absurd ((hmem e).2 ⟨h1, h2⟩) (by simp)
  | [a] =>
    simp only [List.map_cons, List.map_nil, Option.some.injEq]
    constructor
    · rintro rfl
      have := (hmem a).1 (by simp)
      exact ⟨this.1, this.2, fun x hx hv => by simpa using (hmem x).2 ⟨hx, hv⟩⟩
    · rintro ⟨-, -, h3⟩
      have := (hmem a).1 (by simp)
      exact h3 a this.1 this.2
  | a :: b :: M =>
    simp only [List.map_cons, reduceCtorEq, false_iff]
    rintro ⟨-, -, h3⟩
    have h1 := (hmem a).1 (by simp)
    have h2 := (hmem b).1 (by simp)
    have hab : a = b := (h3 a h1.1 h1.2).trans (h3 b h2.1 h2.2).symm
    subst hab
    simp at hN

theorem functionCase_none {es : List (Entry × Option Invisible)} (h : ∀ x ∈ es, x.1.ns ≠ .FUNCTION) (c : Bool) : functionCase c es = es := by
  have h1 : (es.filter fun x => decide (x.1.ns = .FUNCTION)) = [] := by
    rw [List.filter_eq_nil_iff]
    intro x hx
    simp [h x hx]
  have h2 : (es.filter fun x => decide (x.1.ns ≠ .FUNCTION)) = es := by
    rw [List.filter_eq_self]
    intro x hx
    simp [h x hx]
  unfold functionCase
  dsimp only
  rw [h1, h2]
  simp

theorem module_place {w : Names} (hw : Sane w) {file : Nat} {a : Address} {e : Entry} (h : e ∈ modulesAsEntries w file a) :
    ∃ m anc, ModuleAt w file a e.name e.file m anc ∧ e.ns = .MODULE ∧ e.path = m.path ∧ placeAt w.toWorld e = some ⟨e.file, m, anc⟩ := by
  obtain ⟨f, m, anc, h1, h2, rfl, h4⟩ := (mem_modulesAsEntries hw file a e).1 h
  obtain ⟨b, hd, -⟩ := h1.2.2.2
  refine ⟨m, anc, h1, h2, h4, placeAt_of (declares_chain hd) h4 h1.2.1.1 ?_⟩
  rw [h1.2.1.2]
  decide

/-- Entries with what makes them invisible at the place. -/
def withVis (w : Names) (ctx : Place) (L : List Entry) : List (Entry × Option Invisible) :=
  L.map fun e => (e, isVisible w.toWorld e.ns none (placeAt w.toWorld e) ctx)

/-- One step of the resolution, when the candidates have no scope of an import and fit the expected type. -/
theorem resolve_step {w : Names} {fuel file : Nat} {expected : Option (Nat × Elem)} {p : Elem} {anc : List Elem} {n : Text}
    {kind : PathKind} {L : List Entry} (hn : refName p = some n) (hk : pathKind w.named (p :: anc) = some kind)
    (hv : variantsFor w file n (p :: anc) (fun q => single (resolvePath w fuel file none q)) kind = L.map fun e => (e, none))
    (hf : ∀ e ∈ L, fitsExpected w (refineExpected w (fun q => single (resolvePath w fuel file none q)) expected kind) e = true) :
    resolvePath w (fuel + 1) file expected (p :: anc) =
      functionCase (isCallPath (p :: anc)) (withVis w ⟨file, p, anc⟩ (L.filter fun e => decide (e.name = n))) := by
  rw [resolvePath]
  dsimp only
  rw [hn]
  dsimp only
  rw [hk]
  dsimp only
  rw [hv, List.filter_map, List.filter_map, List.map_map]
  have h2 : (L.filter ((fun x : Entry × Option ItemScope => decide (x.1.name = n)) ∘ fun e => (e, none))).filter
      ((fun x : Entry × Option ItemScope =>
        fitsExpected w (refineExpected w (fun q => single (resolvePath w fuel file none q)) expected kind) x.1) ∘ fun e => (e, none)) =
      L.filter fun e => decide (e.name = n) := by
    rw [List.filter_eq_self.2]
    · rfl
    · intro e he
      exact hf e (List.mem_filter.1 he).1
  rw [h2]
  rfl

theorem module_fits {w : Names} (hw : Sane w) {file : Nat} {a : Address} {e : Entry} (h : e ∈ modulesAsEntries w file a)
    (x : Option (Nat × Elem)) : fitsExpected w x e = true := by
  obtain ⟨m, c, h1, -, -, h4⟩ := module_place hw h
  unfold fitsExpected
  rw [h4]
  simp [h1.2.1.2]

theorem resolve_modules {w : Names} (hw : Sane w) {fuel file : Nat} {expected : Option (Nat × Elem)} {p : Elem} {anc : List Elem} {n : Text}
    {kind : PathKind} {a : Address} (hn : refName p = some n) (hk : pathKind w.named (p :: anc) = some kind)
    (hv : variantsFor w file n (p :: anc) (fun q => single (resolvePath w fuel file none q)) kind =
      (modulesAsEntries w file a).map fun e => (e, none)) :
    resolvePath w (fuel + 1) file expected (p :: anc) =
      withVis w ⟨file, p, anc⟩ ((modulesAsEntries w file a).filter fun e => decide (e.name = n)) := by
  rw [resolve_step hn hk hv fun e he => module_fits hw he _, functionCase_none]
  intro x hx
  obtain ⟨e, he, rfl⟩ := List.mem_map.1 hx
  obtain ⟨m, c, -, h2, -, -⟩ := module_place hw (List.mem_filter.1 he).1
  rw [h2]
  simp

/-- The qualifier means the only usable module of the name at the address. -/
theorem single_modules {w : Names} (hw : Sane w) {a : Address} {n : Text} {ctx : Place} (e : Entry) :
    single (withVis w ctx ((modulesAsEntries w ctx.file a).filter fun e => decide (e.name = n))) = some e ↔
      ∃ m anc, OnlyModule w ctx a n e.file m anc ∧ e = ⟨n, .MODULE, e.file, m.path⟩ := by
  have hvis : ∀ x : Entry, ∀ m c, placeAt w.toWorld x = some ⟨x.file, m, c⟩ → x.ns = .MODULE →
      (isVisible w.toWorld x.ns none (placeAt w.toWorld x) ctx = none ↔ UsableModule w ctx x.file m c) := by
    intro x m c h1 h2
    rw [h1, h2]
    rfl
  unfold withVis
  rw [single_iff ((modulesAsEntries_nodup hw _ _).filter _)]
  simp only [List.mem_filter, decide_eq_true_eq]
  constructor
  · rintro ⟨⟨h1, h2⟩, h3, h4⟩
    obtain ⟨m, c, h5, h6, h7, h8⟩ := module_place hw h1
    rw [h2] at h5
    refine ⟨m, c, ⟨h5, (hvis e m c h8 h6).1 h3, ?_⟩, ?_⟩
    · intro f' m' c' h9 h10
      have hd := h9.2.2.2
      obtain ⟨b, hd, -⟩ := hd
      have hplace := placeAt_of (w := w.toWorld) (e := ⟨n, .MODULE, f', m'.path⟩) (declares_chain hd) rfl h9.2.1.1
        (by rw [h9.2.1.2]; decide)
      have := h4 ⟨n, .MODULE, f', m'.path⟩ ⟨(mem_modulesAsEntries hw _ _ _).2 ⟨f', m', c', h9, rfl, rfl, rfl⟩, rfl⟩
        ((hvis _ m' c' hplace rfl).2 h10)
      rw [← this]
      exact ⟨rfl, by rw [← this] at h7; exact h7⟩
    · obtain ⟨en, ens, ef, ep⟩ := e
      simp_all
  · rintro ⟨m, c, ⟨h1, h2, h3⟩, h4⟩
    obtain ⟨en, ens, ef, ep⟩ := e
    simp only [Entry.mk.injEq] at h4 h1 h2 h3
    obtain ⟨rfl, rfl, -, rfl⟩ := h4
    have hmem : (⟨en, .MODULE, ef, m.path⟩ : Entry) ∈ modulesAsEntries w ctx.file a :=
      (mem_modulesAsEntries hw _ _ _).2 ⟨ef, m, c, h1, rfl, rfl, rfl⟩
    obtain ⟨b, hd, -⟩ := h1.2.2.2
    have hplace := placeAt_of (w := w.toWorld) (e := ⟨en, .MODULE, ef, m.path⟩) (declares_chain hd) rfl h1.2.1.1
        (by rw [h1.2.1.2]; decide)
    refine ⟨⟨hmem, rfl⟩, (hvis _ m c hplace rfl).2 h2, ?_⟩
    rintro x ⟨hx1, hx2⟩ hx3
    obtain ⟨m', c', h5, h6, h7, h8⟩ := module_place hw hx1
    rw [hx2] at h5
    obtain ⟨h9, h10⟩ := h3 _ _ _ h5 ((hvis x m' c' h8 h6).1 hx3)
    obtain ⟨xn, xns, xf, xp⟩ := x
    simp_all

/-! ### The items of a module -/

theorem mem_moduleSpecBlocks (m b : Elem) : b ∈ moduleSpecBlocks m ↔
    ∃ s ∈ m.children, Is .ITEM_SPEC s ∧ (∃ t ∈ s.children, isToken .MODULE_KW t = true) ∧ nodeChild s .BLOCK_EXPR = some b := by
  unfold moduleSpecBlocks
  simp only [List.mem_filterMap, List.mem_filter, isNode_iff, tokenChild, List.find?_isSome, and_assoc]

theorem mem_specDecls (m i : Elem) (k : SyntaxKind) : i ∈ specDecls m k ↔ InSpecBlock m i ∧ Is k i := by
  unfold specDecls InSpecBlock
  simp only [List.mem_flatMap, mem_moduleSpecBlocks, List.mem_filter, isNode_iff]
  constructor
  · rintro ⟨b, ⟨s, h1, h2, h3, h4⟩, h5, h6⟩
    exact ⟨⟨s, h1, h2, h3, b, h4, h5⟩, h6⟩
  · rintro ⟨⟨s, h1, h2, h3, b, h4, h5⟩, h6⟩
    exact ⟨b, ⟨s, h1, h2, h3, h4⟩, h5, h6⟩

theorem mem_itemsOfKind (m i : Elem) (k : SyntaxKind) : i ∈ itemsOfKind m k ↔ i ∈ m.children ∧ Is k i := by
  simp [itemsOfKind, isNode_iff]

/-- All items of the module, with their files. -/
def allItems (w : Names) (f : Nat) (m : Elem) : List (Nat × Elem) :=
  ((namedItems m ++ specDecls m .GLOBAL_VARIABLE_DECL).map fun i => (f, i)) ++
  (w.specs f m).flatMap fun s => (specItems s.2).map fun i => (s.1, i)

theorem filterMap_pair (f : Nat) (l : List Elem) : (l.map fun i => (f, i)).filterMap (fun x : Nat × Elem => itemEntry x.1 x.2) =
    l.filterMap (itemEntry f) := by
  rw [List.filterMap_map]
  rfl

theorem entries_allItems (w : Names) (f : Nat) (m : Elem) :
    importableEntries f m ++ relatedEntries w f m = (allItems w f m).filterMap fun x => itemEntry x.1 x.2 := by
  unfold importableEntries relatedEntries allItems
  rw [List.filterMap_append, List.filterMap_flatMap, filterMap_pair, List.filterMap_append]
  congr 1
  congr 1
  funext s
  rw [filterMap_pair]

theorem mem_namedItems (m i : Elem) : i ∈ namedItems m ++ specDecls m .GLOBAL_VARIABLE_DECL ↔
    (i ∈ m.children ∧ (Is .CONST i ∨ Is .ENUM i ∨ Is .STRUCT i ∨ Is .SCHEMA i ∨ Is .FUN i ∨ Is .SPEC_FUN i)) ∨
    (∃ l ∈ m.children, Is .SPEC_LEMMA l ∧ nodeChild l .LEMMA = some i) ∨
    (InSpecBlock m i ∧ (Is .SPEC_INLINE_FUN i ∨ Is .LEMMA i ∨ Is .GLOBAL_VARIABLE_DECL i)) := by
  unfold namedItems
  simp only [List.mem_append, mem_specDecls, mem_itemsOfKind, List.mem_filterMap, and_assoc]
  generalize (∃ l, l ∈ m.children ∧ Is .SPEC_LEMMA l ∧ nodeChild l .LEMMA = some i) = L
  generalize InSpecBlock m i = B
  generalize (i ∈ m.children) = C
  grind

theorem mem_specItems (s i : Elem) : i ∈ specItems s ↔
    (i ∈ s.children ∧ (Is .SCHEMA i ∨ Is .SPEC_FUN i)) ∨ (InSpecBlock s i ∧ (Is .SPEC_INLINE_FUN i ∨ Is .GLOBAL_VARIABLE_DECL i)) := by
  unfold specItems
  simp only [List.mem_append, mem_specDecls, mem_itemsOfKind]
  tauto

theorem mem_allItems (w : Names) (f : Nat) (m : Elem) (g : Nat) (i : Elem) : (g, i) ∈ allItems w f m ↔ Item w f m g i := by
  unfold allItems
  rw [List.mem_append]
  constructor
  · rintro (h | h)
    · obtain ⟨x, hx, h1⟩ := List.mem_map.1 h
      cases h1
      rcases (mem_namedItems m _).1 hx with ⟨h1, h2⟩ | ⟨l, h1, h2, h3⟩ | ⟨h1, h2⟩
      · exact .item h1 h2
      · exact .lemma_ h1 h2 h3
      · exact .block h1 h2
    · obtain ⟨s, hs, h1⟩ := List.mem_flatMap.1 h
      obtain ⟨x, hx, h2⟩ := List.mem_map.1 h1
      cases h2
      rcases (mem_specItems s.2 _).1 hx with ⟨h1, h2⟩ | ⟨h1, h2⟩
      · exact .spec hs h1 h2
      · exact .specBlock hs h1 h2
  · intro h
    cases h with
    | item h1 h2 => exact .inl (List.mem_map.2 ⟨i, (mem_namedItems m i).2 (.inl ⟨h1, h2⟩), rfl⟩)
    | lemma_ h1 h2 h3 => exact .inl (List.mem_map.2 ⟨i, (mem_namedItems m i).2 (.inr (.inl ⟨_, h1, h2, h3⟩)), rfl⟩)
    | block h1 h2 => exact .inl (List.mem_map.2 ⟨i, (mem_namedItems m i).2 (.inr (.inr ⟨h1, h2⟩)), rfl⟩)
    | spec hs h1 h2 =>
      exact .inr (List.mem_flatMap.2 ⟨_, hs, List.mem_map.2 ⟨i, (mem_specItems _ i).2 (.inl ⟨h1, h2⟩), rfl⟩⟩)
    | specBlock hs h1 h2 =>
      exact .inr (List.mem_flatMap.2 ⟨_, hs, List.mem_map.2 ⟨i, (mem_specItems _ i).2 (.inr ⟨h1, h2⟩), rfl⟩⟩)

theorem mem_entries (w : Names) (f : Nat) (m : Elem) (e : Entry) :
    e ∈ importableEntries f m ++ relatedEntries w f m ↔ ∃ g i, Item w f m g i ∧ Stands e g i := by
  rw [entries_allItems, List.mem_filterMap]
  constructor
  · rintro ⟨⟨g, i⟩, h1, h2⟩
    exact ⟨g, i, (mem_allItems w f m g i).1 h1, (itemEntry_iff g i e).1 h2⟩
  · rintro ⟨g, i, h1, h2⟩
    exact ⟨(g, i), (mem_allItems w f m g i).2 h1, (itemEntry_iff g i e).2 h2⟩

/-- Items of a module are nodes of their files that have names of their own. -/
theorem block_chain {g : Green} {m i : Elem} {anc : List Elem} (hm : Chain g (m :: anc)) (h : InSpecBlock m i) :
    ∃ c, Chain g (i :: c) := by
  obtain ⟨s, h1, -, -, b, h2, h3⟩ := h
  exact ⟨_, .child (.child (.child hm h1) (nodeChild_mem h2).1) h3⟩

theorem item_chain {w : Names} (hw : Sane w) {f : Nat} {m : Elem} {anc : List Elem} (hm : Chain (w.tree f) (m :: anc)) {g : Nat} {i : Elem}
    (h : Item w f m g i) : (∃ c, Chain (w.tree g) (i :: c)) ∧ i.green.isTok = false ∧ i.kind ∈ namedKinds ∧ i.kind ≠ .VARIANT ∧
      i.kind ≠ .MODULE := by
  have hs : ∀ {g s}, (g, s) ∈ w.specs f m → Chain (w.tree g) [s, Elem.root (w.tree g)] :=
    fun h => .child .top (hw.specs _ _ _ _ h).1
  cases h with
  | item h1 h2 =>
    refine ⟨⟨_, .child hm h1⟩, ?_⟩
    rcases h2 with h | h | h | h | h | h <;> exact ⟨h.1, by rw [h.2]; decide, by rw [h.2]; decide, by rw [h.2]; decide⟩
  | lemma_ h1 h2 h3 =>
    obtain ⟨h4, h5⟩ := nodeChild_mem h3
    exact ⟨⟨_, .child (.child hm h1) h4⟩, h5.1, by rw [h5.2]; decide, by rw [h5.2]; decide, by rw [h5.2]; decide⟩
  | block h1 h2 =>
    refine ⟨block_chain hm h1, ?_⟩
    rcases h2 with h | h | h <;> exact ⟨h.1, by rw [h.2]; decide, by rw [h.2]; decide, by rw [h.2]; decide⟩
  | spec h0 h1 h2 =>
    refine ⟨⟨_, .child (hs h0) h1⟩, ?_⟩
    rcases h2 with h | h <;> exact ⟨h.1, by rw [h.2]; decide, by rw [h.2]; decide, by rw [h.2]; decide⟩
  | specBlock h0 h1 h2 =>
    refine ⟨block_chain (hs h0) h1, ?_⟩
    rcases h2 with h | h <;> exact ⟨h.1, by rw [h.2]; decide, by rw [h.2]; decide, by rw [h.2]; decide⟩

/-! ### No item is listed twice -/

/-- Different places. -/
abbrev PathsApart (a b : Elem) : Prop := a.path ≠ b.path

theorem chain_eq {g : Green} {a b : Elem} {c d : List Elem} (ha : Chain g (a :: c)) (hb : Chain g (b :: d)) (h : a.path = b.path) : a = b := by
  have h1 := locate ha
  rw [h, locate hb] at h1
  exact (List.cons.inj (Option.some.inj h1)).1.symm

/-- Lists of elements of different kinds or depths. -/
theorem parts_apart {g : Green} (parts : List ((SyntaxKind × Nat) × List Elem)) (hs : (parts.map Prod.fst).Nodup)
    (hk : ∀ p ∈ parts, ∀ e ∈ p.2, e.kind = p.1.1 ∧ e.path.length = p.1.2 ∧ ∃ c, Chain g (e :: c))
    (hp : ∀ p ∈ parts, p.2.Pairwise PathsApart) : (parts.flatMap Prod.snd).Pairwise PathsApart := by
  rw [List.pairwise_flatMap]
  refine ⟨hp, ?_⟩
  rw [List.Nodup, List.pairwise_map] at hs
  refine List.Pairwise.imp_of_mem ?_ hs
  intro p q hpm hqm hne a ha b hb h
  obtain ⟨h1, h2, c, h3⟩ := hk p hpm a ha
  obtain ⟨h4, h5, d, h6⟩ := hk q hqm b hb
  have := chain_eq h3 h6 h
  subst this
  exact hne (Prod.ext (h1.symm.trans h4) (h2.symm.trans h5))

theorem specDecls_apart (m : Elem) (k : SyntaxKind) : (specDecls m k).Pairwise PathsApart := by
  unfold specDecls
  rw [List.pairwise_flatMap]
  refine ⟨fun b _ => (children_nodup b).filter _, ?_⟩
  have hb : (moduleSpecBlocks m).Pairwise PathsApart := by
    unfold moduleSpecBlocks
    refine List.Pairwise.filterMap (R := PathsApart) _ ?_ (((children_nodup m).filter _).filter _)
    intro s s' hne b hb b' hb' h
    obtain ⟨j, hj, -⟩ := child_index (nodeChild_mem hb).1
    obtain ⟨j', hj', -⟩ := child_index (nodeChild_mem hb').1
    rw [hj, hj'] at h
    exact hne (List.cons.inj h).2
  refine hb.imp ?_
  intro b b' hne x hx y hy h
  obtain ⟨j, hj, -⟩ := child_index (List.mem_filter.1 hx).1
  obtain ⟨j', hj', -⟩ := child_index (List.mem_filter.1 hy).1
  rw [hj, hj'] at h
  exact hne (List.cons.inj h).2

theorem child_length {e c : Elem} (h : c ∈ e.children) : c.path.length = e.path.length + 1 := by
  obtain ⟨j, hj, -⟩ := child_index h
  simp [hj]

theorem itemsOfKind_part {g : Green} {m : Elem} {anc : List Elem} (hm : Chain g (m :: anc)) (k : SyntaxKind) :
    (∀ e ∈ itemsOfKind m k, e.kind = k ∧ e.path.length = m.path.length + 1 ∧ ∃ c, Chain g (e :: c)) ∧ (itemsOfKind m k).Pairwise PathsApart := by
  refine ⟨fun e he => ?_, (children_nodup m).filter _⟩
  obtain ⟨h1, h2⟩ := (mem_itemsOfKind m e k).1 he
  exact ⟨h2.2, child_length h1, _, .child hm h1⟩

theorem specDecls_part {g : Green} {m : Elem} {anc : List Elem} (hm : Chain g (m :: anc)) (k : SyntaxKind) :
    (∀ e ∈ specDecls m k, e.kind = k ∧ e.path.length = m.path.length + 3 ∧ ∃ c, Chain g (e :: c)) ∧ (specDecls m k).Pairwise PathsApart := by
  refine ⟨fun e he => ?_, specDecls_apart m k⟩
  obtain ⟨h1, h2⟩ := (mem_specDecls m e k).1 he
  refine ⟨h2.2, ?_, block_chain hm h1⟩
  obtain ⟨s, h3, -, -, b, h4, h5⟩ := h1
  rw [child_length h5, child_length (nodeChild_mem h4).1, child_length h3]

theorem lemmas_part {g : Green} {m : Elem} {anc : List Elem} (hm : Chain g (m :: anc)) :
    (∀ e ∈ (itemsOfKind m .SPEC_LEMMA).filterMap (fun l => nodeChild l .LEMMA),
      e.kind = .LEMMA ∧ e.path.length = m.path.length + 2 ∧ ∃ c, Chain g (e :: c)) ∧
    ((itemsOfKind m .SPEC_LEMMA).filterMap (fun l => nodeChild l .LEMMA)).Pairwise PathsApart := by
  constructor
  · intro e he
    obtain ⟨l, hl, h1⟩ := List.mem_filterMap.1 he
    obtain ⟨h2, h3⟩ := nodeChild_mem h1
    have h4 := ((mem_itemsOfKind m l _).1 hl).1
    exact ⟨h3.2, by rw [child_length h2, child_length h4], _, .child (.child hm h4) h2⟩
  · refine List.Pairwise.filterMap (R := PathsApart) _ ?_ ((children_nodup m).filter _)
    intro s s' hne b hb b' hb' h
    obtain ⟨j, hj, -⟩ := child_index (nodeChild_mem hb).1
    obtain ⟨j', hj', -⟩ := child_index (nodeChild_mem hb').1
    rw [hj, hj'] at h
    exact hne (List.cons.inj h).2

theorem namedItems_apart {g : Green} {m : Elem} {anc : List Elem} (hm : Chain g (m :: anc)) :
    (namedItems m ++ specDecls m .GLOBAL_VARIABLE_DECL).Pairwise PathsApart := by
  have := parts_apart (g := g)
    [((.CONST, m.path.length + 1), itemsOfKind m .CONST), ((.ENUM, m.path.length + 1), itemsOfKind m .ENUM),
     ((.STRUCT, m.path.length + 1), itemsOfKind m .STRUCT), ((.SCHEMA, m.path.length + 1), itemsOfKind m .SCHEMA),
     ((.FUN, m.path.length + 1), itemsOfKind m .FUN), ((.SPEC_FUN, m.path.length + 1), itemsOfKind m .SPEC_FUN),
     ((.SPEC_INLINE_FUN, m.path.length + 3), specDecls m .SPEC_INLINE_FUN),
     ((.LEMMA, m.path.length + 2), (itemsOfKind m .SPEC_LEMMA).filterMap fun l => nodeChild l .LEMMA),
     ((.LEMMA, m.path.length + 3), specDecls m .LEMMA),
     ((.GLOBAL_VARIABLE_DECL, m.path.length + 3), specDecls m .GLOBAL_VARIABLE_DECL)] (by simp)
    (by simp only [List.forall_mem_cons, List.not_mem_nil, false_imp_iff, implies_true, and_true]
        exact ⟨(itemsOfKind_part hm _).1, (itemsOfKind_part hm _).1, (itemsOfKind_part hm _).1, (itemsOfKind_part hm _).1,
          (itemsOfKind_part hm _).1, (itemsOfKind_part hm _).1, (specDecls_part hm _).1, (lemmas_part hm).1, (specDecls_part hm _).1,
          (specDecls_part hm _).1⟩)
    (by simp only [List.forall_mem_cons, List.not_mem_nil, false_imp_iff, implies_true, and_true]
        exact ⟨(itemsOfKind_part hm _).2, (itemsOfKind_part hm _).2, (itemsOfKind_part hm _).2, (itemsOfKind_part hm _).2,
          (itemsOfKind_part hm _).2, (itemsOfKind_part hm _).2, (specDecls_part hm _).2, (lemmas_part hm).2, (specDecls_part hm _).2,
          (specDecls_part hm _).2⟩)
  simpa [namedItems, List.append_assoc] using this

theorem specItems_apart {g : Green} {m : Elem} {anc : List Elem} (hm : Chain g (m :: anc)) : (specItems m).Pairwise PathsApart := by
  have := parts_apart (g := g)
    [((.SCHEMA, m.path.length + 1), itemsOfKind m .SCHEMA), ((.SPEC_FUN, m.path.length + 1), itemsOfKind m .SPEC_FUN),
     ((.SPEC_INLINE_FUN, m.path.length + 3), specDecls m .SPEC_INLINE_FUN),
     ((.GLOBAL_VARIABLE_DECL, m.path.length + 3), specDecls m .GLOBAL_VARIABLE_DECL)] (by simp)
    (by simp only [List.forall_mem_cons, List.not_mem_nil, false_imp_iff, implies_true, and_true]
        exact ⟨(itemsOfKind_part hm _).1, (itemsOfKind_part hm _).1, (specDecls_part hm _).1, (specDecls_part hm _).1⟩)
    (by simp only [List.forall_mem_cons, List.not_mem_nil, false_imp_iff, implies_true, and_true]
        exact ⟨(itemsOfKind_part hm _).2, (itemsOfKind_part hm _).2, (specDecls_part hm _).2, (specDecls_part hm _).2⟩)
  simpa [specItems, List.append_assoc] using this

/-- A module is in a child of the root that is no module specification. -/
theorem declares_under {root m : Elem} {anc : List Elem} {b : Address} (hm : Is .MODULE m) (h : Declares root m anc b) :
    ∃ d pre, d ∈ root.children ∧ d.kind ≠ .MODULE_SPEC ∧ m.path = pre ++ d.path := by
  cases h with
  | own h1 _ => exact ⟨m, [], h1, by rw [hm.2]; decide, rfl⟩
  | @ownInner d _ h1 hd h2 _ =>
    obtain ⟨j, hj, -⟩ := child_index h2
    exact ⟨d, [j], h1, by rw [hd.2]; decide, hj⟩
  | @outer d _ h1 hd h2 _ _ =>
    obtain ⟨j, hj, -⟩ := child_index h2
    exact ⟨d, [j], h1, by rw [hd.2]; decide, hj⟩

theorem under_eq {g : Green} {c d : Elem} {pre pre' : List Nat} (hc : c ∈ (Elem.root g).children) (hd : d ∈ (Elem.root g).children)
    (h : pre ++ c.path = pre' ++ d.path) : c = d := by
  obtain ⟨i, hi, h1⟩ := child_index hc
  obtain ⟨j, hj, h2⟩ := child_index hd
  rw [hi, hj] at h
  have h3 := congrArg List.getLast? h
  simp [Elem.root] at h3
  subst h3
  rw [h1] at h2
  exact Option.some.inj h2

theorem allItems_apart {w : Names} (hw : Sane w) {f : Nat} {m : Elem} {anc : List Elem} {b : Address} (hm : Is .MODULE m)
    (hd : Declares (Elem.root (w.tree f)) m anc b) : (allItems w f m).Pairwise fun x y => x.1 ≠ y.1 ∨ PathsApart x.2 y.2 := by
  unfold allItems
  rw [List.pairwise_append]
  refine ⟨?_, ?_, ?_⟩
  · rw [List.pairwise_map]
    exact (namedItems_apart (declares_chain hd)).imp fun h => .inr h
  · rw [List.pairwise_flatMap]
    refine ⟨?_, ?_⟩
    · rintro ⟨g, s⟩ hs
      rw [List.pairwise_map]
      exact (specItems_apart (.child .top (hw.specs _ _ _ _ hs).1)).imp fun h => .inr h
    · refine List.Pairwise.imp_of_mem ?_ (hw.specsOnce f m)
      rintro ⟨g, s⟩ ⟨g', s'⟩ hs hs' hne x hx y hy
      obtain ⟨i, hi, rfl⟩ := List.mem_map.1 hx
      obtain ⟨i', hi', rfl⟩ := List.mem_map.1 hy
      by_cases hg : g = g'
      · right
        subst hg
        intro hpath
        have under : ∀ {z k : Elem}, k ∈ specItems z → ∃ pre, k.path = pre ++ z.path := by
          intro z k hk
          rcases (mem_specItems z k).1 hk with ⟨h1, -⟩ | ⟨⟨t, h1, -, -, q, h2, h3⟩, -⟩
          · obtain ⟨j, hj, -⟩ := child_index h1
            exact ⟨[j], hj⟩
          · obtain ⟨j, hj, -⟩ := child_index h1
            obtain ⟨k, hk, -⟩ := child_index (nodeChild_mem h2).1
            obtain ⟨l, hl, -⟩ := child_index h3
            exact ⟨[l, k, j], by rw [hl, hk, hj]; rfl⟩
        obtain ⟨pre, h1⟩ := under hi
        obtain ⟨pre', h2⟩ := under hi'
        dsimp only at hpath h1 h2
        rw [h1, h2] at hpath
        exact hne (by rw [under_eq (hw.specs _ _ _ _ hs).1 (hw.specs _ _ _ _ hs').1 hpath])
      · exact .inl hg
  · rintro ⟨g, i⟩ hx ⟨g', i'⟩ hy
    obtain ⟨k, hk, h0⟩ := List.mem_map.1 hx
    cases h0
    obtain ⟨⟨g2, s⟩, hs, h1⟩ := List.mem_flatMap.1 hy
    obtain ⟨k', hk', h2⟩ := List.mem_map.1 h1
    cases h2
    by_cases hg : f = g2
    · right
      subst hg
      intro hpath
      obtain ⟨hs1, hs2⟩ := hw.specs _ _ _ _ hs
      obtain ⟨d, pre, hd1, hd2, hd3⟩ := declares_under hm hd
      have hi : ∃ pre, i.path = pre ++ m.path := by
        rcases (mem_namedItems m i).1 hk with ⟨h1, -⟩ | ⟨l, h1, -, h2⟩ | ⟨⟨t, h1, -, -, q, h2, h3⟩, -⟩
        · obtain ⟨j, hj, -⟩ := child_index h1
          exact ⟨[j], hj⟩
        · obtain ⟨j, hj, -⟩ := child_index h1
          obtain ⟨k, hk, -⟩ := child_index (nodeChild_mem h2).1
          exact ⟨[k, j], by rw [hk, hj]; rfl⟩
        · obtain ⟨j, hj, -⟩ := child_index h1
          obtain ⟨k, hk, -⟩ := child_index (nodeChild_mem h2).1
          obtain ⟨l, hl, -⟩ := child_index h3
          exact ⟨[l, k, j], by rw [hl, hk, hj]; rfl⟩
      have hi' : ∃ pre, i'.path = pre ++ s.path := by
        rcases (mem_specItems s i').1 hk' with ⟨h1, -⟩ | ⟨⟨t, h1, -, -, q, h2, h3⟩, -⟩
        · obtain ⟨j, hj, -⟩ := child_index h1
          exact ⟨[j], hj⟩
        · obtain ⟨j, hj, -⟩ := child_index h1
          obtain ⟨k, hk, -⟩ := child_index (nodeChild_mem h2).1
          obtain ⟨l, hl, -⟩ := child_index h3
          exact ⟨[l, k, j], by rw [hl, hk, hj]; rfl⟩
      obtain ⟨p1, hp1⟩ := hi
      obtain ⟨p2, hp2⟩ := hi'
      dsimp only at hpath
      rw [hp1, hp2, hd3, ← List.append_assoc] at hpath
      have := under_eq hd1 hs1 hpath
      subst this
      exact hd2 hs2.2
    · exact .inl hg

theorem entries_nodup {w : Names} (hw : Sane w) {f : Nat} {m : Elem} {anc : List Elem} {b : Address} (hm : Is .MODULE m)
    (hd : Declares (Elem.root (w.tree f)) m anc b) : (importableEntries f m ++ relatedEntries w f m).Nodup := by
  rw [entries_allItems]
  refine List.Pairwise.filterMap _ ?_ (allItems_apart hw hm hd)
  intro x y hne e he e' he' h
  rw [itemEntry_iff] at he he'
  subst h
  rcases hne with hne | hne
  · exact hne (he.2.2.1.symm.trans he'.2.2.1)
  · exact hne (he.2.2.2.symm.trans he'.2.2.2)

/-! ### Functions and other items -/

theorem functionCase_iff {L : List Entry} (hL : L.Nodup) (v : Entry → Option Invisible) (c : Bool) (e : Entry) (r : Option Invisible) :
    (e, r) ∈ functionCase c (L.map fun e => (e, v e)) ↔ Chosen c (fun x => x ∈ L) e ∧ r = v e := by
  have hmem : ∀ M : List Entry, (e, r) ∈ M.map (fun e => (e, v e)) ↔ e ∈ M ∧ r = v e := by
    intro M
    rw [List.mem_map]
    constructor
    · rintro ⟨x, hx, h⟩
      cases h
      exact ⟨hx, rfl⟩
    · rintro ⟨h1, rfl⟩
      exact ⟨e, h1, rfl⟩
  have hfil : ∀ P : Entry → Bool, (L.map fun e => (e, v e)).filter (fun x => P x.1) = (L.filter P).map fun e => (e, v e) := by
    intro P
    rw [List.filter_map]
    rfl
  unfold functionCase Chosen
  dsimp only
  rw [hfil fun x => decide (x.ns = .FUNCTION), hfil fun x => decide (x.ns ≠ .FUNCTION)]
  cases c with
  | true =>
    simp only [if_true, Bool.not_eq_true', true_imp_iff, Bool.true_eq_false, false_imp_iff, and_true]
    by_cases hn : L.filter (fun x => decide (x.ns = .FUNCTION)) = []
    · rw [hn]
      have hall : ∀ x ∈ L, x.ns ≠ .FUNCTION := by simpa [List.filter_eq_nil_iff] using hn
      simp only [List.map_nil, List.isEmpty_nil, Bool.true_eq_false, if_false, hmem]
      constructor
      · rintro ⟨h1, h2⟩; exact ⟨⟨h1, .inr hall⟩, h2⟩
      · rintro ⟨⟨h1, -⟩, h2⟩; exact ⟨h1, h2⟩
    · have hne : ((L.filter fun x => decide (x.ns = .FUNCTION)).map fun e => (e, v e)).isEmpty = false := by
        simpa using hn
      rw [if_pos hne, hmem]
      simp only [List.mem_filter, decide_eq_true_eq]
      obtain ⟨y, hy⟩ := List.exists_mem_of_ne_nil _ hn
      simp only [List.mem_filter, decide_eq_true_eq] at hy
      constructor
      · rintro ⟨⟨h1, h2⟩, h3⟩; exact ⟨⟨h1, .inl h2⟩, h3⟩
      · rintro ⟨⟨h1, h2⟩, h3⟩
        refine ⟨⟨h1, ?_⟩, h3⟩
        rcases h2 with h2 | h2
        · exact h2
        · exact absurd hy.2 (h2 y hy.1)
  | false =>
    simp only [Bool.false_eq_true, if_false, false_imp_iff, true_and, true_imp_iff, List.length_map]
    have hN : (L.filter fun x => decide (x.ns ≠ .FUNCTION)).Nodup := hL.filter _
    have hu : (L.filter fun x => decide (x.ns ≠ .FUNCTION)).length = 1 ↔
        ∃ x, x ∈ L ∧ x.ns ≠ .FUNCTION ∧ ∀ y, y ∈ L → y.ns ≠ .FUNCTION → y = x := by
      constructor
      · intro h
        obtain ⟨x, hx⟩ := List.length_eq_one_iff.1 h
        have hx' : ∀ y, (y ∈ L ∧ y.ns ≠ .FUNCTION) ↔ y = x := by
          intro y
          have : y ∈ L.filter (fun x => decide (x.ns ≠ .FUNCTION)) ↔ y = x := by rw [hx]; simp
          simpa [List.mem_filter] using this
        exact ⟨x, ((hx' x).2 rfl).1, ((hx' x).2 rfl).2, fun y h1 h2 => (hx' y).1 ⟨h1, h2⟩⟩
      · rintro ⟨x, h1, h2, h3⟩
        have hx : x ∈ L.filter (fun x => decide (x.ns ≠ .FUNCTION)) := by simp [List.mem_filter, h1, h2]
        have hall : ∀ y ∈ L.filter (fun x => decide (x.ns ≠ .FUNCTION)), y = x := by
          intro y hy
          simp only [List.mem_filter, decide_eq_true_eq] at hy
          exact h3 y hy.1 hy.2
        generalize L.filter (fun x => decide (x.ns ≠ .FUNCTION)) = M at *
        match M with
        | [] => cases hx
        | [a] => rfl
        | a :: b :: M =>
          have h1 := hall a (by simp)
          have h2 := hall b (by simp)
          subst h1
          subst h2
          simp at hN
    by_cases hone : (L.filter fun x => decide (x.ns ≠ .FUNCTION)).length = 1
    · have hex := hu.1 hone
      rw [if_pos hone]
      have hres : (e, r) ∈ (if L.length > 1 then (L.filter fun x => decide (x.ns ≠ .FUNCTION)).map fun e => (e, v e)
          else L.map fun e => (e, v e)) ↔ (e ∈ L ∧ e.ns ≠ .FUNCTION) ∧ r = v e := by
        split
        · rw [hmem]; simp [List.mem_filter]
        · rename_i hlen
          rw [hmem]
          obtain ⟨x, h1, h2, -⟩ := hex
          have hL1 : L = [x] := by
            match L, h1, hlen with
            | [y], h1, _ => simp at h1; rw [h1]
            | a :: b :: M, _, hlen => simp at hlen
          rw [hL1]
          simp only [List.mem_singleton]
          constructor
          · rintro ⟨rfl, h⟩; exact ⟨⟨rfl, h2⟩, h⟩
          · rintro ⟨⟨rfl, -⟩, h⟩; exact ⟨rfl, h⟩
      rw [hres]
      constructor
      · rintro ⟨⟨h1, h2⟩, h3⟩; exact ⟨⟨h1, .inl h2⟩, h3⟩
      · rintro ⟨⟨h1, h2⟩, h3⟩
        refine ⟨⟨h1, ?_⟩, h3⟩
        rcases h2 with h2 | h2
        · exact h2
        · exact absurd hex h2
    · rw [if_neg hone, ite_self, hmem]
      have hex := mt hu.2 hone
      constructor
      · rintro ⟨h1, h2⟩; exact ⟨⟨h1, .inr hex⟩, h2⟩
      · rintro ⟨⟨h1, -⟩, h2⟩; exact ⟨h1, h2⟩

end Verif.Nameres.Full
