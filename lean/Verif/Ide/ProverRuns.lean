import Verif.Ide.Specs
import Verif.Ide.SpecsExamples

/-! C87: what the prover can be run on from a file.

The second part of `runnables` (ide/src/runnables.rs), with `visit_item_specs` (ide-db/src/helpers.rs). `World` is that of C86. That a
specification of a module leads to the same module in `from_module_spec` and in `ModuleSpec::module` is taken for granted. -/

namespace Verif.Ide.Specs
open Verif Verif.Syntax Verif.Nameres
open Verif.Parser (Green)
open Verif.Nameres.Full (Is Declares isNode_iff nodeChild_mem mem_itemsOfKind declares_iff headPath)
open Verif.Nameres.AutoImport (Declared fqName mem_allModules allModules_ne declared_chain declared_module)
open Verif.Ide.Usages (Parsed parseOf parseOf_parsed)
open Verif.Ide.Counts (First nodeChild_iff)
open Verif.Ide.Runnables (Runnable joined Lens runnables Plain aptosArgs)
open Verif.Outline (NameOf nodeChild_spec nodeChild_of)
open Verif.Symbols (nameText_parsed)

/-! ### Model -/

/-- `fq_name` of an item of a module (lang/src/nameres/fq_named_element.rs): the module is its parent. -/
def fqOf (w : World) (c : Nat) (f : Elem) : Option (List Nameres.Text) :=
  ((allModules (Elem.root (w.tree c))).find? fun l => decide (headPath l = f.path.tail)).bind fun l => fqName ⟨c, f, l⟩

/-- `runnable_for_module_spec` (runnables.rs:158–169) with `from_module_spec` (navigation_target.rs:101–117). There is no `focus_range`;
`cmp_runnables` takes 0 for it. -/
def forModuleSpec (w : World) (a : Nat) (o : Elem) : Option Runnable :=
  (nodeChild o .PATH).bind fun p => (moduleOf w a o).bind fun (_, m) =>
    (nameText m).map fun n => ⟨n, (0, 0), (p.start, p.stop), false, .proveModule n⟩

/-- `runnable_for_fun_item_spec` (runnables.rs:171–184) with its call (runnables.rs:98–105). -/
def forItemSpec (w : World) (a : Nat) (o s : Elem) : Option Runnable :=
  (nodeChild s .ITEM_SPEC_REF).bind fun r => (itemOf w a o s).bind fun (c, f) =>
    if isNode .FUN f then
      (fqOf w c f).map fun q => ⟨q.getLastD [], (0, 0), (r.start, r.stop), false, .proveFun (joined q.tail)⟩
    else none

/-- The second part of `runnables` (runnables.rs:90–105) with `visit_item_specs` (helpers.rs:41–58). -/
def proofs (w : World) (a : Nat) : List Runnable :=
  let specs := (Elem.root (w.tree a)).children.filter (isNode .MODULE_SPEC)
  specs.filterMap (forModuleSpec w a) ++
    ((allModules (Elem.root (w.tree a))).flatMap fun
      | [] => []
      | m :: _ => (itemSpecs m).filterMap (forItemSpec w a m)) ++
    specs.flatMap fun o => (itemSpecs o).filterMap (forItemSpec w a o)

/-! ### Specification -/

/-- The specification stands, in the file `a`, in the module `m` of the file `c` or in a specification of it. -/
inductive Within (w : World) (a : Nat) (s : Elem) (c : Nat) (m : Elem) : Prop where
  | own : a = c → s ∈ m.children → Within w a s c m
  | apart {o} : o ∈ (Elem.root (w.tree a)).children → Is .MODULE_SPEC o → w.target a o = some (c, m.path) → s ∈ o.children →
      Within w a s c m

/-- What the prover can be run on: the modules that are specified in the file, and the functions that are. All of them have names, and the
modules of functions have an address. -/
inductive Proof (w : World) (a : Nat) : Runnable → Prop where
  | module {o p c m anc mn} : o ∈ (Elem.root (w.tree a)).children → Is .MODULE_SPEC o → First [.PATH] o p →
      w.target a o = some (c, m.path) → Declared (w.tree c) m anc → nameText m = some mn →
      Proof w a ⟨mn, (0, 0), (p.start, p.stop), false, .proveModule mn⟩
  | function {c m anc b mn f s r n} : Declares (Elem.root (w.tree c)) m anc b → Is .MODULE m → nameText m = some mn →
      Within w a s c m → Is .ITEM_SPEC s → Refers s r n → OnlyOne m f n → Is .FUN f →
      Proof w a ⟨n, (0, 0), (r.start, r.stop), false, .proveFun (mn ++ "::".toList ++ n)⟩

/-! ### Proofs -/

theorem parent_find {g : Green} {m f : Elem} {anc : List Elem} (hd : Declared g m anc) (hf : f ∈ m.children) :
    ((allModules (Elem.root g)).find? fun l => decide (headPath l = f.path.tail)) = some (m :: anc) := by
  obtain ⟨j, hj, -⟩ := Full.child_index hf
  have h1 := (mem_allModules _ _ _).2 hd
  cases h : (allModules (Elem.root g)).find? fun l => decide (headPath l = f.path.tail) with
  | none => have := List.find?_eq_none.1 h _ h1; simp [headPath, hj] at this
  | some l =>
    have h3 : headPath l = f.path.tail := by simpa using List.find?_some h
    have h4 := List.mem_of_find?_eq_some h
    obtain ⟨x, anc', rfl⟩ := allModules_ne h4
    have hx : x.path = m.path := by simpa [headPath, hj] using h3
    have hc := declared_chain ((mem_allModules _ _ _).1 h4)
    have := Full.chain_eq hc (declared_chain hd) hx
    subst this
    rw [Locs.path_unique hc (declared_chain hd) rfl]

theorem moduleOf_spec (w : World) (a c : Nat) {o : Elem} (m : Elem) (ho : Is .MODULE_SPEC o) :
    moduleOf w a o = some (c, m) ↔ w.target a o = some (c, m.path) ∧ ∃ anc, Declared (w.tree c) m anc := by
  unfold moduleOf
  have hk : o.kind = .MODULE_SPEC := ho.2
  rw [hk, if_neg (by decide), if_pos rfl]
  constructor
  · intro h
    obtain ⟨⟨c', p⟩, h1, h⟩ := Option.bind_eq_some_iff.1 h
    obtain ⟨x, h2, h⟩ := Option.map_eq_some_iff.1 h
    cases h
    have h3 : m.path = p := by simpa using List.find?_some h2
    obtain ⟨l, h4, h5⟩ := List.mem_filterMap.1 (List.mem_of_find?_eq_some h2)
    obtain ⟨x, anc, rfl⟩ := allModules_ne h4
    cases h5
    exact ⟨by rw [h1, h3], anc, (mem_allModules _ _ _).1 h4⟩
  · rintro ⟨h1, anc, hd⟩
    rw [h1, Option.bind_some]
    dsimp only
    rw [find_module hd, Option.map_some]

theorem fqOf_iff {w : World} {c : Nat} (hp : Parsed (w.tree c)) {m f : Elem} {anc : List Elem} (hd : Declared (w.tree c) m anc)
    (hf : f ∈ m.children) (hk : Is .FUN f) (q : List Nameres.Text) :
    fqOf w c f = some q ↔ ∃ b mn fn, Declares (Elem.root (w.tree c)) m anc b ∧ nameText m = some mn ∧ nameText f = some fn ∧
      q = [AutoImport.addressIdent b, mn, fn] := by
  have hm := declared_module hd
  unfold fqOf
  rw [parent_find hd hf, Option.bind_some]
  have h := Runnables.fqName_fun (anc := anc) hm hk q
  have e : fqName ⟨c, f, m :: anc⟩ = fqName ⟨0, f, m :: anc⟩ := rfl
  rw [e, h]
  have hr : (Elem.root (w.tree c)).kind = .SOURCE_FILE := Runnables.parsed_source hp
  constructor
  · rintro ⟨b, mn, fn, h1, h2, h3, h4⟩
    exact ⟨b, mn, fn, (declares_iff hm hr).1 ⟨(mem_allModules _ _ _).2 hd, h1⟩, h2, h3, h4⟩
  · rintro ⟨b, mn, fn, h1, h2, h3, h4⟩
    exact ⟨b, mn, fn, ((declares_iff hm hr).2 h1).2, h2, h3, h4⟩

/-- One specification of an item. -/
theorem forItemSpec_iff {w : World} (hp : ∀ b, Parsed (w.tree b)) {a c : Nat} {m o s : Elem} {anc : List Elem}
    (hd : Declared (w.tree c) m anc) (hmo : moduleOf w a o = some (c, m)) (x : Runnable) :
    forItemSpec w a o s = some x ↔ ∃ b mn f r n, Declares (Elem.root (w.tree c)) m anc b ∧ nameText m = some mn ∧ Refers s r n ∧
      OnlyOne m f n ∧ Is .FUN f ∧ x = ⟨n, (0, 0), (r.start, r.stop), false, .proveFun (mn ++ "::".toList ++ n)⟩ := by
  have hitem : ∀ c' f, itemOf w a o s = some (c', f) ↔ c' = c ∧ ∃ r n, Refers s r n ∧ OnlyOne m f n := by
    intro c' f
    unfold itemOf
    rw [hmo]
    simp only [Option.bind_eq_some_iff, Option.bind_some, specName_iff]
    constructor
    · rintro ⟨n, ⟨r, h1⟩, h2⟩
      split at h2
      · rename_i i hi
        cases h2
        exact ⟨rfl, r, n, h1, (targets_single _ _ _).1 hi⟩
      · cases h2
    · rintro ⟨rfl, r, n, h1, h2⟩
      refine ⟨n, ⟨r, h1⟩, ?_⟩
      rw [(targets_single _ _ _).2 h2]
  unfold forItemSpec
  constructor
  · intro h
    obtain ⟨r, h1, h⟩ := Option.bind_eq_some_iff.1 h
    obtain ⟨⟨c', f⟩, h2, h⟩ := Option.bind_eq_some_iff.1 h
    obtain ⟨rfl, r', n, h3, h4⟩ := (hitem c' f).1 h2
    dsimp only at h
    split at h
    · rename_i hk
      have hk := (isNode_iff _ _).1 hk
      obtain ⟨q, h5, rfl⟩ := Option.map_eq_some_iff.1 h
      obtain ⟨b, mn, fn, h6, h7, h8, rfl⟩ := (fqOf_iff (hp c') hd h4.1.1 hk q).1 h5
      have h9 := h4.2.1
      rw [h8] at h9
      cases h9
      have h10 := nodeChild_iff.2 h3.1
      rw [h1] at h10
      cases h10
      exact ⟨b, mn, f, r, n, h6, h7, h3, h4, hk, by simp [joined]⟩
    · cases h
  · rintro ⟨b, mn, f, r, n, h1, h2, h3, h4, h5, rfl⟩
    rw [nodeChild_iff.2 h3.1, Option.bind_some, (hitem c f).2 ⟨rfl, r, n, h3, h4⟩, Option.bind_some]
    dsimp only
    rw [if_pos ((isNode_iff _ _).2 h5), (fqOf_iff (hp c) hd h4.1.1 h5 _).2 ⟨b, mn, n, h1, h2, h4.2.1, rfl⟩]
    simp [joined]

theorem declared_of {g : Green} (hp : Parsed g) {m : Elem} {anc : List Elem} {b : Address} (hm : Is .MODULE m)
    (h : Declares (Elem.root g) m anc b) : Declared g m anc :=
  (mem_allModules _ _ _).1 ((declares_iff hm (Runnables.parsed_source hp)).2 h).1

/-- From a file the prover can be run exactly on the modules and on the functions that are specified in it, at the place that names them. -/
theorem C87_proofs {w : World} (hp : ∀ b, Parsed (w.tree b)) (a : Nat) (x : Runnable) : x ∈ proofs w a ↔ Proof w a x := by
  unfold proofs
  simp only [List.mem_append, List.mem_filterMap, List.mem_flatMap, List.mem_filter, isNode_iff]
  constructor
  · rintro ((⟨o, ⟨h1, h2⟩, h⟩ | ⟨l, hl, h⟩) | ⟨o, ⟨h1, h2⟩, s, h3, h⟩)
    · unfold forModuleSpec at h
      obtain ⟨p, h3, h⟩ := Option.bind_eq_some_iff.1 h
      obtain ⟨⟨c, m⟩, h4, h⟩ := Option.bind_eq_some_iff.1 h
      obtain ⟨n, h5, rfl⟩ := Option.map_eq_some_iff.1 h
      obtain ⟨h6, anc, h7⟩ := (moduleOf_spec w a c m h2).1 h4
      exact .module h1 h2 (nodeChild_iff.1 h3) h6 h7 h5
    · obtain ⟨m, anc, rfl⟩ := allModules_ne hl
      have hd := (mem_allModules _ _ _).1 hl
      obtain ⟨s, h3, h4⟩ := List.mem_filterMap.1 h
      obtain ⟨h3, h3'⟩ := List.mem_filter.1 h3
      have hmo : moduleOf w a m = some (a, m) := by unfold moduleOf; rw [if_pos (declared_module hd).2]
      obtain ⟨b, mn, f, r, n, h5, h6, h7, h8, h9, rfl⟩ := (forItemSpec_iff hp hd hmo x).1 h4
      exact .function h5 (declared_module hd) h6 (.own rfl h3) ((isNode_iff _ _).1 h3') h7 h8 h9
    · obtain ⟨h3, h3'⟩ := List.mem_filter.1 h3
      have : ∃ c m, moduleOf w a o = some (c, m) := by
        unfold forItemSpec at h
        obtain ⟨r, -, h⟩ := Option.bind_eq_some_iff.1 h
        obtain ⟨cf, h, -⟩ := Option.bind_eq_some_iff.1 h
        unfold itemOf at h
        obtain ⟨n, -, h⟩ := Option.bind_eq_some_iff.1 h
        obtain ⟨⟨c, m⟩, h, -⟩ := Option.bind_eq_some_iff.1 h
        exact ⟨c, m, h⟩
      obtain ⟨c, m, hmo⟩ := this
      obtain ⟨h4, anc, hd⟩ := (moduleOf_spec w a c m h2).1 hmo
      obtain ⟨b, mn, f, r, n, h5, h6, h7, h8, h9, rfl⟩ := (forItemSpec_iff hp hd hmo x).1 h
      exact .function h5 (declared_module hd) h6 (.apart h1 h2 h4 h3) ((isNode_iff _ _).1 h3') h7 h8 h9
  · intro h
    cases h with
    | @module o p c m anc mn h1 h2 h3 h4 h5 h6 =>
      refine .inl (.inl ⟨o, ⟨h1, h2⟩, ?_⟩)
      unfold forModuleSpec
      rw [nodeChild_iff.2 h3, Option.bind_some, (moduleOf_spec w a c m h2).2 ⟨h4, anc, h5⟩, Option.bind_some]
      dsimp only
      rw [h6]
      rfl
    | @function c m anc b mn f s r n h1 h2 h3 h4 h5 h6 h7 h8 =>
      have hd := declared_of (hp c) h2 h1
      have hs : ∀ {e : Elem}, s ∈ e.children → s ∈ itemSpecs e := fun h => List.mem_filter.2 ⟨h, (isNode_iff _ _).2 h5⟩
      cases h4 with
      | own h9 h10 =>
        subst h9
        have hmo : moduleOf w a m = some (a, m) := by unfold moduleOf; rw [if_pos h2.2]
        exact .inl (.inr ⟨m :: anc, (mem_allModules _ _ _).2 hd, List.mem_filterMap.2
          ⟨s, hs h10, (forItemSpec_iff hp hd hmo _).2 ⟨b, mn, f, r, n, h1, h3, h6, h7, h8, rfl⟩⟩⟩)
      | @apart o h9 h10 h11 h12 =>
        have hmo := (moduleOf_spec w a c m h10).2 ⟨h11, anc, hd⟩
        exact .inr ⟨o, ⟨h9, h10⟩, s, hs h12, (forItemSpec_iff hp hd hmo _).2 ⟨b, mn, f, r, n, h1, h3, h6, h7, h8, rfl⟩⟩

/-- All that can be run from a file. -/
theorem C87_all {w : World} (hp : ∀ b, Parsed (w.tree b)) (a : Nat) (x : Runnable) :
    x ∈ runnables (w.tree a) (proofs w a) ↔ Lens (w.tree a) x ∨ Proof w a x := by
  rw [Runnables.C84_lenses (hp a), C87_proofs hp]

/-- Each specification that is found from a function (C86) can be proved from the file that it is in. Asked of the module is that it has an
address and a name. -/
theorem C87_found {w : World} (hp : ∀ b, Parsed (w.tree b)) {a c : Nat} {m f o s r : Elem} {anc : List Elem} {b : Address}
    {mn n : List Char} (hd : Declares (Elem.root (w.tree c)) m anc b) (hm : Is .MODULE m) (hn : nameText m = some mn) (hk : Is .FUN f)
    (h : SpecOf w c m f a o s) (hr : Refers s r n) :
    ⟨n, (0, 0), (r.start, r.stop), false, .proveFun (mn ++ "::".toList ++ n)⟩ ∈ proofs w a := by
  obtain ⟨h1, r', n', h2, h3⟩ := h
  have e1 : r' = r := by
    have h4 := nodeChild_iff.2 h2.1
    rw [nodeChild_iff.2 hr.1] at h4
    cases h4; rfl
  subst e1
  have e2 : n' = n := by
    obtain ⟨-, x, h4, rfl⟩ := h2
    obtain ⟨-, y, h5, rfl⟩ := hr
    have h4 := nodeChild_iff.2 h4
    rw [nodeChild_iff.2 h5] at h4
    cases h4; rfl
  subst e2
  rw [C87_proofs hp]
  cases h1 with
  | own h4 h5 => exact .function hd hm hn (.own rfl h4) h5 hr h3 hk
  | apart h4 h5 h6 h7 h8 h9 => exact .function hd hm hn (.apart h5 h6 h7 h8) h9 hr h3 hk

/-- What the prover is run on tells the names of the module and of the function. Missing: the address. -/
theorem C87_names_partial {g g' : Green} (hp : Parsed g) (hp' : Parsed g') {m mn m' mn' : Elem} {anc anc' : List Elem}
    (hc : Chain g (m :: anc)) (hn : NameOf m mn) (hc' : Chain g' (m' :: anc')) (hn' : NameOf m' mn') {n n' : List Char}
    (h : mn.green.text ++ "::".toList ++ n = mn'.green.text ++ "::".toList ++ n') : mn.green.text = mn'.green.text ∧ n = n' := by
  have p1 := (Runnables.name_plain hp hc hn).2
  have p2 := (Runnables.name_plain hp' hc' hn').2
  have e : "::".toList = [':', ':'] := rfl
  rw [e] at h
  generalize mn.green.text = x at *
  generalize mn'.green.text = y at *
  clear hc hn hc' hn'
  induction x generalizing y with
  | nil =>
    cases y with
    | nil => simpa using h
    | cons d y =>
      simp only [List.nil_append, List.cons_append, List.cons.injEq] at h
      exact absurd (by rw [← h.1]; simp) p2
  | cons d x ih =>
    cases y with
    | nil =>
      simp only [List.nil_append, List.cons_append, List.cons.injEq] at h
      exact absurd (by rw [h.1]; simp) p1
    | cons d' y =>
      simp only [List.cons_append, List.cons.injEq] at h
      obtain ⟨rfl, h⟩ := h
      obtain ⟨h1, h2⟩ := ih (fun h => p1 (List.mem_cons_of_mem _ h)) y (fun h => p2 (List.mem_cons_of_mem _ h)) (by simpa using h)
      exact ⟨by rw [h1], h2⟩

/-! ### Examples -/

/-- From the file of the module `f` can be proved, and from the other file the module, `g` and `f`. -/
example : (∀ b, Parsed (exWorld.tree b)) ∧
    proofs exWorld 0 = [⟨"f".toList, (0, 0), (38, 39), false, .proveFun "m::f".toList⟩] ∧
    proofs exWorld 1 = [⟨"m".toList, (0, 0), (5, 11), false, .proveModule "m".toList⟩,
      ⟨"g".toList, (0, 0), (17, 18), false, .proveFun "m::g".toList⟩,
      ⟨"f".toList, (0, 0), (26, 27), false, .proveFun "m::f".toList⟩] :=
  ⟨ex_parsed, by decide +kernel, by decide +kernel⟩

/-- The hypotheses of `C87_found` hold of a specification in the other file. -/
example : (∀ b, Parsed (exWorld.tree b)) ∧ ∃ m anc b f o s r mn n, Declares (Elem.root (exWorld.tree 0)) m anc b ∧ Is .MODULE m ∧
    nameText m = some mn ∧ Is .FUN f ∧ SpecOf exWorld 0 m f 1 o s ∧ Refers s r n := by
  refine ⟨ex_parsed, ?_⟩
  have h : (allModules (Elem.root (exWorld.tree 0))).any (fun l => match l with
      | [] => false
      | m :: anc => (moduleAddress (m :: anc)).isSome && (nameText m).isSome && (specsNear exWorld 0 m).any fun x =>
          decide (x.1 = 1) && match itemOf exWorld x.1 x.2.1 x.2.2 with
            | some (_, f) => isNode .FUN f
            | none => false) = true := by decide +kernel
  obtain ⟨l, h1, h2⟩ := List.any_eq_true.1 h
  obtain ⟨m, anc, rfl⟩ := allModules_ne h1
  have hd := (mem_allModules _ _ _).1 h1
  simp only [Bool.and_eq_true, Option.isSome_iff_exists, List.any_eq_true, decide_eq_true_eq] at h2
  obtain ⟨⟨⟨b, hb⟩, mn, hmn⟩, ⟨b', o, s⟩, h3, h4, h5⟩ := h2
  have h4 : b' = 1 := h4
  subst h4
  have h3 := (mem_specsNear _ _ _ _ _ _).1 h3
  split at h5
  · rename_i c f hf
    obtain ⟨-, r, n, h6, h7⟩ := (itemOf_iff hd h3 c f).1 hf
    exact ⟨m, anc, b, f, o, s, r, mn, n, (declares_iff (declared_module hd) (Runnables.parsed_source (ex_parsed 0))).1 ⟨h1, hb⟩,
      declared_module hd, hmn, (isNode_iff _ _).1 h5, ⟨h3, r, n, h6, h7⟩, h6⟩
  · cases h5

def exTwo : World where
  tree := fun _ => (parseOf "module 0x1::m{fun f(){}spec f{}} module 0x2::m{fun f(){}spec f{}}".toList).1
  related := fun _ => []
  target := fun _ _ => none

/-- The prover is run on the same names for functions of modules at different addresses. -/
theorem C87_address_fails : (∀ b, Parsed (exTwo.tree b)) ∧
    (allModules (Elem.root (exTwo.tree 0))).map (fun l => (moduleAddress l).map AutoImport.addressIdent) =
      [some "0x1".toList, some "0x2".toList] ∧
    proofs exTwo 0 = [⟨"f".toList, (0, 0), (28, 29), false, .proveFun "m::f".toList⟩,
      ⟨"f".toList, (0, 0), (61, 62), false, .proveFun "m::f".toList⟩] :=
  ⟨fun _ => parseOf_parsed (by decide +kernel) (by decide +kernel), by decide +kernel, by decide +kernel⟩

/-- The hypotheses of `C87_names_partial` hold of the module of a file. -/
example : Parsed (exWorld.tree 0) ∧ ∃ m mn anc, Chain (exWorld.tree 0) (m :: anc) ∧ NameOf m mn := by
  refine ⟨ex_parsed 0, ?_⟩
  have h : (allModules (Elem.root (exWorld.tree 0))).any (fun l => match l with
      | [] => false
      | m :: _ => (nodeChild m .NAME).isSome) = true := by decide +kernel
  obtain ⟨l, h1, h2⟩ := List.any_eq_true.1 h
  obtain ⟨m, anc, rfl⟩ := allModules_ne h1
  obtain ⟨mn, h2⟩ := Option.isSome_iff_exists.1 h2
  exact ⟨m, mn, anc, declared_chain ((mem_allModules _ _ _).1 h1), nodeChild_spec h2⟩

end Verif.Ide.Specs
