import Verif.Ide.Runnables

/-! C84: proofs. -/

namespace Verif.Ide.Runnables
open Verif Verif.Syntax Verif.Nameres
open Verif.Parser (Green Piece)
open Verif.Nameres.Full (Is Declares isNode_iff nodeChild_mem mem_itemsOfKind mem_specDecls allModules_module declares_iff allModules_nodup
  headPath children_nodup child_index)
open Verif.Nameres.AutoImport (fqName addressIdent moduleName mem_allModules allModules_ne declared_chain declared_module)
open Verif.Outline (NameOf nodeChild_spec nodeChild_of)
open Verif.Ide.Usages (Parsed)
open Verif.Symbols (parsed_ident nameText_parsed)
open Verif.Nameres.Locs (Direct C78_different locOf)

/-! ### Names -/

/-- A text without colons that is not empty. -/
def Plain (w : List Char) : Prop := w ≠ [] ∧ ':' ∉ w

open Verif.Parser Verif.Lexer in
theorem leaf_plain {ps ls : List Piece} (hf : ∀ p ∈ ps, Fine p) (h : Regroups ps ls) : ∀ x ∈ ls, x.kind = .IDENT → Plain x.text := by
  intro x hx hk
  have noColon : ∀ c : Char, isLetter c = true ∨ c = '_' ∨ isDigit c = true → c ≠ ':' := by
    rintro c hc rfl
    revert hc
    decide
  rcases Verif.Syntax.leaf_group h x hx with ⟨-, h1⟩ | ⟨run, h1, h2, h3⟩
  · rw [hk] at h1; exact absurd h1 (by decide)
  · rw [hk] at h2
    generalize hkk : SyntaxKind.IDENT = k at h2
    cases h2 with
    | same t =>
      obtain ⟨rest, hd⟩ := (hf t (h1 t (by simp))).described
      obtain ⟨⟨c, cs, h4, h5, h6⟩, -⟩ := hd.ident hkk.symm
      rw [h3]
      simp only [List.map_cons, List.map_nil, List.flatten_cons, List.flatten_nil, List.append_nil]
      rw [h4]
      refine ⟨by simp, fun hd => ?_⟩
      rcases List.mem_cons.1 hd with hd | hd
      · exact noColon c (by tauto) hd.symm
      · exact noColon _ (h6 _ hd) rfl
    | operator k w run h4 =>
      subst hkk
      have : ∀ y ∈ Verif.Parser.operators, y.1 ≠ .IDENT := by decide
      exact absurd rfl (this _ h4)
    | word k w t h4 =>
      subst hkk
      have : ∀ y ∈ Verif.Parser.contextual, y.1 ≠ .IDENT := by decide
      exact absurd rfl (this _ h4)
    | name t ht =>
      obtain ⟨rest, hd⟩ := (hf t (h1 t (by simp))).described
      rw [h3]
      simp only [List.map_cons, List.map_nil, List.flatten_cons, List.flatten_nil, List.append_nil]
      rcases ht with ht | ht
      · rw [(hd.keyword ['_'] (by rw [ht]; decide)).1]; exact ⟨by decide, by decide⟩
      · rw [(hd.keyword "friend".toList (by rw [ht]; decide +kernel)).1]; exact ⟨by decide +kernel, by decide +kernel⟩
    | wildcard => cases hkk

theorem parsed_source {g : Green} (hp : Parsed g) : g.kind = .SOURCE_FILE := by
  obtain ⟨gr, debug, text, fuel, errs, h1, h2, h3, h4⟩ := hp
  rcases Verif.Parser.parseText_spec h1 h2 debug text h3 with ⟨h5, -⟩ | ⟨raw, ps, hr, hps, -, hfine, ⟨cs, e, h5, h6⟩ | ⟨w, h5, -⟩⟩
  · rw [h4] at h5; cases h5
  · rw [h4] at h5; cases h5; rfl
  · rw [h4] at h5; cases h5

/-- Names in a file are plain. -/
theorem name_plain {g : Green} (hp : Parsed g) {e n : Elem} {l : List Elem} (h : Chain g (e :: l)) (hn : NameOf e n) : Plain n.green.text := by
  obtain ⟨h2, h3⟩ := nodeChild_mem (nodeChild_of hn)
  have hc : Chain g (n :: e :: l) := .child h h2
  obtain ⟨w, hw, -⟩ := parsed_ident hp hc h3.2
  have ht : n.green.text = w := by simp [hw, Green.text, Green.leaves, Green.leavesList]
  rw [ht]
  obtain ⟨gr, debug, text, fuel, errs, h1, h2, h3, h4⟩ := hp
  rcases Verif.Parser.parseText_spec h1 h2 debug text h3 with ⟨h5, -⟩ | ⟨raw, ps, hr, hps, -, hfine, ⟨cs, e, h5, h6⟩ | ⟨w, h5, -⟩⟩
  · rw [h4] at h5; cases h5
  · rw [h4] at h5
    cases h5
    have hm := Verif.Ide.Extend.chain_leaves hc ⟨.IDENT, w⟩ (by rw [hw]; simp [Green.leaves, Green.leavesList])
    rw [Green.leaves] at hm
    exact leaf_plain hfine h6 ⟨.IDENT, w⟩ hm rfl
  · rw [h4] at h5; cases h5

/-! ### What can be run -/

theorem isTest_iff (f : Elem) : isTest f = true ↔ HasAttr f.green "test" := by
  rw [isTest, List.contains_iff_mem, mem_attrTexts]

theorem isEntry_iff (f : Elem) : isEntry f = true ↔ ∃ t ∈ f.children, t.green.isTok = true ∧ t.kind = .ENTRY_KW := by
  unfold isEntry tokenChild
  rw [List.find?_isSome]
  simp [isToken]

theorem runnable_iff {g : Green} (hp : Parsed g) {e : Elem} {l : List Elem} (h : Chain g (e :: l)) (k : Kind) (r : Runnable) :
    runnable e k = some r ↔ ∃ n, NameOf e n ∧ r = ⟨n.green.text, (n.start, n.stop), (e.start, e.stop), isNode .MODULE e, k⟩ := by
  unfold runnable target
  cases hn : nodeChild e .NAME with
  | none =>
    simp only [Option.bind_none, Option.map_none]
    constructor
    · intro h; cases h
    · rintro ⟨n, h1, -⟩; rw [nodeChild_of h1] at hn; cases hn
  | some n =>
    have h1 := nodeChild_spec hn
    obtain ⟨h2, -, t, h4, h5, h6⟩ := nameText_parsed hp h h1
    rw [hn, Option.bind_some] at h4
    have h7 : t.green.text = n.green.text := by
      rw [nameText, hn, Option.map_some, h4] at h2
      exact Option.some.inj h2
    rw [Option.bind_some, h4, Option.map_some, h5, h6, h7]
    constructor
    · intro h; exact ⟨n, h1, (Option.some.inj h).symm⟩
    · rintro ⟨n', h8, rfl⟩
      rw [nodeChild_of h8] at hn
      cases hn
      rfl

theorem fqName_fun {m f : Elem} {anc : List Elem} (hm : Is .MODULE m) (hf : Is .FUN f) (q : List Nameres.Text) :
    fqName ⟨0, f, m :: anc⟩ = some q ↔
      ∃ b mn fn, moduleAddress (m :: anc) = some b ∧ nameText m = some mn ∧ nameText f = some fn ∧ q = [addressIdent b, mn, fn] := by
  have hk : f.kind = .FUN := hf.2
  have hc : AutoImport.fqKinds.contains SyntaxKind.FUN = true := by decide
  simp only [fqName, hk, hm.2, hc, if_true, reduceCtorEq, if_false, moduleName, List.head?_cons, Option.bind_some]
  cases moduleAddress (m :: anc) with
  | none => simp
  | some b =>
    cases nameText m with
    | none => simp
    | some mn =>
      cases nameText f with
      | none => simp
      | some fn => simp [eq_comm]

theorem mem_fun_items (m i : Elem) : i ∈ namedItems m ∧ Is .FUN i ↔ i ∈ m.children ∧ Is .FUN i := by
  constructor
  · rintro ⟨h, hf⟩
    rcases (Full.mem_namedItems m i).1 (List.mem_append.2 (.inl h)) with ⟨h1, -⟩ | ⟨l, -, -, h2⟩ | ⟨-, h2⟩
    · exact ⟨h1, hf⟩
    · have := (nodeChild_mem h2).2.2.symm.trans hf.2; cases this
    · rcases h2 with h2 | h2 | h2 <;> (have := h2.2.symm.trans hf.2; cases this)
  · rintro ⟨h, hf⟩
    refine ⟨?_, hf⟩
    unfold namedItems
    simp only [List.mem_append, mem_itemsOfKind]
    tauto

theorem mem_visited {g : Green} (hp : Parsed g) (r : Runnable) : r ∈ visited g ↔ Lens g r := by
  have hroot : (Elem.root g).kind = .SOURCE_FILE := parsed_source hp
  have hval : ∀ {e n : Elem} {l : List Elem}, Chain g (e :: l) → NameOf e n → nameText e = some n.green.text :=
    fun hc hn => (nameText_parsed hp hc hn).1
  have hname : ∀ {e : Elem} {w : Nameres.Text}, nameText e = some w → ∃ n, NameOf e n := by
    intro e w h
    rw [nameText, Option.map_eq_some_iff] at h
    obtain ⟨n, h, -⟩ := h
    exact ⟨n, nodeChild_spec h⟩
  unfold visited
  rw [List.mem_flatMap]
  constructor
  · rintro ⟨c, hc, hr⟩
    obtain ⟨m, anc, rfl⟩ := allModules_ne hc
    have hd := (mem_allModules _ _ _).1 hc
    have hm := declared_module hd
    have hch := declared_chain hd
    dsimp only at hr
    rcases List.mem_append.1 hr with hr | hr
    · rw [Option.mem_toList, forModule] at hr
      split at hr
      · rename_i ht
        obtain ⟨f, h1, h2⟩ := List.any_eq_true.1 ht
        obtain ⟨h1, h1'⟩ := (mem_itemsOfKind _ _ _).1 h1
        obtain ⟨w, h3, h4⟩ := Option.bind_eq_some_iff.1 hr
        obtain ⟨n, h5, rfl⟩ := (runnable_iff hp hch _ _).1 h4
        rw [hval hch h5] at h3
        cases h3
        rw [(isNode_iff _ _).2 hm]
        exact .module hd h5 ⟨h1, h1', (isTest_iff f).1 h2⟩
      · cases hr
    · obtain ⟨f, hf, hr⟩ := List.mem_filterMap.1 hr
      split at hr
      · rename_i hk
        have hk := (isNode_iff _ _).1 hk
        have hfm := ((mem_fun_items m f).1 ⟨hf, hk⟩).1
        have hfc : Chain g (f :: m :: anc) := .child hch hfm
        have hnm : isNode .MODULE f = false := by simp [isNode, hk.2]
        have key : ∀ {q k}, fqName ⟨0, f, m :: anc⟩ = some q → runnable f k = some r →
            ∃ b mn fn, Declares (Elem.root g) m anc b ∧ NameOf m mn ∧ NameOf f fn ∧ q = [addressIdent b, mn.green.text, fn.green.text] ∧
              r = ⟨fn.green.text, (fn.start, fn.stop), (f.start, f.stop), false, k⟩ := by
          intro q k hq hr
          obtain ⟨b, mw, fw, h1, h2, h3, rfl⟩ := (fqName_fun hm hk q).1 hq
          obtain ⟨fn, h4, h5⟩ := (runnable_iff hp hfc _ _).1 hr
          obtain ⟨mn, h6⟩ := hname h2
          rw [hval hch h6] at h2
          rw [hval hfc h4] at h3
          cases h2; cases h3
          rw [hnm] at h5
          exact ⟨b, mn, fn, (declares_iff hm hroot).1 ⟨hc, h1⟩, h6, h4, rfl, h5⟩
        unfold forFun at hr
        split at hr
        · rename_i ht
          obtain ⟨q, h1, h2⟩ := Option.bind_eq_some_iff.1 hr
          obtain ⟨b, mn, fn, h3, h4, h5, rfl, rfl⟩ := key h1 h2
          exact .test h3 hm h4 ⟨hfm, hk, (isTest_iff f).1 ht⟩ h5
        · rename_i ht
          split at hr
          · rename_i he
            obtain ⟨q, h1, h2⟩ := Option.bind_eq_some_iff.1 hr
            obtain ⟨b, mn, fn, h3, h4, h5, rfl, rfl⟩ := key h1 h2
            have : joined [addressIdent b, mn.green.text, fn.green.text] =
                addressIdent b ++ "::".toList ++ mn.green.text ++ "::".toList ++ fn.green.text := by simp [joined]
            rw [this]
            exact .entry h3 hm h4 hfm hk (fun h => ht ((isTest_iff f).2 h)) ((isEntry_iff f).1 he) h5
          · cases hr
      · cases hr
  · intro h
    have fam : ∀ {m anc b mn f fn k}, Declares (Elem.root g) m anc b → Is .MODULE m → NameOf m mn → f ∈ m.children → Is .FUN f →
        NameOf f fn → m :: anc ∈ allModules (Elem.root g) ∧ f ∈ namedItems m ∧ isNode .FUN f = true ∧
          fqName ⟨0, f, m :: anc⟩ = some [addressIdent b, mn.green.text, fn.green.text] ∧
          runnable f k = some ⟨fn.green.text, (fn.start, fn.stop), (f.start, f.stop), false, k⟩ := by
      intro m anc b mn f fn k h1 h2 h3 h4 h5 h6
      obtain ⟨h7, h8⟩ := (declares_iff h2 hroot).2 h1
      have hch := declared_chain ((mem_allModules _ _ _).1 h7)
      have hfc : Chain g (f :: m :: anc) := .child hch h4
      have hnm : isNode .MODULE f = false := by simp [isNode, h5.2]
      refine ⟨h7, ((mem_fun_items m f).2 ⟨h4, h5⟩).1, (isNode_iff _ _).2 h5, ?_, ?_⟩
      · exact (fqName_fun h2 h5 _).2 ⟨b, _, _, h8, hval hch h3, hval hfc h6, rfl⟩
      · rw [runnable_iff hp hfc]
        exact ⟨fn, h6, by rw [hnm]⟩
    cases h with
    | @test m anc b mn f fn h1 h2 h3 h4 h5 =>
      obtain ⟨h6, h7, h8, h9, h10⟩ := fam (k := .test (mn.green.text ++ "::".toList ++ fn.green.text)) h1 h2 h3 h4.1 h4.2.1 h5
      refine ⟨m :: anc, h6, List.mem_append.2 (.inr (List.mem_filterMap.2 ⟨f, h7, ?_⟩))⟩
      rw [if_pos h8, forFun, if_pos ((isTest_iff f).2 h4.2.2), h9, Option.bind_some]
      exact h10
    | @entry m anc b mn f fn h1 h2 h3 h4 h5 h6 h7 h8 =>
      obtain ⟨h9, h10, h11, h12, h13⟩ :=
        fam (k := .transaction (addressIdent b ++ "::".toList ++ mn.green.text ++ "::".toList ++ fn.green.text)) h1 h2 h3 h4 h5 h8
      refine ⟨m :: anc, h9, List.mem_append.2 (.inr (List.mem_filterMap.2 ⟨f, h10, ?_⟩))⟩
      rw [if_pos h11, forFun, if_neg (fun h => h6 ((isTest_iff f).1 h)), if_pos ((isEntry_iff f).2 h7), h12, Option.bind_some, ← h13]
      simp [joined]
    | @module m anc mn f h1 h2 h3 =>
      have hch := declared_chain h1
      refine ⟨m :: anc, (mem_allModules _ _ _).2 h1, List.mem_append.2 (.inl ?_)⟩
      rw [Option.mem_toList, forModule, if_pos, hval hch h2, Option.bind_some, runnable_iff hp hch]
      · exact ⟨mn, h2, by rw [(isNode_iff _ _).2 (declared_module h1)]⟩
      · exact List.any_eq_true.2 ⟨f, (mem_itemsOfKind _ _ _).2 ⟨h3.1, h3.2.1⟩, (isTest_iff f).2 h3.2.2⟩

/-- Exactly the tests, the other entry functions and the modules with tests can be run, beside what the prover can be run on, under their
names and at their places. -/
theorem C84_lenses {g : Green} (hp : Parsed g) (prover : List Runnable) (r : Runnable) :
    r ∈ runnables g prover ↔ Lens g r ∨ r ∈ prover := by
  rw [runnables, mem_sortByKey, List.mem_append, mem_visited hp]

/-- They are in the order in which they are written. -/
theorem C84_order (g : Green) (prover : List Runnable) :
    (runnables g prover).Pairwise fun a b => a.full.1 < b.full.1 ∨ (a.full.1 = b.full.1 ∧ a.focus.1 ≤ b.focus.1) := by
  have h := sorted_sortByKey key (visited g ++ prover)
  refine List.Pairwise.imp ?_ h
  intro a b hab
  have hab := not_lt.2 hab
  unfold key at hab
  rw [List.cons_lt_cons_iff, List.cons_lt_cons_iff] at hab
  omega

/-! ### Each of them once -/

/-- The node that is run. -/
def Of (g : Green) (e : Elem) (l : List Elem) (r : Runnable) : Prop :=
  Chain g (e :: l) ∧ e.green.isTok = false ∧ Direct e ∧ r.full = (e.start, e.stop) ∧ e.kind = if r.module then .MODULE else .FUN

theorem of_runnable {g : Green} (hp : Parsed g) {e : Elem} {l : List Elem} {k : Kind} {r : Runnable} (hc : Chain g (e :: l))
    (hk : Is .MODULE e ∨ Is .FUN e) (h : runnable e k = some r) : Of g e l r := by
  obtain ⟨n, h1, rfl⟩ := (runnable_iff hp hc _ _).1 h
  obtain ⟨h2, h3⟩ := nodeChild_mem (nodeChild_of h1)
  refine ⟨hc, ?_, ⟨n, h2, .inr h3.2⟩, rfl, ?_⟩
  · rcases hk with hk | hk <;> exact hk.1
  · rcases hk with hk | hk
    · simp [isNode, hk.1, hk.2]
    · simp [isNode, hk.2]

theorem of_eq {g : Green} (hp : Parsed g) {e e' : Elem} {l l' : List Elem} {r r' : Runnable} (h : Of g e l r) (h' : Of g e' l' r')
    (h1 : r.full = r'.full) (h2 : r.module = r'.module) : e = e' := by
  refine (C78_different (tree := fun _ => g) (a := 0) (b := 0) hp h.1 h'.1 h.2.1 h'.2.1 h.2.2.1 h'.2.2.1 ?_).2.1
  have h3 := h.2.2.2.1.symm.trans (h1.trans h'.2.2.2.1)
  have h4 : e.kind = e'.kind := by rw [h.2.2.2.2, h'.2.2.2.2, h2]
  simp only [Prod.mk.injEq] at h3
  simp [locOf, Elem.ptr, h3.1, h3.2, h4]

theorem forModule_of {g : Green} (hp : Parsed g) {m : Elem} {anc : List Elem} {r : Runnable} (hc : Chain g (m :: anc)) (hm : Is .MODULE m)
    (h : forModule m = some r) : Of g m anc r := by
  unfold forModule at h
  split at h
  · obtain ⟨w, -, h2⟩ := Option.bind_eq_some_iff.1 h
    exact of_runnable hp hc (.inl hm) h2
  · cases h

theorem forFun_of {g : Green} (hp : Parsed g) {m f : Elem} {anc : List Elem} {r : Runnable} (hc : Chain g (f :: m :: anc)) (hf : Is .FUN f)
    (h : forFun (m :: anc) f = some r) : Of g f (m :: anc) r := by
  unfold forFun at h
  split at h
  · obtain ⟨w, -, h2⟩ := Option.bind_eq_some_iff.1 h
    exact of_runnable hp hc (.inr hf) h2
  · split at h
    · obtain ⟨w, -, h2⟩ := Option.bind_eq_some_iff.1 h
      exact of_runnable hp hc (.inr hf) h2
    · cases h

/-- No node is there twice. -/
theorem C84_once {g : Green} (hp : Parsed g) : (runnables g []).Pairwise fun a b => ¬ (a.full = b.full ∧ a.module = b.module) := by
  have hin : ∀ {m anc r}, m :: anc ∈ allModules (Elem.root g) →
      (r ∈ (forModule m).toList ∨ r ∈ (namedItems m).filterMap fun i => if isNode .FUN i then forFun (m :: anc) i else none) →
      ∃ e l, Of g e l r ∧ m.path <:+ e.path := by
    intro m anc r hc h
    have hd := (mem_allModules _ _ _).1 hc
    rcases h with h | h
    · exact ⟨m, anc, forModule_of hp (declared_chain hd) (declared_module hd) (by simpa using h), List.suffix_refl _⟩
    · obtain ⟨f, h1, h2⟩ := List.mem_filterMap.1 h
      split at h2
      · rename_i hk
        have hk := (isNode_iff _ _).1 hk
        have hf := ((mem_fun_items m f).1 ⟨h1, hk⟩).1
        refine ⟨f, _, forFun_of hp (.child (declared_chain hd) hf) hk h2, ?_⟩
        obtain ⟨j, hj, -⟩ := child_index hf
        exact ⟨[j], by simp [hj]⟩
      · cases h2
  have hv : (visited g).Pairwise fun a b => ¬ (a.full = b.full ∧ a.module = b.module) := by
    unfold visited
    rw [List.pairwise_flatMap]
    constructor
    · intro c hc
      obtain ⟨m, anc, rfl⟩ := allModules_ne hc
      have hd := (mem_allModules _ _ _).1 hc
      dsimp only
      rw [List.pairwise_append]
      refine ⟨by cases forModule m <;> simp, ?_, ?_⟩
      · refine List.Pairwise.filterMap (R := fun a b : Elem => a ∈ namedItems m ∧ b ∈ namedItems m ∧ a.path ≠ b.path) _ ?_
          (List.Pairwise.and_mem.1 (List.pairwise_append.1 (Full.namedItems_apart (declared_chain hd))).1)
        rintro x y ⟨hx, hy, hne⟩ r hr r' hr' ⟨h1, h2⟩
        split at hr
        · split at hr'
          · rename_i k1 k2
            have k1 := (isNode_iff _ _).1 k1
            have k2 := (isNode_iff _ _).1 k2
            have hx := ((mem_fun_items m x).1 ⟨hx, k1⟩).1
            have hy := ((mem_fun_items m y).1 ⟨hy, k2⟩).1
            have := of_eq hp (forFun_of hp (.child (declared_chain hd) hx) k1 hr) (forFun_of hp (.child (declared_chain hd) hy) k2 hr') h1 h2
            exact hne (by rw [this])
          · cases hr'
        · cases hr
      · rintro r hr r' hr' ⟨-, h2⟩
        have h3 := forModule_of hp (declared_chain hd) (declared_module hd) (by simpa using hr)
        obtain ⟨f, h4, h5⟩ := List.mem_filterMap.1 hr'
        split at h5
        · rename_i hk
          have hk := (isNode_iff _ _).1 hk
          have hf := ((mem_fun_items m f).1 ⟨h4, hk⟩).1
          have h6 := forFun_of hp (.child (declared_chain hd) hf) hk h5
          have : m.kind = f.kind := by rw [h3.2.2.2.2, h6.2.2.2.2, h2]
          rw [(declared_module hd).2, hk.2] at this
          cases this
        · cases h5
    · refine (List.Pairwise.and_mem.1 (allModules_nodup (Elem.root g))).imp ?_
      rintro c c' ⟨hc, hc', hne⟩ r hr r' hr' ⟨h1, h2⟩
      obtain ⟨m, anc, rfl⟩ := allModules_ne hc
      obtain ⟨m', anc', rfl⟩ := allModules_ne hc'
      obtain ⟨e, l, ho, hs⟩ := hin hc (List.mem_append.1 hr)
      obtain ⟨e', l', ho', hs'⟩ := hin hc' (List.mem_append.1 hr')
      have := of_eq hp ho ho' h1 h2
      subst this
      refine hne ?_
      simp only [headPath, List.head?_cons, Option.map_some, Option.getD_some]
      have hd := (mem_allModules _ _ _).1 hc
      have hd' := (mem_allModules _ _ _).1 hc'
      rcases List.suffix_or_suffix_of_suffix hs hs' with h | h
      · exact AutoImport.declared_apart hd hd' h
      · exact (AutoImport.declared_apart hd' hd h).symm
  rw [runnables, List.append_nil]
  refine ((sortByKey_perm key (visited g)).pairwise_iff ?_).2 hv
  rintro a b h ⟨h1, h2⟩
  exact h ⟨h1.symm, h2.symm⟩

/-! ### What is run -/

theorem first_colon {p q a r : List Char} (ha : ':' ∉ a) (h : p ++ ':' :: q = a ++ ':' :: r) :
    (p = a ∧ q = r) ∨ ∃ p', p = a ++ ':' :: p' ∧ r = p' ++ ':' :: q := by
  rcases List.append_eq_append_iff.1 h with ⟨c, h1, h2⟩ | ⟨c, h1, h2⟩
  · cases c with
    | nil => simp at h1 h2; exact .inl ⟨h1.symm, h2⟩
    | cons x xs =>
      simp only [List.cons_append, List.cons.injEq] at h2
      exact absurd (by rw [h1, ← h2.1]; simp) ha
  · cases c with
    | nil => simp at h1 h2; exact .inl ⟨h1, h2.symm⟩
    | cons x xs =>
      simp only [List.cons_append, List.cons.injEq] at h2
      obtain ⟨rfl, h2⟩ := h2
      exact .inr ⟨xs, h1, h2⟩

theorem suffix_plain {s x a b : List Char} (hx : ':' ∉ x) (h : s ++ x = a ++ ':' :: b) : x <:+ b := by
  rcases List.append_eq_append_iff.1 h with ⟨c, h1, h2⟩ | ⟨c, h1, h2⟩
  · exact absurd (by rw [h2]; simp) hx
  · cases c with
    | nil => simp at h2; exact absurd (by rw [← h2]; simp) hx
    | cons y ys =>
      simp only [List.cons_append, List.cons.injEq] at h2
      exact ⟨ys, h2.2.symm⟩

theorem prefix_plain {y t b c : List Char} (hy : ':' ∉ y) (h : y ++ t = b ++ ':' :: c) : y <+: b := by
  rcases List.append_eq_append_iff.1 h with ⟨d, h1, h2⟩ | ⟨d, h1, h2⟩
  · exact ⟨d, h1.symm⟩
  · cases d with
    | nil => simp at h1; exact ⟨[], by simp [h1]⟩
    | cons z zs =>
      simp only [List.cons_append, List.cons.injEq] at h2
      exact absurd (by rw [h1, ← h2.1]; simp) hy

/-- Which tests are run when one test is to be run: those whose name begins with its name in modules whose name ends with the name of its
module, and, if an address ends with the name of its module, the tests of the modules there whose name begins with the name of the test. -/
theorem C84_selects {m f : List Char} (hm : Plain m) (hf : Plain f) {a m' f' : List Char} (ha : Plain a) (hm' : Plain m') (hf' : Plain f') :
    Runs (m ++ "::".toList ++ f) a m' f' ↔ (m <:+ m' ∧ f <+: f') ∨ (m <:+ a ∧ f <+: m') := by
  have e : "::".toList = [':', ':'] := rfl
  unfold Runs
  simp only [e]
  constructor
  · rintro ⟨s, t, h⟩
    have h : (s ++ m) ++ ':' :: (':' :: (f ++ t)) = a ++ ':' :: (':' :: (m' ++ ':' :: ':' :: f')) := by simpa using h
    rcases first_colon ha.2 h with ⟨h1, h2⟩ | ⟨p, h1, h2⟩
    · simp only [List.cons.injEq, true_and] at h2
      exact .inr ⟨⟨s, h1⟩, prefix_plain hf.2 h2⟩
    · have hend : ∀ {u v : List Char}, s ++ m = u ++ ':' :: v → v ≠ [] := by
        rintro u v h rfl
        have := suffix_plain hm.2 h
        exact hm.1 (List.suffix_nil.1 this)
      cases p with
      | nil => exact absurd rfl (hend h1)
      | cons x p =>
        simp only [List.cons_append, List.cons.injEq] at h2
        obtain ⟨rfl, h2⟩ := h2
        rcases first_colon hm'.2 h2.symm with ⟨h3, h4⟩ | ⟨p', h3, h4⟩
        · simp only [List.cons.injEq, true_and] at h4
          refine .inl ⟨?_, ⟨t, h4⟩⟩
          have : s ++ m = (a ++ [':']) ++ ':' :: m' := by rw [h1, h3]; simp
          exact suffix_plain hm.2 this
        · cases p' with
          | nil =>
            refine absurd rfl (hend (u := a ++ ':' :: ':' :: m') (v := []) ?_)
            rw [h1, h3]; simp
          | cons x p' =>
            simp only [List.cons_append, List.cons.injEq] at h4
            exact absurd (by rw [h4.2]; simp) hf'.2
  · rintro (⟨⟨s, rfl⟩, t, rfl⟩ | ⟨⟨s, rfl⟩, t, rfl⟩)
    · exact ⟨a ++ [':', ':'] ++ s, t, by simp⟩
    · exact ⟨s, t ++ [':', ':'] ++ f', by simp⟩

theorem declares_chain {g : Green} (hp : Parsed g) {m : Elem} {anc : List Elem} {b : Address} (hm : Is .MODULE m)
    (hd : Declares (Elem.root g) m anc b) : Chain g (m :: anc) :=
  declared_chain ((mem_allModules _ _ _).1 ((declares_iff hm (parsed_source hp)).2 hd).1)

/-- Running a test runs it, and running the tests of a module runs all of them, at any address. -/
theorem C84_runs {g : Green} (hp : Parsed g) {m f mn fn : Elem} {anc : List Elem} {b : Address} (hd : Declares (Elem.root g) m anc b)
    (hm : Is .MODULE m) (hn : NameOf m mn) (hf : TestOf m f) (hfn : NameOf f fn) (prover : List Runnable) :
    (∃ r ∈ runnables g prover, r.focus = (fn.start, fn.stop) ∧ ∃ path, r.kind = .test path ∧ ∀ a, Runs path a mn.green.text fn.green.text) ∧
    ∃ r ∈ runnables g prover, r.focus = (mn.start, mn.stop) ∧ ∃ path, r.kind = .test path ∧
      ∀ f' fn', TestOf m f' → NameOf f' fn' → ∀ a, Runs path a mn.green.text fn'.green.text := by
  refine ⟨⟨_, (C84_lenses hp prover _).2 (.inl (.test hd hm hn hf hfn)), rfl, _, rfl, fun a => ?_⟩,
    _, (C84_lenses hp prover _).2 (.inl (.module (anc := anc) ?_ hn hf)), rfl, _, rfl, fun f' fn' _ _ a => ?_⟩
  · exact ⟨a ++ "::".toList, [], by simp⟩
  · exact (mem_allModules _ _ _).1 ((declares_iff hm (parsed_source hp)).2 hd).1
  · exact ⟨a ++ "::".toList, fn'.green.text, by simp⟩

/-- Running a test runs no other test, if no other name begins with its name, no other module has a name that ends with the name of its
module, and the addresses do not end with it. What is missing: `C84_only_fails`. -/
theorem C84_only_partial {g : Green} (hp : Parsed g) {m f mn fn : Elem} {anc : List Elem} (hc : Chain g (m :: anc)) (hn : NameOf m mn)
    (hf : f ∈ m.children) (hfn : NameOf f fn) {a m' f' : List Char} (ha : Plain a) (hm' : Plain m') (hf' : Plain f')
    (h1 : mn.green.text <:+ m' → mn.green.text = m') (h2 : fn.green.text <+: f' → fn.green.text = f') (h3 : ¬ mn.green.text <:+ a)
    (hr : Runs (mn.green.text ++ "::".toList ++ fn.green.text) a m' f') : m' = mn.green.text ∧ f' = fn.green.text := by
  rcases (C84_selects (name_plain hp hc hn) (name_plain hp (.child hc hf) hfn) ha hm' hf').1 hr with ⟨h4, h5⟩ | ⟨h4, -⟩
  · exact ⟨(h1 h4).symm, (h2 h5).symm⟩
  · exact absurd h4 h3

/-! ### The arguments -/

theorem pushes (xs : List (List Char)) : ∀ args : List (List Char), (args ++ xs).Nodup → xs.foldl push args = args ++ xs := by
  induction xs with
  | nil => intro args _; simp
  | cons x xs ih =>
    intro args h
    have h0 : x ∉ args := by
      intro hx
      exact (List.nodup_append.1 h).2.2 x hx x (by simp) rfl
    rw [List.foldl_cons, push, if_neg (by simpa using h0), ih _ (by simpa using h)]
    simp

/-- What the user has configured comes after the command, if no argument is there twice. What is missing: `C84_args_fails`. -/
theorem C84_args_partial (tests prover : List (List Char)) :
    (∀ path, ("move".toList :: "test".toList :: "--filter".toList :: path :: tests).Nodup →
      aptosArgs tests prover (.test path) = ["move".toList, "test".toList, "--filter".toList, path] ++ tests) ∧
    (∀ only, ("move".toList :: "prove".toList :: "--only".toList :: only :: prover).Nodup →
      aptosArgs tests prover (.proveFun only) = ["move".toList, "prove".toList, "--only".toList, only] ++ prover) ∧
    (∀ filter, ("move".toList :: "prove".toList :: "--filter".toList :: filter :: prover).Nodup →
      aptosArgs tests prover (.proveModule filter) = ["move".toList, "prove".toList, "--filter".toList, filter] ++ prover) :=
  ⟨fun _ h => pushes _ _ h, fun _ h => pushes _ _ h, fun _ h => pushes _ _ h⟩

end Verif.Ide.Runnables
