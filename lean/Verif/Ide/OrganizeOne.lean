import Verif.Ide.OrganizeFile
import Verif.Ide.OrganizeExamples
import Verif.Nameres.ResolveProps
import Verif.Ide.AutoImportPlace

/-! C68: what becomes of a group when just one of its items is left. -/

namespace Verif.Ide.Organize
open Verif Verif.Syntax Verif.Nameres Verif.Editor
open Verif.Parser (Green)
open Verif.TextEdit.TreeDiff (Solid Below)
open Verif.Nameres.Full (Is isNode_iff)
open Verif.Ide.Usages (parseOf)

/-! ### Specification -/

/-- The texts of the segments of a path, in order. -/
inductive Segments : Elem → List (List Char) → Prop where
  | one {p s} : nodeChild p .PATH = none → nodeChild p .PATH_SEGMENT = some s → Segments p [s.green.text]
  | more {p q s ts} : nodeChild p .PATH = some q → Segments q ts → nodeChild p .PATH_SEGMENT = some s → Segments p (ts ++ [s.green.text])

/-- The text of the alias of a use speck, with a space before it. -/
inductive AliasText (r : Elem) : List Char → Prop where
  | none : nodeChild r .USE_ALIAS = none → AliasText r []
  | some {a} : nodeChild r .USE_ALIAS = some a → AliasText r (' ' :: a.green.text)

/-- The plain import that stands for one item of a group of the module with the path `p`. -/
inductive Plain (p one : Elem) : List Char → Prop where
  | module {x n} : nodeChild one .PATH = some x → refName x = some "Self".toList → AliasText one n → Plain p one (p.green.text ++ n)
  | item {x s ts n} : nodeChild one .PATH = some x → refName x ≠ some "Self".toList → nodeChild x .PATH_SEGMENT = some s → Segments p ts →
      AliasText one n → Plain p one (("::".toList).intercalate (ts ++ [s.green.text]) ++ n)

/-- The group of the statement has just one use speck that is not marked. -/
structure Left (stmt : Site) (us : List UseItem) (r p gr one : Elem) : Prop where
  speck : nodeChild stmt.elem .USE_SPECK = some r
  path : nodeChild r .PATH = some p
  group : nodeChild r .USE_GROUP = some gr
  child : one ∈ gr.children
  kind : Is .USE_SPECK one
  stays : ∀ u ∈ us, u.path ≠ one.path
  go : ∀ x ∈ gr.children, Is .USE_SPECK x → x.path ≠ one.path → ∃ u ∈ us, u.path = x.path
  name : ∀ x, nodeChild p .PATH = some x → refName p ≠ some "Self".toList

/-! ### Proof -/

theorem length_two {gs : List Green} {x y : Green} (hx : x ∈ gs) (hy : y ∈ gs) (hne : x.kind ≠ y.kind) :
    x.text.length + y.text.length ≤ (gs.flatMap Green.text).length := by
  have one : ∀ {gs : List Green} {x : Green}, x ∈ gs → x.text.length ≤ (gs.flatMap Green.text).length := by
    intro gs x hx
    obtain ⟨l, r, rfl⟩ := List.append_of_mem hx
    simp only [List.flatMap_append, List.flatMap_cons, List.length_append]
    omega
  induction gs with
  | nil => cases hx
  | cons g gs ih =>
    rw [List.flatMap_cons, List.length_append]
    rcases List.mem_cons.1 hx with rfl | hx' <;> rcases List.mem_cons.1 hy with rfl | hy'
    · exact absurd rfl hne
    · have := one hy'; omega
    · have := one hx'; omega
    · have := ih hx' hy'; omega

theorem text_children (g : Green) (h : g.isTok = false) : g.text = g.children.flatMap Green.text := by
  cases g with
  | tok k t => cases h
  | node k cs => rw [Green.text_node]; rfl

theorem segments_length {p : Elem} {ts : List (List Char)} (h : Segments p ts) (hs : Solid p.green) : ts.length ≤ p.green.text.length := by
  induction h with
  | @one p s _ h2 =>
    obtain ⟨h3, -⟩ := Full.nodeChild_mem h2
    have h4 := (Elem.mem_children h3).1
    have h5 := hs _ (.child h4)
    have h6 : s.green.text.length ≤ p.green.text.length := by
      rw [text_children p.green (Elem.mem_children h3).2.2.2.2]
      obtain ⟨l, r, hl⟩ := List.append_of_mem h4
      rw [hl]
      simp only [List.flatMap_append, List.flatMap_cons, List.length_append]
      omega
    have := List.length_pos_iff.2 h5
    simp only [List.length_cons, List.length_nil]
    omega
  | @more p q s ts h1 _ h2 ih =>
    obtain ⟨h3, k3⟩ := Full.nodeChild_mem h2
    obtain ⟨h4, k4⟩ := Full.nodeChild_mem h1
    have h5 := (Elem.mem_children h3).1
    have h6 := (Elem.mem_children h4).1
    have h7 := List.length_pos_iff.2 (hs _ (.child h5))
    have h8 := ih (hs.child h6)
    have h9 := length_two h6 h5 (by
      show q.kind ≠ s.kind
      rw [k3.2, k4.2]; decide)
    rw [text_children p.green (Elem.mem_children h3).2.2.2.2]
    simp only [List.length_append, List.length_cons, List.length_nil]
    omega

theorem segmentTexts_eq {p : Elem} {ts : List (List Char)} (h : Segments p ts) : ∀ n, ts.length ≤ n → segmentTexts n p = ts := by
  induction h with
  | one h1 h2 =>
    intro n hn
    cases n with
    | zero => cases hn
    | succ n => simp [segmentTexts, h1, h2]
  | more h1 _ h2 ih =>
    intro n hn
    cases n with
    | zero => simp at hn
    | succ n =>
      rw [List.length_append] at hn
      simp only [List.length_cons, List.length_nil] at hn
      simp [segmentTexts, h1, h2, ih n (by omega)]

theorem joinPath_eq (ts : List (List Char)) : joinPath ts = ("::".toList).intercalate ts := by
  match ts with
  | [] => rfl
  | [t] => simp [joinPath, List.intercalate]
  | t :: u :: us =>
    rw [joinPath, joinPath_eq (u :: us)]
    · simp [List.intercalate, List.intersperse]
    · simp

theorem speckText_eq {one : Elem} {n : List Char} (h : AliasText one n) (t : List Char) : speckText t one = t ++ n := by
  unfold speckText
  cases h with
  | none h => rw [h]; simp
  | some h => rw [h]

theorem placed_paths (path : List Nat) (i start : Nat) (gs : List Green) :
    (placed path i start gs).map Elem.path = (List.range' i gs.length).map (· :: path) := by
  induction gs generalizing i start with
  | nil => rfl
  | cons g gs ih => simp [placed, ih, List.range'_succ]

theorem children_paths (e : Elem) : (e.children.map Elem.path).Nodup := by
  unfold Elem.children
  rw [placed_paths]
  exact List.Nodup.map (fun a b h => (List.cons.inj h).1) (List.nodup_range' (h := by omega))

theorem filter_one {l : List Elem} (hn : (l.map Elem.path).Nodup) {x : Elem} (hx : x ∈ l) {q : Elem → Bool}
    (hq : ∀ y ∈ l, q y = true ↔ y.path = x.path) : l.filter q = [x] := by
  obtain ⟨a, b, rfl⟩ := List.append_of_mem hx
  rw [List.map_append, List.map_cons, List.nodup_append, List.nodup_cons] at hn
  obtain ⟨-, ⟨h1, -⟩, h2⟩ := hn
  rw [List.filter_append, List.filter_cons_of_pos ((hq x (by simp)).2 rfl)]
  have ha : a.filter q = [] := by
    rw [List.filter_eq_nil_iff]
    intro y hy h
    exact h2 y.path (List.mem_map_of_mem hy) x.path (by simp) ((hq y (by simp [hy])).1 h)
  have hb : b.filter q = [] := by
    rw [List.filter_eq_nil_iff]
    intro y hy h
    exact h1 ((hq y (by simp [hy])).1 h ▸ List.mem_map_of_mem hy)
  rw [ha, hb]
  rfl

theorem marked_paths {stmt : Site} {us : List UseItem} {x : Site} (hx : x ∈ groupSpecks stmt) :
    x.path ∈ (markedSpecks stmt us).map Site.path ↔ ∃ u ∈ us, u.path = x.path := by
  unfold markedSpecks
  rw [List.mem_map]
  constructor
  · rintro ⟨v, hv, hp⟩
    obtain ⟨u, hu, hf⟩ := List.mem_filterMap.1 hv
    refine ⟨u, hu, ?_⟩
    have := List.find?_some hf
    rw [← hp]
    exact (eq_of_beq this).symm
  · rintro ⟨u, hu, hp⟩
    cases hf : (groupSpecks stmt).find? fun s => s.path == u.path with
    | none => exact absurd (List.find?_eq_none.1 hf x hx) (by simp [hp])
    | some v =>
      refine ⟨v, List.mem_filterMap.2 ⟨u, hu, hf⟩, ?_⟩
      have := List.find?_some hf
      rw [eq_of_beq this, hp]

/-- **C68.** When just one item of a group is left, the group becomes a plain import: of the module for `Self`, else of the item of the
module, with the alias. -/
theorem C68_one (f : Factory) {g : Green} {s : Elem} {anc : List Elem} {us : List UseItem} {r p gr one : Elem} {t : List Char} (hs : Solid g)
    (hc : Chain g (s :: anc)) (hl : Left (s :: anc) us r p gr one) (ht : Plain p one t) :
    removeIn f (s :: anc) (.specks us) = [.replace (r :: s :: anc) (some (f.speck t))] := by
  have hroot : rootSpeck (s :: anc) = some (r :: s :: anc) := by
    unfold rootSpeck
    rw [hl.speck]
    rfl
  have hre : Site.elem (r :: s :: anc) = r := rfl
  have hself : isRootSelf r = false := by
    unfold isRootSelf isSelf
    rw [hl.path, Option.bind_some, Option.bind_some]
    cases hq : nodeChild p .PATH with
    | none => rfl
    | some x =>
      have := hl.name x hq
      simp only [Option.isSome_some, Bool.true_and, beq_eq_false_iff_ne]
      exact this
  have hgroup : groupOf (s :: anc) = some (gr :: r :: s :: anc) := by
    unfold groupOf
    rw [hroot, Option.bind_some, hre, hl.group]
    rfl
  have hge : Site.elem (gr :: r :: s :: anc) = gr := rfl
  have hspecks : groupSpecks (s :: anc) = (gr.children.filter (isNode .USE_SPECK)).map (· :: gr :: r :: s :: anc) := by
    unfold groupSpecks
    rw [hgroup]
    rfl
  unfold removeIn
  dsimp only
  rw [hroot]
  dsimp only
  rw [hre, hself]
  simp only [Bool.false_eq_true, if_false]
  have hfilter : ((groupSpecks (s :: anc)).filter fun x => !((markedSpecks (s :: anc) us).map Site.path).contains x.path) =
      [one :: gr :: r :: s :: anc] := by
    have hin : ∀ y ∈ gr.children.filter (isNode .USE_SPECK), (y :: gr :: r :: s :: anc) ∈ groupSpecks (s :: anc) := by
      intro y hy
      rw [hspecks]
      exact List.mem_map_of_mem hy
    have h1 : (gr.children.filter (isNode .USE_SPECK)).filter
        (fun y => !((markedSpecks (s :: anc) us).map Site.path).contains y.path) = [one] := by
      refine filter_one (((children_paths gr).sublist (List.filter_sublist.map _))) (List.mem_filter.2 ⟨hl.child, (isNode_iff _ _).2 hl.kind⟩) ?_
      intro y hy
      have h2 := marked_paths (us := us) (hin y hy)
      have h3 : Site.path (y :: gr :: r :: s :: anc) = y.path := rfl
      rw [h3] at h2
      rw [Bool.not_eq_true', List.contains_eq_mem, decide_eq_false_iff_not, h2]
      constructor
      · intro h4
        by_contra hne
        obtain ⟨h5, h6⟩ := List.mem_filter.1 hy
        exact h4 (hl.go y h5 ((isNode_iff _ _).1 h6) hne)
      · rintro h4 ⟨u, hu, h5⟩
        exact hl.stays u hu (h5.trans h4)
    rw [hspecks, List.filter_map]
    show List.map _ ((gr.children.filter (isNode .USE_SPECK)).filter fun y => !((markedSpecks (s :: anc) us).map Site.path).contains y.path) = _
    rw [h1]
    rfl
  unfold deleteSpecks
  rw [hfilter]
  dsimp only
  unfold replaceRoot
  rw [hroot]
  dsimp only
  rw [hre, hl.path]
  dsimp only
  have hoe : Site.elem (one :: gr :: r :: s :: anc) = one := rfl
  rw [hoe]
  cases ht with
  | module h1 h2 h3 =>
    have : isSelf one = true := by unfold isSelf; rw [h1, Option.bind_some, h2]; rfl
    rw [this, if_pos rfl, speckText_eq h3]
  | item h1 h2 h3 h4 h5 =>
    have : isSelf one = false := by
      unfold isSelf
      rw [h1, Option.bind_some]
      exact beq_eq_false_iff_ne.2 h2
    rw [this]
    simp only [Bool.false_eq_true, if_false]
    rw [h1, Option.bind_some, h3]
    dsimp only
    have hsp : Solid p.green := AutoImport.chain_below
      (.child (.child hc (Full.nodeChild_mem hl.speck).1) (Full.nodeChild_mem hl.path).1) hs
    rw [segmentTexts_eq h4 _ (segments_length h4 hsp), joinPath_eq, speckText_eq h5]

/-! ### A case -/

def aliasText : List Char := "module 0x1::m{use 0x1::n::{a as b,c};fun f(){b()}}".toList

example : outcome aliasText = some "module 0x1::m{use 0x1::n::a as b;fun f(){b()}}".toList := by decide +kernel

/-- The other items of a group of plain names. -/
def leftCheck (us : List UseItem) (k : Nat) (s : Elem) : Bool := match nodeChild s .USE_SPECK with
  | none => false
  | some r => match nodeChild r .PATH, nodeChild r .USE_GROUP with
    | some p, some gr => match gr.children[k]? with
      | some one => isNode .USE_SPECK one && !(us.any fun u => u.path == one.path) &&
        (gr.children.all fun x => !isNode .USE_SPECK x || x.path == one.path || us.any fun u => u.path == x.path) &&
        decide (refName p ≠ some "Self".toList) && (match nodeChild p .PATH with
          | some q => (nodeChild q .PATH).isNone && (nodeChild q .PATH_SEGMENT).isSome
          | none => false) && (nodeChild p .PATH_SEGMENT).isSome &&
        match nodeChild one .PATH with
          | some x => decide (refName x ≠ some "Self".toList) && (nodeChild x .PATH_SEGMENT).isSome
          | none => false
      | none => false
    | _, _ => false

theorem left_of {us : List UseItem} {k : Nat} {s : Elem} {anc : List Elem} (h : leftCheck us k s = true) :
    ∃ r p gr one t, Left (s :: anc) us r p gr one ∧ Plain p one t := by
  unfold leftCheck at h
  split at h
  · cases h
  rename_i r hr
  split at h
  · rename_i p gr hp hg
    split at h
    · rename_i one hone
      simp only [Bool.and_eq_true, Bool.not_eq_true', decide_eq_true_eq, Option.isSome_iff_exists, List.any_eq_false, beq_iff_eq] at h
      obtain ⟨⟨⟨⟨⟨⟨h1, h2⟩, h3⟩, h4⟩, h5⟩, ⟨sg, h6⟩⟩, h7⟩ := h
      split at h5
      · rename_i q hq
        simp only [Bool.and_eq_true, Option.isNone_iff_eq_none, Option.isSome_iff_exists] at h5
        obtain ⟨h8, sq, h9⟩ := h5
        split at h7
        · rename_i x hx
          simp only [Bool.and_eq_true, decide_eq_true_eq, Option.isSome_iff_exists] at h7
          obtain ⟨h10, sx, h11⟩ := h7
          have ha : ∃ n, AliasText one n := by
            cases h : nodeChild one .USE_ALIAS with
            | none => exact ⟨_, .none h⟩
            | some a => exact ⟨_, .some h⟩
          obtain ⟨n, ha⟩ := ha
          refine ⟨r, p, gr, one, _, ⟨hr, hp, hg, List.mem_of_getElem? hone, (isNode_iff _ _).1 h1, h2, ?_, fun _ _ => h4⟩,
            .item hx h10 h11 (.more hq (.one h8 h9) h6) ha⟩
          intro y hy hk hne
          have := List.all_eq_true.1 h3 y hy
          rw [(isNode_iff _ _).2 hk, Bool.not_true, Bool.false_or, Bool.or_eq_true, beq_iff_eq, List.any_eq_true] at this
          rcases this with h | ⟨u, hu, h⟩
          · exact absurd h hne
          · exact ⟨u, hu, by simpa using h⟩
        · cases h7
      · cases h5
    · cases h
  · cases h

/-- Of `{a as b,c}` the first one is left. -/
example : ∃ s anc us r p gr one t, Left (s :: anc) us r p gr one ∧ Plain p one t ∧
    ∀ f, removeIn f (s :: anc) (.specks us) = [.replace (r :: s :: anc) (some (f.speck t))] := by
  obtain ⟨s, anc, h1⟩ : ∃ s anc, stmtIn aliasText = s :: anc := by
    cases h : stmtIn aliasText with
    | nil => exact absurd h (ne_of_length (by decide +kernel))
    | cons s anc => exact ⟨s, anc, rfl⟩
  have hc : Chain (parseOf aliasText).1 (s :: anc) := by rw [← h1]; exact stmt_chain (by decide +kernel)
  obtain ⟨r, p, gr, one, t, h2, h3⟩ := left_of (us := unusedIn aliasText) (k := 1) (s := s) (anc := anc) (by
    have : leftCheck (unusedIn aliasText) 1 (Site.elem (stmtIn aliasText)) = true := by decide +kernel
    rwa [h1] at this)
  exact ⟨s, anc, _, r, p, gr, one, t, h2, h3, fun f => C68_one f (solid_of (by decide +kernel)) hc h2 h3⟩

end Verif.Ide.Organize
