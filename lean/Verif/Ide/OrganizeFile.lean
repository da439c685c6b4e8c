import Verif.Ide.OrganizeProps

/-! C68: "Organize imports" of a whole file. -/

namespace Verif.Ide.Organize
open Verif Verif.Syntax Verif.Nameres Verif.Editor
open Verif.Parser (Green)
open Verif.Ide.Extend (after before idx placed_idx)
open Verif.TextEdit.TreeDiff (Solid)

/-! ### The nodes of a file -/

mutual
theorem nodes_up {t : Elem} (anc : List Elem) (path : List Nat) (start : Nat) : ∀ g : Green, Up t (⟨path, start, g⟩ :: anc) →
    ∀ s ∈ nodeChains anc path start g, Up t s ∧ path <:+ Site.path s
  | .tok _ _, _ => by intro s hs; rw [nodeChains] at hs; cases hs
  | .node k cs, h => by
    intro s hs
    rw [nodeChains] at hs
    rcases List.mem_cons.1 hs with rfl | hs
    · exact ⟨h, List.suffix_refl _⟩
    · obtain ⟨h1, j, -, h2⟩ := nodes_ups _ path 0 start cs (fun c hc => .child h hc) s hs
      exact ⟨h1, (List.suffix_cons j path).trans h2⟩
theorem nodes_ups {t : Elem} (anc : List Elem) (path : List Nat) (i start : Nat) : ∀ gs : List Green,
    (∀ c ∈ placed path i start gs, Up t (c :: anc)) →
    ∀ s ∈ nodeChainss anc path i start gs, Up t s ∧ ∃ j, i ≤ j ∧ (j :: path) <:+ Site.path s
  | [], _ => by intro s hs; rw [nodeChainss] at hs; cases hs
  | g :: gs, h => by
    intro s hs
    rw [nodeChainss] at hs
    rcases List.mem_append.1 hs with hs | hs
    · obtain ⟨h1, h2⟩ := nodes_up anc (i :: path) start g (h _ (by simp [placed])) s hs
      exact ⟨h1, i, Nat.le_refl _, h2⟩
    · obtain ⟨h1, j, h2, h3⟩ := nodes_ups anc path (i + 1) (start + g.len) gs (fun c hc => h c (by simp [placed, hc])) s hs
      exact ⟨h1, j, by omega, h3⟩
end

theorem suffix_cons_eq {i j : Nat} {p q : List Nat} (h1 : (i :: p) <:+ q) (h2 : (j :: p) <:+ q) : i = j := by
  obtain ⟨a, ha⟩ := h1
  obtain ⟨b, hb⟩ := h2
  have := List.append_inj' (ha.trans hb.symm) (by simp)
  exact (List.cons.inj this.2).1

mutual
theorem nodes_distinct {t : Elem} (anc : List Elem) (path : List Nat) (start : Nat) : ∀ g : Green, Up t (⟨path, start, g⟩ :: anc) →
    (nodeChains anc path start g).Pairwise fun a b => Site.path a ≠ Site.path b
  | .tok _ _, _ => by rw [nodeChains]; exact .nil
  | .node k cs, h => by
    rw [nodeChains]
    refine List.pairwise_cons.2 ⟨fun s hs => ?_, nodes_distincts _ path 0 start cs fun c hc => .child h hc⟩
    obtain ⟨-, j, -, h2⟩ := nodes_ups _ path 0 start cs (fun c hc => .child h hc) s hs
    intro he
    have hl := h2.length_le
    rw [← he] at hl
    exact Nat.lt_irrefl _ hl
theorem nodes_distincts {t : Elem} (anc : List Elem) (path : List Nat) (i start : Nat) : ∀ gs : List Green,
    (∀ c ∈ placed path i start gs, Up t (c :: anc)) → (nodeChainss anc path i start gs).Pairwise fun a b => Site.path a ≠ Site.path b
  | [], _ => by rw [nodeChainss]; exact .nil
  | g :: gs, h => by
    rw [nodeChainss]
    refine List.pairwise_append.2 ⟨nodes_distinct anc (i :: path) start g (h _ (by simp [placed])),
      nodes_distincts anc path (i + 1) (start + g.len) gs fun c hc => h c (by simp [placed, hc]), fun a ha b hb he => ?_⟩
    obtain ⟨-, h2⟩ := nodes_up anc (i :: path) start g (h _ (by simp [placed])) a ha
    obtain ⟨-, j, h3, h4⟩ := nodes_ups anc path (i + 1) (start + g.len) gs (fun c hc => h c (by simp [placed, hc])) b hb
    rw [he] at h2
    have := suffix_cons_eq h2 h4
    omega
end

/-! ### The changes of a statement -/

/-- The elements that a change for a statement may be about: the white space after it, the statement and what is in it. -/
inductive Near (g : Green) (stmt : Site) (x : Site) : Prop where
  | ws (w : Elem) : followingWs stmt = some w → x = sib stmt w → Near g stmt x
  | inside : stmt.path <:+ x.path → Chain g x → 2 ≤ x.length → Near g stmt x

/-- The change replaces an element. -/
def replaces (c : Change) (x : Site) : Prop := c.old = some x ∧ c.pos = none

theorem child_in {g : Green} {s : Site} {k : SyntaxKind} {c : Elem} (h : Chain g s) (hc : nodeChild s.elem k = some c) :
    Chain g (c :: s) ∧ s.path <:+ c.path := by
  have hm := List.mem_of_find?_eq_some hc
  cases h with
  | top =>
    refine ⟨.child .top hm, ?_⟩
    obtain ⟨-, -, -, ⟨j, hj⟩, -⟩ := Elem.mem_children hm
    rw [hj]
    exact List.suffix_cons _ _
  | child hp hc' =>
    refine ⟨.child (.child hp hc') hm, ?_⟩
    obtain ⟨-, -, -, ⟨j, hj⟩, -⟩ := Elem.mem_children hm
    rw [hj]
    exact List.suffix_cons _ _

theorem root_near {g : Green} {stmt r : Site} (h : Chain g stmt) (hr : rootSpeck stmt = some r) : Chain g r ∧ stmt.path <:+ r.path := by
  obtain ⟨c, hc, rfl⟩ := Option.map_eq_some_iff.1 hr
  exact child_in h hc

theorem group_near {g : Green} {stmt x : Site} (h : Chain g stmt) (hx : groupOf stmt = some x) : Chain g x ∧ stmt.path <:+ x.path := by
  obtain ⟨r, hr, hx⟩ := Option.bind_eq_some_iff.1 hx
  obtain ⟨c, hc, rfl⟩ := Option.map_eq_some_iff.1 hx
  obtain ⟨h1, h2⟩ := root_near h hr
  obtain ⟨h3, h4⟩ := child_in h1 hc
  exact ⟨h3, h2.trans h4⟩

theorem chain_len {g : Green} {s : Site} (h : Chain g s) : s.length = s.path.length + 1 := by
  induction h with
  | top => rfl
  | @child c p ps hp hc ih =>
    have h1 : Site.path (c :: p :: ps) = c.path := rfl
    have h2 : Site.path (p :: ps) = p.path := rfl
    rw [List.length_cons, ih, h1, h2, child_length hc]

/-- The changes of a statement. -/
theorem removeIn_near (f : Factory) {g : Green} {stmt : Site} (m : Mark) (h : Chain g stmt) (hl : 2 ≤ stmt.length) :
    ∀ c ∈ removeIn f stmt m, ∃ x, replaces c x ∧ Near g stmt x := by
  have hstep : ∀ x : Site, Chain g x → stmt.path <:+ x.path → Near g stmt x := by
    intro x hx hs
    refine .inside hs hx ?_
    have := hs.length_le
    rw [chain_len h] at hl
    rw [chain_len hx]
    omega
  have hroot : ∀ one, ∀ c ∈ replaceRoot f stmt one, ∃ x, replaces c x ∧ Near g stmt x := by
    intro one c hc
    unfold replaceRoot at hc
    cases hr : rootSpeck stmt with
    | none => rw [hr] at hc; cases hc
    | some r =>
      obtain ⟨h1, h2⟩ := root_near h hr
      rw [hr] at hc
      dsimp only at hc
      cases hp : nodeChild r.elem .PATH with
      | none => rw [hp] at hc; cases hc
      | some p =>
        rw [hp] at hc
        dsimp only at hc
        split at hc
        · rw [List.mem_singleton.1 hc]
          exact ⟨r, ⟨rfl, rfl⟩, hstep r h1 h2⟩
        · split at hc
          · cases hc
          · rw [List.mem_singleton.1 hc]
            exact ⟨r, ⟨rfl, rfl⟩, hstep r h1 h2⟩
  have hspecks : ∀ us, (∀ u ∈ us, u ∈ groupSpecks stmt) → ∀ c ∈ deleteSpecks f stmt us, ∃ x, replaces c x ∧ Near g stmt x := by
    intro us hus c hc
    unfold deleteSpecks at hc
    split at hc
    · exact hroot _ c hc
    · obtain ⟨u, hu, hc⟩ := List.mem_flatMap.1 hc
      have hg := hus u hu
      unfold groupSpecks at hg
      cases hgr : groupOf stmt with
      | none => rw [hgr] at hg; cases hg
      | some gr =>
        rw [hgr] at hg
        dsimp only at hg
        obtain ⟨e, he, rfl⟩ := List.mem_map.1 hg
        obtain ⟨h1, h2⟩ := group_near h hgr
        cases gr with
        | nil => cases h1
        | cons p ps =>
          have he' : e ∈ p.children := (List.mem_filter.1 he).1
          rw [deleteSpeck_taken] at hc
          obtain ⟨d, hd, rfl⟩ := List.mem_map.1 hc
          have hdc := taken_child he' d hd
          refine ⟨d :: p :: ps, ⟨rfl, rfl⟩, hstep _ (.child h1 hdc) (h2.trans ?_)⟩
          obtain ⟨-, -, -, ⟨j, hj⟩, -⟩ := Elem.mem_children hdc
          show p.path <:+ d.path
          rw [hj]
          exact List.suffix_cons _ _
  have hmarked : ∀ us, ∀ u ∈ markedSpecks stmt us, u ∈ groupSpecks stmt := by
    intro us u hu
    obtain ⟨v, -, hv⟩ := List.mem_filterMap.1 hu
    exact List.mem_of_find?_eq_some hv
  intro c hc
  cases m with
  | stmt file path =>
    unfold removeIn deleteStmt at hc
    dsimp only at hc
    rcases List.mem_append.1 hc with hc | hc
    · obtain ⟨w, hw, rfl⟩ := List.mem_map.1 hc
      exact ⟨sib stmt w, ⟨rfl, rfl⟩, .ws w (Option.mem_toList.1 hw) rfl⟩
    · rw [List.mem_singleton.1 hc]
      exact ⟨stmt, ⟨rfl, rfl⟩, hstep stmt h (List.suffix_refl _)⟩
  | specks us =>
    unfold removeIn at hc
    dsimp only at hc
    split at hc
    · rename_i r hr
      split at hc
      · unfold simplifyRoot at hc
        split at hc
        · cases hc
        · rw [List.mem_singleton.1 hc]
          obtain ⟨h1, h2⟩ := root_near h hr
          exact ⟨r, ⟨rfl, rfl⟩, hstep r h1 h2⟩
      · exact hspecks _ (hmarked us) c hc
    · exact hspecks _ (hmarked us) c hc

/-! ### Changes of different statements -/

theorem replaces_apart {a b : Change} {x y : Site} (ha : replaces a x) (hb : replaces b y) (h1 : ¬ x.path <:+ y.path)
    (h2 : ¬ y.path <:+ x.path) : Apart a b := by
  refine ⟨?_, ?_, ?_⟩
  · intro x' hx y' hy
    rw [ha.1] at hx
    rw [hb.1] at hy
    cases hx
    cases hy
    exact ⟨h1, h2⟩
  · intro p hp
    rw [ha.2] at hp
    cases hp
  · intro _ _ p hp
    rw [hb.2] at hp
    cases hp

/-- The way to an element passes through the elements whose identity it begins with. -/
theorem chain_through {g : Green} {x y : Site} (hx : Chain g x) (hy : Chain g y) (h : x.path <:+ y.path) : x <:+ y := by
  induction hy with
  | top =>
    have : x.path = Site.path [Elem.root g] := by
      have := h.length_le
      have hl : (Site.path [Elem.root g]).length = 0 := rfl
      rw [hl] at this
      have : x.path = [] := List.length_eq_zero_iff.1 (by omega)
      rw [this]
      rfl
    rw [site_same hx .top this]
  | @child c p ps hp hc ih =>
    obtain ⟨-, -, -, ⟨j, hj⟩, -⟩ := Elem.mem_children hc
    have h' : x.path <:+ j :: p.path := by
      rw [← hj]
      exact h
    rcases List.suffix_cons_iff.1 h' with he | hs
    · rw [site_same hx (.child hp hc) (he.trans hj.symm)]
    · exact (ih hs).trans (List.suffix_cons _ _)

/-- Nothing is below a token. -/
theorem token_leaf {g : Green} {x y : Site} (hy : Chain g y) (h : x <:+ y) (hne : x ≠ []) (ht : x.elem.green.isTok = true) : x = y := by
  induction hy with
  | top =>
    obtain ⟨l, hl⟩ := h
    cases l with
    | nil => exact hl
    | cons a l =>
      have := congrArg List.length hl
      simp only [List.cons_append, List.length_cons, List.length_append, List.length_nil] at this
      exact absurd (List.length_eq_zero_iff.1 (by omega)) hne
  | @child c p ps hp hc ih =>
    rcases List.suffix_cons_iff.1 h with rfl | hs
    · rfl
    · have := ih hs
      subst this
      have hn := (Elem.mem_children hc).2.2.2.2
      have : Site.elem (p :: ps) = p := rfl
      rw [this] at ht
      rw [ht] at hn
      cases hn

theorem ws_site {g : Green} {s : Site} {w : Elem} (h : Chain g s) (hw : followingWs s = some w) :
    ∃ e p ps pre r, s = e :: p :: ps ∧ p.children = pre ++ e :: w :: r ∧ Chain g (p :: ps) ∧ isToken .WHITESPACE w = true := by
  cases h with
  | top => cases hw
  | @child e p ps hp hc =>
    obtain ⟨pre, post, hpp⟩ := List.append_of_mem hc
    unfold followingWs at hw
    rw [(around hpp).1] at hw
    obtain ⟨h1, h2⟩ := Option.filter_eq_some_iff.1 hw
    cases post with
    | nil => cases h1
    | cons v r =>
      cases h1
      exact ⟨e, p, ps, pre, r, rfl, hpp, hp, h2⟩

theorem token_of {k : SyntaxKind} {c : Elem} (h : isToken k c = true) : c.green.isTok = true := by
  unfold isToken at h
  exact (Bool.and_eq_true_iff.1 h).1

theorem node_of {k : SyntaxKind} {c : Elem} (h : isNode k c = true) : c.green.isTok = false := by
  unfold isNode at h
  simpa using (Bool.and_eq_true_iff.1 h).1

/-- What is near one statement does not contain what is near another. -/
theorem near_apart {g : Green} {s t x y : Site} (hs : Chain g s) (ht : Chain g t) (hsn : s.elem.green.isTok = false)
    (htn : t.elem.green.isTok = false) (h1 : ¬ s.path <:+ t.path) (h2 : ¬ t.path <:+ s.path) (hx : Near g s x) (hy : Near g t y) :
    ¬ x.path <:+ y.path := by
  -- a node is not around the white space after a statement, if it is not around the statement
  have key : ∀ {s t : Site} {w : Elem}, Chain g s → Chain g t → s.elem.green.isTok = false → ¬ s.path <:+ t.path →
      followingWs t = some w → ¬ s.path <:+ w.path := by
    intro s t w hs ht hsn hst hw hsw
    obtain ⟨e, p, ps, pre, r, rfl, hc, hp, hwt⟩ := ws_site ht hw
    have hwc : w ∈ p.children := by rw [hc]; simp
    have hec : e ∈ p.children := by rw [hc]; simp
    obtain ⟨-, -, -, ⟨j, hj⟩, -⟩ := Elem.mem_children hwc
    rw [hj] at hsw
    rcases List.suffix_cons_iff.1 hsw with he | hsp
    · have := site_same hs (.child hp hwc) (he.trans hj.symm)
      rw [this] at hsn
      have : Site.elem (w :: p :: ps) = w := rfl
      rw [this, token_of hwt] at hsn
      cases hsn
    · obtain ⟨-, -, -, ⟨i, hi⟩, -⟩ := Elem.mem_children hec
      refine hst (hsp.trans ?_)
      show p.path <:+ e.path
      rw [hi]
      exact List.suffix_cons _ _
  intro hxy
  cases hx with
  | inside hsx hxc _ =>
    cases hy with
    | inside hty hyc _ =>
      rcases List.suffix_or_suffix_of_suffix (hsx.trans hxy) hty with h | h
      · exact h1 h
      · exact h2 h
    | ws w hw hyw =>
      subst hyw
      exact key hs ht hsn h1 hw (hsx.trans hxy)
  | ws w hw hxw =>
    subst hxw
    obtain ⟨e, p, ps, pre, r, rfl, hc, hp, hwt⟩ := ws_site hs hw
    have hwc : w ∈ p.children := by rw [hc]; simp
    have hwch : Chain g (w :: p :: ps) := .child hp hwc
    have hsib : sib (e :: p :: ps) w = w :: p :: ps := rfl
    rw [hsib] at hxy
    cases hy with
    | inside hty hyc _ =>
      have hy' := token_leaf hyc (chain_through hwch hyc hxy) (by simp) (token_of hwt)
      rw [← hy'] at hty
      exact key ht hs htn h2 hw hty
    | ws v hv hyv =>
      obtain ⟨e', p', ps', pre', r', rfl, hc', hp', hvt⟩ := ws_site ht hv
      have hvc : v ∈ p'.children := by rw [hc']; simp
      have hsib' : sib (e' :: p' :: ps') v = v :: p' :: ps' := rfl
      subst hyv
      rw [hsib'] at hxy
      have he := token_leaf (.child hp' hvc) (chain_through hwch (.child hp' hvc) hxy) (by simp) (token_of hwt)
      simp only [List.cons.injEq] at he
      obtain ⟨rfl, rfl, rfl⟩ := he
      have b1 := (around (ps := ps) (show p.children = (pre ++ [e]) ++ w :: r by rw [hc]; simp)).2
      have b2 := (around (ps := ps) (show p.children = (pre' ++ [e']) ++ w :: r' by rw [hc']; simp)).2
      rw [b1] at b2
      simp only [List.reverse_append, List.reverse_cons, List.reverse_nil, List.nil_append, List.singleton_append, List.cons.injEq] at b2
      obtain ⟨rfl, -⟩ := b2
      exact h1 (List.suffix_refl _)

theorem heads_of {p : Elem} {ps : List Elem} (us : List Site)
    (hus : ∀ u ∈ us, u ∈ (p.children.filter (isNode .USE_SPECK)).map (· :: p :: ps)) :
    ∃ es : List Elem, us = es.map (· :: p :: ps) ∧ ∀ e ∈ es, e ∈ p.children := by
  induction us with
  | nil => exact ⟨[], rfl, by simp⟩
  | cons u us ih =>
    obtain ⟨es, h3, h4⟩ := ih fun v hv => hus v (by simp [hv])
    obtain ⟨e, he, rfl⟩ := List.mem_map.1 (hus u (by simp))
    refine ⟨e :: es, by simp [h3], fun x hx => ?_⟩
    rcases List.mem_cons.1 hx with rfl | hx
    · exact (List.mem_filter.1 he).1
    · exact h4 x hx

/-- The changes of one statement, if they take nothing out twice. -/
theorem removeIn_apart (f : Factory) {g : Green} {stmt : Site} (m : Mark) (h : Chain g stmt)
    (hn : (olds (removeIn f stmt m)).Nodup) : (removeIn f stmt m).Pairwise Apart := by
  have hroot : ∀ one, (replaceRoot f stmt one).Pairwise Apart := by
    intro one
    unfold replaceRoot
    split
    · exact .nil
    · split
      · exact .nil
      · split
        · exact List.pairwise_singleton _ _
        · split
          · exact .nil
          · exact List.pairwise_singleton _ _
  have hspecks : ∀ us, (∀ u ∈ us, u ∈ groupSpecks stmt) → (olds (deleteSpecks f stmt us)).Nodup → (deleteSpecks f stmt us).Pairwise Apart := by
    intro us hus hn
    unfold deleteSpecks at hn ⊢
    split at hn
    · exact hroot _
    · unfold groupSpecks at hus
      cases hgr : groupOf stmt with
      | none =>
        rw [hgr] at hus
        have : us = [] := List.eq_nil_iff_forall_not_mem.2 fun u hu => by cases hus u hu
        rw [this]
        exact .nil
      | some gr =>
        rw [hgr] at hus
        dsimp only at hus
        obtain ⟨h1, -⟩ := group_near h hgr
        cases gr with
        | nil => cases h1
        | cons p ps =>
          obtain ⟨es, he1, he2⟩ := heads_of us hus
          subst he1
          rw [flatMap_taken] at hn ⊢
          rw [olds_deletes] at hn
          refine deletes_apart ?_ hn
          intro c hc
          obtain ⟨e, he, hce⟩ := List.mem_flatMap.1 hc
          exact taken_child (he2 e he) c hce
  have hmarked : ∀ us, ∀ u ∈ markedSpecks stmt us, u ∈ groupSpecks stmt := by
    intro us u hu
    obtain ⟨v, -, hv⟩ := List.mem_filterMap.1 hu
    exact List.mem_of_find?_eq_some hv
  cases m with
  | stmt file path =>
    unfold removeIn deleteStmt
    dsimp only
    cases hw : followingWs stmt with
    | none => exact List.pairwise_singleton _ _
    | some w =>
      obtain ⟨e, p, ps, pre, r, rfl, hc, hp, hwt⟩ := ws_site h hw
      have : (Option.toList (some w)).map (fun c => delete (sib (e :: p :: ps) c)) ++ [delete (e :: p :: ps)] =
          deletes (p :: ps) [w, e] := rfl
      rw [this]
      refine deletes_apart ?_ ?_
      · rw [hc]
        simp
      · have h1 : p.children.Pairwise fun a b => idx a < idx b := idx_sorted _ _ _ _
        rw [hc] at h1
        have := (List.pairwise_cons.1 (List.pairwise_append.1 h1).2.1).1 w (by simp)
        simp only [List.map_cons, List.map_nil, List.nodup_cons, List.mem_singleton, List.not_mem_nil, not_false_eq_true, List.nodup_nil,
          and_true]
        intro he
        unfold idx at this
        rw [he] at this
        exact Nat.lt_irrefl _ this
  | specks us =>
    unfold removeIn at hn ⊢
    dsimp only at hn ⊢
    split at hn
    · rename_i r hr
      split at hn
      · rename_i hself
        rw [if_pos hself]
        unfold simplifyRoot
        split
        · exact .nil
        · exact List.pairwise_singleton _ _
      · rename_i hself
        rw [if_neg hself]
        exact hspecks _ (hmarked us) hn
    · exact hspecks _ (hmarked us) hn

/-! ### The file -/

/-- Statements with what is removed from them. -/
theorem removed_apart (f : Factory) {g : Green} (ms : List (Site × Mark)) (hc : ∀ m ∈ ms, Chain g m.1 ∧ 2 ≤ m.1.length ∧ m.1.elem.green.isTok = false)
    (hd : ms.Pairwise fun a b => ¬ a.1.path <:+ b.1.path ∧ ¬ b.1.path <:+ a.1.path)
    (hn : ∀ m ∈ ms, (olds (removeIn f m.1 m.2)).Nodup) : (ms.flatMap fun m => removeIn f m.1 m.2).Pairwise Apart := by
  rw [List.pairwise_flatMap]
  refine ⟨fun m hm => removeIn_apart f m.2 (hc m hm).1 (hn m hm), ?_⟩
  refine hd.imp_of_mem ?_
  intro a b ha hb hab x hx y hy
  obtain ⟨hac, hal, han⟩ := hc a ha
  obtain ⟨hbc, hbl, hbn⟩ := hc b hb
  obtain ⟨s, hs1, hs2⟩ := removeIn_near f a.2 hac hal x hx
  obtain ⟨t, ht1, ht2⟩ := removeIn_near f b.2 hbc hbl y hy
  exact replaces_apart hs1 ht1 (near_apart hac hbc han hbn hab.1 hab.2 hs2 ht2) (near_apart hbc hac hbn han hab.2 hab.1 ht2 hs2)

theorem removed_sound (f : Factory) {g : Green} (hk : ∀ s, Chain g s → Unique s) {stmt : Site} {m : Mark} (h : Chain g stmt)
    (hl : 2 ≤ stmt.length) : ∀ c ∈ removeIn f stmt m, Sound g c := by
  intro c hc
  obtain ⟨x, hx1, hx2⟩ := removeIn_near f m h hl c hc
  have hx : Chain g x ∧ 2 ≤ x.length := by
    cases hx2 with
    | inside _ h1 h2 => exact ⟨h1, h2⟩
    | ws w hw hxw =>
      obtain ⟨e, p, ps, pre, r, rfl, hcc, hp, -⟩ := ws_site h hw
      subst hxw
      exact ⟨.child hp (by rw [hcc]; simp), by simp [sib]⟩
  refine ⟨?_, ?_, ?_⟩
  · intro e he
    rw [hx1.1] at he
    cases he
    exact ⟨⟨hx.1, hk x hx.1⟩, hx.2⟩
  · intro e he
    rw [hx1.2] at he
    cases he
  · intro e he
    rw [hx1.2] at he
    cases he

theorem eachStmt_prefix (w : Project) (file : Nat) (owner : Site) (items : List UseItem) (change : Site → Mark → List Change) (ss : List Elem) :
    ∃ ms : List (Site × Mark), (eachStmt w file owner items change ss).1 = ms.flatMap (fun m => change m.1 m.2) ∧
      (ms.map Prod.fst) <+: ss.map (· :: owner) ∧
      ∀ m ∈ ms, unusedKind w ⟨file, owner.elem, m.1.elem⟩ (items.filter (Stmt.has ⟨file, owner.elem, m.1.elem⟩)) = some m.2 := by
  induction ss with
  | nil => exact ⟨[], rfl, List.prefix_refl _, by simp⟩
  | cons s ss ih =>
    obtain ⟨ms, h1, h2, h3⟩ := ih
    unfold eachStmt
    split
    · exact ⟨[], rfl, List.nil_prefix, by simp⟩
    · rename_i m hm
      refine ⟨(s :: owner, m) :: ms, ?_, ?_, ?_⟩
      · dsimp only
        rw [h1, List.flatMap_cons]
      · rw [List.map_cons, List.map_cons]
        exact List.cons_prefix_cons.2 ⟨rfl, h2⟩
      · intro x hx
        rcases List.mem_cons.1 hx with rfl | hx
        · exact hm
        · exact h3 x hx

/-- Nothing is restricted to tests when no import is used in tests only. -/
theorem restrict_nil (w : Project) (f : Factory) (file : Nat) (owner : Site) (ss : List Elem) :
    (eachStmt w file owner [] (fun s => restrictIn f s (Stmt.items w ⟨file, owner.elem, s.elem⟩ == some [])) ss).1 = [] := by
  obtain ⟨ms, h1, h2, h3⟩ := eachStmt_prefix w file owner [] (fun s => restrictIn f s (Stmt.items w ⟨file, owner.elem, s.elem⟩ == some [])) ss
  rw [h1, List.flatMap_eq_nil_iff]
  intro m hm
  have := h3 m hm
  unfold unusedKind at this
  simp only [List.filter_nil, List.any_nil, Bool.false_eq_true, if_false, List.length_nil] at this
  cases hi : Stmt.items w ⟨file, owner.elem, m.1.elem⟩ with
  | none => rw [hi] at this; cases this
  | some us =>
    rw [hi] at this
    dsimp only at this
    cases us with
    | nil =>
      simp only [List.isEmpty_nil, if_true, Option.some.injEq] at this
      rw [← this]
      simp [restrictIn]
    | cons u us =>
      simp only [List.isEmpty_cons, Bool.false_eq_true, if_false, List.length_cons, Nat.add_eq_zero_iff, Nat.one_ne_zero, and_false,
        Option.some.injEq] at this
      rw [← this]
      unfold restrictIn
      dsimp only
      split
      · rfl
      · rfl

/-- A statement is not inside of a statement. -/
def Flat (g : Green) : Prop := ∀ s t : Site, Chain g s → Chain g t → isNode .USE_STMT s.elem = true → isNode .USE_STMT t.elem = true →
  s.path <:+ t.path → s = t

/-- In every statement nothing is to be taken out twice. -/
def Once (w : Project) (f : Factory) (file : Nat) : Prop := ∀ o ∈ owners (w.tree file), ∀ unused, unusedUseItems w file o = some unused →
  ∀ s ∈ useStmts o.elem, ∀ m, unusedKind w ⟨file, o.elem, s⟩ (unused.filter (Stmt.has ⟨file, o.elem, s⟩)) = some m →
    (olds (removeIn f (s :: o) m)).Nodup

/-- **C68.** "Organize imports" makes all of the changes that it records: in a file without imports that are used in tests only, if in
every statement nothing is to be taken out twice. -/
theorem C68_organize_partial (w : Project) (f : Factory) (file : Nat) (hs : Solid (w.tree file))
    (hk : ∀ s, Chain (w.tree file) s → Unique s) (hf : Flat (w.tree file))
    (ht : ∀ o ∈ owners (w.tree file), ∀ broad, testOnlyUseItems w file o = some broad → broad = []) (ho : Once w f file) :
    ∃ new es, finish (w.tree file) (organize w f file) = .done new ∧ es.Perm ((organize w f file).map Change.text) ∧
      (es.Pairwise fun a b => a.stop ≤ b.start) ∧ encode new.text = TextEdit.Spec.splice 0 es (encode (w.tree file).text) := by
  have hown : ∀ o ∈ owners (w.tree file), Chain (w.tree file) o := fun o h =>
    (nodes_up [] [] 0 (w.tree file) .top o (List.mem_filter.1 h).1).1
  -- the statements of one owner with their kinds
  have hone : ∀ o ∈ owners (w.tree file), ∃ ms : List (Site × Mark), organizeOwner w f file o = ms.flatMap (fun m => removeIn f m.1 m.2) ∧
      (ms.map Prod.fst) <+: (useStmts o.elem).map (· :: o) ∧ ∀ m ∈ ms, (olds (removeIn f m.1 m.2)).Nodup := by
    intro o hoo
    unfold organizeOwner
    cases hu : unusedUseItems w file o with
    | none => exact ⟨[], rfl, List.nil_prefix, by simp⟩
    | some unused =>
      obtain ⟨ms, h1, h2, h3⟩ := eachStmt_prefix w file o unused (removeIn f) (useStmts o.elem)
      refine ⟨ms, ?_, h2, ?_⟩
      · dsimp only
        split
        · exact h1
        · split
          · exact h1
          · rename_i broad hb
            rw [ht o hoo broad hb, restrict_nil, List.append_nil]
            exact h1
      · intro m hm
        have hmem := h2.subset (List.mem_map.2 ⟨m, hm, rfl⟩)
        obtain ⟨s, hss, hse⟩ := List.mem_map.1 hmem
        have h4 := h3 m hm
        obtain ⟨m1, m2⟩ := m
        dsimp only at hse h4 ⊢
        subst hse
        exact ho o hoo unused hu s hss m2 h4
  choose! kinds hk1 hk2 hk3 using hone
  have horg : organize w f file = ((owners (w.tree file)).flatMap kinds).flatMap fun m => removeIn f m.1 m.2 := by
    unfold organize
    rw [List.flatMap_assoc]
    exact List.flatMap_congr fun o ho => hk1 o ho
  have hmem : ∀ m ∈ (owners (w.tree file)).flatMap kinds, ∃ o ∈ owners (w.tree file), m ∈ kinds o ∧ ∃ s, s ∈ o.elem.children ∧
      m.1 = s :: o ∧ isNode .USE_STMT s = true := by
    intro m hm
    obtain ⟨o, ho, hmo⟩ := List.mem_flatMap.1 hm
    have := (hk2 o ho).subset (List.mem_map.2 ⟨m, hmo, rfl⟩)
    obtain ⟨s, hss, hse⟩ := List.mem_map.1 this
    obtain ⟨h1, h2⟩ := List.mem_filter.1 hss
    exact ⟨o, ho, hmo, s, h1, hse.symm, h2⟩
  have hch : ∀ m ∈ (owners (w.tree file)).flatMap kinds, Chain (w.tree file) m.1 ∧ 2 ≤ m.1.length ∧ isNode .USE_STMT m.1.elem = true := by
    intro m hm
    obtain ⟨o, ho, -, s, h1, h2, h3⟩ := hmem m hm
    have hoc := hown o ho
    rw [h2]
    cases o with
    | nil => cases hoc
    | cons p ps => exact ⟨.child hoc h1, by simp, h3⟩
  have hdist : ((owners (w.tree file)).flatMap kinds).Pairwise fun a b => a.1.path ≠ b.1.path := by
    rw [List.pairwise_flatMap]
    constructor
    · intro o ho
      have h1 : ((useStmts o.elem).map (· :: o)).Pairwise fun a b : Site => a.path ≠ b.path := by
        rw [List.pairwise_map]
        have hsorted : o.elem.children.Pairwise fun a b => idx a < idx b := idx_sorted _ _ _ _
        refine (hsorted.sublist List.filter_sublist).imp ?_
        intro a b hab he
        have he : a.path = b.path := he
        unfold idx at hab
        rw [he] at hab
        exact Nat.lt_irrefl _ hab
      have h2 := h1.sublist (hk2 o ho).sublist
      rw [List.pairwise_map] at h2
      exact h2
    · have hod : (owners (w.tree file)).Pairwise fun a b => Site.path a ≠ Site.path b :=
        (nodes_distinct [] [] 0 (w.tree file) .top).sublist List.filter_sublist
      refine hod.imp_of_mem ?_
      intro a b ha hb hab x hx y hy he
      have hxa := (hk2 a ha).subset (List.mem_map.2 ⟨x, hx, rfl⟩)
      have hyb := (hk2 b hb).subset (List.mem_map.2 ⟨y, hy, rfl⟩)
      obtain ⟨s, hs1, hs2⟩ := List.mem_map.1 hxa
      obtain ⟨t, ht1, ht2⟩ := List.mem_map.1 hyb
      obtain ⟨-, -, -, ⟨i, hi⟩, -⟩ := Elem.mem_children (List.mem_filter.1 hs1).1
      obtain ⟨-, -, -, ⟨j, hj⟩, -⟩ := Elem.mem_children (List.mem_filter.1 ht1).1
      rw [← hs2, ← ht2] at he
      have he : s.path = t.path := he
      rw [hi, hj] at he
      exact hab (List.cons.inj he).2
  rw [horg]
  refine C68_all hs ?_ (removed_apart f _ (fun m hm => ⟨(hch m hm).1, (hch m hm).2.1, node_of (hch m hm).2.2⟩) ?_ ?_)
  · intro c hc
    obtain ⟨m, hm, hcm⟩ := List.mem_flatMap.1 hc
    exact removed_sound f hk (hch m hm).1 (hch m hm).2.1 c hcm
  · refine hdist.imp_of_mem ?_
    intro a b ha hb hab
    obtain ⟨a1, -, a3⟩ := hch a ha
    obtain ⟨b1, -, b3⟩ := hch b hb
    exact ⟨fun h => hab (congrArg Site.path (hf _ _ a1 b1 a3 b3 h)), fun h => hab (congrArg Site.path (hf _ _ b1 a1 b3 a3 h)).symm⟩
  · intro m hm
    obtain ⟨o, ho, hmo, -⟩ := hmem m hm
    exact hk3 o ho m hmo

/-! ### What goes and what stays -/

/-- **C68.** A use speck of a group that is marked is in something that is taken out or replaced; when just one of the group is left,
that one must have a name. -/
theorem C68_gone (f : Factory) {g : Green} {stmt : Site} {us : List UseItem} {u : UseItem} {t : Site} (h : Chain g stmt) (hu : u ∈ us)
    (ht : t ∈ groupSpecks stmt) (hp : t.path = u.path) (hr : ∀ r ∈ rootSpeck stmt, isRootSelf r.elem = false)
    (hleft : ∀ one, (groupSpecks stmt).filter (fun s => !((markedSpecks stmt us).map Site.path).contains s.path) = [one] →
      (nodeChild one.elem .PATH).bind (nodeChild · .PATH_SEGMENT) ≠ none ∧ ∀ r ∈ rootSpeck stmt, nodeChild r.elem .PATH ≠ none) :
    ∃ c ∈ removeIn f stmt (.specks us), ∃ x ∈ c.old, x.path <:+ t.path := by
  have hgroup : ∃ gr r, groupOf stmt = some gr ∧ rootSpeck stmt = some r ∧ r.path <:+ t.path ∧ ∃ e ∈ gr.elem.children, t = e :: gr := by
    unfold groupSpecks at ht
    cases hg : groupOf stmt with
    | none => rw [hg] at ht; cases ht
    | some gr =>
      rw [hg] at ht
      dsimp only at ht
      obtain ⟨e, he, rfl⟩ := List.mem_map.1 ht
      obtain ⟨r, hr', hx⟩ := Option.bind_eq_some_iff.1 hg
      obtain ⟨h1, h2⟩ := group_near h hg
      obtain ⟨c, hc, rfl⟩ := Option.map_eq_some_iff.1 hx
      obtain ⟨h3, h4⟩ := child_in (root_near h hr').1 hc
      have hec := (List.mem_filter.1 he).1
      refine ⟨_, r, rfl, hr', h4.trans ?_, e, hec, rfl⟩
      obtain ⟨-, -, -, ⟨j, hj⟩, -⟩ := Elem.mem_children hec
      show Elem.path c <:+ e.path
      rw [hj]
      exact List.suffix_cons _ _
  obtain ⟨gr, r, hgr, hroot, hrt, e, hec, hte⟩ := hgroup
  unfold removeIn
  dsimp only
  rw [hroot]
  dsimp only
  rw [if_neg (by simp [hr r hroot])]
  unfold deleteSpecks
  split
  · rename_i one hone
    obtain ⟨h1, h2⟩ := hleft one hone
    unfold replaceRoot
    rw [hroot]
    dsimp only
    cases hp' : nodeChild r.elem .PATH with
    | none => exact absurd hp' (h2 r hroot)
    | some p =>
      dsimp only
      split
      · exact ⟨_, List.mem_singleton.2 rfl, r, rfl, hrt⟩
      · cases hseg : (nodeChild one.elem .PATH).bind (nodeChild · .PATH_SEGMENT) with
        | none => exact absurd hseg h1
        | some seg => exact ⟨_, List.mem_singleton.2 rfl, r, rfl, hrt⟩
  · have hm : ∃ v ∈ markedSpecks stmt us, v.path = t.path := by
      cases hf : (groupSpecks stmt).find? fun s => s.path == u.path with
      | none => exact absurd (List.find?_eq_none.1 hf t ht) (by simp [hp])
      | some v =>
        refine ⟨v, List.mem_filterMap.2 ⟨u, hu, hf⟩, ?_⟩
        have := List.find?_some hf
        rw [hp]
        simpa using this
    obtain ⟨v, hv, hvt⟩ := hm
    refine ⟨delete v, List.mem_flatMap.2 ⟨v, hv, ?_⟩, v, rfl, by rw [hvt]⟩
    unfold deleteSpeck deleteListElement
    simp

/-- **C68.** The other use specks of a group stay as they are, unless just one of the group is left. -/
theorem C68_stays (f : Factory) {g : Green} {stmt : Site} {us : List UseItem} {t : Site} (h : Chain g stmt) (ht : t ∈ groupSpecks stmt)
    (hp : ∀ u ∈ us, t.path ≠ u.path) (hr : ∀ r ∈ rootSpeck stmt, isRootSelf r.elem = false)
    (hleft : ((groupSpecks stmt).filter fun s => !((markedSpecks stmt us).map Site.path).contains s.path).length ≠ 1) :
    ∀ c ∈ removeIn f stmt (.specks us), ∃ x, c = delete x ∧ ¬ x.path <:+ t.path := by
  intro c hc
  unfold groupSpecks at ht
  cases hg : groupOf stmt with
  | none => rw [hg] at ht; cases ht
  | some gr =>
    obtain ⟨h1, -⟩ := group_near h hg
    rw [hg] at ht
    dsimp only at ht
    obtain ⟨e, he, rfl⟩ := List.mem_map.1 ht
    obtain ⟨he1, he2⟩ := List.mem_filter.1 he
    have hc' : c ∈ (markedSpecks stmt us).flatMap deleteSpeck := by
      unfold removeIn at hc
      dsimp only at hc
      have : c ∈ deleteSpecks f stmt (markedSpecks stmt us) := by
        split at hc
        · rename_i r hr'
          rwa [if_neg (by simp [hr r hr'])] at hc
        · exact hc
      unfold deleteSpecks at this
      split at this
      · rename_i one hone
        rw [hone] at hleft
        simp at hleft
      · exact this
    obtain ⟨v, hv, hcv⟩ := List.mem_flatMap.1 hc'
    obtain ⟨u, huu, hfind⟩ := List.mem_filterMap.1 hv
    have hvm := List.mem_of_find?_eq_some hfind
    have hvp : v.path = u.path := by simpa using List.find?_some hfind
    unfold groupSpecks at hvm
    rw [hg] at hvm
    dsimp only at hvm
    obtain ⟨e', he', rfl⟩ := List.mem_map.1 hvm
    obtain ⟨he1', he2'⟩ := List.mem_filter.1 he'
    cases gr with
    | nil => cases h1
    | cons p ps =>
      rw [deleteSpeck_taken] at hcv
      obtain ⟨d, hd, rfl⟩ := List.mem_map.1 hcv
      have hdc := taken_child he1' d hd
      refine ⟨d :: p :: ps, rfl, fun hs => ?_⟩
      have hs : d.path <:+ e.path := hs
      have hde := child_same hdc he1 (suffix_length hs (by rw [child_length hdc, child_length he1]))
      subst hde
      have hne : d ≠ e' := by
        rintro rfl
        exact hp u huu hvp
      have hkind : d.kind = .USE_SPECK := by
        unfold isNode at he2
        exact of_decide_eq_true (Bool.and_eq_true_iff.1 he2).2
      have hnt : trivia d = false := by
        unfold trivia
        rw [hkind]
        rfl
      have hnotok := node_of he2
      unfold taken at hd
      simp only [List.mem_append, Option.mem_toList] at hd
      rcases hd with (hd | (hd | hd) | hd) | hd
      · unfold wsAfterFirst at hd
        dsimp only at hd
        split at hd
        · obtain ⟨x, -, hw⟩ := Option.bind_eq_some_iff.1 hd
          have := token_of (Option.filter_eq_some_iff.1 hw).2
          rw [this] at hnotok
          cases hnotok
        · cases hd
      · have := List.mem_takeWhile_imp hd
        rw [hnt] at this
        cases this
      · have := List.mem_takeWhile_imp hd
        rw [hnt] at this
        cases this
      · unfold itsComma at hd
        split at hd
        · rename_i x hx
          cases hd
          have := token_of (Option.filter_eq_some_iff.1 hx).2
          rw [this] at hnotok
          cases hnotok
        · have := token_of (Option.filter_eq_some_iff.1 hd).2
          rw [this] at hnotok
          cases hnotok
      · cases hd
        exact hne rfl

end Verif.Ide.Organize
