import Verif.Ide.Organize

/-! C68: what removing imports does. -/

namespace Verif.Ide.Organize
open Verif Verif.Syntax Verif.Nameres Verif.Editor
open Verif.Parser (Green)
open Verif.Ide.Extend (after before idx placed_idx)
open Verif.TextEdit.TreeDiff (Solid)

/-! ### Siblings -/

theorem idx_sorted (path : List Nat) (i s : Nat) (gs : List Green) : (placed path i s gs).Pairwise fun a b => idx a < idx b := by
  induction gs generalizing i s with
  | nil => exact .nil
  | cons g gs ih =>
    refine List.pairwise_cons.2 ⟨fun b hb => ?_, ih _ _⟩
    have := placed_idx hb
    simp only [idx, List.headD_cons]
    unfold idx at this
    omega

theorem around {p e : Elem} {ps pre post : List Elem} (h : p.children = pre ++ e :: post) :
    after (e :: p :: ps) = post ∧ before (e :: p :: ps) = pre.reverse := by
  have hs : p.children.Pairwise fun a b => idx a < idx b := idx_sorted _ _ _ _
  rw [h] at hs
  obtain ⟨-, h2, h3⟩ := List.pairwise_append.1 hs
  have h1 := fun c (hc : c ∈ pre) => h3 c hc e (by simp)
  have h2 := (List.pairwise_cons.1 h2).1
  constructor
  · unfold after
    dsimp only
    rw [h, List.filter_append, List.filter_cons_of_neg (by simp), List.filter_eq_nil_iff.2 fun c hc => ?_,
      List.filter_eq_self.2 fun c hc => ?_, List.nil_append]
    · exact decide_eq_true (h2 c hc)
    · have := h1 c hc
      simp
      omega
  · unfold before
    dsimp only
    rw [h, List.filter_append, List.filter_cons_of_neg (by simp), List.filter_eq_self.2 fun c hc => ?_,
      List.filter_eq_nil_iff.2 fun c hc => ?_, List.append_nil]
    · have := h2 c hc
      simp
      omega
    · exact decide_eq_true (h1 c hc)

theorem placed_append (path : List Nat) (i s : Nat) (as bs : List Green) :
    placed path i s (as ++ bs) = placed path i s as ++ placed path (i + as.length) (s + (as.map Green.len).sum) bs := by
  induction as generalizing i s with
  | nil => simp [placed]
  | cons a as ih =>
    simp only [List.cons_append, placed, ih, List.length_cons, List.map_cons, List.sum_cons]
    rw [show i + 1 + as.length = i + (as.length + 1) by omega, show s + a.len + (as.map Green.len).sum = s + (a.len + (as.map Green.len).sum) by omega]

/-- A run of siblings. -/
theorem run_placed {p : Elem} {A M B : List Elem} (h : p.children = A ++ M ++ B) : ∃ i s, M = placed p.path i s (M.map Elem.green) := by
  have hg : p.green.children = A.map Elem.green ++ (M.map Elem.green ++ B.map Elem.green) := by
    rw [← placed_map p.path 0 p.start p.green.children]
    show p.children.map Elem.green = _
    rw [h]
    simp
  have h' : placed p.path 0 p.start p.green.children = A ++ (M ++ B) := by rw [← List.append_assoc]; exact h
  rw [hg, placed_append, placed_append] at h'
  have hl : ∀ (i s : Nat) (l : List Elem), (placed p.path i s (l.map Elem.green)).length = l.length := by
    intro i s l
    have := congrArg List.length (placed_map p.path i s (l.map Elem.green))
    simpa using this
  obtain ⟨-, h2⟩ := List.append_inj h' (hl _ _ _)
  obtain ⟨h3, -⟩ := List.append_inj h2 (hl _ _ _)
  exact ⟨_, _, h3.symm⟩

/-- Leaving out a run is leaving out one piece of text. -/
theorem splice_run (path : List Nat) (i s pos : Nat) (gs : List Green) (t : Text) (h : pos ≤ s) :
    TextEdit.Spec.splice pos ((placed path i s gs).map fun e => ⟨e.start, e.stop, []⟩) t =
      t.take (s - pos) ++ t.drop (s + (gs.map Green.len).sum - pos) := by
  induction gs generalizing i s pos t with
  | nil => simp [placed, TextEdit.Spec.splice]
  | cons g gs ih =>
    simp only [placed, List.map_cons, TextEdit.Spec.splice, List.append_nil, List.sum_cons]
    have hstop : Elem.stop ⟨i :: path, s, g⟩ = s + g.len := rfl
    rw [hstop, ih (i + 1) (s + g.len) (s + g.len) _ (Nat.le_refl _)]
    simp only [Nat.sub_self, List.take_zero, List.nil_append, List.drop_drop]
    congr 2
    omega

theorem placed_ends (path : List Nat) (i s : Nat) (gs : List Green) : (∀ x ∈ (placed path i s gs).head?, x.start = s) ∧
    (∀ y ∈ (placed path i s gs).getLast?, y.stop = s + (gs.map Green.len).sum) := by
  induction gs generalizing i s with
  | nil => simp [placed]
  | cons g gs ih =>
    refine ⟨by simp [placed], ?_⟩
    intro y hy
    cases gs with
    | nil =>
      simp only [placed, List.getLast?_singleton, Option.mem_def, Option.some.injEq] at hy
      subst hy
      simp [Elem.stop]
    | cons g' gs =>
      have := (ih (i + 1) (s + g.len)).2 y (by simpa [placed] using hy)
      rw [this]
      simp
      omega

/-- Deletions of children of a node. -/
def deletes (p : Site) (ds : List Elem) : List Change := ds.map fun c => delete (c :: p)

theorem olds_deletes (p : Site) (ds : List Elem) : olds (deletes p ds) = ds.map Elem.path := by
  unfold olds deletes
  induction ds with
  | nil => rfl
  | cons d ds ih =>
    rw [List.map_cons, List.filterMap_cons_some (by rfl : Change.old (delete (d :: p)) = some (d :: p)), List.map_cons, ih]
    rfl

theorem suffix_length {a b : List Nat} (h : a <:+ b) (hl : a.length = b.length) : a = b := h.eq_of_length hl

theorem child_length {p c : Elem} (h : c ∈ p.children) : c.path.length = p.path.length + 1 := by
  obtain ⟨-, -, -, ⟨j, hj⟩, -⟩ := Elem.mem_children h
  rw [hj]
  rfl

theorem deletes_sound {g : Green} {p : Elem} {ps ds : List Elem} (hk : ∀ c ∈ ds, Known g (c :: p :: ps)) :
    ∀ c ∈ deletes (p :: ps) ds, Sound g c := by
  intro c hc
  obtain ⟨d, hd, rfl⟩ := List.mem_map.1 hc
  refine ⟨?_, ?_, ?_⟩
  · intro e he
    cases he
    exact ⟨hk d hd, by simp⟩
  · intro e he; cases he
  · intro e he; cases he

theorem deletes_apart {p : Elem} {ps ds : List Elem} (hd : ∀ c ∈ ds, c ∈ p.children) (hn : (ds.map Elem.path).Nodup) :
    (deletes (p :: ps) ds).Pairwise Apart := by
  unfold deletes
  rw [List.pairwise_map]
  rw [List.Nodup, List.pairwise_map] at hn
  refine hn.imp_of_mem ?_
  intro a b ha hb hab
  refine ⟨?_, ?_, ?_⟩
  · intro x hx y hy
    cases hx
    cases hy
    have hl : a.path.length = b.path.length := by rw [child_length (hd a ha), child_length (hd b hb)]
    exact ⟨fun h => hab (suffix_length h hl), fun h => hab (suffix_length h hl.symm).symm⟩
  · intro x hx; cases hx
  · intro _ _ x hx; cases hx

/-- **C68.** Elements of one node are all taken out, if none of them is to be taken out twice; otherwise nothing happens at all. -/
theorem C68_deletes {g : Green} {p : Elem} {ps ds : List Elem} (hs : Solid g) (hk : ∀ c ∈ ds, Known g (c :: p :: ps))
    (hd : ∀ c ∈ ds, c ∈ p.children) :
    ((ds.map Elem.path).Nodup → ∃ new es, finish g (deletes (p :: ps) ds) = .done new ∧
      es.Perm (ds.map fun c => ⟨c.start, c.stop, []⟩) ∧ (es.Pairwise fun a b => a.stop ≤ b.start) ∧
      encode new.text = TextEdit.Spec.splice 0 es (encode g.text)) ∧
    (¬ (ds.map Elem.path).Nodup → finish g (deletes (p :: ps) ds) = .refused) := by
  constructor
  · intro hn
    obtain ⟨new, es, h1, h2, h3, h4⟩ := C68_all hs (deletes_sound hk) (deletes_apart (ps := ps) hd hn)
    refine ⟨new, es, h1, ?_, h3, h4⟩
    refine h2.trans ?_
    rw [deletes, List.map_map]
    exact List.Perm.refl _
  · intro hn
    exact C68_twice_fails hs (deletes_sound hk) (by rwa [olds_deletes])

/-- Taking out a run of siblings, in any order, takes out one piece of the text. -/
theorem run_deleted {g : Green} {p : Elem} {ps A M B ds : List Elem} (hs : Solid g) (hk : ∀ c ∈ p.children, Known g (c :: p :: ps))
    (h : p.children = A ++ M ++ B) (hd : ds.Perm M) : ∃ new, finish g (deletes (p :: ps) ds) = .done new ∧
      ∀ x ∈ M.head?, ∀ y ∈ M.getLast?, encode new.text = (encode g.text).take x.start ++ (encode g.text).drop y.stop := by
  have hM : ∀ c ∈ M, c ∈ p.children := fun c hc => by rw [h]; simp [hc]
  have hds : ∀ c ∈ ds, c ∈ p.children := fun c hc => hM c (hd.mem_iff.1 hc)
  have hn : (ds.map Elem.path).Nodup := by
    refine ((hd.map _).nodup_iff).2 ?_
    have h1 : p.children.Pairwise fun a b => idx a < idx b := idx_sorted _ _ _ _
    rw [h, List.append_assoc] at h1
    have h2 := (List.pairwise_append.1 (List.pairwise_append.1 h1).2.1).1
    rw [List.Nodup, List.pairwise_map]
    refine h2.imp ?_
    intro a b hab he
    unfold idx at hab
    rw [he] at hab
    exact Nat.lt_irrefl _ hab
  obtain ⟨new, es, h1, h2, h3, h4⟩ := (C68_deletes (ps := ps) hs (fun c hc => hk c (hds c hc)) hds).1 hn
  refine ⟨new, h1, ?_⟩
  obtain ⟨i, s, hi⟩ := run_placed h
  have hlt : ∀ c ∈ M, c.start < c.stop := fun c hc => solid_lt hs (hk c (hM c hc)).chain (by simp)
  have hes : es = M.map fun c => ⟨c.start, c.stop, []⟩ := by
    refine List.Perm.eq_of_pairwise (le := fun a b => a.stop ≤ b.start) ?_ h3 ?_ (h2.trans (hd.map _))
    · intro a b ha hb hab hba
      obtain ⟨c, hc, rfl⟩ := List.mem_map.1 ((h2.trans (hd.map _)).mem_iff.1 ha)
      obtain ⟨d, hdd, rfl⟩ := List.mem_map.1 hb
      have := hlt c hc
      have := hlt d hdd
      dsimp only at hab hba
      omega
    · rw [List.pairwise_map, hi]
      exact placed_sorted _ _ _ _
  intro x hx y hy
  have e1 := (placed_ends p.path i s (M.map Elem.green)).1 x (by rw [← hi]; exact hx)
  have e2 := (placed_ends p.path i s (M.map Elem.green)).2 y (by rw [← hi]; exact hy)
  have h5 : es = (placed p.path i s (M.map Elem.green)).map fun c => ⟨c.start, c.stop, []⟩ := by rw [hes, ← hi]
  rw [h4, h5, splice_run _ _ _ _ _ _ (Nat.zero_le _), e1, e2]
  rfl

/-! ### One item of a list -/

/-- The run of elements that goes when an item is taken out of a list: the item with the trivia around it, and with one comma. -/
inductive ItemRun (e : Elem) (A M B : List Elem) : Prop where
  | next (c : Elem) : M.filter (fun x => !trivia x) = [e, c] → isToken .COMMA c = true → ItemRun e A M B
  | prev (c : Elem) : M.filter (fun x => !trivia x) = [c, e] → isToken .COMMA c = true →
      (∀ d ∈ B.find? (fun x => !trivia x), isToken .COMMA d = false) → ItemRun e A M B
  | alone : M.filter (fun x => !trivia x) = [e] → (∀ d ∈ B.find? (fun x => !trivia x), isToken .COMMA d = false) →
      (∀ d ∈ A.reverse.find? (fun x => !trivia x), isToken .COMMA d = false) → ItemRun e A M B

/-- The elements that are taken out with a use speck. -/
def taken (s : Site) : List Elem :=
  (wsAfterFirst s).toList ++ ((after s).takeWhile trivia ++ (before s).takeWhile trivia ++ (itsComma s).toList) ++ s.head?.toList

theorem deleteSpeck_taken (e p : Elem) (ps : List Elem) : deleteSpeck (e :: p :: ps) = deletes (p :: ps) (taken (e :: p :: ps)) := by
  simp [deleteSpeck, deleteListElement, deletes, taken, sib]

theorem takeWhile_trivia (l : List Elem) : (l.takeWhile trivia).filter (fun x => !trivia x) = [] := by
  rw [List.filter_eq_nil_iff]
  intro a ha
  have := List.mem_takeWhile_imp ha
  simp [this]

theorem find_split (l : List Elem) : match l.find? fun x => !trivia x with
    | some c => ∃ r, l = l.takeWhile trivia ++ c :: r ∧ trivia c = false
    | none => l = l.takeWhile trivia := by
  induction l with
  | nil => rfl
  | cons x l ih =>
    by_cases hx : trivia x = true
    · rw [List.find?_cons_of_neg (by simp [hx]), List.takeWhile_cons_of_pos hx]
      cases hf : l.find? (fun x => !trivia x) with
      | none =>
        rw [hf] at ih
        dsimp only at ih ⊢
        rw [← ih]
      | some c =>
        rw [hf] at ih
        dsimp only at ih ⊢
        obtain ⟨r, h1, h2⟩ := ih
        exact ⟨r, by rw [List.cons_append, ← h1], h2⟩
    · have hx : trivia x = false := by simpa using hx
      rw [List.find?_cons_of_pos (by simp [hx]), List.takeWhile_cons_of_neg (by simp [hx])]
      exact ⟨l, rfl, hx⟩

theorem comma_solid {c : Elem} (h : isToken .COMMA c = true) : trivia c = false := by
  unfold isToken at h
  have := of_decide_eq_true (Bool.and_eq_true_iff.1 h).2
  unfold trivia
  rw [this]
  rfl

theorem ws_trivia {c : Elem} (h : isToken .WHITESPACE c = true) : trivia c = true := by
  unfold isToken at h
  have := of_decide_eq_true (Bool.and_eq_true_iff.1 h).2
  unfold trivia
  rw [this]
  rfl

theorem perm0 {α : Type} (w tv pv : List α) (c e : α) : (w ++ (tv ++ pv ++ [c]) ++ [e]).Perm (pv ++ e :: (tv ++ c :: w)) := by
  classical
  refine List.perm_iff_count.2 fun x => ?_
  simp only [List.count_append, List.count_cons, List.count_nil]
  omega

theorem perm1 {α : Type} (tv pv : List α) (c e : α) : (tv ++ pv ++ [c] ++ [e]).Perm (c :: (pv ++ e :: tv)) := by
  classical
  refine List.perm_iff_count.2 fun x => ?_
  simp only [List.count_append, List.count_cons, List.count_nil]
  omega

theorem perm2 {α : Type} (tv pv : List α) (e : α) : (tv ++ pv ++ [e]).Perm (pv ++ e :: tv) := by
  classical
  refine List.perm_iff_count.2 fun x => ?_
  simp only [List.count_append, List.count_cons, List.count_nil]
  omega

theorem item_run {p e : Elem} {ps pre post : List Elem} (h : p.children = pre ++ e :: post) (he : trivia e = false) :
    ∃ A M B, p.children = A ++ M ++ B ∧ (taken (e :: p :: ps)).Perm M ∧ ItemRun e A M B := by
  obtain ⟨ha, hb⟩ := around (ps := ps) h
  have hpost := find_split post
  have hpre := find_split pre.reverse
  have hcf : followingComma (e :: p :: ps) = (post.find? fun c => !trivia c).filter (isToken .COMMA) := by
    unfold followingComma; rw [ha]
  have hcp : precedingComma (e :: p :: ps) = (pre.reverse.find? fun c => !trivia c).filter (isToken .COMMA) := by
    unfold precedingComma; rw [hb]
  have hrev : pre = (pre.reverse.dropWhile trivia).reverse ++ (pre.reverse.takeWhile trivia).reverse := by
    rw [← List.reverse_append, List.takeWhile_append_dropWhile, List.reverse_reverse]
  have hdrop : post = post.takeWhile trivia ++ post.dropWhile trivia := List.takeWhile_append_dropWhile.symm
  have ft : ∀ l : List Elem, (l.takeWhile trivia).reverse.filter (fun x => !trivia x) = [] := fun l => by
    rw [List.filter_reverse, takeWhile_trivia]; rfl
  cases hfc : followingComma (e :: p :: ps) with
  | some c =>
    rw [hcf, Option.filter_eq_some_iff] at hfc
    obtain ⟨hf, hc⟩ := hfc
    rw [hf] at hpost
    obtain ⟨r, hr, htc⟩ := hpost
    have hits : itsComma (e :: p :: ps) = some c := by
      unfold itsComma
      rw [hcf, hf, Option.filter_some, if_pos hc]
    -- the white space after the comma, if it goes too
    have hchild : p.children = (pre ++ e :: post.takeWhile trivia) ++ c :: r := by
      rw [h]
      conv_lhs => rw [hr]
      simp
    obtain ⟨ha', -⟩ := around (ps := ps) hchild
    have hws : ∃ w r', r = w ++ r' ∧ (wsAfterFirst (e :: p :: ps)).toList = w ∧ w.filter (fun x => !trivia x) = [] := by
      unfold wsAfterFirst
      dsimp only
      split
      · rw [hcf, hf, Option.filter_some, if_pos hc, Option.bind_some]
        unfold followingWs sib
        rw [List.tail_cons, ha']
        cases r with
        | nil => exact ⟨[], [], rfl, rfl, rfl⟩
        | cons w r' =>
          rw [List.head?_cons, Option.filter_some]
          split
          · rename_i hw
            exact ⟨[w], r', rfl, rfl, by simp [ws_trivia hw]⟩
          · exact ⟨[], w :: r', rfl, rfl, rfl⟩
      · exact ⟨[], r, rfl, rfl, rfl⟩
    obtain ⟨w, r', hw1, hw2, hw3⟩ := hws
    refine ⟨(pre.reverse.dropWhile trivia).reverse, (pre.reverse.takeWhile trivia).reverse ++ e :: (post.takeWhile trivia ++ c :: w), r',
      ?_, ?_, ?_⟩
    · rw [hchild, hw1]
      conv_lhs => rw [hrev]
      simp
    · unfold taken
      rw [ha, hb, hits, hw2]
      simp only [List.head?_cons, Option.toList_some]
      generalize List.takeWhile trivia post = tv
      have h1 : ((pre.reverse.takeWhile trivia).reverse ++ e :: (tv ++ c :: w)).Perm
          ((pre.reverse.takeWhile trivia) ++ e :: (tv ++ c :: w)) := (List.reverse_perm _).append_right _
      refine List.Perm.trans ?_ h1.symm
      generalize List.takeWhile trivia pre.reverse = pv
      exact perm0 _ _ _ _ _
    · refine .next c ?_ hc
      rw [List.filter_append, ft, List.filter_cons_of_pos (by simp [he]), List.filter_append, takeWhile_trivia,
        List.filter_cons_of_pos (by simp [htc]), hw3]
      rfl
  | none =>
    have hB : ∀ d ∈ (post.dropWhile trivia).find? (fun x => !trivia x), isToken .COMMA d = false := by
      intro d hd
      have h2 : post.find? (fun x => !trivia x) = some d := by
        rw [hdrop, List.find?_append]
        rw [List.find?_eq_none.2 (fun x hx => by have := List.mem_takeWhile_imp hx; simp [this])]
        exact hd
      rw [hcf, h2, Option.filter_some] at hfc
      split at hfc
      · cases hfc
      · rename_i hn; simpa using hn
    have hws : wsAfterFirst (e :: p :: ps) = none := by
      unfold wsAfterFirst
      dsimp only
      split
      · rw [hfc]; rfl
      · rfl
    cases hpc : precedingComma (e :: p :: ps) with
    | some c =>
      rw [hcp, Option.filter_eq_some_iff] at hpc
      obtain ⟨hf, hc⟩ := hpc
      rw [hf] at hpre
      obtain ⟨r, hr, htc⟩ := hpre
      have hits : itsComma (e :: p :: ps) = some c := by
        unfold itsComma
        rw [hfc]
        dsimp only
        rw [hcp, hf]
        simp [hc]
      have hpre' : pre = r.reverse ++ c :: (pre.reverse.takeWhile trivia).reverse := by
        have := congrArg List.reverse hr
        rw [List.reverse_reverse, List.reverse_append, List.reverse_cons] at this
        conv_lhs => rw [this]
        simp
      refine ⟨r.reverse, c :: ((pre.reverse.takeWhile trivia).reverse ++ e :: post.takeWhile trivia), post.dropWhile trivia, ?_, ?_, ?_⟩
      · rw [h]
        conv_lhs => rw [hpre', hdrop]
        simp
      · unfold taken
        rw [ha, hb, hits, hws]
        simp only [List.head?_cons, Option.toList_some, Option.toList_none, List.nil_append]
        generalize List.takeWhile trivia post = tv
        have h1 : (c :: ((pre.reverse.takeWhile trivia).reverse ++ e :: tv)).Perm (c :: ((pre.reverse.takeWhile trivia) ++ e :: tv)) :=
          ((List.reverse_perm _).append_right _).cons c
        refine List.Perm.trans ?_ h1.symm
        generalize List.takeWhile trivia pre.reverse = pv
        exact perm1 _ _ _ _
      · refine .prev c ?_ hc hB
        rw [List.filter_cons_of_pos (by simp [htc]), List.filter_append, ft, List.filter_cons_of_pos (by simp [he]), takeWhile_trivia]
        rfl
    | none =>
      have hits : itsComma (e :: p :: ps) = none := by
        unfold itsComma
        rw [hfc]
        exact hpc
      refine ⟨(pre.reverse.dropWhile trivia).reverse, (pre.reverse.takeWhile trivia).reverse ++ e :: post.takeWhile trivia,
        post.dropWhile trivia, ?_, ?_, ?_⟩
      · rw [h]
        conv_lhs => rw [hrev, hdrop]
        simp
      · unfold taken
        rw [ha, hb, hits, hws]
        simp only [List.head?_cons, Option.toList_some, Option.toList_none, List.nil_append, List.append_nil]
        generalize List.takeWhile trivia post = tv
        have h1 : ((pre.reverse.takeWhile trivia).reverse ++ e :: tv).Perm ((pre.reverse.takeWhile trivia) ++ e :: tv) :=
          (List.reverse_perm _).append_right _
        refine List.Perm.trans ?_ h1.symm
        generalize List.takeWhile trivia pre.reverse = pv
        exact perm2 _ _ _
      · refine .alone ?_ hB ?_
        · rw [List.filter_append, ft, List.filter_cons_of_pos (by simp [he]), takeWhile_trivia]
          rfl
        · intro d hd
          rw [List.reverse_reverse] at hd
          have h2 : pre.reverse.find? (fun x => !trivia x) = some d := by
            rw [← List.takeWhile_append_dropWhile (p := trivia) (l := pre.reverse), List.find?_append,
              List.find?_eq_none.2 (fun x hx => by have := List.mem_takeWhile_imp hx; simp [this])]
            exact hd
          rw [hcp, h2, Option.filter_some] at hpc
          split at hpc
          · cases hpc
          · rename_i hn; simpa using hn

/-- **C68.** Taking one use speck out of a list takes out one piece of the text: the item with the trivia around it and one comma, the
one behind the item or else the one in front of it. -/
theorem C68_item {g : Green} {e p : Elem} {ps : List Elem} (hs : Solid g) (hk : ∀ c ∈ p.children, Known g (c :: p :: ps))
    (he : e ∈ p.children) (ht : trivia e = false) : ∃ A M B new, p.children = A ++ M ++ B ∧ ItemRun e A M B ∧
      finish g (deleteSpeck (e :: p :: ps)) = .done new ∧
      ∀ x ∈ M.head?, ∀ y ∈ M.getLast?, encode new.text = (encode g.text).take x.start ++ (encode g.text).drop y.stop := by
  obtain ⟨pre, post, hpp⟩ := List.append_of_mem he
  obtain ⟨A, M, B, h1, h2, h3⟩ := item_run (ps := ps) hpp ht
  obtain ⟨new, h4, h5⟩ := run_deleted hs hk h1 h2
  exact ⟨A, M, B, new, h1, h3, by rw [deleteSpeck_taken, h4], h5⟩

/-! ### Several items of a group -/

theorem flatMap_taken {p : Elem} {ps : List Elem} (us : List Elem) :
    (us.map (· :: p :: ps)).flatMap deleteSpeck = deletes (p :: ps) (us.flatMap fun e => taken (e :: p :: ps)) := by
  induction us with
  | nil => rfl
  | cons u us ih =>
    rw [List.map_cons, List.flatMap_cons, List.flatMap_cons, ih, deleteSpeck_taken]
    simp [deletes]

theorem taken_child {e p : Elem} {ps : List Elem} (he : e ∈ p.children) : ∀ c ∈ taken (e :: p :: ps), c ∈ p.children := by
  obtain ⟨pre, post, h⟩ := List.append_of_mem he
  obtain ⟨ha, hb⟩ := around (ps := ps) h
  have h1 : ∀ c ∈ after (e :: p :: ps), c ∈ p.children := fun c hc => by rw [ha] at hc; rw [h]; simp [hc]
  have h2 : ∀ c ∈ before (e :: p :: ps), c ∈ p.children := fun c hc => by rw [hb] at hc; rw [h]; simp at hc; simp [hc]
  have hf : ∀ c, followingComma (e :: p :: ps) = some c → c ∈ p.children := by
    intro c hc
    obtain ⟨hc, -⟩ := Option.filter_eq_some_iff.1 hc
    exact h1 c (List.mem_of_find?_eq_some hc)
  intro c hc
  unfold taken at hc
  simp only [List.mem_append, Option.mem_toList] at hc
  rcases hc with (hc | (hc | hc) | hc) | hc
  · unfold wsAfterFirst at hc
    dsimp only at hc
    split at hc
    · obtain ⟨d, hd, hw⟩ := Option.bind_eq_some_iff.1 hc
      obtain ⟨hw, -⟩ := Option.filter_eq_some_iff.1 hw
      obtain ⟨pre', post', h'⟩ := List.append_of_mem (hf d hd)
      have hw := List.mem_of_mem_head? hw
      unfold sib at hw
      rw [List.tail_cons, (around h').1] at hw
      rw [h']
      simp [hw]
    · cases hc
  · exact h1 c (List.takeWhile_subset _ hc)
  · exact h2 c (List.takeWhile_subset _ hc)
  · unfold itsComma at hc
    split at hc
    · rename_i d hd
      cases hc
      exact hf _ hd
    · obtain ⟨hc, -⟩ := Option.filter_eq_some_iff.1 hc
      exact h2 c (List.mem_of_find?_eq_some hc)
  · cases hc
    exact he

/-- The use specks of a group that are taken out of it, as long as not exactly one is left. -/
theorem deleteSpecks_taken (f : Factory) {stmt : Site} {p : Elem} {ps us : List Elem}
    (hone : ((groupSpecks stmt).filter fun s => !((us.map (· :: p :: ps)).map Site.path).contains s.path).length ≠ 1) :
    deleteSpecks f stmt (us.map (· :: p :: ps)) = deletes (p :: ps) (us.flatMap fun e => taken (e :: p :: ps)) := by
  unfold deleteSpecks
  split
  · rename_i h
    rw [h] at hone
    simp at hone
  · exact flatMap_taken us

/-- **C68.** Use specks are taken out of a group all together, or not at all: they are if no element is to be taken out twice. -/
theorem C68_group_partial (f : Factory) {g : Green} {stmt : Site} {p : Elem} {ps us : List Elem} (hs : Solid g)
    (hk : ∀ c ∈ p.children, Known g (c :: p :: ps)) (hu : ∀ e ∈ us, e ∈ p.children)
    (hone : ((groupSpecks stmt).filter fun s => !((us.map (· :: p :: ps)).map Site.path).contains s.path).length ≠ 1) :
    (((us.flatMap fun e => taken (e :: p :: ps)).map Elem.path).Nodup → ∃ new es,
      finish g (deleteSpecks f stmt (us.map (· :: p :: ps))) = .done new ∧
      es.Perm ((us.flatMap fun e => taken (e :: p :: ps)).map fun c => ⟨c.start, c.stop, []⟩) ∧
      (es.Pairwise fun a b => a.stop ≤ b.start) ∧ encode new.text = TextEdit.Spec.splice 0 es (encode g.text)) ∧
    (¬ ((us.flatMap fun e => taken (e :: p :: ps)).map Elem.path).Nodup →
      finish g (deleteSpecks f stmt (us.map (· :: p :: ps))) = .refused) := by
  have hd : ∀ c ∈ us.flatMap fun e => taken (e :: p :: ps), c ∈ p.children := by
    intro c hc
    obtain ⟨e, he, hce⟩ := List.mem_flatMap.1 hc
    exact taken_child (hu e he) c hce
  rw [deleteSpecks_taken f hone]
  exact C68_deletes hs (fun c hc => hk c (hd c hc)) hd

theorem twice {us : List Elem} {t : Elem → List Elem} {a b x : Elem} (ha : a ∈ us) (hb : b ∈ us) (hab : a ≠ b) (hxa : x ∈ t a)
    (hxb : x ∈ t b) : ¬ ((us.flatMap t).map Elem.path).Nodup := by
  intro hn
  replace hn := hn.of_map
  induction us with
  | nil => cases ha
  | cons u us ih =>
    rw [List.flatMap_cons, List.nodup_append] at hn
    obtain ⟨-, h2, h3⟩ := hn
    rcases List.mem_cons.1 ha with rfl | ha'
    · rcases List.mem_cons.1 hb with rfl | hb'
      · exact hab rfl
      · exact h3 x hxa x (List.mem_flatMap.2 ⟨b, hb', hxb⟩) rfl
    · rcases List.mem_cons.1 hb with rfl | hb'
      · exact h3 x hxb x (List.mem_flatMap.2 ⟨a, ha', hxa⟩) rfl
      · exact ih ha' hb' h2

/-- When the first two of at least four use specks of a group are taken out, with white space in front of the second, nothing happens. -/
theorem C68_first_two_fails (f : Factory) {g : Green} {stmt : Site} {p a c w b : Elem} {ps us pre post : List Elem} (hs : Solid g)
    (hk : ∀ c ∈ p.children, Known g (c :: p :: ps)) (hu : ∀ e ∈ us, e ∈ p.children)
    (hone : ((groupSpecks stmt).filter fun s => !((us.map (· :: p :: ps)).map Site.path).contains s.path).length ≠ 1)
    (hp : isNode .USE_GROUP p = true) (hc : p.children = pre ++ a :: c :: w :: b :: post)
    (ha : isNode .USE_SPECK a = true) (hpre : ∀ x ∈ pre, isNode .USE_SPECK x = false)
    (hcomma : isToken .COMMA c = true) (hw : isToken .WHITESPACE w = true) (hau : a ∈ us) (hbu : b ∈ us) :
    finish g (deleteSpecks f stmt (us.map (· :: p :: ps))) = .refused := by
  refine (C68_group_partial f hs hk hu hone).2 (twice hau hbu ?_ (x := w) ?_ ?_)
  · rintro rfl
    have h1 : p.children.Pairwise fun a b => idx a < idx b := idx_sorted _ _ _ _
    rw [hc] at h1
    have := (List.pairwise_cons.1 (List.pairwise_append.1 h1).2.1).1 a (by simp)
    omega
  · obtain ⟨h1, -⟩ := around (ps := ps) hc
    have hc' : p.children = (pre ++ [a]) ++ c :: w :: b :: post := by rw [hc]; simp
    obtain ⟨h2, -⟩ := around (ps := ps) hc'
    have hf : followingComma (a :: p :: ps) = some c := by
      unfold followingComma
      rw [h1, List.find?_cons_of_pos (by simp [comma_solid hcomma]), Option.filter_some, if_pos hcomma]
    have hws : wsAfterFirst (a :: p :: ps) = some w := by
      unfold wsAfterFirst
      dsimp only
      have hn : nodeChild p .USE_SPECK = some a := by
        unfold nodeChild
        rw [hc, List.find?_append, List.find?_eq_none.2 (fun x hx => by simp [hpre x hx]), List.find?_cons_of_pos ha]
        rfl
      rw [hp, hn, if_pos (by simp), hf, Option.bind_some]
      unfold followingWs sib
      rw [List.tail_cons, h2, List.head?_cons, Option.filter_some, if_pos hw]
    unfold taken
    rw [hws]
    simp
  · have hc' : p.children = (pre ++ [a, c, w]) ++ b :: post := by rw [hc]; simp
    obtain ⟨-, h2⟩ := around (ps := ps) hc'
    unfold taken
    rw [h2]
    simp [ws_trivia hw]

/-- When the last two are taken out and no comma follows, nothing happens. -/
theorem C68_last_two_fails (f : Factory) {g : Green} {stmt : Site} {p a c b : Elem} {ps us pre tv pv post : List Elem} (hs : Solid g)
    (hk : ∀ c ∈ p.children, Known g (c :: p :: ps)) (hu : ∀ e ∈ us, e ∈ p.children)
    (hone : ((groupSpecks stmt).filter fun s => !((us.map (· :: p :: ps)).map Site.path).contains s.path).length ≠ 1)
    (hc : p.children = pre ++ a :: (tv ++ c :: (pv ++ b :: post))) (htv : ∀ x ∈ tv, trivia x = true) (hpv : ∀ x ∈ pv, trivia x = true)
    (hcomma : isToken .COMMA c = true) (hpost : ∀ d ∈ post.find? (fun x => !trivia x), isToken .COMMA d = false)
    (hau : a ∈ us) (hbu : b ∈ us) : finish g (deleteSpecks f stmt (us.map (· :: p :: ps))) = .refused := by
  refine (C68_group_partial f hs hk hu hone).2 (twice hau hbu ?_ (x := c) ?_ ?_)
  · rintro rfl
    have h1 : p.children.Pairwise fun a b => idx a < idx b := idx_sorted _ _ _ _
    rw [hc] at h1
    have := (List.pairwise_cons.1 (List.pairwise_append.1 h1).2.1).1 a (by simp)
    omega
  · obtain ⟨h1, -⟩ := around (ps := ps) hc
    have hf : followingComma (a :: p :: ps) = some c := by
      unfold followingComma
      rw [h1, List.find?_append, List.find?_eq_none.2 (fun x hx => by simp [htv x hx]),
        List.find?_cons_of_pos (by simp [comma_solid hcomma]), Option.none_or, Option.filter_some, if_pos hcomma]
    unfold taken itsComma
    rw [hf]
    simp
  · have hc' : p.children = (pre ++ a :: (tv ++ c :: pv)) ++ b :: post := by rw [hc]; simp
    obtain ⟨h1, h2⟩ := around (ps := ps) hc'
    have hf : followingComma (b :: p :: ps) = none := by
      unfold followingComma
      rw [h1]
      cases hd : post.find? (fun x => !trivia x) with
      | none => rfl
      | some d => rw [Option.filter_some, if_neg (by simp [hpost d hd])]
    have hpc : precedingComma (b :: p :: ps) = some c := by
      unfold precedingComma
      rw [h2]
      have : (pre ++ a :: (tv ++ c :: pv)).reverse = pv.reverse ++ c :: (pre ++ a :: tv).reverse := by simp
      rw [this, List.find?_append, List.find?_eq_none.2 (fun x hx => by simp at hx; simp [hpv x hx]),
        List.find?_cons_of_pos (by simp [comma_solid hcomma]), Option.none_or, Option.filter_some, if_pos hcomma]
    unfold taken itsComma
    rw [hf, hpc]
    simp

end Verif.Ide.Organize
