import Verif.Ide.ImportsProps

/-! What is marked as unused, and what is not. -/

namespace Verif.Ide
open Verif.Parser (Green)
open Verif.Syntax Verif.Nameres

/-! ### Which imports are reported -/

theorem mem_of_matches {t : BaseType} {u : UseItem} (h : matchesType t u = true) : t = .item u.name ∨ t = .module u.name := by
  cases t with
  | address => cases h
  | module n => simp only [matchesType, Bool.and_eq_true, decide_eq_true_eq] at h; exact .inr (by rw [h.2])
  | item n => simp only [matchesType, Bool.and_eq_true, decide_eq_true_eq] at h; exact .inl (by rw [h.2])

theorem hitIn_matches {w : Project} {file : Nat} {sp : Option ItemScope} {t : BaseType} {os : List (List Elem)} {u : UseItem}
    (h : hitIn w file sp t os = some u) : matchesType t u = true ∧ ∃ o ∈ os, u ∈ combinedUseItems w file o := by
  induction os with
  | nil => cases h
  | cons o os ih =>
    rw [hitIn] at h
    split at h
    · rename_i v hv
      cases h
      rw [Option.or_eq_some_iff] at hv
      have hm : u ∈ (combinedUseItems w file o).filter fun u =>
          (decide (u.scope = .Main) || decide (some u.scope = sp)) && matchesType t u := by
        rcases hv with hv | ⟨-, hv⟩
        · rw [Option.bind_eq_some_iff] at hv
          obtain ⟨s, -, hv⟩ := hv
          exact List.mem_of_find?_eq_some hv
        · exact List.mem_of_find?_eq_some hv
      rw [List.mem_filter] at hm
      simp only [Bool.and_eq_true] at hm
      exact ⟨hm.2.2, o, by simp, hm.1⟩
    · obtain ⟨h1, o', h2, h3⟩ := ih h
      exact ⟨h1, o', List.mem_cons_of_mem _ h2, h3⟩

/-- The names that a path mentions last and next to last. -/
def mentions (site : List Elem) (n : List Char) : Prop :=
  (rootPath site).head?.bind refName = some n ∨ ∃ q, qualifierOf (rootPath site) = some q ∧ q.head?.bind refName = some n

theorem hitOf_mentions {w : Project} {file : Nat} {site : List Elem} {u : UseItem} (h : hitOf w file site = some u) :
    mentions site u.name := by
  unfold hitOf at h
  cases site with
  | nil => cases h
  | cons p anc =>
    dsimp only at h
    cases hb : baseType w (p :: anc) with
    | none => rw [hb] at h; cases h
    | some t =>
      rw [hb] at h
      have hm := mem_of_matches (hitIn_matches h).1
      unfold baseType at hb
      unfold mentions
      cases hq : qualifierOf (rootPath (p :: anc)) with
      | none =>
        rw [hq] at hb
        simp only [Option.map_eq_some_iff] at hb
        obtain ⟨n, hn, rfl⟩ := hb
        rcases hm with hm | hm <;> cases hm
        exact .inl hn
      | some q =>
        rw [hq] at hb
        dsimp only at hb
        split at hb
        · cases hb; rcases hm with hm | hm <;> cases hm
        · split at hb
          · cases hb; rcases hm with hm | hm <;> cases hm
          · simp only [Option.map_eq_some_iff] at hb
            obtain ⟨n, hn, rfl⟩ := hb
            rcases hm with hm | hm <;> cases hm
            exact .inr ⟨q, rfl, hn⟩

/-- An import whose name no path mentions is reported, unless a use statement is unfinished. -/
theorem C66_unmentioned (w : Project) (file : Nat) (owner : List Elem) (hfin : ∀ s ∈ combinedStmts w file owner, (s.items w).isSome)
    (u : UseItem) (hu : Shared w file owner u)
    (hno : ∀ o, Shares w file owner o → ∀ site ∈ descendantPaths o.2, ¬ mentions site u.name) :
    ∃ us, unusedUseItems w file owner = some us ∧ u ∈ us := by
  have some_of : ∀ hit ss, (∀ s ∈ ss, (s.items w).isSome) → ∃ us, unusedIn w hit ss = some us := by
    intro hit ss
    induction ss with
    | nil => exact fun _ => ⟨[], rfl⟩
    | cons s ss ih =>
      intro h
      obtain ⟨us, hus⟩ := ih fun s hs => h s (List.mem_cons_of_mem _ hs)
      obtain ⟨l, hl⟩ := Option.isSome_iff_exists.1 (h s (by simp))
      exact ⟨_, by rw [unusedIn, hl, hus]; rfl⟩
  obtain ⟨us, hus⟩ := some_of (hits w file owner) _ hfin
  refine ⟨us, hus, (unusedIn_mem hus u).2 ⟨?_, ?_⟩⟩
  · intro hh
    unfold hits scopedHits at hh
    obtain ⟨x, hx, rfl⟩ := List.mem_map.1 hh
    obtain ⟨o, ho, hx⟩ := List.mem_flatMap.1 hx
    obtain ⟨site, hsite, hx⟩ := List.mem_filterMap.1 hx
    cases site with
    | nil => cases hx
    | cons p anc =>
      simp only [Option.map_eq_some_iff] at hx
      obtain ⟨v, hv, rfl⟩ := hx
      exact hno o ((shares_iff _ _ _ _).1 ho) _ hsite (hitOf_mentions hv)
  · obtain ⟨o, ho, hu⟩ := hu
    have ho := (shares_iff _ _ _ _).2 ho
    unfold itemsOf at hu
    cases ho2 : o.2 with
    | nil => rw [ho2] at hu; cases hu
    | cons e up =>
      rw [ho2] at hu
      unfold useItems at hu
      obtain ⟨s, hs, hu⟩ := List.mem_flatMap.1 hu
      refine ⟨⟨o.1, e, s⟩, List.mem_flatMap.2 ⟨o, ho, ?_⟩, ?_⟩
      · rw [ho2]
        exact List.mem_map.2 ⟨s, hs, rfl⟩
      · cases hi : stmtUseItems w o.1 s [e] with
        | none => rw [hi] at hu; cases hu
        | some l => rw [hi] at hu; exact ⟨l, hi, hu⟩

/-! ### What is marked -/

/-- The owners are in different places: no one is in another. -/
def Apart (os : List (Nat × List Elem)) : Prop :=
  os.Pairwise fun a b => a.1 ≠ b.1 ∨ ∀ e f, a.2.head? = some e → b.2.head? = some f → ¬ e.path <:+ f.path ∧ ¬ f.path <:+ e.path

theorem childUseItem_spec {w : Project} {file : Nat} {scope : ItemScope} {root : List Elem} {child : Elem} {u : UseItem}
    (h : childUseItem w file scope root child = some u) : u.file = file ∧ u.path = child.path ∧ u.type ≠ .Module := by
  unfold childUseItem at h
  split at h
  · cases h
  · split at h
    · cases h
    · split at h
      · cases h
      · split at h
        · cases h
        · split at h
          · cases h; simp
          · split at h
            · cases h; simp
            · cases h

theorem stmtUseItems_spec {w : Project} {file : Nat} {stmt : Elem} {anc : List Elem} {l : List UseItem}
    (h : stmtUseItems w file stmt anc = some l) :
    ∀ u ∈ l, u.file = file ∧ stmt.path <:+ u.path ∧ (u.type = .Module → l = [u]) := by
  unfold stmtUseItems at h
  dsimp only at h
  split at h
  · cases h
  · rename_i root hroot
    have hr : stmt.path <:+ root.path := by
      obtain ⟨j, hj⟩ := (Elem.mem_children (Usages.nodeChild_spec hroot).1).2.2.2.1
      rw [hj]
      exact List.suffix_cons _ _
    have one : ∀ x : UseItem, x.file = file → x.path = root.path → ∀ u ∈ [x],
        u.file = file ∧ stmt.path <:+ u.path ∧ (u.type = .Module → [x] = [u]) := by
      intro x h1 h2 u hu
      rw [List.mem_singleton] at hu
      subst hu
      exact ⟨h1, h2 ▸ hr, fun _ => rfl⟩
    split at h
    · rename_i group hgroup
      cases h
      intro u hu
      obtain ⟨c, hc, hcu⟩ := List.mem_filterMap.1 hu
      obtain ⟨h1, h2, h3⟩ := childUseItem_spec hcu
      obtain ⟨j, hj⟩ := (Elem.mem_children (Usages.nodeChild_spec hgroup).1).2.2.2.1
      obtain ⟨i, hi⟩ := (Elem.mem_children (List.mem_filter.1 hc).1).2.2.2.1
      refine ⟨h1, ?_, fun h => absurd h h3⟩
      rw [h2, hi, hj]
      exact hr.trans ((List.suffix_cons _ _).trans (List.suffix_cons _ _))
    · split at h
      · cases h
      · split at h
        · cases h
        · split at h
          · cases h
          · split at h
            · cases h; exact one _ rfl rfl
            · split at h
              · cases h; simp
              · split at h <;> (cases h; exact one _ rfl rfl)
            · cases h; simp
          · cases h; simp

/-- Two statements do not contain each other. -/
def StmtsApart (ss : List Stmt) : Prop := ss.Pairwise fun a b => a.file ≠ b.file ∨ ¬ a.elem.path <:+ b.elem.path ∧ ¬ b.elem.path <:+ a.elem.path

theorem placed_paths (path : List Nat) (i s : Nat) (gs : List Green) : (placed path i s gs).Pairwise fun a b => a.path ≠ b.path := by
  induction gs generalizing i s with
  | nil => exact .nil
  | cons g gs ih =>
    refine .cons ?_ (ih _ _)
    intro e he
    have : ∀ (i s : Nat) (gs : List Green) (e : Elem), e ∈ placed path i s gs → ∃ j, i ≤ j ∧ e.path = j :: path := by
      intro i s gs
      induction gs generalizing i s with
      | nil => intro e h; cases h
      | cons g gs ih =>
        intro e h
        rcases List.mem_cons.1 h with rfl | h
        · exact ⟨i, Nat.le_refl _, rfl⟩
        · obtain ⟨j, hj, h⟩ := ih (i + 1) _ e h
          exact ⟨j, by omega, h⟩
    obtain ⟨j, hj, h⟩ := this _ _ _ e he
    rw [h]
    intro hh
    cases hh
    omega

theorem suffix_cons_cases {i j : Nat} {a b : List Nat} (h : i :: a <:+ j :: b) : i :: a = j :: b ∨ a <:+ b := by
  rcases List.suffix_cons_iff.1 h with h | h
  · exact .inl h
  · exact .inr ((List.suffix_cons _ _).trans h)

theorem stmtsApart {w : Project} {file : Nat} {owner : List Elem} (h : Apart (withSiblings w file owner)) :
    StmtsApart (combinedStmts w file owner) := by
  unfold StmtsApart combinedStmts
  rw [List.flatMap_def, List.pairwise_flatten]
  constructor
  · intro l hl
    obtain ⟨o, -, rfl⟩ := List.mem_map.1 hl
    split
    · exact .nil
    · rename_i e up heq
      rw [List.pairwise_map]
      unfold useStmts
      refine List.Pairwise.filter _ (List.Pairwise.imp_of_mem ?_ (placed_paths e.path 0 e.start e.green.children))
      intro a b ha hb hab
      right
      obtain ⟨i, hi⟩ := (Elem.mem_children (e := e) (c := a) ha).2.2.2.1
      obtain ⟨j, hj⟩ := (Elem.mem_children (e := e) (c := b) hb).2.2.2.1
      constructor
      · intro hs
        exact hab (hs.eq_of_length (by rw [hi, hj]; rfl))
      · intro hs
        exact hab (hs.eq_of_length (by rw [hi, hj]; rfl)).symm
  · rw [List.pairwise_map]
    refine h.imp ?_
    rintro ⟨fa, a⟩ ⟨fb, b⟩ hab x hx y hy
    cases a with
    | nil => cases hx
    | cons e up =>
      cases b with
      | nil => cases hy
      | cons f down =>
        obtain ⟨s, hs, rfl⟩ := List.mem_map.1 hx
        obtain ⟨s', hs', rfl⟩ := List.mem_map.1 hy
        obtain ⟨i, hi⟩ := (Elem.mem_children (List.mem_filter.1 hs).1).2.2.2.1
        obtain ⟨j, hj⟩ := (Elem.mem_children (List.mem_filter.1 hs').1).2.2.2.1
        rcases hab with hab | hab
        · exact .inl hab
        · right
          obtain ⟨h1, h2⟩ := hab e f rfl rfl
          simp only [hi, hj]
          constructor
          · intro hh
            rcases suffix_cons_cases hh with h | h
            · exact h1 (by rw [(List.cons.inj h).2])
            · exact h1 h
          · intro hh
            rcases suffix_cons_cases hh with h | h
            · exact h2 (by rw [(List.cons.inj h).2])
            · exact h2 h

/-- The use items of a statement. -/
def Stmt.list (w : Project) (s : Stmt) : List UseItem := (s.items w).getD []

theorem has_own {w : Project} {s : Stmt} {u : UseItem} (h : u ∈ s.list w) : s.has u = true := by
  unfold Stmt.list Stmt.items at h
  cases hi : stmtUseItems w s.file s.elem [s.owner] with
  | none => rw [hi] at h; cases h
  | some l =>
    rw [hi] at h
    obtain ⟨h1, h2, -⟩ := stmtUseItems_spec hi u h
    simp [Stmt.has, h1, h2]

theorem has_other {w : Project} {s s' : Stmt} {u : UseItem}
    (h : s.file ≠ s'.file ∨ ¬ s.elem.path <:+ s'.elem.path ∧ ¬ s'.elem.path <:+ s.elem.path) (hu : u ∈ s'.list w) : s.has u = false := by
  have h' := has_own hu
  cases hh : s.has u with
  | false => rfl
  | true =>
    simp only [Stmt.has, Bool.and_eq_true, decide_eq_true_eq, List.isSuffixOf_iff_suffix] at h' hh
    rcases h with h | ⟨h, h2⟩
    · exact absurd (hh.1.symm.trans h'.1) h
    · rcases List.suffix_or_suffix_of_suffix hh.2 h'.2 with h3 | h3
      · exact absurd h3 h
      · exact absurd h3 h2

theorem filter_has {w : Project} (P : UseItem → Bool) {ss : List Stmt} (hap : StmtsApart ss) {s : Stmt} (hs : s ∈ ss) :
    (ss.flatMap fun s => (s.list w).filter P).filter s.has = (s.list w).filter P := by
  induction ss with
  | nil => cases hs
  | cons s0 ss ih =>
    rw [StmtsApart, List.pairwise_cons] at hap
    rw [List.flatMap_cons, List.filter_append]
    rcases List.mem_cons.1 hs with rfl | hs
    · have h1 : ((s.list w).filter P).filter s.has = (s.list w).filter P :=
        List.filter_eq_self.2 fun u hu => has_own (List.mem_filter.1 hu).1
      have h2 : (ss.flatMap fun s => (s.list w).filter P).filter s.has = [] := by
        rw [List.filter_eq_nil_iff]
        intro u hu
        obtain ⟨s', hs', hu⟩ := List.mem_flatMap.1 hu
        rw [has_other (hap.1 s' hs') (List.mem_filter.1 hu).1]
        simp
      rw [h1, h2, List.append_nil]
    · have h1 : ((s0.list w).filter P).filter s.has = [] := by
        rw [List.filter_eq_nil_iff]
        intro u hu
        have := hap.1 s hs
        rw [has_other (s := s) (s' := s0) (this.imp Ne.symm And.symm) (List.mem_filter.1 hu).1]
        simp
      rw [h1, List.nil_append, ih hap.2 hs]

theorem unusedIn_eq {w : Project} {hit : List UseItem} {ss : List Stmt} {us : List UseItem} (h : unusedIn w hit ss = some us) :
    (∀ s ∈ ss, s.items w = some (s.list w)) ∧ us = ss.flatMap fun s => (s.list w).filter fun u => !hit.contains u := by
  induction ss generalizing us with
  | nil => cases h; exact ⟨by simp, rfl⟩
  | cons s ss ih =>
    rw [unusedIn] at h
    cases hi : s.items w with
    | none => rw [hi] at h; cases h
    | some l =>
      rw [hi] at h
      simp only [Option.map_eq_some_iff] at h
      obtain ⟨more, hm, rfl⟩ := h
      obtain ⟨h1, h2⟩ := ih hm
      have hl : s.list w = l := by simp [Stmt.list, hi]
      refine ⟨?_, by rw [List.flatMap_cons, hl, h2]⟩
      intro s' hs'
      rcases List.mem_cons.1 hs' with rfl | hs'
      · rw [hl, hi]
      · exact h1 s' hs'

theorem testOnlyIn_eq {w : Project} {hit : List (UseItem × ItemScope)} {ss : List Stmt} {us : List UseItem}
    (h : testOnlyIn w hit ss = some us) :
    (∀ s ∈ ss, s.items w = some (s.list w)) ∧ us = ss.flatMap fun s => (s.list w).filter (testOnly hit) := by
  induction ss generalizing us with
  | nil => cases h; exact ⟨by simp, rfl⟩
  | cons s ss ih =>
    rw [testOnlyIn] at h
    cases hi : s.items w with
    | none => rw [hi] at h; cases h
    | some l =>
      rw [hi] at h
      simp only [Option.map_eq_some_iff] at h
      obtain ⟨more, hm, rfl⟩ := h
      obtain ⟨h1, h2⟩ := ih hm
      have hl : s.list w = l := by simp [Stmt.list, hi]
      refine ⟨?_, by rw [List.flatMap_cons, hl, h2]⟩
      intro s' hs'
      rcases List.mem_cons.1 hs' with rfl | hs'
      · rw [hl, hi]
      · exact h1 s' hs'

/-- What should be marked of a statement, when `us` are to be marked: the statement as a whole if that is all that it imports,
otherwise the imports one by one. -/
def shouldMark (w : Project) (us : List UseItem) (s : Stmt) : Mark :=
  if ∀ u ∈ s.list w, u ∈ us then .stmt s.file s.elem.path else .specks ((s.list w).filter fun u => decide (u ∈ us))

theorem unusedKind_eq {w : Project} {ss : List Stmt} (P : UseItem → Bool) (hap : StmtsApart ss)
    {s : Stmt} (hs : s ∈ ss) (hi : s.items w = some (s.list w)) :
    unusedKind w s ((ss.flatMap fun s => (s.list w).filter P).filter s.has) =
      some (shouldMark w (ss.flatMap fun s => (s.list w).filter P) s) := by
  have hmem : ∀ u ∈ s.list w, (u ∈ (ss.flatMap fun s => (s.list w).filter P) ↔ P u = true) := by
    intro u hu
    have h := congrArg (u ∈ ·) (filter_has (w := w) P hap hs)
    simp only [List.mem_filter, eq_iff_iff] at h
    have := has_own hu
    tauto
  have hall : (∀ u ∈ s.list w, u ∈ (ss.flatMap fun s => (s.list w).filter P)) ↔ ∀ u ∈ s.list w, P u = true :=
    ⟨fun h u hu => (hmem u hu).1 (h u hu), fun h u hu => (hmem u hu).2 (h u hu)⟩
  have hfil : ((s.list w).filter fun u => decide (u ∈ (ss.flatMap fun s => (s.list w).filter P))) = (s.list w).filter P := by
    apply List.filter_congr
    intro u hu
    cases hp : P u with
    | true => simpa using (hmem u hu).2 hp
    | false =>
      have : ¬ u ∈ (ss.flatMap fun s => (s.list w).filter P) := fun h => by
        rw [(hmem u hu).1 h] at hp; cases hp
      simpa using this
  rw [filter_has P hap hs]
  unfold shouldMark unusedKind
  rw [hfil]
  by_cases hm : ((s.list w).filter P).any fun u => decide (u.type = .Module)
  · rw [if_pos hm, if_pos]
    obtain ⟨u, hu, hty⟩ := List.any_eq_true.1 hm
    rw [List.mem_filter] at hu
    have hsing := (stmtUseItems_spec (show stmtUseItems w s.file s.elem [s.owner] = some (s.list w) from hi) u hu.1).2.2
      (by simpa using hty)
    rw [hall, hsing]
    intro v hv
    rw [List.mem_singleton] at hv
    rw [hv, hu.2]
  · rw [if_neg hm, hi]
    dsimp only
    by_cases he : (s.list w).isEmpty
    · rw [if_pos he, if_pos]
      rw [List.isEmpty_iff] at he
      rw [he]; simp
    · rw [if_neg he]
      by_cases hlen : (s.list w).length = ((s.list w).filter P).length
      · rw [if_pos hlen, if_pos]
        rw [hall]
        exact List.length_filter_eq_length_iff.1 hlen.symm
      · rw [if_neg hlen, if_neg]
        rw [hall]
        intro h
        exact hlen (List.length_filter_eq_length_iff.2 h).symm

/-- Every statement whose imports are all unused is marked as a whole, and of the others exactly the unused imports are marked. -/
theorem C66_report (w : Project) (file : Nat) (owner : List Elem) (us : List UseItem) (hus : unusedUseItems w file owner = some us)
    (hap : Apart (withSiblings w file owner)) :
    marked w file owner = (combinedStmts w file owner).map (shouldMark w us) := by
  have hss := stmtsApart hap
  obtain ⟨hi, heq⟩ := unusedIn_eq hus
  have key : ∀ ss, (∀ s ∈ ss, s ∈ combinedStmts w file owner) → markedIn w us ss = ss.map (shouldMark w us) := by
    intro ss
    induction ss with
    | nil => exact fun _ => rfl
    | cons s ss ih =>
      intro h
      have hs := h s (by simp)
      have := unusedKind_eq (w := w) (fun u => !(hits w file owner).contains u) hss hs (hi s hs)
      rw [← heq] at this
      rw [markedIn, this, List.map_cons, ← ih fun s hs => h s (List.mem_cons_of_mem _ hs)]
  unfold marked
  rw [hus]
  exact key _ fun _ h => h

/-- The same for the imports that are only used in tests; statements that import nothing are left out. -/
theorem C66_test_report (w : Project) (file : Nat) (owner : List Elem) (us : List UseItem) (hus : testOnlyUseItems w file owner = some us)
    (hap : Apart (withSiblings w file owner)) :
    markedBroad w file owner = ((combinedStmts w file owner).filter fun s => decide (s.list w ≠ [])).map (shouldMark w us) := by
  have hss := stmtsApart hap
  obtain ⟨hi, heq⟩ := testOnlyIn_eq hus
  have hun : ∃ l, unusedUseItems w file owner = some l := by
    have : ∀ hit ss, (∀ s ∈ ss, s.items w = some (s.list w)) → ∃ us, unusedIn w hit ss = some us := by
      intro hit ss
      induction ss with
      | nil => exact fun _ => ⟨[], rfl⟩
      | cons s ss ih =>
        intro h
        obtain ⟨us, hus⟩ := ih fun s hs => h s (List.mem_cons_of_mem _ hs)
        exact ⟨_, by rw [unusedIn, h s (by simp), hus]; rfl⟩
    exact this _ _ hi
  obtain ⟨un, hun⟩ := hun
  have heq' := (unusedIn_eq hun).2
  have key : ∀ ss, (∀ s ∈ ss, s ∈ combinedStmts w file owner) →
      broadIn w us ss = (ss.filter fun s => decide (s.list w ≠ [])).map (shouldMark w us) := by
    intro ss
    induction ss with
    | nil => exact fun _ => rfl
    | cons s ss ih =>
      intro h
      have hs := h s (by simp)
      have := unusedKind_eq (w := w) (testOnly ((scopedHits w file owner).map fun h => (h.1, usageScope h.2))) hss hs (hi s hs)
      rw [← heq] at this
      rw [broadIn, this, ih fun s hs => h s (List.mem_cons_of_mem _ hs)]
      dsimp only
      rw [hi s hs]
      by_cases he : s.list w = []
      · simp [he]
      · simp [he]
  unfold markedBroad
  rw [if_pos, hus]
  · exact key _ fun _ h => h
  · rw [List.all_eq_true]
    intro s hs
    have := unusedKind_eq (w := w) (fun u => !(hits w file owner).contains u) hss hs (hi s hs)
    rw [← heq'] at this
    rw [hun, Option.getD_some, this]
    rfl

/-- As long as a use statement is unfinished, no import is marked as unused. -/
theorem C66_unfinished (w : Project) (file : Nat) (owner : List Elem) (h : ∃ s ∈ combinedStmts w file owner, s.items w = none) :
    ∀ m ∈ marked w file owner, m = .specks [] ∨ ∃ s ∈ combinedStmts w file owner, s.items w = some [] ∧ m = .stmt s.file s.elem.path := by
  have hn : unusedUseItems w file owner = none := by
    cases hus : unusedUseItems w file owner with
    | none => rfl
    | some us =>
      obtain ⟨s, hs, hi⟩ := h
      rw [(unusedIn_eq hus).1 s hs] at hi
      cases hi
  unfold marked
  rw [hn]
  have : ∀ ss, ∀ m ∈ markedIn w [] ss, m = .specks [] ∨ ∃ s ∈ ss, s.items w = some [] ∧ m = .stmt s.file s.elem.path := by
    intro ss
    induction ss with
    | nil => intro m hm; cases hm
    | cons s ss ih =>
      intro m hm
      rw [markedIn] at hm
      cases hk : unusedKind w s (List.filter s.has []) with
      | none => rw [hk] at hm; cases hm
      | some k =>
        rw [hk] at hm
        rcases List.mem_cons.1 hm with rfl | hm
        · unfold unusedKind at hk
          simp only [List.filter_nil, List.any_nil, Bool.false_eq_true, if_false, List.length_nil] at hk
          cases hi : s.items w with
          | none => rw [hi] at hk; cases hk
          | some l =>
            rw [hi] at hk
            cases l with
            | nil => cases hk; exact .inr ⟨s, by simp, hi, rfl⟩
            | cons x l => cases hk; exact .inl rfl
        · rcases ih m hm with h | ⟨s', h1, h2⟩
          · exact .inl h
          · exact .inr ⟨s', List.mem_cons_of_mem _ h1, h2⟩
  exact this _

end Verif.Ide
