import Verif.TextEdit.Lemmas

namespace Verif.TextEdit
open Verif Verif.TextEdit.Spec

theorem WellFormed.tail {a : Change} {cs : List Change} (h : WellFormed (a :: cs)) : WellFormed cs :=
  ⟨fun c hc => h.valid c (List.mem_cons_of_mem _ hc), (List.pairwise_cons.1 h.ordered).2⟩

theorem mergeChanges_perm (l r : List Change) : (mergeChanges l r).Perm (l ++ r) := by
  fun_induction mergeChanges l r with
  | case1 r => exact List.Perm.refl _
  | case2 l _ => simp
  | case3 a l b r h ih => exact ih.cons a
  | case4 a l b r h ih =>
    refine (ih.cons b).trans ?_
    exact (List.perm_middle (l₁ := a :: l)).symm

theorem mem_mergeChanges {l r : List Change} {c : Change} : c ∈ mergeChanges l r ↔ c ∈ l ∨ c ∈ r := by
  rw [(mergeChanges_perm l r).mem_iff, List.mem_append]

theorem dedupGo_mem {last : Change} {bs : List Change} {c : Change} :
    c ∈ dedupGo last bs ↔ c ∈ last :: bs := by
  induction bs generalizing last with
  | nil => simp [dedupGo]
  | cons b bs ih =>
    simp only [dedupGo]
    split
    · rename_i h
      rw [ih]
      simp only [List.mem_cons, h.1]
      tauto
    · simp only [List.mem_cons, ih]

theorem dedup_mem {m : List Change} {c : Change} : c ∈ dedup m ↔ c ∈ m := by
  cases m with
  | nil => simp [dedup]
  | cons a bs => exact dedupGo_mem

theorem dedupGo_inserts {last : Change} {bs : List Change} :
    (dedupGo last bs).filter Change.isInsert = (last :: bs).filter Change.isInsert := by
  induction bs generalizing last with
  | nil => simp [dedupGo]
  | cons b bs ih =>
    simp only [dedupGo]
    split
    · rename_i h
      rw [ih]
      obtain ⟨rfl, h2⟩ := h
      simp [h2]
    · simp only [List.filter_cons (x := last)]
      rw [ih]

theorem dedup_inserts {m : List Change} :
    (dedup m).filter Change.isInsert = m.filter Change.isInsert := by
  cases m with
  | nil => rfl
  | cons a bs => exact dedupGo_inserts

theorem dedupGo_ordered {last : Change} {bs : List Change}
    (hv : ∀ c ∈ last :: bs, c.start ≤ c.stop)
    (h : (last :: bs).Pairwise (fun a b => a.stop ≤ b.start ∨ a = b)) :
    (dedupGo last bs).Pairwise (fun a b => a.stop ≤ b.start) := by
  induction bs generalizing last with
  | nil => simp [dedupGo]
  | cons b bs ih =>
    have h' := h
    simp only [List.pairwise_cons] at h
    obtain ⟨h1, h2, h3⟩ := h
    simp only [dedupGo]
    split
    · apply ih
      · intro c hc
        apply hv
        rcases List.mem_cons.1 hc with rfl | hc
        · simp
        · simp [hc]
      · rw [List.pairwise_cons]
        exact ⟨fun c hc => h1 c (by simp [hc]), h3⟩
    · rename_i hn
      have hlb : last.stop ≤ b.start := by
        rcases h1 b (by simp) with e | e
        · exact e
        · have hi : last.isInsert = true := by
            by_contra hne
            exact hn ⟨e, by simpa using hne⟩
          simp only [Change.isInsert, beq_iff_eq] at hi
          rw [← hi, e]
      rw [List.pairwise_cons]
      refine ⟨?_, ih (fun c hc => hv c (List.mem_cons_of_mem _ hc)) (by rw [List.pairwise_cons]; exact ⟨h2, h3⟩)⟩
      intro c hc
      rcases List.mem_cons.1 (dedupGo_mem.1 hc) with rfl | hc
      · exact hlb
      · have hb := hv b (by simp)
        rcases h2 c hc with e | e
        · omega
        · rw [← e]; exact hlb

theorem dedup_ordered {m : List Change} (hv : ∀ c ∈ m, c.start ≤ c.stop)
    (h : m.Pairwise (fun a b => a.stop ≤ b.start ∨ a = b)) :
    (dedup m).Pairwise (fun a b => a.stop ≤ b.start) := by
  cases m with
  | nil => exact List.Pairwise.nil
  | cons a bs => exact dedupGo_ordered hv h

theorem checkDisjoint_of_pairwise {s : List Change}
    (h : s.Pairwise (fun a b => a.stop ≤ b.start ∨ a = b)) : checkDisjoint s = true := by
  induction s with
  | nil => rfl
  | cons a s ih =>
    cases s with
    | nil => rfl
    | cons b s =>
      obtain ⟨h1, h2⟩ := List.pairwise_cons.1 h
      simp only [checkDisjoint, Bool.and_eq_true, Bool.or_eq_true, decide_eq_true_eq]
      exact ⟨h1 b (by simp), ih h2⟩

theorem start_le_of_wf {a : Change} {cs : List Change} (h : WellFormed (a :: cs)) {c : Change}
    (hc : c ∈ a :: cs) : a.start ≤ c.start := by
  rcases List.mem_cons.1 hc with rfl | hc
  · exact Nat.le_refl _
  · have := (List.pairwise_cons.1 h.ordered).1 c hc
    have := h.valid a (by simp)
    omega

theorem merge_pairwise {l r : List Change} (hl : WellFormed l) (hr : WellFormed r)
    (hd : ∀ a ∈ l, ∀ b ∈ r, Disjoint a b ∨ a = b)
    (ht : ∀ a ∈ l, ∀ b ∈ r, a.start = b.start → a = b ∨ a.isInsert = true) :
    (mergeChanges l r).Pairwise (fun a b => a.stop ≤ b.start ∨ a = b) := by
  fun_induction mergeChanges l r with
  | case1 r => exact hr.ordered.imp Or.inl
  | case2 l _ => exact hl.ordered.imp Or.inl
  | case3 a l b r h ih =>
    rw [List.pairwise_cons]
    refine ⟨?_, ih (WellFormed.tail hl) hr (fun x hx => hd x (List.mem_cons_of_mem _ hx))
      (fun x hx => ht x (List.mem_cons_of_mem _ hx))⟩
    intro c hc
    rcases mem_mergeChanges.1 hc with hc | hc
    · exact Or.inl ((List.pairwise_cons.1 hl.ordered).1 c hc)
    · have h1 := start_le_of_wf hr hc
      have hcv := hr.valid c hc
      rcases hd a (by simp) c hc with (e | e) | e
      · exact Or.inl e
      · rcases ht a (by simp) c hc (by omega) with e2 | e2
        · exact Or.inr e2
        · left
          simp only [Change.isInsert, beq_iff_eq] at e2
          omega
      · exact Or.inr e
  | case4 a l b r h ih =>
    rw [List.pairwise_cons]
    refine ⟨?_, ih hl (WellFormed.tail hr) (fun x hx y hy => hd x hx y (List.mem_cons_of_mem _ hy))
      (fun x hx y hy => ht x hx y (List.mem_cons_of_mem _ hy))⟩
    intro c hc
    rcases mem_mergeChanges.1 hc with hc | hc
    · have h1 := start_le_of_wf hl hc
      have hcv := hl.valid c hc
      rcases hd c hc b (by simp) with (e | e) | e
      · omega
      · exact Or.inl e
      · exact Or.inr e.symm
    · exact Or.inl ((List.pairwise_cons.1 hr.ordered).1 c hc)

theorem union_ok {A B M : List Change} (hA : WellFormed A) (hB : WellFormed B)
    (h : union A B = .ok M) :
    WellFormed M ∧ (∀ c, c ∈ M ↔ c ∈ A ∨ c ∈ B) ∧
      (M.filter Change.isInsert).Perm ((A ++ B).filter Change.isInsert) := by
  unfold union at h
  simp only at h
  split at h
  · rename_i hc
    have hM : dedup (mergeChanges A B) = M := by injection h
    have hv : ∀ c ∈ mergeChanges A B, c.start ≤ c.stop := by
      intro c hc
      rcases mem_mergeChanges.1 hc with h | h
      · exact hA.valid c h
      · exact hB.valid c h
    have hp := checkDisjoint_pairwise hv hc
    subst hM
    refine ⟨⟨?_, dedup_ordered hv hp⟩, ?_, ?_⟩
    · intro c hc; exact hv c (dedup_mem.1 hc)
    · intro c; rw [dedup_mem, mem_mergeChanges]
    · rw [dedup_inserts]; exact (mergeChanges_perm A B).filter _
  · exact absurd h (by simp)

/-! ### Offsets -/

theorem applyToOffset_lower {cs : List Change} {o p res r : Nat} (hw : WellFormed cs)
    (hp : ∀ c ∈ cs, p ≤ c.start) (hpo : p ≤ o) (hres : o - p ≤ res)
    (h : applyToOffsetGo o res cs = .some r) : res ≤ r + (o - p) := by
  induction cs generalizing p res with
  | nil => simp only [applyToOffsetGo, OffsetResult.some.injEq] at h; omega
  | cons c cs ih =>
    have hc := hw.valid c (by simp)
    have hpc := hp c (by simp)
    simp only [applyToOffsetGo] at h
    split at h
    · simp only [OffsetResult.some.injEq] at h; omega
    · split at h
      · exact absurd h (by simp)
      · split at h
        · have := ih (p := c.stop) (WellFormed.tail hw) (List.pairwise_cons.1 hw.ordered).1
            (by omega) (by omega) h
          omega
        · exact absurd h (by simp)

theorem applyToOffset_mono {cs : List Change} {o o' res res' p r r' : Nat} (hw : WellFormed cs)
    (hp : ∀ c ∈ cs, p ≤ c.start) (hpo : p ≤ o) (hoo : o ≤ o') (hres : o - p ≤ res)
    (hd : res' = res + (o' - o))
    (h : applyToOffsetGo o res cs = .some r) (h' : applyToOffsetGo o' res' cs = .some r') : r ≤ r' := by
  induction cs generalizing p res res' with
  | nil =>
    simp only [applyToOffsetGo, OffsetResult.some.injEq] at h h'
    omega
  | cons c cs ih =>
    have hc := hw.valid c (by simp)
    have hpc := hp c (by simp)
    have hlow := applyToOffset_lower (p := p) hw hp (by omega) (by omega) h'
    simp only [applyToOffsetGo] at h h'
    split at h
    · rename_i hlt
      simp only [OffsetResult.some.injEq] at h
      split at h'
      · simp only [OffsetResult.some.injEq] at h'; omega
      · split at h'
        · exact absurd h' (by simp)
        · split at h'
          · have := applyToOffset_lower (p := c.stop) (WellFormed.tail hw)
              (List.pairwise_cons.1 hw.ordered).1 (by omega) (by omega) h'
            omega
          · exact absurd h' (by simp)
    · split at h
      · exact absurd h (by simp)
      · split at h
        · rw [if_neg (by omega), if_neg (by omega)] at h'
          split at h'
          · exact ih (p := c.stop) (WellFormed.tail hw) (List.pairwise_cons.1 hw.ordered).1
              (by omega) (by omega) (by omega) h h'
          · exact absurd h' (by simp)
        · exact absurd h (by simp)

theorem applyToOffsetGo_none_iff {cs : List Change} {o res p : Nat} (hw : WellFormed cs)
    (hp : ∀ c ∈ cs, p ≤ c.start) (hpo : p ≤ o) (hres : o - p ≤ res) :
    applyToOffsetGo o res cs ≠ .panic ∧
    (applyToOffsetGo o res cs = .none ↔ ∃ c ∈ cs, c.start < o ∧ o < c.stop) := by
  induction cs generalizing p res with
  | nil => simp [applyToOffsetGo]
  | cons c cs ih =>
    have hc := hw.valid c (by simp)
    have hpc := hp c (by simp)
    have ho := (List.pairwise_cons.1 hw.ordered).1
    simp only [applyToOffsetGo]
    split
    · rename_i hlt
      refine ⟨by simp, ?_⟩
      simp only [reduceCtorEq, List.mem_cons, exists_eq_or_imp, false_iff, not_or, not_exists, not_and]
      refine ⟨by omega, ?_⟩
      intro x hx hxo
      have := ho x hx
      omega
    · split
      · refine ⟨by simp, ?_⟩
        simp only [true_iff]
        exact ⟨c, by simp, by omega, by omega⟩
      · rw [if_pos (by omega)]
        obtain ⟨i1, i2⟩ := ih (p := c.stop) (res := res + c.newText.length - (c.stop - c.start))
          (WellFormed.tail hw) ho (by omega) (by omega)
        refine ⟨i1, i2.trans ?_⟩
        simp only [List.mem_cons, exists_eq_or_imp]
        constructor
        · exact Or.inr
        · rintro (h | h)
          · omega
          · exact h

/-- Decomposition of the spliced text at a mapped offset. -/
theorem applyToOffset_split {cs : List Change} {t : Text} {o res p r : Nat} (hw : WellFormed cs)
    (hp : ∀ c ∈ cs, p ≤ c.start) (hpo : p ≤ o) (hot : o ≤ p + t.length) (hres : o - p ≤ res)
    (h : applyToOffsetGo o res cs = .some r) :
    splice p cs t =
        splice p (cs.filter (fun c => decide (c.start < o))) (t.take (o - p)) ++
        splice o (cs.filter (fun c => decide (o ≤ c.start))) (t.drop (o - p)) ∧
      r + (o - p) = res + (splice p (cs.filter (fun c => decide (c.start < o))) (t.take (o - p))).length := by
  induction cs generalizing p res t with
  | nil =>
    simp only [applyToOffsetGo, OffsetResult.some.injEq] at h
    refine ⟨by simp [splice], ?_⟩
    simp only [splice, List.filter_nil, List.length_take]
    omega
  | cons c cs ih =>
    have hc := hw.valid c (by simp)
    have hpc := hp c (by simp)
    have ho := (List.pairwise_cons.1 hw.ordered).1
    simp only [applyToOffsetGo] at h
    split at h
    · rename_i hle
      simp only [OffsetResult.some.injEq] at h
      have f1 : (c :: cs).filter (fun c => decide (c.start < o)) = [] := by
        rw [List.filter_eq_nil_iff]
        intro x hx
        have := start_le_of_wf hw hx
        simp only [decide_eq_true_eq]; omega
      have f2 : (c :: cs).filter (fun c => decide (o ≤ c.start)) = c :: cs := by
        rw [List.filter_eq_self]
        intro x hx
        have := start_le_of_wf hw hx
        simp only [decide_eq_true_eq]; omega
      rw [f1, f2]
      refine ⟨?_, ?_⟩
      · simp only [splice]
        rw [List.drop_drop, show o - p + (c.stop - o) = c.stop - p by omega]
        rw [show c.start - p = (o - p) + (c.start - o) by omega, List.take_add]
        simp [List.append_assoc]
      · simp only [splice, List.length_take]; omega
    · split at h
      · exact absurd h (by simp)
      · split at h
        · rename_i h1 h2 h3
          have f1 : (c :: cs).filter (fun c => decide (c.start < o)) =
              c :: cs.filter (fun c => decide (c.start < o)) := by
            rw [List.filter_cons, if_pos (by simp only [decide_eq_true_eq]; omega)]
          have f2 : (c :: cs).filter (fun c => decide (o ≤ c.start)) =
              cs.filter (fun c => decide (o ≤ c.start)) := by
            rw [List.filter_cons, if_neg (by simp only [decide_eq_true_eq]; omega)]
          rw [f1, f2]
          obtain ⟨i1, i2⟩ := ih (p := c.stop) (t := t.drop (c.stop - p))
            (WellFormed.tail hw) ho (by omega) (by simp only [List.length_drop]; omega) (by omega) h
          have e1 : (t.drop (c.stop - p)).take (o - c.stop) = (t.take (o - p)).drop (c.stop - p) := by
            rw [List.drop_take, show o - p - (c.stop - p) = o - c.stop by omega]
          have e2 : (t.drop (c.stop - p)).drop (o - c.stop) = t.drop (o - p) := by
            rw [List.drop_drop, show c.stop - p + (o - c.stop) = o - p by omega]
          rw [e1, e2] at i1
          rw [e1] at i2
          simp only [splice]
          rw [i1, List.take_take, show min (c.start - p) (o - p) = c.start - p by omega]
          refine ⟨by simp [List.append_assoc], ?_⟩
          simp only [List.length_append, List.length_take]
          omega
        · exact absurd h (by simp)

end Verif.TextEdit
