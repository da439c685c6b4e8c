import Verif.TextEdit.UnionLemmas

/-! Property theorems for text edits: C01 - C05. -/

namespace Verif.TextEdit
open Verif Verif.TextEdit.Spec

/-- The bytes of an ASCII string, for examples. -/
def ascii (s : String) : Text := s.toList.map fun c => UInt8.ofNat c.toNat

/-! ### C01 -/

/-- **C01.** Replacements `cs`, added to a builder in this order, that pairwise do not overlap and are
inside the document on character boundaries: building never panics and applying the built edit is the
simultaneous replacement `splice` of the replacements listed from left to right (`ss`, ties between
insertions at one offset in the order of adding). -/
theorem C01_apply_is_simultaneous (cs ss : List Change) (t : Text)
    (valid : ∀ c ∈ cs, ValidIn t c) (disj : cs.Pairwise Disjoint)
    (hs : IsStableSort Change.key cs ss) :
    ∃ e, build cs = some e ∧ apply e t = some (splice 0 ss t) := by
  have hv : ∀ c ∈ cs, c.start ≤ c.stop := fun c hc => (valid c hc).le
  have hss : ss = sortChanges cs := stableSort_unique _ hs
  have hw := sort_wellFormed hv disj
  have hperm : (sortChanges cs).Perm cs := sortByKey_perm Change.key cs
  have hfit : Fits t 0 (sortChanges cs) :=
    Fits.of_wellFormed (fun c hc => valid c (hperm.mem_iff.1 hc)) hw.ordered (Nat.zero_le _)
      (fun _ _ => Nat.zero_le _)
  refine ⟨_, build_of_pairwise hv (disj.imp compat_of_disjoint), ?_⟩
  rw [apply_eq (fits_coalesce hfit), splice_coalesce (fun _ _ => Nat.zero_le _) hw, hss]

/-- The document, the replacements and the result of a non-trivial instance of C01. -/
example :
    let t := ascii "hello world"
    let cs := [⟨6, 11, ascii "moon"⟩, ⟨0, 1, ascii "J"⟩, ⟨5, 5, ascii ","⟩, ⟨5, 5, ascii "!"⟩]
    (cs.Pairwise Disjoint) ∧ (build cs).bind (fun e => apply e t) = some (ascii "Jello,! moon") := by
  refine ⟨?_, by decide +kernel⟩
  simp [Disjoint]

/-- The hypotheses of C01 hold for a multi-byte document: replacing the `é` of `aéb`. -/
example : ValidIn (encode ['a', 'é', 'b']) ⟨1, 3, encode ['ü', 'x']⟩ :=
  ⟨by decide, by decide +kernel, by decide +kernel, by decide +kernel, ⟨_, rfl⟩⟩

/-- A document that is edited inside a character makes `replace_range` panic, so the boundary
hypothesis of C01 is needed. -/
example : apply [⟨2, 3, []⟩] (encode ['a', 'é', 'b']) = none := by decide +kernel

/-! ### C02 -/

/-- **C02 (acceptance).** A builder accepts a list of replacements exactly if any two of them are
disjoint or identical; this does not depend on the order of adding. -/
theorem C02_accepts_iff (cs : List Change) (hv : ∀ c ∈ cs, c.start ≤ c.stop) :
    (build cs).isSome ↔ cs.Pairwise (fun a b => a.stop ≤ b.start ∨ b.stop ≤ a.start ∨ a = b) :=
  build_isSome_iff hv

/-- **C02.** Adding the same replacements in another order gives the same edit (or is rejected as
well), provided no two of them have the same range. -/
theorem C02_order_irrelevant (cs cs' : List Change) (hp : cs.Perm cs')
    (hv : ∀ c ∈ cs, c.start ≤ c.stop)
    (hk : cs.Pairwise (fun a b => ¬(a.start = b.start ∧ a.stop = b.stop))) :
    build cs = build cs' := by
  have hkey : cs.Pairwise (fun a b => a.key ≠ b.key) := hk.imp (fun h e => h (by
    simp only [Change.key, EmbeddingLike.apply_eq_iff_eq, Prod.mk.injEq] at e
    exact e))
  have hsort : sortChanges cs = sortChanges cs' := sortByKey_perm_eq Change.key hp hkey
  have hv' : ∀ c ∈ cs', c.start ≤ c.stop := fun c hc => hv c (hp.mem_iff.2 hc)
  have hiff : (build cs).isSome ↔ (build cs').isSome := by
    rw [build_isSome_iff hv, build_isSome_iff hv']
    exact hp.pairwise_iff (fun h => Compat.symm h)
  cases h : build cs with
  | none =>
    rw [h] at hiff
    cases h' : build cs' with
    | none => rfl
    | some e => rw [h'] at hiff; simp at hiff
  | some e =>
    rw [h] at hiff
    cases h' : build cs' with
    | none => rw [h'] at hiff; simp at hiff
    | some e' => rw [build_eq h, build_eq h', hsort]

example : ([⟨4, 5, [1]⟩, ⟨0, 2, [2]⟩, ⟨7, 7, [3]⟩] : List Change).Perm
      [⟨7, 7, [3]⟩, ⟨4, 5, [1]⟩, ⟨0, 2, [2]⟩] ∧
    (build [⟨4, 5, [1]⟩, ⟨0, 2, [2]⟩, ⟨7, 7, [3]⟩]).isSome := by decide +kernel

/-- Why C02 needs the hypothesis: two insertions at one offset appear in the order of adding. -/
theorem C02_insertions_at_one_offset_ordered :
    build [⟨3, 3, [1]⟩, ⟨3, 3, [2]⟩] ≠ build [⟨3, 3, [2]⟩, ⟨3, 3, [1]⟩] := by decide +kernel

/-! ### C03 -/

/-- **C03 (success).** A successful merge contains exactly the replacements of both edits, keeps every
insertion (also repeated ones), is well formed again, and applying it to any document the
replacements fit in is the simultaneous replacement. -/
theorem C03_union_keeps_both (A B M : List Change) (hA : WellFormed A) (hB : WellFormed B)
    (h : union A B = .ok M) :
    WellFormed M ∧ (∀ c, c ∈ M ↔ c ∈ A ∨ c ∈ B) ∧
      (M.filter Change.isInsert).Perm ((A ++ B).filter Change.isInsert) ∧
      ∀ t : Text, (∀ c ∈ A ++ B, ValidIn t c) → apply M t = some (splice 0 M t) := by
  obtain ⟨h1, h2, h3⟩ := union_ok hA hB h
  refine ⟨h1, h2, h3, ?_⟩
  intro t ht
  apply apply_eq
  apply Fits.of_wellFormed _ h1.ordered (Nat.zero_le _) (fun _ _ => Nat.zero_le _)
  intro c hc
  exact ht c (by simpa using (h2 c).1 hc)

/-- **C03 (failure).** A refused merge leaves the edit as it was and hands back the other one. -/
theorem C03_union_refusal (A B E : List Change) (h : union A B = .error E) :
    E = B ∧ unionSelf A B = A := by
  have h' := h
  unfold union at h
  simp only at h
  split at h
  · exact absurd h (by simp)
  · refine ⟨by injection h with h; exact h.symm, ?_⟩
    simp [unionSelf, h']

/-- **C03 (refusal is justified).** A merge is refused only if two replacements overlap without being
identical, or a replacement of `B` starts where a non-empty replacement of `A` starts. -/
theorem C03_union_accepts (A B : List Change) (hA : WellFormed A) (hB : WellFormed B)
    (hd : ∀ a ∈ A, ∀ b ∈ B, Disjoint a b ∨ a = b)
    (ht : ∀ a ∈ A, ∀ b ∈ B, a.start = b.start → a = b ∨ a.isInsert = true) :
    ∃ M, union A B = .ok M := by
  have := checkDisjoint_of_pairwise (merge_pairwise hA hB hd ht)
  exact ⟨dedup (mergeChanges A B), by simp only [union, this, if_true]⟩

/-- The tie rule is asymmetric: merging an insertion at the start of a replacement is refused one way
and accepted the other way, although the two do not overlap. -/
theorem C03_union_symmetric_fails :
    ∃ A B : List Change, WellFormed A ∧ WellFormed B ∧ (∀ a ∈ A, ∀ b ∈ B, Disjoint a b) ∧
      (∃ E, union A B = .error E) ∧ (∃ M, union B A = .ok M) := by
  refine ⟨[⟨3, 5, [1]⟩], [⟨3, 3, [2]⟩], ⟨by simp, by simp⟩, ⟨by simp, by simp⟩, ?_,
    ⟨[⟨3, 3, [2]⟩], ?_⟩, ⟨[⟨3, 3, [2]⟩, ⟨3, 5, [1]⟩], ?_⟩⟩
  · simp [Disjoint]
  · decide +kernel
  · decide +kernel

example : union [⟨1, 5, []⟩, ⟨7, 11, [1]⟩] [⟨5, 6, [2]⟩, ⟨7, 11, [1]⟩, ⟨13, 13, [3]⟩] =
    .ok [⟨1, 5, []⟩, ⟨5, 6, [2]⟩, ⟨7, 11, [1]⟩, ⟨13, 13, [3]⟩] := by decide +kernel

example : WellFormed [⟨1, 5, []⟩, ⟨7, 11, [1]⟩] := ⟨by simp, by simp⟩

/-! ### C04 -/

/-- **C04 (definedness).** Mapping an offset never underflows and is undefined exactly strictly inside
a replaced range. -/
theorem C04_offset_undefined_iff (cs : List Change) (o : Nat) (hw : WellFormed cs) :
    applyToOffset cs o ≠ .panic ∧
    (applyToOffset cs o = .none ↔ ∃ c ∈ cs, c.start < o ∧ o < c.stop) :=
  applyToOffsetGo_none_iff (p := 0) hw (fun _ _ => Nat.zero_le _) (Nat.zero_le _) (by omega)

/-- **C04 (meaning).** If `o` is mapped to `r`, the edited document splits at `r` into the edited text
before `o` and the edited text from `o` on. -/
theorem C04_offset_splits (cs : List Change) (t : Text) (o r : Nat) (hw : WellFormed cs)
    (ho : o ≤ t.length) (h : applyToOffset cs o = .some r) :
    (splice 0 cs t).take r = splice 0 (cs.filter (fun c => decide (c.start < o))) (t.take o) ∧
    (splice 0 cs t).drop r = splice o (cs.filter (fun c => decide (o ≤ c.start))) (t.drop o) := by
  obtain ⟨h1, h2⟩ := applyToOffset_split (p := 0) (t := t) hw (fun _ _ => Nat.zero_le _)
    (Nat.zero_le _) (by omega) (by omega) h
  simp only [Nat.sub_zero] at h1 h2
  have hr : r = (splice 0 (cs.filter (fun c => decide (c.start < o))) (t.take o)).length := by omega
  rw [h1, hr]
  exact ⟨List.take_left, List.drop_left⟩

/-- **C04 (monotonicity).** -/
theorem C04_offset_monotone (cs : List Change) (o o' r r' : Nat) (hw : WellFormed cs) (hoo : o ≤ o')
    (h : applyToOffset cs o = .some r) (h' : applyToOffset cs o' = .some r') : r ≤ r' :=
  applyToOffset_mono (p := 0) hw (fun _ _ => Nat.zero_le _) (Nat.zero_le _) hoo (by omega)
    (by omega) h h'

example :
    let cs : List Change := [⟨2, 4, [9, 9, 9]⟩, ⟨6, 8, []⟩]
    applyToOffset cs 5 = .some 6 ∧ applyToOffset cs 3 = .none ∧ applyToOffset cs 9 = .some 8 ∧
      (splice 0 cs [0, 1, 2, 3, 4, 5, 6, 7, 8]).take 6 = [0, 1, 9, 9, 9, 4] := by decide +kernel

theorem splice_getLast? (F : List Change) (pos : Nat) (t : Text) (hw : WellFormed F)
    (hp : ∀ c ∈ F, pos ≤ c.start) (hs : ∀ c ∈ F, c.stop < pos + t.length) :
    (splice pos F t).getLast? = t.getLast? := by
  induction F generalizing pos t with
  | nil => rfl
  | cons c F ih =>
    have h1 := hp c (by simp)
    have h2 := hw.valid c (by simp)
    have h3 := hs c (by simp)
    have h := ih c.stop (t.drop (c.stop - pos)) (WellFormed.tail hw)
      (fun d hd => (List.pairwise_cons.1 hw.ordered).1 d hd)
      (fun d hd => by have := hs d (by simp [hd]); simp only [List.length_drop]; omega)
    simp only [splice, List.getLast?_append, h, List.getLast?_drop]
    rw [if_neg (by omega)]
    cases ht : t.getLast? with
    | none => simp at ht; subst ht; simp at h3; omega
    | some x => simp

/-- **C04 (untouched offsets).** An offset that a builder does not report as invalidated is mapped, and
both neighbouring bytes of the document are still its neighbours afterwards. -/
theorem C04_untouched_neighbours (cs : List Change) (t : Text) (o : Nat) (hw : WellFormed cs)
    (hin : ∀ c ∈ cs, c.stop ≤ t.length) (ho : o ≤ t.length)
    (h : invalidatesOffset cs o = false) :
    ∃ r, applyToOffset cs o = .some r ∧ (splice 0 cs t)[r]? = t[o]? ∧
      ((splice 0 cs t).take r).getLast? = (t.take o).getLast? := by
  have hn : ∀ c ∈ cs, ¬ (c.start ≤ o ∧ o ≤ c.stop) := by
    intro c hc hco
    simp only [invalidatesOffset, List.any_eq_false] at h
    exact h c hc (by simp [hco.1, hco.2])
  obtain ⟨hp, hnone⟩ := C04_offset_undefined_iff cs o hw
  cases hr : applyToOffset cs o with
  | panic => exact absurd hr hp
  | none =>
    obtain ⟨c, hc, h1, h2⟩ := hnone.1 hr
    exact absurd ⟨Nat.le_of_lt h1, Nat.le_of_lt h2⟩ (hn c hc)
  | some r =>
    obtain ⟨h1, h2⟩ := C04_offset_splits cs t o r hw ho hr
    refine ⟨r, rfl, ?_, ?_⟩
    · have e : (splice 0 cs t)[r]? = ((splice 0 cs t).drop r)[0]? := by simp
      rw [e, h2]
      cases hf : cs.filter (fun c => decide (o ≤ c.start)) with
      | nil => simp [splice]
      | cons c F =>
        have hm : c ∈ cs.filter (fun c => decide (o ≤ c.start)) := by simp [hf]
        simp only [List.mem_filter, decide_eq_true_eq] at hm
        have hv := hw.valid c hm.1
        have hc := hn c hm.1
        simp only [splice]
        have hlt : o < c.start := by
          rcases Nat.lt_or_ge o c.start with h | h
          · exact h
          · exact absurd ⟨h, by omega⟩ hc
        obtain ⟨k, hk⟩ : ∃ k, c.start - o = k + 1 := ⟨c.start - o - 1, by omega⟩
        rw [hk]
        cases hd : t.drop o with
        | nil =>
          have := List.drop_eq_nil_iff.1 hd
          have := hin c hm.1
          omega
        | cons x xs =>
          have : t[o]? = some x := by
            have := congrArg (fun l => l[0]?) hd
            simpa using this
          simp [this]
    · rw [h1]
      apply splice_getLast?
      · exact ⟨fun c hc => hw.valid c (List.mem_filter.1 hc).1, hw.ordered.filter _⟩
      · intro c _; exact Nat.zero_le _
      · intro c hc
        simp only [List.mem_filter, decide_eq_true_eq] at hc
        have := hn c hc.1
        simp only [List.length_take]
        omega

example :
    let cs : List Change := [⟨2, 4, [9, 9, 9]⟩, ⟨6, 8, []⟩]
    invalidatesOffset cs 5 = false ∧ invalidatesOffset cs 4 = true ∧ applyToOffset cs 5 = .some 6 ∧
      (splice 0 cs [0, 1, 2, 3, 4, 5, 6, 7, 8]) = [0, 1, 9, 9, 9, 4, 5, 8] := by decide +kernel

/-! ### C05 -/

/-- **C05 fails for the builder.** A builder that receives one replacement twice is accepted and the
built edit applies it twice: replacing `ab` by `X` in `abcdef` removes `c` as well. -/
theorem C05_builder_duplicate_fails :
    ∃ (c : Change) (t : Text), ValidIn t c ∧ c.isInsert = false ∧
      (build [c, c]).bind (fun e => apply e t) ≠ (build [c]).bind (fun e => apply e t) ∧
      (build [c, c]).bind (fun e => apply e t) = some (ascii "Xdef") := by
  refine ⟨⟨0, 2, ascii "X"⟩, ascii "abcdef", ⟨by decide, by decide, by decide, by decide +kernel, ?_⟩, by decide, by decide +kernel, by decide +kernel⟩
  exact ⟨['X'], by decide +kernel⟩

/-- **C05 holds for merging.** Merging an edit without insertions with itself changes nothing. -/
theorem C05_merge_duplicate_partial (A : List Change) (hw : WellFormed A)
    (hn : ∀ c ∈ A, c.isInsert = false) : union A A = .ok A := by
  have hlt : ∀ c ∈ A, c.start < c.stop := by
    intro c hc
    have h1 := hw.valid c hc
    have h2 := hn c hc
    simp only [Change.isInsert, beq_eq_false_iff_ne] at h2
    omega
  have key : ∀ A : List Change, WellFormed A → (∀ c ∈ A, c.start < c.stop) →
      mergeChanges A A = A.flatMap (fun c => [c, c]) := by
    intro A
    induction A with
    | nil => intro _ _; simp [mergeChanges]
    | cons a A ih =>
      intro hw hlt
      have ih' := ih (WellFormed.tail hw) (fun c hc => hlt c (List.mem_cons_of_mem _ hc))
      rw [mergeChanges, if_pos (Nat.le_refl _)]
      cases A with
      | nil => simp [mergeChanges]
      | cons b A =>
        have h1 := (List.pairwise_cons.1 hw.ordered).1 b (by simp)
        have h2 := hlt a (by simp)
        rw [mergeChanges, if_neg (by omega), ih']
        simp
  have hm := key A hw hlt
  have hch : checkDisjoint (mergeChanges A A) = true := by
    apply checkDisjoint_of_pairwise
    apply merge_pairwise hw hw
    · intro a ha b hb
      by_cases hab : a = b
      · exact Or.inr hab
      · left
        obtain ⟨i, hi, rfl⟩ := List.mem_iff_getElem.1 ha
        obtain ⟨j, hj, rfl⟩ := List.mem_iff_getElem.1 hb
        have hp := List.pairwise_iff_getElem.1 hw.ordered
        rcases Nat.lt_trichotomy i j with h | h | h
        · exact Or.inl (hp i j hi hj h)
        · subst h; exact absurd rfl hab
        · exact Or.inr (hp j i hj hi h)
    · intro a ha b hb hs
      left
      obtain ⟨i, hi, rfl⟩ := List.mem_iff_getElem.1 ha
      obtain ⟨j, hj, rfl⟩ := List.mem_iff_getElem.1 hb
      have hp := List.pairwise_iff_getElem.1 hw.ordered
      have h1 := hlt A[i] ha
      have h2 := hlt A[j] hb
      rcases Nat.lt_trichotomy i j with h | h | h
      · have := hp i j hi hj h; omega
      · subst h; rfl
      · have := hp j i hj hi h; omega
  have hdd : ∀ A : List Change, WellFormed A → (∀ c ∈ A, c.isInsert = false) →
      dedup (A.flatMap (fun c => [c, c])) = A := by
    intro A
    induction A with
    | nil => intro _ _; rfl
    | cons a A ih =>
      intro hw hn
      have ha := hn a (by simp)
      have ih' := ih (WellFormed.tail hw) (fun c hc => hn c (List.mem_cons_of_mem _ hc))
      simp only [List.flatMap_cons, List.cons_append, List.nil_append, dedup, dedupGo]
      rw [if_pos ⟨trivial, ha⟩]
      cases A with
      | nil => simp [dedupGo]
      | cons b A =>
        have hne : ¬ (a = b ∧ a.isInsert = false) := by
          rintro ⟨rfl, _⟩
          have h1 := (List.pairwise_cons.1 hw.ordered).1 a (by simp)
          have h2 := hw.valid a (by simp)
          simp only [Change.isInsert, beq_eq_false_iff_ne] at ha
          omega
        simp only [List.flatMap_cons, List.cons_append, List.nil_append, dedup] at ih'
        simp only [List.flatMap_cons, List.cons_append, List.nil_append]
        rw [dedupGo, if_neg hne, ih']
  simp only [union, hch, if_true]
  rw [hm, hdd A hw hn]

example : union [⟨1, 3, [7]⟩, ⟨5, 8, []⟩] [⟨1, 3, [7]⟩, ⟨5, 8, []⟩] =
    .ok [⟨1, 3, [7]⟩, ⟨5, 8, []⟩] := by decide +kernel

/-- Merging per file never loses the edit already recorded for a file, and files are independent. -/
theorem C03_insert_source_edit (m : FileEdits) (file : Nat) (edit : List Change) :
    (∀ f, f ≠ file → insertSourceEdit m file edit f = m f) ∧
    (m file = none → insertSourceEdit m file edit file = some edit) ∧
    (∀ old, m file = some old → WellFormed old → WellFormed edit →
      ∃ new, insertSourceEdit m file edit file = some new ∧ WellFormed new ∧ (∀ c ∈ old, c ∈ new)) := by
  refine ⟨?_, ?_, ?_⟩
  · intro f hf; simp [insertSourceEdit, hf]
  · intro h; simp [insertSourceEdit, h]
  · intro old h ho he
    refine ⟨unionSelf old edit, by simp [insertSourceEdit, h], ?_⟩
    cases hu : union old edit with
    | error e =>
      have := (C03_union_refusal _ _ _ hu).2
      rw [this]; exact ⟨ho, fun _ h => h⟩
    | ok M =>
      have h3 := C03_union_keeps_both _ _ _ ho he hu
      simp only [unionSelf, hu]
      exact ⟨h3.1, fun c hc => (h3.2.1 c).2 (Or.inl hc)⟩

/-- An overlapping second edit for a file is silently lost (`never!` only logs). -/
theorem C03_insert_source_edit_overlap_lost_fails :
    ∃ (m : FileEdits) (edit : List Change), WellFormed edit ∧ (∀ e, m 0 = some e → WellFormed e) ∧
      insertSourceEdit m 0 edit 0 = m 0 ∧ (∃ c ∈ edit, ∀ e, m 0 = some e → c ∉ e) := by
  refine ⟨fun _ => some [⟨0, 3, []⟩], [⟨2, 4, []⟩], ⟨by simp, by simp⟩, ?_, by decide +kernel, ⟨2, 4, []⟩, by simp, ?_⟩
  · rintro e ⟨⟩; exact ⟨by simp, by simp⟩
  · rintro e ⟨⟩; simp

end Verif.TextEdit
