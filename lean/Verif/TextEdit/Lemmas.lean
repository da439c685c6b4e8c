import Verif.TextEdit.Spec

namespace Verif.TextEdit
open Verif Verif.TextEdit.Spec

/-- Left-to-right fitting replacements, starting from offset `pos`. -/
def Fits (t : Text) : Nat → List Change → Prop
  | pos, [] => pos ≤ t.length
  | pos, c :: cs =>
    pos ≤ c.start ∧ c.start ≤ c.stop ∧ c.stop ≤ t.length ∧ isCharBoundary t c.start = true ∧
      isCharBoundary t c.stop = true ∧ headStarts c.newText ∧ Fits t c.stop cs

theorem Fits.pos_le {t : Text} {pos : Nat} {cs : List Change} (h : Fits t pos cs) :
    pos ≤ t.length := by
  cases cs with
  | nil => exact h
  | cons c cs => obtain ⟨h1, h2, h3, _⟩ := h; omega

theorem Fits.mono {t : Text} {p q : Nat} {cs : List Change} (h : Fits t p cs) (hq : q ≤ p) :
    Fits t q cs := by
  cases cs with
  | nil => exact Nat.le_trans hq h
  | cons c cs => obtain ⟨h1, h2⟩ := h; exact ⟨Nat.le_trans hq h1, h2⟩

theorem headStarts_drop {t : Text} {i : Nat} (hi : i ≤ t.length) (hb : isCharBoundary t i = true)
    (h0 : 0 < i) : headStarts (t.drop i) := by
  rcases (isCharBoundary_iff hi).1 hb with h | h
  · omega
  · exact h

theorem headStarts_take {t : Text} {n : Nat} (h : headStarts t) : headStarts (t.take n) := by
  intro b hb
  cases t with
  | nil => simp at hb
  | cons x t =>
    cases n with
    | zero => simp at hb
    | succ n => exact h b (by simpa using hb)

theorem headStarts_splice {t : Text} {pos : Nat} {cs : List Change} (h : Fits t pos cs)
    (h0 : headStarts (t.drop pos)) : headStarts (splice pos cs (t.drop pos)) := by
  induction cs generalizing pos with
  | nil => exact h0
  | cons c cs ih =>
    obtain ⟨h1, h2, h3, h4, h5, h6, h7⟩ := h
    simp only [splice]
    rw [List.append_assoc]
    apply headStarts_append (headStarts_take h0)
    apply headStarts_append h6
    rw [List.drop_drop]
    rw [show pos + (c.stop - pos) = c.stop by omega]
    apply ih h7
    rcases (isCharBoundary_iff h3).1 h5 with e | e
    · have : pos = c.stop := by omega
      rw [← this]; exact h0
    · exact e

theorem take_splice {t : Text} {pos : Nat} {cs : List Change} (h : Fits t pos cs) (c : Change)
    (hc : c.start ≤ pos) : (t.take pos ++ splice pos cs (t.drop pos)).take c.start = t.take c.start := by
  have := h.pos_le
  rw [List.take_append_of_le_length (by simp; omega), List.take_take]
  congr 1; omega

theorem applyRev_eq {t : Text} {pos : Nat} {cs : List Change} (h : Fits t pos cs) :
    applyRev cs t = some (t.take pos ++ splice pos cs (t.drop pos)) := by
  induction cs generalizing pos with
  | nil => simp [applyRev, splice]
  | cons c cs ih =>
    obtain ⟨h1, h2, h3, h4, h5, h6, h7⟩ := h
    have hr : applyRev (c :: cs) t = (applyRev cs t).bind c.apply := by simp [applyRev]
    rw [hr, ih h7]
    simp only [Option.bind_some, Change.apply, replaceRange]
    set r := splice c.stop cs (t.drop c.stop) with hrdef
    have hlen : (t.take c.stop).length = c.stop := by simp; omega
    have hb5 : isCharBoundary (t.take c.stop ++ r) c.stop = true := by
      rw [isCharBoundary_iff (by simp; omega)]
      by_cases hz : c.stop = 0
      · exact Or.inl hz
      · right
        rw [List.drop_append_of_le_length (by omega), List.drop_eq_nil_of_le (by omega)]
        simp only [List.nil_append, hrdef]
        exact headStarts_splice h7 (headStarts_drop h3 h5 (by omega))
    have hb4 : isCharBoundary (t.take c.stop ++ r) c.start = true := by
      by_cases he : c.start = c.stop
      · rw [he]; exact hb5
      · rw [isCharBoundary_iff (by simp; omega)]
        by_cases hz : c.start = 0
        · exact Or.inl hz
        · right
          have := headStarts_drop (by omega) h4 (by omega)
          rw [List.drop_append_of_le_length (by omega)]
          have hlt : c.start < t.length := by omega
          intro b hb
          apply this b
          rw [List.drop_take, List.drop_eq_getElem_cons hlt] at hb
          obtain ⟨k, hk⟩ : ∃ k, c.stop - c.start = k + 1 := ⟨c.stop - c.start - 1, by omega⟩
          rw [hk, List.take_succ_cons, List.cons_append, List.head?_cons] at hb
          rw [List.drop_eq_getElem_cons hlt, List.head?_cons]
          exact hb
    rw [if_pos ⟨h2, by simp; omega, hb4, hb5⟩]
    congr 1
    rw [List.take_append_of_le_length (by omega), List.take_take,
      List.drop_append_of_le_length (by omega), List.drop_eq_nil_of_le (by omega : (t.take c.stop).length ≤ c.stop)]
    simp only [splice, List.nil_append]
    have e1 : t.take (min c.start c.stop) = t.take pos ++ (t.drop pos).take (c.start - pos) := by
      rw [show min c.start c.stop = pos + (c.start - pos) by omega, List.take_add]
    rw [e1, List.drop_drop, show pos + (c.stop - pos) = c.stop by omega]
    simp [List.append_assoc, hrdef]

theorem totalLen_eq {t : Text} {pos : Nat} {cs : List Change} (h : Fits t pos cs) (k : Nat) :
    totalLen cs (k + (t.length - pos)) = some (k + (splice pos cs (t.drop pos)).length) := by
  induction cs generalizing pos k with
  | nil => simp [totalLen, splice]
  | cons c cs ih =>
    obtain ⟨h1, h2, h3, h4, h5, h6, h7⟩ := h
    simp only [totalLen]
    rw [if_pos (by omega)]
    have := ih h7 (k + (c.start - pos) + c.newText.length)
    rw [show k + (t.length - pos) + c.newText.length - (c.stop - c.start)
      = k + (c.start - pos) + c.newText.length + (t.length - c.stop) by omega, this]
    simp only [splice, List.drop_drop, List.length_append, List.length_take, List.length_drop]
    rw [show pos + (c.stop - pos) = c.stop by omega]
    congr 1
    omega

theorem apply_eq {t : Text} {cs : List Change} (h : Fits t 0 cs) :
    apply cs t = some (splice 0 cs t) := by
  have h1 := applyRev_eq h
  have h2 := totalLen_eq h 0
  simp only [List.take_zero, List.drop_zero, List.nil_append, Nat.zero_add, Nat.sub_zero] at h1 h2
  unfold apply
  split
  · simp [splice]
  · simpa [applyRev] using h1
  · rw [h2, h1]; simp

theorem Fits.of_wellFormed {t : Text} {cs : List Change} (hv : ∀ c ∈ cs, ValidIn t c)
    (ho : cs.Pairwise (fun a b => a.stop ≤ b.start)) {pos : Nat} (hp : pos ≤ t.length)
    (hpos : ∀ c ∈ cs, pos ≤ c.start) : Fits t pos cs := by
  induction cs generalizing pos with
  | nil => exact hp
  | cons c cs ih =>
    have hc := hv c (by simp)
    obtain ⟨ha, hb⟩ := List.pairwise_cons.1 ho
    exact ⟨hpos c (by simp), hc.le, hc.inside, hc.boundStart, hc.boundStop, hc.str.headStarts,
      ih (fun x hx => hv x (by simp [hx])) hb hc.inside ha⟩

/-! ### Coalescing -/

theorem splice_coalesceGo {pos : Nat} {last : Change} {bs : List Change} {t : Text}
    (h1 : pos ≤ last.start) (h2 : last.start ≤ last.stop)
    (hv : ∀ c ∈ bs, c.start ≤ c.stop)
    (ho : (last :: bs).Pairwise (fun a b => a.stop ≤ b.start)) :
    splice pos (coalesceGo last bs) t = splice pos (last :: bs) t := by
  induction bs generalizing pos last t with
  | nil => rfl
  | cons b bs ih =>
    simp only [List.pairwise_cons] at ho
    obtain ⟨ho1, ho2, ho3⟩ := ho
    have hb := hv b (by simp)
    have hlb := ho1 b (by simp)
    simp only [coalesceGo]
    split
    · rename_i he
      rw [ih (by exact h1) (by simp only; omega) (fun x hx => hv x (by simp [hx]))]
      · simp only [splice]
        rw [List.drop_drop, show last.stop - pos + (b.stop - last.stop) = b.stop - pos by omega,
          show b.start - last.stop = 0 by omega]
        simp [List.append_assoc]
      · simp only [List.pairwise_cons]
        exact ⟨ho2, ho3⟩
    · simp only [splice]
      rw [ih hlb hb (fun x hx => hv x (by simp [hx])) (by simp only [List.pairwise_cons]; exact ⟨ho2, ho3⟩)]
      simp [splice]

theorem splice_coalesce {pos : Nat} {cs : List Change} {t : Text} (hpos : ∀ c ∈ cs, pos ≤ c.start)
    (hw : WellFormed cs) : splice pos (coalesce cs) t = splice pos cs t := by
  cases cs with
  | nil => rfl
  | cons a bs =>
    exact splice_coalesceGo (hpos a (by simp)) (hw.valid a (by simp))
      (fun c hc => hw.valid c (by simp [hc])) hw.ordered

theorem fits_coalesceGo {t : Text} {pos : Nat} {last : Change} {bs : List Change}
    (h : Fits t pos (last :: bs)) : Fits t pos (coalesceGo last bs) := by
  induction bs generalizing pos last with
  | nil => exact h
  | cons b bs ih =>
    obtain ⟨h1, h2, h3, h4, h5, h6, g1, g2, g3, g4, g5, g6, g7⟩ := h
    simp only [coalesceGo]
    split
    · apply ih
      exact ⟨h1, by simp only; omega, g3, h4, g5, headStarts_append h6 g6, g7⟩
    · exact ⟨h1, h2, h3, h4, h5, h6, ih ⟨g1, g2, g3, g4, g5, g6, g7⟩⟩

theorem fits_coalesce {t : Text} {pos : Nat} {cs : List Change} (h : Fits t pos cs) :
    Fits t pos (coalesce cs) := by
  cases cs with
  | nil => exact h
  | cons a bs => exact fits_coalesceGo h

theorem coalesceGo_wf {last : Change} {bs : List Change} (hw : WellFormed (last :: bs)) :
    (coalesceGo last bs).Pairwise (fun a b => a.stop < b.start) ∧
    WellFormed (coalesceGo last bs) ∧
    (∀ c ∈ coalesceGo last bs, last.start ≤ c.start) := by
  induction bs generalizing last with
  | nil => exact ⟨by simp [coalesceGo], hw, by simp [coalesceGo]⟩
  | cons b bs ih =>
    have hv := hw.valid
    have ho := hw.ordered
    simp only [List.pairwise_cons] at ho
    obtain ⟨ho1, ho2, ho3⟩ := ho
    have hl := hv last (by simp)
    have hb := hv b (by simp)
    have hlb := ho1 b (by simp)
    simp only [coalesceGo]
    split
    · rename_i he
      have hw' : WellFormed (⟨last.start, b.stop, last.newText ++ b.newText⟩ :: bs) := by
        refine ⟨?_, ?_⟩
        · intro c hc
          rcases List.mem_cons.1 hc with rfl | hc
          · simp only; omega
          · exact hv c (by simp [hc])
        · simp only [List.pairwise_cons]; exact ⟨ho2, ho3⟩
      exact ih hw'
    · rename_i he
      have hw' : WellFormed (b :: bs) :=
        ⟨fun c hc => hv c (List.mem_cons_of_mem _ hc), by simp only [List.pairwise_cons]; exact ⟨ho2, ho3⟩⟩
      obtain ⟨k1, k2, k3⟩ := ih hw'
      refine ⟨?_, ⟨?_, ?_⟩, ?_⟩
      · rw [List.pairwise_cons]
        refine ⟨?_, k1⟩
        intro y hy
        have := k3 y hy
        omega
      · intro c hc
        rcases List.mem_cons.1 hc with rfl | hc
        · exact hl
        · exact k2.valid c hc
      · simp only [List.pairwise_cons]
        refine ⟨?_, k2.ordered⟩
        intro c hc
        have := k3 c hc
        omega
      · intro c hc
        rcases List.mem_cons.1 hc with rfl | hc
        · exact Nat.le_refl _
        · have := k3 c hc; omega

theorem coalesce_wf {cs : List Change} (hw : WellFormed cs) : WellFormed (coalesce cs) := by
  cases cs with
  | nil => exact hw
  | cons a bs => exact (coalesceGo_wf hw).2.1

/-! ### The disjointness check -/

/-- Two changes that the code accepts together: disjoint or identical. -/
def Compat (a b : Change) : Prop := a.stop ≤ b.start ∨ b.stop ≤ a.start ∨ a = b

theorem Compat.symm {a b : Change} (h : Compat a b) : Compat b a := by
  rcases h with h | h | h
  · exact Or.inr (Or.inl h)
  · exact Or.inl h
  · exact Or.inr (Or.inr h.symm)

theorem key_le {a b : Change} : a.key ≤ b.key ↔ a.start < b.start ∨ (a.start = b.start ∧ a.stop ≤ b.stop) := by
  simp [Change.key, Prod.Lex.toLex_le_toLex]

theorem checkDisjoint_pairwise {s : List Change} (hv : ∀ c ∈ s, c.start ≤ c.stop)
    (h : checkDisjoint s = true) : s.Pairwise (fun a b => a.stop ≤ b.start ∨ a = b) := by
  induction s with
  | nil => exact List.Pairwise.nil
  | cons a s ih =>
    cases s with
    | nil => simp
    | cons b s =>
      simp only [checkDisjoint, Bool.and_eq_true, Bool.or_eq_true, decide_eq_true_eq] at h
      have ih' := ih (fun c hc => hv c (List.mem_cons_of_mem _ hc)) h.2
      rw [List.pairwise_cons]
      refine ⟨?_, ih'⟩
      intro c hc
      rcases List.mem_cons.1 hc with rfl | hc
      · exact h.1
      · have hbc := (List.pairwise_cons.1 ih').1 c hc
        have hb := hv b (by simp)
        rcases h.1 with h1 | rfl
        · rcases hbc with h2 | rfl
          · left; omega
          · left; exact h1
        · exact hbc

theorem checkDisjoint_of_sorted {s : List Change} (hv : ∀ c ∈ s, c.start ≤ c.stop)
    (hs : SortedBy Change.key s) (hc : s.Pairwise Compat) : checkDisjoint s = true := by
  induction s with
  | nil => rfl
  | cons a s ih =>
    cases s with
    | nil => rfl
    | cons b s =>
      have hs' := List.pairwise_cons.1 hs
      have hc' := List.pairwise_cons.1 hc
      simp only [checkDisjoint, Bool.and_eq_true, Bool.or_eq_true, decide_eq_true_eq]
      refine ⟨?_, ih (fun c hc => hv c (List.mem_cons_of_mem _ hc)) hs'.2 hc'.2⟩
      have hk := key_le.1 (hs'.1 b (by simp))
      have ha := hv a (by simp)
      have hb := hv b (by simp)
      rcases hc'.1 b (by simp) with h | h | h
      · exact Or.inl h
      · left; omega
      · exact Or.inr h

theorem pairwise_sorted_disjoint {s : List Change} (hv : ∀ c ∈ s, c.start ≤ c.stop)
    (hs : SortedBy Change.key s) (hc : s.Pairwise Disjoint) :
    s.Pairwise (fun a b => a.stop ≤ b.start) := by
  induction s with
  | nil => exact List.Pairwise.nil
  | cons a s ih =>
    obtain ⟨hs1, hs2⟩ := List.pairwise_cons.1 hs
    obtain ⟨hc1, hc2⟩ := List.pairwise_cons.1 hc
    rw [List.pairwise_cons]
    refine ⟨?_, ih (fun c hc => hv c (List.mem_cons_of_mem _ hc)) hs2 hc2⟩
    intro b hb
    have hk := key_le.1 (hs1 b hb)
    have hav := hv a (by simp)
    have hbv := hv b (List.mem_cons_of_mem _ hb)
    rcases hc1 b hb with h | h
    · exact h
    · omega

theorem compat_of_disjoint {a b : Change} (h : Disjoint a b) : Compat a b := by
  rcases h with h | h
  · exact Or.inl h
  · exact Or.inr (Or.inl h)

theorem assertDisjoint_isSome_iff {cs : List Change} (hv : ∀ c ∈ cs, c.start ≤ c.stop) :
    (assertDisjoint cs).isSome ↔ cs.Pairwise Compat := by
  have hperm : (sortChanges cs).Perm cs := sortByKey_perm Change.key cs
  have hv' : ∀ c ∈ sortChanges cs, c.start ≤ c.stop := fun c hc => hv c (hperm.mem_iff.1 hc)
  have hsym : ∀ {a b : Change}, Compat a b → Compat b a := Compat.symm
  constructor
  · intro h
    have hc : checkDisjoint (sortChanges cs) = true := by
      unfold assertDisjoint at h
      by_contra hn
      simp [hn] at h
    have hp := checkDisjoint_pairwise hv' hc
    have hp' : (sortChanges cs).Pairwise Compat := hp.imp (fun h => by
      rcases h with h | h
      · exact Or.inl h
      · exact Or.inr (Or.inr h))
    exact (hperm.pairwise_iff hsym).1 hp'
  · intro h
    have hp' := (hperm.pairwise_iff hsym).2 h
    have := checkDisjoint_of_sorted hv' (sorted_sortByKey Change.key cs) hp'
    simp [assertDisjoint, this]

theorem assertDisjoint_eq {cs s : List Change} (h : assertDisjoint cs = some s) : s = sortChanges cs := by
  unfold assertDisjoint at h
  simp only at h
  split at h
  · exact (Option.some.inj h).symm
  · exact absurd h (by simp)

theorem assertDisjoint_of_isSome {cs : List Change} (h : (assertDisjoint cs).isSome) :
    assertDisjoint cs = some (sortChanges cs) := by
  obtain ⟨s, hs⟩ := Option.isSome_iff_exists.1 h
  rw [hs, assertDisjoint_eq hs]

theorem mem_of_sort_eq {a b : List Change} (h : sortChanges a = sortChanges b) {c : Change} :
    c ∈ a ↔ c ∈ b := by
  rw [← mem_sortByKey Change.key (l := a), ← mem_sortByKey Change.key (l := b)]
  unfold sortChanges at h
  rw [h]

theorem sort_append_of_sort_eq {a b : List Change} (h : sortChanges a = sortChanges b) (r : List Change) :
    sortChanges (a ++ r) = sortChanges (b ++ r) := by
  unfold sortChanges at *
  rw [← sortByKey_append_sort, h, sortByKey_append_sort]

theorem pairwise_compat_of_sort_eq {a b : List Change} (h : sortChanges a = sortChanges b) :
    a.Pairwise Compat ↔ b.Pairwise Compat := by
  have ha : (sortChanges a).Perm a := sortByKey_perm Change.key a
  have hb : (sortChanges b).Perm b := sortByKey_perm Change.key b
  have : a.Perm b := ha.symm.trans (h ▸ hb)
  exact this.pairwise_iff (fun h => Compat.symm h)

theorem addChange_isSome {b : List Change} {c : Change} (hv : ∀ x ∈ b ++ [c], x.start ≤ x.stop)
    (h : (b ++ [c]).Pairwise Compat) :
    ∃ b', addChange b c = some b' ∧ sortChanges b' = sortChanges (b ++ [c]) := by
  unfold addChange
  simp only
  split
  · have hs := (assertDisjoint_isSome_iff hv).2 h
    refine ⟨_, assertDisjoint_of_isSome hs, ?_⟩
    have := sortByKey_append_sort Change.key (b ++ [c]) []
    simpa [sortChanges] using this
  · exact ⟨_, rfl, rfl⟩

theorem addChange_sort {b b' : List Change} {c : Change} (h : addChange b c = some b') :
    sortChanges b' = sortChanges (b ++ [c]) := by
  unfold addChange at h
  simp only at h
  split at h
  · rw [assertDisjoint_eq h]
    have := sortByKey_append_sort Change.key (b ++ [c]) []
    simpa [sortChanges] using this
  · rw [← Option.some.inj h]

theorem addAll_sort {b b' cs : List Change} (h : addAll b cs = some b') :
    sortChanges b' = sortChanges (b ++ cs) := by
  induction cs generalizing b with
  | nil => simp only [addAll, Option.some.injEq] at h; rw [← h]; simp
  | cons c cs ih =>
    simp only [addAll] at h
    obtain ⟨b1, h1, h2⟩ := Option.bind_eq_some_iff.1 h
    rw [ih h2, sort_append_of_sort_eq (addChange_sort h1)]
    simp

theorem addAll_isSome {b cs : List Change} (hv : ∀ x ∈ b ++ cs, x.start ≤ x.stop)
    (h : (b ++ cs).Pairwise Compat) : ∃ b', addAll b cs = some b' := by
  induction cs generalizing b with
  | nil => exact ⟨b, rfl⟩
  | cons c cs ih =>
    have e : b ++ c :: cs = (b ++ [c]) ++ cs := by simp
    rw [e] at hv h
    obtain ⟨b1, h1, h2⟩ := addChange_isSome (fun x hx => hv x (by simp only [List.mem_append] at hx ⊢; tauto))
      (List.pairwise_append.1 h).1
    have h3 : sortChanges (b1 ++ cs) = sortChanges ((b ++ [c]) ++ cs) := sort_append_of_sort_eq h2 cs
    obtain ⟨b', hb'⟩ := ih (b := b1) (fun x hx => hv x ((mem_of_sort_eq h3).1 hx))
      ((pairwise_compat_of_sort_eq h3).2 h)
    exact ⟨b', by simp [addAll, h1, hb']⟩

/-- What the builder produces when it does not panic. -/
theorem build_eq {cs e : List Change} (h : build cs = some e) : e = coalesce (sortChanges cs) := by
  unfold build finish at h
  obtain ⟨b, hb, h2⟩ := Option.bind_eq_some_iff.1 h
  obtain ⟨s, hs, h3⟩ := Option.map_eq_some_iff.1 h2
  rw [← h3, assertDisjoint_eq hs, addAll_sort hb]
  simp

theorem build_isSome_iff {cs : List Change} (hv : ∀ c ∈ cs, c.start ≤ c.stop) :
    (build cs).isSome ↔ cs.Pairwise Compat := by
  constructor
  · intro h
    obtain ⟨e, he⟩ := Option.isSome_iff_exists.1 h
    unfold build finish at he
    obtain ⟨b, hb, h2⟩ := Option.bind_eq_some_iff.1 he
    obtain ⟨s, hs, h3⟩ := Option.map_eq_some_iff.1 h2
    have hsort := addAll_sort hb
    simp only [List.nil_append] at hsort
    have hv' : ∀ c ∈ b, c.start ≤ c.stop := fun c hc => hv c ((mem_of_sort_eq hsort).1 hc)
    have := (assertDisjoint_isSome_iff hv').1 (by rw [hs]; rfl)
    exact (pairwise_compat_of_sort_eq hsort).1 this
  · intro h
    obtain ⟨b, hb⟩ := addAll_isSome (b := []) (cs := cs) (by simpa using hv) (by simpa using h)
    have hsort := addAll_sort hb
    simp only [List.nil_append] at hsort
    have hv' : ∀ c ∈ b, c.start ≤ c.stop := fun c hc => hv c ((mem_of_sort_eq hsort).1 hc)
    have := (assertDisjoint_isSome_iff hv').2 ((pairwise_compat_of_sort_eq hsort).2 h)
    simp [build, hb, finish, this]

theorem build_of_pairwise {cs : List Change} (hv : ∀ c ∈ cs, c.start ≤ c.stop)
    (h : cs.Pairwise Compat) : build cs = some (coalesce (sortChanges cs)) := by
  obtain ⟨e, he⟩ := Option.isSome_iff_exists.1 ((build_isSome_iff hv).2 h)
  rw [he, build_eq he]

theorem sort_wellFormed {cs : List Change} (hv : ∀ c ∈ cs, c.start ≤ c.stop)
    (hd : cs.Pairwise Disjoint) : WellFormed (sortChanges cs) := by
  have hperm : (sortChanges cs).Perm cs := sortByKey_perm Change.key cs
  have hv' : ∀ c ∈ sortChanges cs, c.start ≤ c.stop := fun c hc => hv c (hperm.mem_iff.1 hc)
  refine ⟨hv', pairwise_sorted_disjoint hv' (sorted_sortByKey _ _) ?_⟩
  exact (hperm.pairwise_iff (fun h => Or.symm h)).2 hd

end Verif.TextEdit
