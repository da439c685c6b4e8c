import Verif.ClientEdits.Model
import Verif.TextEdit.Props

/-! Property theorems about client edits: C08 and C53. -/

set_option linter.unusedSimpArgs false

namespace Verif.ClientEdits

/-! ### C08 -/

/-- Specification: two ranges have nothing but possibly an end point in common. -/
def Apart (a b : Range) : Prop := a.stop.le b.start ∨ b.stop.le a.start

theorem key_le_iff (a b : Range) : rangeKey a ≤ rangeKey b ↔
    (a.start.le b.start ∧ a.start ≠ b.start) ∨ (a.start = b.start ∧ a.stop.le b.stop) := by
  obtain ⟨⟨al, ac⟩, ⟨am, ad⟩⟩ := a
  obtain ⟨⟨bl, bc⟩, ⟨bm, bd⟩⟩ := b
  simp only [rangeKey, Prod.Lex.toLex_le_toLex, Pos.le, Pos.mk.injEq, ne_eq]
  omega

theorem neighboursOk_iff {l : List Range} (hs : SortedBy rangeKey l)
    (hv : ∀ r ∈ l, r.start.le r.stop) : neighboursOk l = true ↔ l.Pairwise Apart := by
  induction l with
  | nil => simp [neighboursOk]
  | cons a l ih =>
    have hs' : SortedBy rangeKey l := (List.pairwise_cons.1 hs).2
    have hv' : ∀ r ∈ l, r.start.le r.stop := fun r hr => hv r (List.mem_cons_of_mem _ hr)
    cases l with
    | nil => simp [neighboursOk]
    | cons b l =>
      rw [neighboursOk, Bool.and_eq_true, decide_eq_true_eq, ih hs' hv', List.pairwise_cons (a := a)]
      have hab := (key_le_iff a b).1 ((List.pairwise_cons.1 hs).1 b (List.mem_cons_self ..))
      have hva := hv a (List.mem_cons_self ..)
      have hvb := hv' b (List.mem_cons_self ..)
      constructor
      · rintro ⟨h1, h2⟩
        refine ⟨fun c hc => Or.inl ?_, h2⟩
        rcases List.mem_cons.1 hc with h | h
        · subst h; exact h1
        · have hbc := (key_le_iff b c).1 ((List.pairwise_cons.1 hs').1 c h)
          refine Pos.le_trans h1 ?_
          rcases hbc with h | h
          · exact h.1
          · rw [h.1]; exact Pos.le_refl _
      · rintro ⟨h1, h2⟩
        refine ⟨?_, h2⟩
        rcases h1 b (List.mem_cons_self ..) with h | h
        · exact h
        · have h3 : b.start.le a.start := Pos.le_trans hvb h
          rcases hab with h' | h'
          · exact absurd (Pos.le_antisymm h'.1 h3) h'.2
          · have : a.stop.le b.start := by
              have := Pos.le_trans h'.2 h
              rwa [h'.1] at this
            exact this

theorem neighbours_sorted (l : List Range) (hv : ∀ r ∈ l, r.start.le r.stop) :
    neighboursOk (sortByKey rangeKey l) = true ↔ l.Pairwise Apart := by
  rw [neighboursOk_iff (sorted_sortByKey _ l) (fun r hr => hv r ((mem_sortByKey _).1 hr))]
  exact (sortByKey_perm rangeKey l).pairwise_iff (fun h => Or.symm h)

/-- The ranges a completion modifies. -/
def mainRange : Option MainEdit → List Range
  | none => []
  | some (.textEdit r) => [r]
  | some (.insertReplace _ r) => [r]

/-- A main edit respects the protocol: if it offers both insertion and replacement, the range inserted is
a prefix of the range replaced. -/
def MainOk : Option MainEdit → Prop
  | some (.insertReplace i r) => i.start = r.start ∧ i.start.le i.stop ∧ i.stop.le r.stop
  | _ => True

/-- **C08.** For every completion and any further edits, all with well-formed ranges: the server accepts
the edits if and only if the main edit respects the protocol and any two of all the ranges are apart. -/
theorem C08_disjointness_exact (main : Option MainEdit) (ce : Option (List Range)) (add : List Range)
    (hv : ∀ r ∈ mainRange main ++ ce.getD [] ++ add, r.start.le r.stop) :
    allEditsAreDisjoint main ce add = true ↔
      MainOk main ∧ (mainRange main ++ ce.getD [] ++ add).Pairwise Apart := by
  unfold allEditsAreDisjoint
  cases main with
  | none =>
    simp only [mainRange, MainOk, true_and, List.nil_append] at *
    exact neighbours_sorted _ hv
  | some m =>
    cases m with
    | textEdit r =>
      simp only [mainRange, MainOk, true_and, List.cons_append, List.nil_append] at *
      exact neighbours_sorted _ hv
    | insertReplace i r =>
      simp only [mainRange, MainOk, List.cons_append, List.nil_append] at *
      split
      · next h =>
        simp only [Bool.false_eq_true, false_iff]
        rintro ⟨⟨h1, h2, h3⟩, -⟩
        rcases h with h | h | h
        · exact h h1.symm
        · exact h h2
        · exact h h3
      · next h =>
        simp only [not_or, not_not, ne_eq] at h
        rw [neighbours_sorted _ hv]
        constructor
        · intro hp; exact ⟨⟨h.1.symm, h.2.1, h.2.2⟩, hp⟩
        · exact fun h => h.2

/-- The order in which edits are listed is irrelevant. -/
theorem C08_order_irrelevant (main : Option MainEdit) (a b : List Range) (h : a.Perm b)
    (hv : ∀ r ∈ mainRange main ++ a, r.start.le r.stop) :
    allEditsAreDisjoint main (some a) [] = allEditsAreDisjoint main none b := by
  rw [Bool.eq_iff_iff, C08_disjointness_exact _ _ _ (by simpa using hv), C08_disjointness_exact]
  · have hp : (mainRange main ++ a).Perm (mainRange main ++ b) := h.append_left _
    simp only [Option.getD_some, Option.getD_none, List.append_nil]
    rw [hp.pairwise_iff (R := Apart) (fun h => Or.symm h)]
  · intro r hr
    apply hv r
    simp only [Option.getD_none, List.append_nil, List.mem_append] at hr ⊢
    exact hr.imp id (h.mem_iff.2)

example : allEditsAreDisjoint (some (.textEdit ⟨⟨0, 5⟩, ⟨0, 8⟩⟩)) (some [⟨⟨0, 8⟩, ⟨1, 0⟩⟩]) [⟨⟨0, 5⟩, ⟨0, 5⟩⟩] = true ∧
    allEditsAreDisjoint (some (.textEdit ⟨⟨0, 5⟩, ⟨0, 8⟩⟩)) (some [⟨⟨0, 7⟩, ⟨1, 0⟩⟩]) [] = false := by
  decide +kernel

/-! ### C53 -/

open Verif.TextEdit (Change)
open Verif.TextEdit.Spec (splice)

/-- A change the client can be told about: away from the identifier, or covering it and ending with it. -/
def Splittable (is ie : Nat) (c : Change) : Prop :=
  c.stop < is ∨ ie < c.start ∨ (c.start ≤ is ∧ c.stop = ie)

/-- What a change becomes. -/
def pieces (is ie : Nat) (c : Change) : List Change :=
  if c.start < is ∧ c.stop = ie then [⟨c.start, is, []⟩, ⟨is, ie, c.newText⟩] else [c]

theorem splice_pieces (is ie : Nat) (hi : is ≤ ie) (cs : List Change) (p : Nat) (t : Verif.Text)
    (hw : ∀ c ∈ cs, c.start ≤ c.stop) (ho : cs.Pairwise fun a b => a.stop ≤ b.start)
    (hp : ∀ c ∈ cs, p ≤ c.start) :
    splice p (cs.flatMap (pieces is ie)) t = splice p cs t := by
  induction cs generalizing p t with
  | nil => rfl
  | cons c cs ih =>
    obtain ⟨h1, h2⟩ := List.pairwise_cons.1 ho
    have ih' := fun p t hp => ih p t (fun d hd => hw d (List.mem_cons_of_mem _ hd)) h2 hp
    rw [List.flatMap_cons]
    unfold pieces
    split
    · next h =>
      simp only [List.cons_append, List.nil_append, splice, Nat.sub_self, List.take_zero, List.append_nil]
      have hpc := hp c (List.mem_cons_self ..)
      rw [show (fun c : Change => if c.start < is ∧ c.stop = ie then
          [(⟨c.start, is, []⟩ : Change), ⟨is, ie, c.newText⟩] else [c]) = pieces is ie from rfl]
      rw [ih' ie _ (fun d hd => by have := h1 d hd; omega), List.drop_drop, h.2,
        show is - p + (ie - is) = ie - p by omega, List.append_assoc]
    · simp only [List.cons_append, List.nil_append, splice]
      rw [show (fun c : Change => if c.start < is ∧ c.stop = ie then
          [(⟨c.start, is, []⟩ : Change), ⟨is, ie, c.newText⟩] else [c]) = pieces is ie from rfl]
      rw [ih' c.stop _ (fun d hd => h1 d hd)]

/-- The pieces other than the main edit, in order. -/
def others (is ie : Nat) (cs : List Change) : List Change :=
  (cs.flatMap (pieces is ie)).filter fun c => !(c.start == is && c.stop == ie)

/-- The main edit, if any. -/
def mains (is ie : Nat) (cs : List Change) : List Change :=
  (cs.flatMap (pieces is ie)).filter fun c => c.start == is && c.stop == ie

theorem splitLoop_eq (is ie : Nat) (hi : is ≤ ie) (cs : List Change) (main : Option Change) (adds)
    (hw : ∀ c ∈ cs, c.start ≤ c.stop) (hsp : ∀ c ∈ cs, Splittable is ie c) :
    splitLoop is ie main adds cs =
      some ((mains is ie cs).getLast?.or main, adds ++ others is ie cs) := by
  induction cs generalizing main adds with
  | nil => simp [splitLoop, mains, others]
  | cons c cs ih =>
    have ih' := fun m a => ih m a (fun d hd => hw d (List.mem_cons_of_mem _ hd))
      (fun d hd => hsp d (List.mem_cons_of_mem _ hd))
    have hc := hsp c (List.mem_cons_self ..)
    have hwc := hw c (List.mem_cons_self ..)
    unfold Splittable at hc
    rw [splitLoop]
    split
    · next h =>
      have hn : ¬ (c.start < is ∧ c.stop = ie) := by omega
      have hn2 : (c.start == is && c.stop == ie) = false := by
        simp only [Bool.and_eq_false_iff, beq_eq_false_iff_ne]; omega
      rw [if_neg (by omega), ih']
      have hpc : pieces is ie c = [c] := if_neg hn
      simp only [mains, others, List.flatMap_cons, hpc, List.cons_append, List.nil_append,
        List.filter_cons, hn2, Bool.not_false, Bool.false_eq_true, if_false, if_true, List.append_assoc]
    · next h =>
      simp only [not_not] at h
      split
      · next h2 =>
        rw [ih']
        simp only [mains, others, List.flatMap_cons, pieces, h2.1, Nat.lt_irrefl, false_and, if_false,
          List.filter_append, List.filter_cons, BEq.rfl, h2.2, Bool.and_self, if_true, List.filter_nil,
          Bool.not_true, Bool.false_eq_true, List.nil_append, List.cons_append, Option.some.injEq,
          Prod.mk.injEq, and_true]
        rw [List.getLast?_cons]
        cases (List.filter (fun c => c.start == is && c.stop == ie) (List.flatMap (fun c => if c.start < is ∧ c.stop = ie then [(⟨c.start, is, []⟩ : Change), ⟨is, ie, c.newText⟩] else [c]) cs)).getLast? <;> simp
      · next h2 =>
        have hce : c.stop = ie := by omega
        have hcs : c.start < is := by omega
        rw [if_neg (by omega), ih']
        have hx : ¬ (is = ie ∧ c.start = is) := by omega
        simp only [mains, others, List.flatMap_cons, pieces, hcs, hce, and_self, if_true,
          List.filter_append, List.filter_cons, BEq.rfl, Bool.and_self, List.filter_nil,
          Bool.not_true, Bool.false_eq_true, if_false, List.nil_append, List.cons_append,
          beq_eq_false_iff_ne.2 (Nat.ne_of_lt hcs), Bool.false_and, Bool.not_false,
          Option.some.injEq, Prod.mk.injEq, List.append_assoc, and_true]
        rw [List.getLast?_cons]
        cases (List.filter (fun c => c.start == is && c.stop == ie) (List.flatMap (fun c => if c.start < is ∧ c.stop = ie then [(⟨c.start, is, []⟩ : Change), ⟨is, ie, c.newText⟩] else [c]) cs)).getLast? <;> simp

/-- **C53.** Let an edit consist of replacements from left to right which do not touch, and let each of
them be away from the identifier or cover it and end with it. Then the completion sent to the client has
the same effect on every document: the main edit replaces exactly the identifier, the additional edits do
not overlap it or each other, and performing all of them at once gives the text of the original edit. -/
theorem C53_split_same_effect (is ie : Nat) (hi : is ≤ ie) (cs : List Change)
    (hw : ∀ c ∈ cs, c.start ≤ c.stop) (ho : cs.Pairwise fun a b => a.stop < b.start)
    (hsp : ∀ c ∈ cs, Splittable is ie c) :
    ∃ main adds, split is ie cs = some (main, adds) ∧
      (∀ m, main = some m → m.start = is ∧ m.stop = ie) ∧
      (adds ++ main.toList).Pairwise TextEdit.Spec.Disjoint ∧
      ∀ ss, IsStableSort Change.key (adds ++ main.toList) ss →
        ∀ t, splice 0 ss t = splice 0 cs t := by
  -- the pieces are in strictly increasing order
  have hk : (cs.flatMap (pieces is ie)).Pairwise (fun a b => a.stop ≤ b.start ∧ a.key < b.key) := by
    rw [List.pairwise_flatMap]
    refine ⟨fun c hc => ?_, ?_⟩
    · unfold pieces
      split
      · next h =>
        simp only [List.pairwise_cons, List.mem_singleton, forall_eq, List.not_mem_nil, false_imp_iff,
          implies_true, List.Pairwise.nil, and_true, Change.key, Prod.Lex.toLex_lt_toLex]
        omega
      · simp
    · refine List.Pairwise.imp_of_mem ?_ ho
      intro a b ha hb hab x hx y hy
      have hwa := hw a ha
      have hwb := hw b hb
      have h1 : x.stop ≤ a.stop ∧ x.start ≤ a.stop := by
        unfold pieces at hx
        split at hx
        · simp only [List.mem_cons, List.not_mem_nil, or_false] at hx
          rcases hx with rfl | rfl <;> simp only <;> omega
        · simp only [List.mem_singleton] at hx; subst hx; omega
      have h2 : b.start ≤ y.start := by
        unfold pieces at hy
        split at hy
        · simp only [List.mem_cons, List.not_mem_nil, or_false] at hy
          rcases hy with rfl | rfl <;> simp only <;> omega
        · simp only [List.mem_singleton] at hy; subst hy; omega
      refine ⟨by omega, ?_⟩
      simp only [Change.key, Prod.Lex.toLex_lt_toLex]
      omega
  have hmain : (mains is ie cs).length ≤ 1 := by
    have h2 : (mains is ie cs).Pairwise (fun a b => a.stop ≤ b.start ∧ a.key < b.key) :=
      hk.sublist List.filter_sublist
    have h3 : ∀ c ∈ mains is ie cs, c.start = is ∧ c.stop = ie := by
      intro c hc
      simpa using (List.mem_filter.1 hc).2
    match hm : mains is ie cs with
    | [] => simp
    | [_] => simp
    | a :: b :: l =>
      rw [hm] at h2 h3
      have ha := h3 a (by simp)
      have hb := h3 b (by simp)
      have := ((List.pairwise_cons.1 h2).1 b (by simp)).2
      simp only [Change.key, Prod.Lex.toLex_lt_toLex, ha, hb] at this
      omega
  have hlast : (mains is ie cs).getLast?.toList = mains is ie cs := by
    match hm : mains is ie cs with
    | [] => rfl
    | [_] => rfl
    | a :: b :: l => rw [hm] at hmain; simp at hmain
  refine ⟨(mains is ie cs).getLast?, others is ie cs, ?_, ?_, ?_, ?_⟩
  · rw [split, splitLoop_eq is ie hi cs none [] hw hsp]; simp
  · intro m hm
    have : m ∈ mains is ie cs := List.mem_of_getLast? hm
    simpa using (List.mem_filter.1 this).2
  · rw [hlast]
    have hp : (others is ie cs ++ mains is ie cs).Perm (cs.flatMap (pieces is ie)) :=
      List.perm_append_comm.trans (List.filter_append_perm _ _)
    rw [hp.pairwise_iff (R := TextEdit.Spec.Disjoint) (fun h => Or.symm h)]
    exact hk.imp (fun h => Or.inl h.1)
  · intro ss hss t
    rw [hlast] at hss
    have hp : (others is ie cs ++ mains is ie cs).Perm (cs.flatMap (pieces is ie)) :=
      List.perm_append_comm.trans (List.filter_append_perm _ _)
    have hsorted : SortedBy Change.key (cs.flatMap (pieces is ie)) := hk.imp (fun h => le_of_lt h.2)
    have h1 : ss = sortByKey Change.key (others is ie cs ++ mains is ie cs) := stableSort_unique _ hss
    have h2 : sortByKey Change.key (cs.flatMap (pieces is ie)) = sortByKey Change.key (others is ie cs ++ mains is ie cs) :=
      sortByKey_perm_eq _ hp.symm (hk.imp (fun h => ne_of_lt h.2))
    have h3 : cs.flatMap (pieces is ie) = sortByKey Change.key (cs.flatMap (pieces is ie)) :=
      stableSort_unique _ ⟨hsorted, fun _ => rfl⟩
    rw [h1, ← h2, ← h3]
    exact splice_pieces is ie hi cs 0 t hw (ho.imp Nat.le_of_lt) (fun _ _ => Nat.zero_le _)

/-- **C53 (exactly when).** The server panics on every other edit. -/
theorem C53_panics_iff (is ie : Nat) (hi : is ≤ ie) (cs : List Change)
    (hw : ∀ c ∈ cs, c.start ≤ c.stop) :
    split is ie cs = none ↔ ∃ c ∈ cs, ¬ Splittable is ie c := by
  constructor
  · intro h
    by_contra hn
    push Not at hn
    rw [split, splitLoop_eq is ie hi cs none [] hw hn] at h
    cases h
  · intro h
    unfold split
    generalize (none : Option Change) = m
    generalize ([] : List Change) = a
    induction cs generalizing m a with
    | nil => simp at h
    | cons c cs ih =>
      obtain ⟨d, hd, hn⟩ := h
      rw [splitLoop]
      rcases List.mem_cons.1 hd with rfl | hd
      · have hwc := hw d (List.mem_cons_self ..)
        unfold Splittable at hn
        split
        · rw [if_pos (by omega)]
        · rw [if_neg (by omega), if_pos (by omega)]
      · have ih' := fun m a => ih (fun d hd => hw d (List.mem_cons_of_mem _ hd)) ⟨d, hd, hn⟩ m a
        repeat' split
        all_goals first | rfl | exact ih' _ _

/-- **C53 fails for edits that touch the identifier.** The edit inserts a byte right before the identifier
`[3, 6)`; nothing overlaps, yet the server panics. -/
theorem C53_touching_edit_fails :
    ∃ c : Change, c.start ≤ c.stop ∧ c.stop ≤ 3 ∧ split 3 6 [c] = none :=
  ⟨⟨3, 3, [0x61]⟩, by decide, by decide, by decide⟩

example : split 3 6 [⟨0, 0, [1]⟩, ⟨2, 6, [7, 8]⟩, ⟨9, 10, []⟩] =
    some (some ⟨3, 6, [7, 8]⟩, [⟨0, 0, [1]⟩, ⟨2, 3, []⟩, ⟨9, 10, []⟩]) := by decide

end Verif.ClientEdits
