import Verif.Base.StableSort
import Mathlib.Algebra.Order.Group.Nat

/-! C75: which of the type errors are shown (ide-diagnostics/src/handlers/type_checking.rs). -/

namespace Verif.Ide.TypeErrors
open Verif

/-! ### Model -/

/-- A type error (lang/src/types/inference/combine_types.rs:366–446) as far as the handler looks at it: its range, whether one of its
types is unknown or contains an unknown type (`has_ty_unknown`), and its message. There is no message if the types of a mismatch are
the same text (type_checking.rs:100–104). -/
structure Err where
  start : Nat
  stop : Nat
  unknown : Bool
  message : Option (List Char)
  deriving DecidableEq, Repr

/-- A diagnostic. -/
structure Shown where
  start : Nat
  stop : Nat
  message : List Char
  deriving DecidableEq, Repr

/-- `contains_range` of the range of the first error with that of the second. -/
def contains (a b : Err) : Bool := decide (a.start ≤ b.start) && decide (b.stop ≤ a.stop)

/-- The loop of type_checking.rs:74–83; the list is popped from its end after `reverse`, so the errors come in the sorted order. -/
def pick : List Err → List Err
  | [] => []
  | e :: rest => if rest.any (contains e) then pick rest else e :: pick rest

/-- type_checking.rs:66–72: known errors, sorted by their start. -/
def candidates (errs : List Err) : List Err := sortByKey Err.start (errs.filter fun e => !e.unknown)

/-- `register_type_error` (type_checking.rs:89–242). -/
def register (e : Err) : Option Shown := e.message.map fun m => ⟨e.start, e.stop, m⟩

/-- `type_check` (type_checking.rs:52–86). -/
def shown (errs : List Err) : List Shown := (pick (candidates errs)).filterMap register

/-! ### Specification -/

/-- The range of the first error is in that of the second. -/
def Within (b e : Err) : Prop := e.start ≤ b.start ∧ b.stop ≤ e.stop

/-- The error is among those found and no type in it is unknown. -/
def Known (errs : List Err) (e : Err) : Prop := e ∈ errs ∧ e.unknown = false

/-- The diagnostic shows the error. -/
def Shows (s : Shown) (e : Err) : Prop := e.message = some s.message ∧ e.start = s.start ∧ e.stop = s.stop

/-! ### Lemmas -/

theorem contains_iff (a b : Err) : contains a b = true ↔ Within b a := by
  simp [contains, Within]

theorem mem_candidates {errs : List Err} {e : Err} : e ∈ candidates errs ↔ Known errs e := by
  unfold candidates Known
  rw [mem_sortByKey, List.mem_filter]
  simp

theorem pick_sublist (l : List Err) : (pick l).Sublist l := by
  induction l with
  | nil => exact .slnil
  | cons e rest ih =>
    unfold pick
    split
    · exact ih.cons _
    · exact ih.cons_cons _

theorem pick_covers (l : List Err) {e : Err} (he : e ∈ l) : ∃ b ∈ pick l, Within b e := by
  induction l generalizing e with
  | nil => cases he
  | cons a rest ih =>
    unfold pick
    rcases List.mem_cons.1 he with rfl | he
    · split
      · next h =>
        obtain ⟨b, hb, h1⟩ := List.any_eq_true.1 h
        rw [contains_iff] at h1
        obtain ⟨c, hc, h2⟩ := ih hb
        exact ⟨c, hc, le_trans h1.1 h2.1, le_trans h2.2 h1.2⟩
      · exact ⟨_, List.mem_cons_self .., le_refl _, le_refl _⟩
    · obtain ⟨c, hc, h2⟩ := ih he
      split
      · exact ⟨c, hc, h2⟩
      · exact ⟨c, List.mem_cons_of_mem _ hc, h2⟩

/-- What is picked contains nothing that comes later. -/
theorem pick_later {l : List Err} {e : Err} (he : e ∈ pick l) : ∃ pre post, l = pre ++ e :: post ∧ ∀ b ∈ post, ¬ Within b e := by
  induction l with
  | nil => cases he
  | cons a rest ih =>
    unfold pick at he
    split at he
    · obtain ⟨pre, post, h1, h2⟩ := ih he
      exact ⟨a :: pre, post, by rw [h1]; rfl, h2⟩
    · next h =>
      rcases List.mem_cons.1 he with rfl | he
      · refine ⟨[], rest, rfl, fun b hb hw => h (List.any_eq_true.2 ⟨b, hb, (contains_iff _ _).2 hw⟩)⟩
      · obtain ⟨pre, post, h1, h2⟩ := ih he
        exact ⟨a :: pre, post, by rw [h1]; rfl, h2⟩

theorem pick_pairwise (l : List Err) : (pick l).Pairwise fun a b => ¬ Within b a := by
  induction l with
  | nil => exact .nil
  | cons a rest ih =>
    unfold pick
    split
    · exact ih
    · next h =>
      refine .cons (fun b hb hw => h (List.any_eq_true.2 ⟨b, (pick_sublist rest).subset hb, (contains_iff _ _).2 hw⟩)) ih

theorem mem_shown {errs : List Err} {s : Shown} : s ∈ shown errs ↔ ∃ e ∈ pick (candidates errs), Shows s e := by
  unfold shown
  rw [List.mem_filterMap]
  refine exists_congr fun e => and_congr_right fun _ => ?_
  unfold register Shows
  cases s
  cases e.message <;> simp [Shown.mk.injEq]
  tauto

/-! ### Theorems -/

/-- **C75 (no inventions).** What is shown is one of the errors found, with its message and range, and no type in it is unknown. -/
theorem C75_real {errs : List Err} {s : Shown} (h : s ∈ shown errs) : ∃ e, Known errs e ∧ Shows s e := by
  obtain ⟨e, he, hs⟩ := mem_shown.1 h
  exact ⟨e, mem_candidates.1 ((pick_sublist _).subset he), hs⟩

/-- **C75 (nothing is lost, partial).** For each error found whose types are known, an error inside of it is shown. Missing are
errors that contain a mismatch between types of the same name, see `C75_silent_fails`. -/
theorem C75_covered_partial {errs : List Err} {e : Err} (h : Known errs e)
    (hm : ∀ b, Known errs b → Within b e → b.message ≠ none) : ∃ s ∈ shown errs, e.start ≤ s.start ∧ s.stop ≤ e.stop := by
  obtain ⟨b, hb, hw⟩ := pick_covers _ (mem_candidates.2 h)
  have hk := mem_candidates.1 ((pick_sublist _).subset hb)
  obtain ⟨m, hm⟩ := Option.ne_none_iff_exists'.1 (hm b hk hw)
  exact ⟨⟨b.start, b.stop, m⟩, mem_shown.2 ⟨b, hb, hm, rfl, rfl⟩, hw⟩

/-- **C75 (innermost, partial).** An error is shown only if no other that starts further to the right is inside of it. Missing are
errors inside of it that start at the same place, see `C75_nested_fails`. -/
theorem C75_innermost_partial {errs : List Err} {s : Shown} (h : s ∈ shown errs) :
    ∀ b, Known errs b → s.start < b.start → ¬ b.stop ≤ s.stop := by
  obtain ⟨e, he, -, h1, h2⟩ := mem_shown.1 h
  intro b hb hlt hle
  obtain ⟨pre, post, h3, h4⟩ := pick_later he
  have hs := sorted_sortByKey Err.start (errs.filter fun e => !e.unknown)
  have hb' := mem_candidates.2 hb
  unfold candidates at h3 hb'
  rw [h3] at hb' hs
  unfold SortedBy at hs
  rw [List.pairwise_append] at hs
  rcases List.mem_append.1 hb' with hpre | hpost
  · have := hs.2.2 b hpre e (List.mem_cons_self ..)
    omega
  · rcases List.mem_cons.1 hpost with rfl | hpost
    · omega
    · exact h4 b hpost ⟨by omega, by omega⟩

/-- **C75 (exactly, partial).** An error that has a message, and that is the only one found to start where it starts, is shown exactly
if there is no other inside of it. Missing are errors that start at the same place. -/
theorem C75_exact_partial {errs : List Err} {e : Err} (h : Known errs e) {m : List Char} (hm : e.message = some m)
    (ho : ∀ b, Known errs b → b.start = e.start → b = e) :
    (⟨e.start, e.stop, m⟩ ∈ shown errs) ↔ ∀ b, Known errs b → Within b e → b = e := by
  constructor
  · intro hs b hb hw
    by_contra hne
    have : b.start ≠ e.start := fun h1 => hne (ho b hb h1)
    exact C75_innermost_partial hs b hb (show e.start < b.start by have := hw.1; omega) hw.2
  · intro hb
    obtain ⟨c, hc, hw⟩ := pick_covers _ (mem_candidates.2 h)
    have hk := mem_candidates.1 ((pick_sublist _).subset hc)
    have := hb c hk hw
    subst this
    exact mem_shown.2 ⟨c, hc, hm, rfl, rfl⟩

/-- **C75 (order and ranges).** The errors shown are in the order of the text, and no two of them have the same range. -/
theorem C75_ranges (errs : List Err) :
    (shown errs).Pairwise fun a b => a.start ≤ b.start ∧ ¬ (a.start = b.start ∧ a.stop = b.stop) := by
  unfold shown
  rw [List.pairwise_filterMap]
  have h1 : (pick (candidates errs)).Pairwise fun a b => a.start ≤ b.start :=
    (sorted_sortByKey Err.start _).sublist (pick_sublist _)
  refine (h1.and (pick_pairwise _)).imp fun {a b} hab => ?_
  intro s hs t ht
  unfold register at hs ht
  cases ha : a.message <;> rw [ha] at hs <;> cases hs
  cases hb : b.message <;> rw [hb] at ht <;> cases ht
  exact ⟨hab.1, fun hh => hab.2 ⟨hh.1.le, hh.2.ge⟩⟩

/-- **C75 (order of discovery).** Among the errors that start at different places, it does not matter in which order they are found. -/
theorem C75_order {errs errs' : List Err} (hp : errs.Perm errs')
    (ho : ∀ a, Known errs a → ∀ b, Known errs b → a.start = b.start → a = b) (hn : errs.Nodup) : shown errs = shown errs' := by
  have : candidates errs = candidates errs' := by
    unfold candidates
    refine sortByKey_perm_eq Err.start (hp.filter _) ?_
    have hm : ∀ a ∈ errs.filter (fun e => !e.unknown), Known errs a := fun a ha => by
      rw [List.mem_filter] at ha
      exact ⟨ha.1, by simpa using ha.2⟩
    exact (hn.filter _).imp_of_mem fun {a b} ha hb hne h => hne (ho a (hm a ha) b (hm b hb) h)
  unfold shown
  rw [this]

/-- **C75 fails for errors that start at the same place.** The inner one is found first. Both are shown, though the outer one contains
the inner one. -/
theorem C75_nested_fails : shown [⟨0, 4, false, some ['i']⟩, ⟨0, 8, false, some ['o']⟩] = [⟨0, 4, ['i']⟩, ⟨0, 8, ['o']⟩] := by
  decide +kernel

/-- **C75 fails for types of the same name.** The inner error says nothing because its types are the same text. The outer one is left
out because of it, so that nothing is shown at all. -/
theorem C75_silent_fails : shown [⟨0, 8, false, some ['o']⟩, ⟨4, 8, false, none⟩] = [] ∧
    shown [⟨0, 8, false, some ['o']⟩] = [⟨0, 8, ['o']⟩] := by decide +kernel

/-! ### Examples -/

/-- The outer error is left out, the inner ones are shown in the order of the text, and an error with unknown types does not count. -/
example : shown [⟨6, 8, false, some ['b']⟩, ⟨0, 9, false, some ['o']⟩, ⟨1, 3, false, some ['a']⟩, ⟨2, 3, true, some ['u']⟩] =
    [⟨1, 3, ['a']⟩, ⟨6, 8, ['b']⟩] := by decide +kernel

example : Known [⟨0, 9, false, some ['o']⟩, ⟨1, 3, false, some ['a']⟩] ⟨0, 9, false, some ['o']⟩ ∧
    (∀ b, Known [⟨0, 9, false, some ['o']⟩, ⟨1, 3, false, some ['a']⟩] b → b.message ≠ none) ∧
    ∀ b, Known [⟨0, 9, false, some ['o']⟩, ⟨1, 3, false, some ['a']⟩] b → b.start = 0 → b = ⟨0, 9, false, some ['o']⟩ := by
  refine ⟨⟨by simp, rfl⟩, ?_, ?_⟩
  · rintro b ⟨hb, -⟩
    simp only [List.mem_cons, List.not_mem_nil, or_false] at hb
    rcases hb with rfl | rfl <;> simp
  · rintro b ⟨hb, -⟩ h
    simp only [List.mem_cons, List.not_mem_nil, or_false] at hb
    rcases hb with rfl | rfl
    · rfl
    · cases h

/-- The hypotheses of `C75_order`. -/
example : [⟨0, 9, false, some ['o']⟩, ⟨1, 3, false, some ['a']⟩].Perm ([⟨1, 3, false, some ['a']⟩, ⟨0, 9, false, some ['o']⟩] : List Err) ∧
    (∀ a, Known [⟨0, 9, false, some ['o']⟩, ⟨1, 3, false, some ['a']⟩] a → ∀ b,
      Known [⟨0, 9, false, some ['o']⟩, ⟨1, 3, false, some ['a']⟩] b → a.start = b.start → a = b) ∧
    ([⟨0, 9, false, some ['o']⟩, ⟨1, 3, false, some ['a']⟩] : List Err).Nodup := by
  refine ⟨List.Perm.swap .., ?_, by decide⟩
  rintro a ⟨ha, -⟩ b ⟨hb, -⟩ h
  simp only [List.mem_cons, List.not_mem_nil, or_false] at ha hb
  rcases ha with rfl | rfl <;> rcases hb with rfl | rfl <;> first | rfl | (exact absurd h (by decide))

end Verif.Ide.TypeErrors
