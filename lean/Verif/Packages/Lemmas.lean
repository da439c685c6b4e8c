import Verif.Packages.Model
import Mathlib.Data.List.Nodup
import Mathlib.Algebra.BigOperators.Group.List.Basic
import Mathlib.Logic.Relation

/-! Association lists, and termination measures, for the package loader. -/

set_option linter.unusedSectionVars false

namespace Verif.Packages

variable {P R V : Type} [DecidableEq P]

/-- The keys of a map. -/
def keys (m : List (P × V)) : List P := m.map (·.1)

theorem get?_nil (p : P) : get? ([] : List (P × V)) p = none := rfl

theorem get?_cons (a : P × V) (m : List (P × V)) (p : P) :
    get? (a :: m) p = if a.1 = p then some a.2 else get? m p := by
  unfold get?
  by_cases h : a.1 = p <;> simp [h]

theorem get?_isSome (m : List (P × V)) (p : P) : (get? m p).isSome = true ↔ p ∈ keys m := by
  induction m with
  | nil => simp [get?, keys]
  | cons a m ih =>
    rw [get?_cons]
    by_cases h : a.1 = p
    · simp [h, keys]
    · rw [if_neg h, ih]
      simp [keys, Ne.symm h]

theorem get?_eq_none (m : List (P × V)) (p : P) : get? m p = none ↔ p ∉ keys m := by
  rw [← get?_isSome, Option.not_isSome_iff_eq_none]

theorem mem_of_get? {m : List (P × V)} {p : P} {v : V} (h : get? m p = some v) : (p, v) ∈ m := by
  induction m with
  | nil => cases h
  | cons a m ih =>
    rw [get?_cons] at h
    split at h
    · next ha =>
      cases h
      subst ha
      exact List.mem_cons_self ..
    · exact List.mem_cons_of_mem _ (ih h)

theorem get?_eq_some {m : List (P × V)} (hn : (keys m).Nodup) (p : P) (v : V) :
    get? m p = some v ↔ (p, v) ∈ m := by
  refine ⟨mem_of_get?, fun h => ?_⟩
  induction m with
  | nil => cases h
  | cons a m ih =>
    rw [get?_cons]
    simp only [keys, List.map_cons, List.nodup_cons] at hn
    rcases List.mem_cons.1 h with rfl | h
    · simp
    · have : a.1 ≠ p := fun he => hn.1 (he ▸ List.mem_map_of_mem (f := Prod.fst) h)
      rw [if_neg this]
      exact ih hn.2 h

theorem get?_append (m n : List (P × V)) (p : P) :
    get? (m ++ n) p = (get? m p).or (get? n p) := by
  induction m with
  | nil => simp [get?]
  | cons a m ih =>
    rw [List.cons_append, get?_cons, get?_cons]
    split
    · rfl
    · exact ih

theorem keys_filter_ne (m : List (P × V)) (p q : P) :
    q ∈ keys (m.filter (fun x => x.1 ≠ p)) ↔ q ≠ p ∧ q ∈ keys m := by
  simp only [keys, List.mem_map, List.mem_filter, decide_eq_true_eq]
  constructor
  · rintro ⟨a, ⟨h1, h2⟩, rfl⟩; exact ⟨h2, a, h1, rfl⟩
  · rintro ⟨h1, a, h2, rfl⟩; exact ⟨a, ⟨h2, h1⟩, rfl⟩

theorem get?_filter_ne (m : List (P × V)) (p q : P) :
    get? (m.filter (fun x => x.1 ≠ p)) q = if q = p then none else get? m q := by
  induction m with
  | nil => simp [get?]
  | cons a m ih =>
    by_cases h : a.1 = p
    · have : (a :: m).filter (fun x => x.1 ≠ p) = m.filter (fun x => x.1 ≠ p) := by simp [h]
      rw [this, ih, get?_cons]
      by_cases hq : q = p
      · simp [hq]
      · rw [if_neg hq, if_neg hq, if_neg (fun he : a.1 = q => hq (he ▸ h))]
    · have : (a :: m).filter (fun x => x.1 ≠ p) = a :: m.filter (fun x => x.1 ≠ p) := by simp [h]
      rw [this, get?_cons, get?_cons, ih]
      by_cases hq : q = p
      · subst hq; simp [h]
      · simp [hq]

theorem get?_insert (m : List (P × V)) (p q : P) (v : V) :
    get? (insert m p v) q = if q = p then some v else get? m q := by
  unfold insert
  rw [get?_append, get?_filter_ne]
  by_cases h : q = p
  · simp [h, get?]
  · rw [if_neg h, if_neg h, get?_cons, if_neg (Ne.symm h), get?_nil, Option.or_none]

theorem mem_keys_insert (m : List (P × V)) (p q : P) (v : V) :
    q ∈ keys (insert m p v) ↔ q = p ∨ q ∈ keys m := by
  rw [← get?_isSome, get?_insert, ← get?_isSome]
  by_cases h : q = p <;> simp [h]

theorem nodup_insert {m : List (P × V)} (hn : (keys m).Nodup) (p : P) (v : V) :
    (keys (insert m p v)).Nodup := by
  have : keys (insert m p v) = keys (m.filter (fun x => x.1 ≠ p)) ++ [p] := by simp [keys, insert]
  rw [this, List.nodup_append]
  refine ⟨hn.sublist ((List.filter_sublist).map _), by simp, ?_⟩
  intro a ha b hb
  rw [keys_filter_ne] at ha
  rw [List.mem_singleton] at hb
  rw [hb]
  exact ha.1

theorem nodup_extend {m : List (P × V)} (hn : (keys m).Nodup) (n : List (P × V)) :
    (keys (extend m n)).Nodup := by
  induction n generalizing m with
  | nil => exact hn
  | cons a n ih => exact ih (nodup_insert hn a.1 a.2)

/-- With distinct keys on the right, the right map wins. -/
theorem get?_extend (m : List (P × V)) {n : List (P × V)} (hn : (keys n).Nodup) (p : P) :
    get? (extend m n) p = (get? n p).or (get? m p) := by
  induction n generalizing m with
  | nil => simp [extend, get?]
  | cons a n ih =>
    simp only [keys, List.map_cons, List.nodup_cons] at hn
    have : extend m (a :: n) = extend (insert m a.1 a.2) n := rfl
    rw [this, ih _ hn.2, get?_insert, get?_cons]
    by_cases h : a.1 = p
    · subst h
      have : get? n a.1 = none := (get?_eq_none _ _).2 hn.1
      simp [this]
    · rw [if_neg (Ne.symm h), if_neg h]

/-- The total weight of the elements outside a set. -/
def weight (f : P → Nat) (seen : P → Bool) : List P → Nat
  | [] => 0
  | p :: l => (if seen p then 0 else f p) + weight f seen l

theorem weight_mono (f : P → Nat) (s t : P → Bool) (h : ∀ p, s p = true → t p = true) (l : List P) :
    weight f t l ≤ weight f s l := by
  induction l with
  | nil => exact Nat.le_refl _
  | cons a l ih =>
    simp only [weight]
    cases hs : s a with
    | true => simp only [h a hs, if_true]; omega
    | false => simp only [Bool.false_eq_true, if_false]; split <;> omega

/-- Adding an element with its weight not yet counted. -/
theorem weight_add (f : P → Nat) (s t : P → Bool) (h : ∀ p, s p = true → t p = true) (l : List P) (x : P)
    (hx : x ∈ l) (hs : s x = false) (ht : t x = true) : weight f t l + f x ≤ weight f s l := by
  induction l with
  | nil => cases hx
  | cons a l ih =>
    simp only [weight]
    rcases List.mem_cons.1 hx with rfl | hx
    · simp only [hs, ht, if_true, Bool.false_eq_true, if_false]
      have := weight_mono f s t h l
      omega
    · have := ih hx
      cases hsa : s a with
      | true => simp only [h a hsa, if_true]; omega
      | false => simp only [Bool.false_eq_true, if_false]; split <;> omega

end Verif.Packages
