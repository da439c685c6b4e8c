import Mathlib.Order.Defs.LinearOrder
import Mathlib.Data.List.Basic

/-! Stable sorting by a key.

`slice::sort_by_key` of the Rust standard library is a stable sort. It is modelled by a stable
insertion sort; `stableSort_unique` shows that any function meeting the contract "sorted, and elements
of equal key keep their order" computes the same list. -/

namespace Verif

variable {α κ : Type} [LinearOrder κ] (key : α → κ)

/-- Sorted by key. -/
def SortedBy (l : List α) : Prop := l.Pairwise (fun a b => key a ≤ key b)

/-- Elements with key `k`, in order. -/
def withKey (k : κ) (l : List α) : List α := l.filter (fun a => decide (key a = k))

/-- `s` is the result of stably sorting `l` by `key`: contract of `slice::sort_by_key`. -/
structure IsStableSort (l s : List α) : Prop where
  sorted : SortedBy key s
  stable : ∀ k, withKey key k s = withKey key k l

/-- Insert before the first element whose key is not smaller. -/
def insertByKey (a : α) : List α → List α
  | [] => [a]
  | b :: l => if key a ≤ key b then a :: b :: l else b :: insertByKey a l

/-- Stable insertion sort, the model of `slice::sort_by_key`. -/
def sortByKey : List α → List α
  | [] => []
  | a :: l => insertByKey key a (sortByKey l)

theorem insertByKey_perm (a : α) (l : List α) : (insertByKey key a l).Perm (a :: l) := by
  induction l with
  | nil => exact List.Perm.refl _
  | cons b l ih =>
    simp only [insertByKey]
    split
    · exact List.Perm.refl _
    · exact (ih.cons b).trans (List.Perm.swap a b l)

theorem sortByKey_perm (l : List α) : (sortByKey key l).Perm l := by
  induction l with
  | nil => exact List.Perm.refl _
  | cons a l ih => exact (insertByKey_perm key a _).trans (ih.cons a)

theorem mem_sortByKey {a : α} {l : List α} : a ∈ sortByKey key l ↔ a ∈ l :=
  (sortByKey_perm key l).mem_iff

theorem sorted_insertByKey (a : α) (l : List α) (h : SortedBy key l) :
    SortedBy key (insertByKey key a l) := by
  induction l with
  | nil => simp [insertByKey, SortedBy]
  | cons b l ih =>
    simp only [SortedBy, List.pairwise_cons] at h
    obtain ⟨hb, hl⟩ := h
    simp only [insertByKey]
    split
    · rename_i hab
      simp only [SortedBy, List.pairwise_cons]
      refine ⟨?_, hb, hl⟩
      intro c hc
      rcases List.mem_cons.1 hc with rfl | hc
      · exact hab
      · exact le_trans hab (hb c hc)
    · rename_i hab
      simp only [SortedBy, List.pairwise_cons]
      refine ⟨?_, ih hl⟩
      intro c hc
      have := (insertByKey_perm key a l).mem_iff.1 hc
      rcases List.mem_cons.1 this with rfl | hc
      · exact le_of_lt (lt_of_not_ge hab)
      · exact hb c hc

theorem withKey_insertByKey (k : κ) (a : α) (l : List α) (h : SortedBy key l) :
    withKey key k (insertByKey key a l) = withKey key k (a :: l) := by
  induction l with
  | nil => rfl
  | cons b l ih =>
    simp only [SortedBy, List.pairwise_cons] at h
    obtain ⟨hb, hl⟩ := h
    simp only [insertByKey]
    split
    · rfl
    · rename_i hab
      have hlt : key b < key a := lt_of_not_ge hab
      have ih' := ih hl
      simp only [withKey, List.filter_cons] at ih' ⊢
      rw [ih']
      by_cases h1 : key b = k
      · have h2 : ¬ key a = k := by
          intro h2; rw [h1, h2] at hlt; exact lt_irrefl _ hlt
        simp [h1, h2]
      · simp [h1]

theorem sorted_sortByKey (l : List α) : SortedBy key (sortByKey key l) := by
  induction l with
  | nil => simp [sortByKey, SortedBy]
  | cons a l ih => exact sorted_insertByKey key a _ ih

theorem withKey_sortByKey (k : κ) (l : List α) :
    withKey key k (sortByKey key l) = withKey key k l := by
  induction l with
  | nil => rfl
  | cons a l ih =>
    simp only [sortByKey]
    rw [withKey_insertByKey key k a _ (sorted_sortByKey key l)]
    simp only [withKey, List.filter_cons] at ih ⊢
    rw [ih]

theorem sortByKey_isStableSort (l : List α) : IsStableSort key l (sortByKey key l) :=
  ⟨sorted_sortByKey key l, fun k => withKey_sortByKey key k l⟩

theorem mem_withKey {k : κ} {a : α} {l : List α} : a ∈ withKey key k l ↔ a ∈ l ∧ key a = k := by
  simp [withKey]

theorem sorted_unique {l₁ l₂ : List α} (h₁ : SortedBy key l₁) (h₂ : SortedBy key l₂)
    (h : ∀ k, withKey key k l₁ = withKey key k l₂) : l₁ = l₂ := by
  induction l₁ generalizing l₂ with
  | nil =>
    cases l₂ with
    | nil => rfl
    | cons b l₂ =>
      have := h (key b)
      simp [withKey] at this
  | cons a t₁ ih =>
    cases l₂ with
    | nil =>
      have := h (key a)
      simp [withKey] at this
    | cons b t₂ =>
      simp only [SortedBy, List.pairwise_cons] at h₁ h₂
      have ha : a ∈ b :: t₂ := by
        have : a ∈ withKey key (key a) (a :: t₁) := by simp [withKey]
        rw [h] at this
        exact ((mem_withKey key).1 this).1
      have hb : b ∈ a :: t₁ := by
        have : b ∈ withKey key (key b) (b :: t₂) := by simp [withKey]
        rw [← h] at this
        exact ((mem_withKey key).1 this).1
      have hab : key a ≤ key b := by
        rcases List.mem_cons.1 hb with e | e
        · rw [e]
        · exact h₁.1 b e
      have hba : key b ≤ key a := by
        rcases List.mem_cons.1 ha with e | e
        · rw [e]
        · exact h₂.1 a e
      have hk : key a = key b := le_antisymm hab hba
      have hh := h (key a)
      simp only [withKey, List.filter_cons, hk, decide_true, if_true] at hh
      have e : a = b := (List.cons.inj hh).1
      subst e
      congr 1
      apply ih h₁.2 h₂.2
      intro k
      have hk' := h k
      simp only [withKey, List.filter_cons] at hk' ⊢
      by_cases hka : key a = k
      · simpa [hka] using hk'
      · simpa [hka] using hk'

/-- The contract of a stable sort determines the result. -/
theorem stableSort_unique {l s : List α} (h : IsStableSort key l s) : s = sortByKey key l :=
  sorted_unique key h.sorted (sorted_sortByKey key l)
    (fun k => (h.stable k).trans (withKey_sortByKey key k l).symm)

theorem sortByKey_append_sort (l r : List α) :
    sortByKey key (sortByKey key l ++ r) = sortByKey key (l ++ r) := by
  apply sorted_unique key (sorted_sortByKey key _) (sorted_sortByKey key _)
  intro k
  rw [withKey_sortByKey, withKey_sortByKey]
  simp only [withKey, List.filter_append]
  have := withKey_sortByKey key k l
  simp only [withKey] at this
  rw [this]

/-- A permutation of a list whose keys are pairwise distinct sorts to the same list. -/
theorem sortByKey_perm_eq {l₁ l₂ : List α} (hp : l₁.Perm l₂)
    (hd : l₁.Pairwise (fun a b => key a ≠ key b)) : sortByKey key l₁ = sortByKey key l₂ := by
  apply sorted_unique key (sorted_sortByKey key _) (sorted_sortByKey key _)
  intro k
  rw [withKey_sortByKey, withKey_sortByKey]
  have hperm : (withKey key k l₁).Perm (withKey key k l₂) := hp.filter _
  have hlen : ∀ l : List α, l.Pairwise (fun a b => key a ≠ key b) → (withKey key k l).length ≤ 1 := by
    intro l hl
    have h2 : (withKey key k l).Pairwise (fun a b => key a ≠ key b) := hl.sublist List.filter_sublist
    match hw : withKey key k l with
    | [] => simp
    | [_] => simp
    | a :: b :: t =>
      rw [hw] at h2
      have ha : a ∈ withKey key k l := by rw [hw]; simp
      have hb : b ∈ withKey key k l := by rw [hw]; simp
      have := (List.pairwise_cons.1 h2).1 b (by simp)
      exact absurd (((mem_withKey key).1 ha).2.trans ((mem_withKey key).1 hb).2.symm) this
  have h1 := hlen l₁ hd
  match hw : withKey key k l₁ with
  | [] => rw [hw] at hperm; exact (List.nil_perm.1 hperm).symm
  | [a] => rw [hw] at hperm; exact List.singleton_perm.1 hperm
  | _ :: _ :: _ => rw [hw] at h1; simp at h1

end Verif
