import Verif.SpecFiles.Model

/-! Property theorems about related specification files: C21. -/

namespace Verif.SpecFiles

/-- Specification: `n` is the name of a source or specification file of the module file base `b`. -/
def IsSourceOf (b n : Name) : Prop := n = b ++ ".move".toList ∨ n = b ++ ".spec.move".toList

/-- A usual base name: non-empty and not itself ending in `.spec`. -/
def UsualBase (b : Name) : Prop := b ≠ [] ∧ ¬ ".spec".toList <:+ b

theorem splitName_move (s : Name) (h : s ≠ []) : splitName (s ++ ".move".toList) = (s, some "move".toList) := by
  have : (s ++ ".move".toList).reverse = 'e' :: 'v' :: 'o' :: 'm' :: '.' :: s.reverse := by simp
  unfold splitName
  rw [this]
  simp [List.takeWhile, List.dropWhile, h]

theorem stripSpec_spec (b : Name) : stripSpec (b ++ ".spec".toList) = b := by
  unfold stripSpec
  rw [if_pos (List.suffix_append ..)]
  simp

theorem stripSpec_usual (b : Name) (h : ¬ ".spec".toList <:+ b) : stripSpec b = b := if_neg h

theorem spec_move (b : Name) : b ++ ".spec.move".toList = (b ++ ".spec".toList) ++ ".move".toList := by
  simp

theorem base_of_name {b n : Name} (hb : UsualBase b) (h : IsSourceOf b n) :
    ∃ s, splitName n = (s, some "move".toList) ∧ stripSpec s = b := by
  rcases h with rfl | rfl
  · exact ⟨b, splitName_move b hb.1, stripSpec_usual b hb.2⟩
  · refine ⟨b ++ ".spec".toList, ?_, stripSpec_spec b⟩
    rw [spec_move]
    exact splitName_move _ (by simp)

/-- The base of a usual name is determined by the name. -/
theorem base_unique {b b' n : Name} (hb : UsualBase b) (hb' : UsualBase b') (h : IsSourceOf b n)
    (h' : IsSourceOf b' n) : b = b' := by
  obtain ⟨s, h1, h2⟩ := base_of_name hb h
  obtain ⟨s', h1', h2'⟩ := base_of_name hb' h'
  rw [h1] at h1'
  simp only [Prod.mk.injEq, and_true] at h1'
  rw [← h2, ← h2', h1']

theorem find_of_mem {root : Root} (hn : (root.map (·.1)).Nodup) {i : Nat} {n : Name}
    (h : (i, n) ∈ root) : root.find? (fun f => f.1 == i) = some (i, n) := by
  induction root with
  | nil => simp at h
  | cons f root ih =>
    rw [List.map_cons, List.nodup_cons] at hn
    rw [List.find?_cons]
    rcases List.mem_cons.1 h with rfl | h
    · simp
    · have : (f.1 == i) = false := by
        rw [beq_eq_false_iff_ne]
        rintro rfl
        exact hn.1 (List.mem_map.2 ⟨_, h, rfl⟩)
      rw [this]
      exact ih hn.2 h

theorem unique_name {root : Root} (hn : (root.map (·.1)).Nodup) {i : Nat} {n m : Name}
    (h : (i, n) ∈ root) (h' : (i, m) ∈ root) : n = m := by
  have h1 := find_of_mem hn h
  rw [find_of_mem hn h', Option.some.injEq, Prod.mk.injEq] at h1
  exact h1.2.symm

/-- **C21 (exactly).** In every package, for a file `i` with the name of a source or specification file of
the usual base `b`, and every file `j` of the package whatever its name: `j` is related to `i` if and only
if its name is that of a source or specification file of `b`. -/
theorem C21_related_exactly (root : Root) (hn : (root.map (·.1)).Nodup) (i j : Nat) (n m b : Name)
    (hi : (i, n) ∈ root) (hj : (j, m) ∈ root) (hb : UsualBase b) (hs : IsSourceOf b n) :
    j ∈ related i root ↔ IsSourceOf b m := by
  obtain ⟨s, h1, h2⟩ := base_of_name hb hs
  unfold related findSpecFileSet
  rw [find_of_mem hn hi]
  simp only [h1, ne_eq, not_true_eq_false, if_false, Option.getD_some, h2, List.mem_map,
    List.mem_filter, List.contains_iff_mem, List.mem_cons, List.not_mem_nil, or_false]
  constructor
  · rintro ⟨⟨j', m'⟩, ⟨hm, h⟩, rfl⟩
    have := unique_name hn hj hm
    subst this
    exact h
  · intro h
    exact ⟨(j, m), ⟨hj, h⟩, rfl⟩

/-- **C21.** Every usual Move file is related to itself, and the relation is symmetric among them: `j` is
related to `i` iff both have the same base name, iff `i` is related to `j`. -/
theorem C21_symmetric (root : Root) (hn : (root.map (·.1)).Nodup) (i j : Nat) (n m b b' : Name)
    (hi : (i, n) ∈ root) (hj : (j, m) ∈ root) (hb : UsualBase b) (hs : IsSourceOf b n)
    (hb' : UsualBase b') (hs' : IsSourceOf b' m) :
    i ∈ related i root ∧ (j ∈ related i root ↔ b = b') ∧ (i ∈ related j root ↔ b = b') := by
  refine ⟨(C21_related_exactly root hn i i n n b hi hi hb hs).2 hs, ?_, ?_⟩
  · rw [C21_related_exactly root hn i j n m b hi hj hb hs]
    constructor
    · intro h; exact base_unique hb hb' h hs'
    · rintro rfl; exact hs'
  · rw [C21_related_exactly root hn j i m n b' hj hi hb' hs']
    constructor
    · intro h; exact base_unique hb hb' hs h
    · rintro rfl; exact hs

/-- **C21 (only usual names).** Files that are not Move files have no related files. -/
theorem C21_not_move (root : Root) (hn : (root.map (·.1)).Nodup) (i : Nat) (n : Name) (hi : (i, n) ∈ root)
    (h : ¬ ".move".toList <:+ n) : related i root = [] := by
  unfold related findSpecFileSet
  rw [find_of_mem hn hi]
  simp only
  rw [if_pos]
  · rfl
  · intro he
    apply h
    unfold splitName at he
    simp only at he
    split at he
    · cases he
    · next x stem hd =>
      split at he
      · cases he
      · simp only [Option.some.injEq] at he
        have h1 : n.reverse = n.reverse.takeWhile (· ≠ '.') ++ n.reverse.dropWhile (· ≠ '.') :=
          (List.takeWhile_append_dropWhile ..).symm
        have hx : x = '.' := by
          have := List.head_dropWhile_not (fun c : Char => decide (c ≠ '.')) (l := n.reverse) (by rw [hd]; simp)
          simp only [hd, List.head_cons] at this
          simpa using this
        rw [hd, hx] at h1
        have h2 : n = stem.reverse ++ '.' :: (n.reverse.takeWhile (· ≠ '.')).reverse := by
          have := congrArg List.reverse h1
          simpa using this
        rw [he] at h2
        exact ⟨stem.reverse, h2.symm⟩

/-- Beyond usual names the relation is not symmetric: a file `a.spec.spec.move` regards `a.spec.move` as
related, but not the other way round. -/
theorem C21_double_suffix_asymmetric :
    let root : Root := [(0, "a.spec.move".toList), (1, "a.spec.spec.move".toList)]
    0 ∈ related 1 root ∧ 1 ∉ related 0 root := by decide +kernel

example : related 0 [(0, "coin.move".toList), (1, "coin.spec.move".toList), (2, "coins.move".toList)] = [0, 1] ∧
    related 1 [(0, "coin.move".toList), (1, "coin.spec.move".toList), (2, "coins.move".toList)] = [0, 1] := by
  decide +kernel

example : UsualBase "coin".toList ∧ IsSourceOf "coin".toList "coin.spec.move".toList := by
  refine ⟨⟨by decide, by decide⟩, Or.inr (by decide)⟩

end Verif.SpecFiles
