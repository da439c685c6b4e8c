import Mathlib.Data.List.Basic
import Mathlib.Tactic.Common

/-! Flattening of nested highlight ranges (ide/src/syntax_highlighting/highlights.rs). Ranges are non-empty throughout: they are
those of tokens and nodes. -/

namespace Verif.Ide.Highlights

/-- A highlighted range `lo..hi`. The highlight itself is a number. -/
structure Hl where
  lo : Nat
  hi : Nat
  hl : Nat
  deriving DecidableEq, Repr

/-- highlights.rs:17–20. -/
inductive HNode where
  | mk (r : Hl) (nested : List HNode)

def HNode.r : HNode → Hl
  | .mk r _ => r

def HNode.nested : HNode → List HNode
  | .mk _ ns => ns

/-- `TextRange::contains_range`. -/
def Hl.contains (a b : Hl) : Bool := decide (a.lo ≤ b.lo) && decide (b.hi ≤ a.hi)

/-- `TextRange::ordering` is `Less`. -/
def isLess (r : Hl) (n : HNode) : Bool := decide (n.r.hi ≤ r.lo)

/-- `TextRange::ordering` is `Equal`. -/
def isEqual (r : Hl) (n : HNode) : Bool := !decide (n.r.hi ≤ r.lo) && !decide (r.hi ≤ n.r.lo)

/-- highlights.rs:48–79; `none` is the panic of the assertion. `equal_range_by` (two binary searches) is modelled on lists that
are partitioned as it requires: the nested ranges are sorted (`Good`). -/
def add (n : HNode) (r : Hl) : Option HNode :=
  match n with
  | .mk own nested =>
    if !own.contains r then none
    else
      let pre := nested.takeWhile (isLess r)
      let mid := (nested.dropWhile (isLess r)).takeWhile (isEqual r)
      let post := (nested.dropWhile (isLess r)).dropWhile (isEqual r)
      let slow : Unit → Option HNode := fun _ =>
        match h : mid with
        | [m] => if m.r.contains r then (add m r).map fun m' => .mk own (pre ++ [m'] ++ post)
          else some (.mk own (pre ++ [.mk r mid] ++ post))
        | _ => some (.mk own (pre ++ [.mk r mid] ++ post))
      match h : nested.getLast? with
      | some last =>
        if last.r.contains r then (add last r).map fun l => .mk own (nested.dropLast ++ [l])
        else if last.r.hi ≤ r.lo then some (.mk own (nested ++ [.mk r []]))
        else slow ()
      | none => slow ()
termination_by sizeOf n
decreasing_by
  · have h1 : m ∈ nested := by
      have : m ∈ mid := by rw [h]; simp
      exact (List.dropWhile_suffix _).subset ((List.takeWhile_prefix _).subset this)
    have := List.sizeOf_lt_of_mem h1
    simp; omega
  · have := List.sizeOf_lt_of_mem (List.mem_of_getLast? h)
    simp; omega

/-- A piece of the parent between nested ranges (highlights.rs:87–92). -/
def seg (a b : Nat) (h : Nat) : List Hl := if a < b then [⟨a, b, h⟩] else []

mutual
/-- highlights.rs:81–101. -/
def flatten : HNode → List Hl
  | .mk r ns => flattenFrom r.hi r.hl r.lo ns
/-- The loop, from `start`. -/
def flattenFrom (hi h : Nat) (start : Nat) : List HNode → List Hl
  | [] => seg start hi h
  | c :: cs => seg start c.r.lo h ++ (flatten c ++ flattenFrom hi h c.r.hi cs)
end

/-- highlights.rs:23–34: all ranges are added one after the other. -/
def addAll (n : HNode) : List Hl → Option HNode
  | [] => some n
  | r :: rs => (add n r).bind fun n' => addAll n' rs

/-- highlights.rs:22–41: the result of a document. `none` is a panic. -/
def highlights (root : Hl) (rs : List Hl) : Option (List Hl) := (addAll (.mk root []) rs).map flatten

/-! ### Specification -/

def Hl.has (r : Hl) (x : Nat) : Prop := r.lo ≤ x ∧ x < r.hi

def Hl.Within (a b : Hl) : Prop := b.lo ≤ a.lo ∧ a.hi ≤ b.hi

instance (r : Hl) (x : Nat) : Decidable (r.has x) := inferInstanceAs (Decidable (_ ∧ _))
instance (a b : Hl) : Decidable (a.Within b) := inferInstanceAs (Decidable (_ ∧ _))

/-- Two ranges are nested or apart. -/
def Laminar (a b : Hl) : Prop := a.Within b ∨ b.Within a ∨ a.hi ≤ b.lo ∨ b.hi ≤ a.lo

/-- `r` is the innermost of the ranges around the position; of equal ranges it is the last. -/
def InnermostAt (rs : List Hl) (x : Nat) (r : Hl) : Prop :=
  ∃ pre post, rs = pre ++ r :: post ∧ r.has x ∧ (∀ s ∈ pre, s.has x → r.Within s) ∧ ∀ s ∈ post, s.has x → r.Within s ∧ ¬ s.Within r

/-- Consecutive non-empty pieces from `a` to `b`. -/
def Tiling (a b : Nat) : List Hl → Prop
  | [] => a = b
  | r :: rs => r.lo = a ∧ r.lo < r.hi ∧ Tiling r.hi b rs

/-! ### The tree -/

mutual
/-- The innermost range around a position in a tree. -/
def inner (x : Nat) : HNode → Hl
  | .mk r ns => (innerIn x ns).getD r
def innerIn (x : Nat) : List HNode → Option Hl
  | [] => none
  | n :: ns => if n.r.has x then some (inner x n) else innerIn x ns
end

/-- Nested ranges are inside, sorted and apart. -/
inductive Good : HNode → Prop where
  | intro {r : Hl} {ns : List HNode} : r.lo < r.hi → (∀ n ∈ ns, Good n) → (∀ n ∈ ns, n.r.Within r) →
      (ns.Pairwise fun a b => a.r.hi ≤ b.r.lo) → Good (.mk r ns)

theorem Good.mk {r : Hl} {ns : List HNode} (h1 : r.lo < r.hi) (h2 : ∀ n ∈ ns, Good n ∧ n.r.Within r)
    (h3 : ns.Pairwise fun a b => a.r.hi ≤ b.r.lo) : Good (.mk r ns) :=
  .intro h1 (fun n hn => (h2 n hn).1) (fun n hn => (h2 n hn).2) h3

theorem Good.out {r : Hl} {ns : List HNode} (h : Good (.mk r ns)) :
    r.lo < r.hi ∧ (∀ n ∈ ns, Good n ∧ n.r.Within r) ∧ ns.Pairwise fun a b => a.r.hi ≤ b.r.lo := by
  cases h with
  | intro h1 h2 h3 h4 => exact ⟨h1, fun n hn => ⟨h2 n hn, h3 n hn⟩, h4⟩

/-- All ranges of a tree satisfy the property. -/
inductive AllR (P : Hl → Prop) : HNode → Prop where
  | mk {r : Hl} {ns : List HNode} : P r → (∀ n ∈ ns, AllR P n) → AllR P (.mk r ns)

theorem Good.pos {n : HNode} (h : Good n) : n.r.lo < n.r.hi := by cases h; assumption

theorem HNode.induction {P : HNode → Prop} (h : ∀ r ns, (∀ n ∈ ns, P n) → P (.mk r ns)) (n : HNode) : P n := by
  generalize hs : sizeOf n = s
  induction s using Nat.strongRecOn generalizing n with
  | ind s ih =>
    cases n with
    | mk r ns =>
      refine h r ns fun m hm => ih (sizeOf m) ?_ m rfl
      have := List.sizeOf_lt_of_mem hm
      rw [← hs]; simp; omega

theorem innerIn_none {x : Nat} {ns : List HNode} (h : ∀ n ∈ ns, ¬ n.r.has x) : innerIn x ns = none := by
  induction ns with
  | nil => rfl
  | cons n ns ih =>
    rw [innerIn, if_neg (h n (by simp))]
    exact ih fun m hm => h m (by simp [hm])

theorem innerIn_append {x : Nat} (as bs : List HNode) (h : ∀ n ∈ as, ¬ n.r.has x) : innerIn x (as ++ bs) = innerIn x bs := by
  induction as with
  | nil => rfl
  | cons n ns ih =>
    rw [List.cons_append, innerIn, if_neg (h n (by simp))]
    exact ih fun m hm => h m (by simp [hm])

theorem innerIn_append_right {x : Nat} (as bs : List HNode) (h : ∀ n ∈ bs, ¬ n.r.has x) : innerIn x (as ++ bs) = innerIn x as := by
  induction as with
  | nil => exact innerIn_none h
  | cons n ns ih =>
    rw [List.cons_append, innerIn, innerIn, ih]

theorem innerIn_congr {x : Nat} (as : List HNode) {bs cs : List HNode} (h : innerIn x bs = innerIn x cs) :
    innerIn x (as ++ bs) = innerIn x (as ++ cs) := by
  induction as with
  | nil => exact h
  | cons n ns ih => simp only [List.cons_append, innerIn, ih]

theorem innerIn_some {x : Nat} {ns : List HNode} {i : Hl} (h : innerIn x ns = some i) : ∃ n ∈ ns, n.r.has x ∧ inner x n = i := by
  induction ns with
  | nil => cases h
  | cons n ns ih =>
    rw [innerIn] at h
    split at h
    · rename_i hh; cases h; exact ⟨n, by simp, hh, rfl⟩
    · obtain ⟨m, hm, h1⟩ := ih h
      exact ⟨m, by simp [hm], h1⟩

theorem inner_within (x : Nat) {n : HNode} (h : Good n) : (inner x n).Within n.r := by
  induction n using HNode.induction with
  | h r ns ih =>
    obtain ⟨h1, h2, h3⟩ := h.out
    rw [inner]
    cases hi : innerIn x ns with
    | none => exact ⟨Nat.le_refl _, Nat.le_refl _⟩
    | some i =>
      obtain ⟨m, hm, hx, rfl⟩ := innerIn_some hi
      have := ih m hm (h2 m hm).1
      have hw := (h2 m hm).2
      simp only [Hl.Within, HNode.r, Option.getD_some] at *
      omega

theorem contains_iff (a b : Hl) : a.contains b = true ↔ b.Within a := by
  simp [Hl.contains, Hl.Within]

/-- What `add` has to do for the innermost ranges. -/
def Adds (r : Hl) (n n' : HNode) : Prop :=
  n'.r = n.r ∧ Good n' ∧ ∀ x, inner x n' = if r.has x ∧ r.Within (inner x n) then r else inner x n

/-- One nested range is replaced by one that has the new range inside. -/
theorem replace_adds {own r : Hl} {pre post : List HNode} {m m' : HNode} (hg : Good (.mk own (pre ++ [m] ++ post)))
    (hm : Adds r m m') (hr : r.Within m.r) : Adds r (.mk own (pre ++ [m] ++ post)) (.mk own (pre ++ [m'] ++ post)) := by
  obtain ⟨h1, h2, h3⟩ := hm
  obtain ⟨g1, g2, g3⟩ := hg.out
  have gm := g2 m (by simp)
  simp only [List.append_assoc, List.cons_append, List.nil_append] at g3 ⊢
  obtain ⟨p1, p2, p3⟩ := List.pairwise_append.1 g3
  obtain ⟨p4, p5⟩ := List.pairwise_cons.1 p2
  refine ⟨rfl, .mk g1 ?_ ?_, ?_⟩
  · intro n hn
    rcases List.mem_append.1 hn with hn | hn
    · exact g2 n (by simp [hn])
    · rcases List.mem_cons.1 hn with rfl | hn
      · exact ⟨h2, by rw [h1]; exact gm.2⟩
      · exact g2 n (by simp [hn])
  · refine List.pairwise_append.2 ⟨p1, List.pairwise_cons.2 ⟨?_, p5⟩, ?_⟩
    · intro b hb; rw [h1]; exact p4 b hb
    · intro a ha b hb
      rcases List.mem_cons.1 hb with rfl | hb
      · rw [h1]; exact p3 a ha m (by simp)
      · exact p3 a ha b (by simp [hb])
  · intro x
    by_cases hx : m.r.has x
    · have hpre : ∀ n ∈ pre, ¬ n.r.has x := by
        intro n hn
        have := p3 n hn m (by simp)
        simp only [Hl.has] at hx ⊢
        omega
      have e1 : inner x (.mk own (pre ++ m :: post)) = inner x m := by
        rw [inner, innerIn_append _ _ hpre, innerIn, if_pos hx]; rfl
      have e2 : inner x (.mk own (pre ++ m' :: post)) = inner x m' := by
        rw [inner, innerIn_append _ _ hpre, innerIn, if_pos (by rw [h1]; exact hx)]; rfl
      rw [e1, e2, h3]
    · have hnr : ¬ r.has x := by
        simp only [Hl.has, Hl.Within] at hx hr ⊢
        omega
      rw [if_neg fun h => hnr h.1]
      have : innerIn x (pre ++ m' :: post) = innerIn x (pre ++ m :: post) := by
        exact innerIn_congr pre (by rw [innerIn, innerIn, if_neg hx, if_neg (by rw [h1]; exact hx)])
      rw [inner, inner, this]

/-- Nested ranges inside the new one become nested in it. -/
theorem splice_adds {own r : Hl} {pre mid post : List HNode} (hg : Good (.mk own (pre ++ mid ++ post))) (hr : r.Within own)
    (hne : r.lo < r.hi) (hpre : ∀ n ∈ pre, n.r.hi ≤ r.lo) (hmid : ∀ n ∈ mid, n.r.Within r ∧ ¬ r.Within n.r)
    (hpost : ∀ n ∈ post, r.hi ≤ n.r.lo) : Adds r (.mk own (pre ++ mid ++ post)) (.mk own (pre ++ [.mk r mid] ++ post)) := by
  obtain ⟨g1, g2, g3⟩ := hg.out
  obtain ⟨p1, p2, p3⟩ := List.pairwise_append.1 g3
  obtain ⟨p4, p5, p6⟩ := List.pairwise_append.1 p1
  have hgm : Good (.mk r mid) := .mk hne (fun n hn => ⟨(g2 n (by simp [hn])).1, (hmid n hn).1⟩) p5
  refine ⟨rfl, .mk g1 ?_ ?_, ?_⟩
  · intro n hn
    simp only [List.mem_append, List.mem_singleton, List.append_assoc] at hn
    rcases hn with hn | rfl | hn
    · exact g2 n (by simp [hn])
    · exact ⟨hgm, hr⟩
    · exact g2 n (by simp [hn])
  · refine List.pairwise_append.2 ⟨List.pairwise_append.2 ⟨p4, List.pairwise_singleton _ _, ?_⟩, p2, ?_⟩
    · intro a ha b hb
      simp only [List.mem_singleton] at hb
      subst hb
      exact hpre a ha
    · intro a ha b hb
      simp only [List.mem_append, List.mem_singleton] at ha
      rcases ha with ha | rfl
      · exact p3 a (by simp [ha]) b hb
      · exact hpost b hb
  · intro x
    by_cases hx : r.has x
    · have q1 : ∀ n ∈ pre, ¬ n.r.has x := by
        intro n hn
        have := hpre n hn
        simp only [Hl.has] at hx ⊢
        omega
      have q2 : ∀ n ∈ post, ¬ n.r.has x := by
        intro n hn
        have := hpost n hn
        simp only [Hl.has] at hx ⊢
        omega
      have e1 : inner x (.mk own (pre ++ mid ++ post)) = (innerIn x mid).getD own := by
        rw [inner, innerIn_append_right _ _ q2, innerIn_append _ _ q1]
      have e2 : inner x (.mk own (pre ++ [.mk r mid] ++ post)) = (innerIn x mid).getD r := by
        rw [inner, innerIn_append_right _ _ q2, innerIn_append _ _ q1, innerIn, if_pos (show (HNode.mk r mid).r.has x from hx), inner]; rfl
      rw [e1, e2]
      cases hi : innerIn x mid with
      | none => rw [if_pos ⟨hx, by simpa using hr⟩]; rfl
      | some i =>
        obtain ⟨m, hm, hmx, rfl⟩ := innerIn_some hi
        have h1 := inner_within x (g2 m (by simp [hm])).1
        have h2 := (hmid m hm).2
        rw [if_neg]
        · rfl
        · rintro ⟨-, h3⟩
          apply h2
          simp only [Hl.Within, Option.getD_some] at *
          omega
    · rw [if_neg fun h => hx h.1]
      have q2 : ∀ n ∈ mid, ¬ n.r.has x := by
        intro n hn
        have := (hmid n hn).1
        simp only [Hl.has, Hl.Within] at hx this ⊢
        omega
      have : innerIn x (pre ++ [.mk r mid] ++ post) = innerIn x (pre ++ mid ++ post) := by
        rw [List.append_assoc, List.append_assoc]
        have h1 : innerIn x ([HNode.mk r mid] ++ post) = innerIn x (mid ++ post) := by
          rw [innerIn_append _ _ q2, innerIn_append]
          intro n hn
          simp only [List.mem_singleton] at hn
          subst hn
          exact hx
        exact innerIn_congr pre h1
      rw [inner, inner, this]

theorem takeWhile_all {α : Type} (p : α → Bool) (l : List α) : ∀ a ∈ l.takeWhile p, p a = true := by
  intro a ha
  induction l with
  | nil => cases ha
  | cons x l ih =>
    rw [List.takeWhile_cons] at ha
    split at ha
    · rcases List.mem_cons.1 ha with rfl | ha
      · assumption
      · exact ih ha
    · cases ha

/-- The parts that `equal_range_by` finds. -/
theorem parts {r : Hl} {ns : List HNode} (hs : ns.Pairwise fun a b => a.r.hi ≤ b.r.lo) (hp : ∀ n ∈ ns, n.r.lo < n.r.hi) :
    (∀ n ∈ ns.takeWhile (isLess r), n.r.hi ≤ r.lo) ∧
    (∀ n ∈ (ns.dropWhile (isLess r)).takeWhile (isEqual r), r.lo < n.r.hi ∧ n.r.lo < r.hi) ∧
    (∀ n ∈ (ns.dropWhile (isLess r)).dropWhile (isEqual r), r.hi ≤ n.r.lo) := by
  refine ⟨?_, ?_, ?_⟩
  · intro n hn
    simpa [isLess] using takeWhile_all _ _ n hn
  · intro n hn
    have := takeWhile_all _ _ n hn
    simp only [isEqual, Bool.and_eq_true, Bool.not_eq_true', decide_eq_false_iff_not] at this
    omega
  · have hd : ∀ n ∈ ns.dropWhile (isLess r), ¬ n.r.hi ≤ r.lo := by
      induction ns with
      | nil => intro n hn; cases hn
      | cons x ns ih =>
        obtain ⟨h1, h2⟩ := List.pairwise_cons.1 hs
        rw [List.dropWhile_cons]
        split
        · exact ih h2 fun n hn => hp n (by simp [hn])
        · rename_i hx
          have hx' : ¬ x.r.hi ≤ r.lo := by simpa [isLess] using hx
          intro n hn
          rcases List.mem_cons.1 hn with rfl | hn
          · exact hx'
          · have := h1 n hn
            have := hp n (by simp [hn])
            omega
    have hsd : (ns.dropWhile (isLess r)).Pairwise fun a b => a.r.hi ≤ b.r.lo := hs.sublist (List.dropWhile_suffix _).sublist
    have hpd : ∀ n ∈ ns.dropWhile (isLess r), n.r.lo < n.r.hi := fun n hn => hp n ((List.dropWhile_suffix _).subset hn)
    generalize ns.dropWhile (isLess r) = ds at *
    induction ds with
    | nil => intro n hn; cases hn
    | cons x ds ih =>
      obtain ⟨h1, h2⟩ := List.pairwise_cons.1 hsd
      rw [List.dropWhile_cons]
      split
      · exact ih (fun n hn => hd n (by simp [hn])) h2 fun n hn => hpd n (by simp [hn])
      · rename_i hx
        have hx' : r.hi ≤ x.r.lo := by
          have := hd x (by simp)
          simp only [isEqual, Bool.and_eq_true, Bool.not_eq_true', decide_eq_false_iff_not, not_and] at hx
          have := hx this
          omega
        intro n hn
        rcases List.mem_cons.1 hn with rfl | hn
        · exact hx'
        · have := h1 n hn
          have := hpd x (by simp)
          omega

/-- A range that is nested in or apart from all others can be added, and does what it has to. -/
theorem add_adds (n : HNode) (r : Hl) (hg : Good n) (hr : r.lo < r.hi) (hw : r.Within n.r) (hl : AllR (Laminar r) n) :
    ∃ n', add n r = some n' ∧ Adds r n n' ∧ ∀ P : Hl → Prop, P r → AllR P n → AllR P n' := by
  induction n using HNode.induction with
  | h own ns ih =>
    have hg' := hg
    obtain ⟨g1, g2, g3⟩ := hg.out
    cases hl with
    | mk l1 l2 =>
    have hw' : own.contains r = true := (contains_iff own r).2 hw
    obtain ⟨q1, q2, q3⟩ := parts g3 (fun n hn => (g2 n hn).1.pos)
    have hsplit : ns.takeWhile (isLess r) ++ (ns.dropWhile (isLess r)).takeWhile (isEqual r) ++
        (ns.dropWhile (isLess r)).dropWhile (isEqual r) = ns := by
      rw [List.append_assoc, List.takeWhile_append_dropWhile, List.takeWhile_append_dropWhile]
    have deep : ∀ pre m post, ns = pre ++ [m] ++ post → r.Within m.r →
        ∃ n', (add m r).map (fun m' => HNode.mk own (pre ++ [m'] ++ post)) = some n' ∧ Adds r (.mk own ns) n' ∧
          ∀ P : Hl → Prop, P r → AllR P (.mk own ns) → AllR P n' := by
      intro pre m post hns hm
      have hmem : m ∈ ns := by rw [hns]; simp
      obtain ⟨m', h1, h2, h3⟩ := ih m hmem (g2 m hmem).1 hm (l2 m hmem)
      refine ⟨_, by rw [h1]; rfl, ?_, ?_⟩
      · subst hns
        exact replace_adds hg' h2 hm
      · intro P hP hA
        cases hA with
        | mk a1 a2 =>
        refine .mk a1 fun n hn => ?_
        simp only [List.mem_append, List.mem_singleton, List.append_assoc] at hn
        rcases hn with hn | rfl | hn
        · exact a2 n (by rw [hns]; simp [hn])
        · exact h3 P hP (a2 m hmem)
        · exact a2 n (by rw [hns]; simp [hn])
    have put : ∀ pre mid post, ns = pre ++ mid ++ post → (∀ n ∈ pre, n.r.hi ≤ r.lo) → (∀ n ∈ mid, n.r.Within r ∧ ¬ r.Within n.r) →
        (∀ n ∈ post, r.hi ≤ n.r.lo) → Adds r (.mk own ns) (.mk own (pre ++ [.mk r mid] ++ post)) ∧
          ∀ P : Hl → Prop, P r → AllR P (.mk own ns) → AllR P (.mk own (pre ++ [.mk r mid] ++ post)) := by
      intro pre mid post hns h1 h2 h3
      subst hns
      refine ⟨splice_adds hg' hw hr h1 h2 h3, ?_⟩
      intro P hP hA
      cases hA with
      | mk a1 a2 =>
      refine .mk a1 fun n hn => ?_
      simp only [List.mem_append, List.mem_singleton, List.append_assoc] at hn
      rcases hn with hn | rfl | hn
      · exact a2 n (by simp [hn])
      · exact .mk hP fun k hk => a2 k (by simp [hk])
      · exact a2 n (by simp [hn])
    have slow : ∀ mid, mid = (ns.dropWhile (isLess r)).takeWhile (isEqual r) →
        (∃ m, mid = [m] ∧ r.Within m.r) ∨ ∀ n ∈ mid, n.r.Within r ∧ ¬ r.Within n.r := by
      intro mid hmid
      by_cases hc : ∃ m ∈ mid, r.Within m.r
      · left
        obtain ⟨m, hm, hmr⟩ := hc
        obtain ⟨as, bs, hab⟩ := List.append_of_mem hm
        have hpw : mid.Pairwise fun a b => a.r.hi ≤ b.r.lo := by
          rw [hmid]
          exact (g3.sublist (List.dropWhile_suffix _).sublist).sublist (List.takeWhile_prefix _).sublist
        have hov : ∀ n ∈ mid, r.lo < n.r.hi ∧ n.r.lo < r.hi := fun n hn => q2 n (by rw [← hmid]; exact hn)
        rw [hab] at hpw
        obtain ⟨-, w1, w2⟩ := List.pairwise_append.1 hpw
        have ha : as = [] := by
          cases as with
          | nil => rfl
          | cons a as =>
            exfalso
            have h1 := w2 a (by simp) m (by simp)
            have h2 := hov a (by rw [hab]; simp)
            simp only [Hl.Within] at hmr
            omega
        have hb : bs = [] := by
          cases bs with
          | nil => rfl
          | cons b bs =>
            exfalso
            have h1 := (List.pairwise_cons.1 w1).1 b (by simp)
            have h2 := hov b (by rw [hab]; simp)
            simp only [Hl.Within] at hmr
            omega
        exact ⟨m, by rw [hab, ha, hb]; rfl, hmr⟩
      · right
        intro n hn
        have hnn : n ∈ ns := by
          rw [hmid] at hn
          exact (List.dropWhile_suffix _).subset ((List.takeWhile_prefix _).subset hn)
        have hov := q2 n (by rw [← hmid]; exact hn)
        have hlam : Laminar r n.r := by
          have := l2 n hnn
          cases this with
          | mk h _ => exact h
        refine ⟨?_, fun h => hc ⟨n, hn, h⟩⟩
        rcases hlam with h | h | h | h
        · exact absurd ⟨n, hn, h⟩ hc
        · exact h
        · omega
        · omega
    have slowcase : ∃ n', (match h : (ns.dropWhile (isLess r)).takeWhile (isEqual r) with
        | [m] => if m.r.contains r then (add m r).map fun m' =>
              HNode.mk own (ns.takeWhile (isLess r) ++ [m'] ++ (ns.dropWhile (isLess r)).dropWhile (isEqual r))
          else some (.mk own (ns.takeWhile (isLess r) ++ [.mk r ((ns.dropWhile (isLess r)).takeWhile (isEqual r))] ++
            (ns.dropWhile (isLess r)).dropWhile (isEqual r)))
        | _ => some (.mk own (ns.takeWhile (isLess r) ++ [.mk r ((ns.dropWhile (isLess r)).takeWhile (isEqual r))] ++
            (ns.dropWhile (isLess r)).dropWhile (isEqual r)))) = some n' ∧ Adds r (.mk own ns) n' ∧
          ∀ P : Hl → Prop, P r → AllR P (.mk own ns) → AllR P n' := by
      rcases slow _ rfl with ⟨m, hm, hmr⟩ | hall
      · have := deep (ns.takeWhile (isLess r)) m ((ns.dropWhile (isLess r)).dropWhile (isEqual r)) (by rw [← hm]; exact hsplit.symm) hmr
        split
        · rename_i m' hm'
          rw [hm] at hm'
          cases hm'
          rw [if_pos ((contains_iff _ _).2 hmr)]
          exact this
        · rename_i hno
          exact absurd hm (hno m)
      · have := put _ _ _ hsplit.symm q1 hall q3
        split
        · rename_i m hm
          have hc : ¬ m.r.contains r = true := by
            rw [contains_iff]
            exact (hall m (by rw [hm]; simp)).2
          rw [if_neg hc]
          exact ⟨_, rfl, this⟩
        · exact ⟨_, rfl, this⟩
    rw [add]
    simp only [hw', Bool.not_true, Bool.false_eq_true, if_false]
    split
    · rename_i last hlast
      obtain ⟨init, hinit⟩ : ∃ init, ns = init ++ [last] := by
        obtain ⟨ys, hys⟩ := List.getLast?_eq_some_iff.1 hlast
        exact ⟨ys, hys⟩
      split
      · rename_i hc
        have := deep init last [] (by rw [hinit]; simp) ((contains_iff _ _).1 hc)
        have hd : ns.dropLast = init := by rw [hinit]; simp
        rw [hd]
        simpa using this
      · split
        · rename_i hc hle
          have hall : ∀ n ∈ ns, n.r.hi ≤ r.lo := by
            intro n hn
            rw [hinit] at hn g3
            rcases List.mem_append.1 hn with hn | hn
            · have := (List.pairwise_append.1 g3).2.2 n hn last (by simp)
              have := (g2 last (by rw [hinit]; simp)).1.pos
              omega
            · simp only [List.mem_singleton] at hn
              subst hn
              exact hle
          have := put ns [] [] (by simp) hall (by simp) (by simp)
          exact ⟨_, rfl, by simpa using this⟩
        · exact slowcase
    · exact slowcase

/-! ### Flattening -/

theorem Tiling.append {a b c : Nat} {l m : List Hl} (h1 : Tiling a b l) (h2 : Tiling b c m) : Tiling a c (l ++ m) := by
  induction l generalizing a with
  | nil => cases h1; exact h2
  | cons x l ih => exact ⟨h1.1, h1.2.1, ih h1.2.2⟩

theorem seg_tiling {a b : Nat} (h : Nat) (hab : a ≤ b) : Tiling a b (seg a b h) := by
  unfold seg
  split
  · exact ⟨rfl, by assumption, rfl⟩
  · exact Nat.le_antisymm hab (by omega)

theorem mem_seg {a b h : Nat} {s : Hl} (hs : s ∈ seg a b h) : s = ⟨a, b, h⟩ := by
  unfold seg at hs
  split at hs
  · simpa using hs
  · cases hs

/-- The result of a tree: consecutive pieces, each with the highlight of the innermost range of all its positions. -/
theorem flatten_good (n : HNode) (hg : Good n) :
    Tiling n.r.lo n.r.hi (flatten n) ∧ ∀ s ∈ flatten n, ∀ x, s.has x → n.r.has x ∧ s.hl = (inner x n).hl := by
  induction n using HNode.induction with
  | h r ns ih =>
    obtain ⟨g1, g2, g3⟩ := hg.out
    have key : ∀ (ns : List HNode) (start : Nat), (∀ n ∈ ns, Good n ∧ n.r.Within r) → (∀ n ∈ ns, Good n →
          Tiling n.r.lo n.r.hi (flatten n) ∧ ∀ s ∈ flatten n, ∀ x, s.has x → n.r.has x ∧ s.hl = (inner x n).hl) →
        (ns.Pairwise fun a b => a.r.hi ≤ b.r.lo) → (∀ n ∈ ns, start ≤ n.r.lo) → start ≤ r.hi →
        Tiling start r.hi (flattenFrom r.hi r.hl start ns) ∧ ∀ s ∈ flattenFrom r.hi r.hl start ns, ∀ x, s.has x →
          (start ≤ x ∧ x < r.hi) ∧ s.hl = ((innerIn x ns).getD r).hl := by
      intro ns
      induction ns with
      | nil =>
        intro start _ _ _ _ hs
        refine ⟨seg_tiling _ hs, ?_⟩
        intro s hmem x hx
        rw [flattenFrom] at hmem
        rw [mem_seg hmem] at hx ⊢
        exact ⟨hx, rfl⟩
      | cons c cs ihc =>
        intro start h1 h2 h3 h4 h5
        obtain ⟨w1, w2⟩ := List.pairwise_cons.1 h3
        obtain ⟨gc, hcw⟩ := h1 c (by simp)
        obtain ⟨t1, t2⟩ := h2 c (by simp) gc
        have hcs : ∀ n ∈ cs, c.r.hi ≤ n.r.lo := w1
        obtain ⟨t3, t4⟩ := ihc c.r.hi (fun n hn => h1 n (by simp [hn])) (fun n hn => h2 n (by simp [hn])) w2 hcs hcw.2
        have hcl := h4 c (by simp)
        have hpos := gc.pos
        rw [flattenFrom]
        refine ⟨(seg_tiling _ hcl).append (t1.append t3), ?_⟩
        intro s hmem x hx
        have hcw1 := hcw.1
        have hcw2 := hcw.2
        rcases List.mem_append.1 hmem with hmem | hmem
        · rw [mem_seg hmem] at hx ⊢
          have hx1 : start ≤ x ∧ x < c.r.lo := hx
          have hn : innerIn x (c :: cs) = none := by
            refine innerIn_none fun n hn => ?_
            simp only [Hl.has]
            rcases List.mem_cons.1 hn with rfl | hn
            · omega
            · have := hcs n hn; omega
          rw [hn]
          exact ⟨by omega, rfl⟩
        · rcases List.mem_append.1 hmem with hmem | hmem
          · obtain ⟨u1, u2⟩ := t2 s hmem x hx
            have u1' : c.r.lo ≤ x ∧ x < c.r.hi := u1
            rw [innerIn, if_pos u1]
            exact ⟨by omega, u2⟩
          · obtain ⟨u1, u2⟩ := t4 s hmem x hx
            rw [innerIn, if_neg (by simp only [Hl.has]; omega)]
            exact ⟨by omega, u2⟩
    obtain ⟨k1, k2⟩ := key ns r.lo g2 (fun n hn hn' => ih n hn hn') g3 (fun n hn => (g2 n hn).2.1) (Nat.le_of_lt g1)
    refine ⟨by rw [flatten]; exact k1, ?_⟩
    intro s hs x hx
    rw [flatten] at hs
    rw [inner]
    exact k2 s hs x hx

/-! ### The document -/

theorem innermost_snoc {rs : List Hl} {x : Nat} {i r : Hl} (h : InnermostAt rs x i) (hl : ∀ s ∈ rs, Laminar r s)
    (hne : ∀ s ∈ rs, s.lo < s.hi) :
    InnermostAt (rs ++ [r]) x (if r.has x ∧ r.Within i then r else i) := by
  obtain ⟨pre, post, rfl, h1, h2, h3⟩ := h
  have hi : ∀ s ∈ pre ++ i :: post, s.has x → i.Within s := by
    intro s hs hx
    rcases List.mem_append.1 hs with hs | hs
    · exact h2 s hs hx
    · rcases List.mem_cons.1 hs with rfl | hs
      · exact ⟨Nat.le_refl _, Nat.le_refl _⟩
      · exact (h3 s hs hx).1
  by_cases hc : r.has x ∧ r.Within i
  · rw [if_pos hc]
    refine ⟨pre ++ i :: post, [], by simp, hc.1, ?_, by simp⟩
    intro s hs hx
    have h4 := hi s hs hx
    have h5 := hc.2
    simp only [Hl.Within] at *
    omega
  · rw [if_neg hc]
    refine ⟨pre, post ++ [r], by simp, h1, h2, ?_⟩
    intro s hs hx
    rcases List.mem_append.1 hs with hs | hs
    · exact h3 s hs hx
    · simp only [List.mem_singleton] at hs
      subst hs
      have hn : ¬ s.Within i := fun h => hc ⟨hx, h⟩
      refine ⟨?_, hn⟩
      rcases hl i (by simp) with h | h | h | h
      · exact absurd h hn
      · exact h
      · simp only [Hl.has] at hx h1; omega
      · simp only [Hl.has] at hx h1; omega

theorem addAll_spec (rs : List Hl) (done : List Hl) (n : HNode) (hg : Good n) (hd : AllR (fun s => s ∈ done) n)
    (hdn : ∀ s ∈ done, s.lo < s.hi) (hin : ∀ x, n.r.has x → InnermostAt done x (inner x n))
    (hne : ∀ r ∈ rs, r.lo < r.hi) (hw : ∀ r ∈ rs, r.Within n.r) (hl : (done ++ rs).Pairwise fun a b => Laminar b a) :
    ∃ n', addAll n rs = some n' ∧ Good n' ∧ n'.r = n.r ∧ ∀ x, n.r.has x → InnermostAt (done ++ rs) x (inner x n') := by
  induction rs generalizing done n with
  | nil => exact ⟨n, rfl, hg, rfl, by simpa using hin⟩
  | cons r rs ih =>
    have hlr : ∀ s ∈ done, Laminar r s := fun s hs => (List.pairwise_append.1 hl).2.2 s hs r (by simp)
    have hall : AllR (Laminar r) n := by
      have : ∀ n : HNode, AllR (fun s => s ∈ done) n → AllR (Laminar r) n := by
        intro n
        induction n using HNode.induction with
        | h o ns ih => intro h; cases h with
          | mk h1 h2 => exact .mk (hlr o h1) fun m hm => ih m hm (h2 m hm)
      exact this n hd
    obtain ⟨n', h1, ⟨h2, h3, h4⟩, h5⟩ := add_adds n r hg (hne r (by simp)) (hw r (by simp)) hall
    have hd' : AllR (fun s => s ∈ done ++ [r]) n' := by
      refine h5 _ (by simp) ?_
      have : ∀ n : HNode, AllR (fun s => s ∈ done) n → AllR (fun s => s ∈ done ++ [r]) n := by
        intro n
        induction n using HNode.induction with
        | h o ns ih => intro h; cases h with
          | mk h1 h2 => exact .mk (by simp [h1]) fun m hm => ih m hm (h2 m hm)
      exact this n hd
    have hin' : ∀ x, n'.r.has x → InnermostAt (done ++ [r]) x (inner x n') := by
      intro x hx
      rw [h2] at hx
      rw [h4]
      exact innermost_snoc (hin x hx) hlr hdn
    obtain ⟨n'', k1, k2, k3, k4⟩ := ih (done ++ [r]) n' h3 hd'
      (by
        intro s hs
        rcases List.mem_append.1 hs with hs | hs
        · exact hdn s hs
        · simp only [List.mem_singleton] at hs
          subst hs
          exact hne s (by simp)) hin'
      (fun s hs => hne s (by simp [hs])) (fun s hs => by rw [h2]; exact hw s (by simp [hs])) (by simpa using hl)
    refine ⟨n'', by rw [addAll, h1]; exact k1, k2, by rw [k3, h2], ?_⟩
    intro x hx
    have := k4 x (by rw [h2]; exact hx)
    simpa using this

/-- Properly nested ranges inside the document never panic; the reported ranges are consecutive non-empty pieces of the document,
and each has the highlight of the innermost added range around every one of its positions. -/
theorem C44_tiles (root : Hl) (rs : List Hl) (h0 : root.lo < root.hi) (hne : ∀ r ∈ rs, r.lo < r.hi) (hw : ∀ r ∈ rs, r.Within root)
    (hl : rs.Pairwise fun a b => Laminar a b) :
    ∃ out, highlights root rs = some out ∧ Tiling root.lo root.hi out ∧
      ∀ s ∈ out, ∀ x, s.has x → ∃ i, InnermostAt (root :: rs) x i ∧ s.hl = i.hl := by
  have hpw : ([root] ++ rs).Pairwise fun a b => Laminar b a := by
    rw [List.singleton_append, List.pairwise_cons]
    refine ⟨fun r hr => .inl (hw r hr), hl.imp fun {a b} h => ?_⟩
    rcases h with h | h | h | h
    · exact .inr (.inl h)
    · exact .inl h
    · exact .inr (.inr (.inr h))
    · exact .inr (.inr (.inl h))
  obtain ⟨n', h1, h2, h3, h4⟩ := addAll_spec rs [root] (.mk root []) (.mk h0 (by simp) .nil) (.mk (by simp) (by simp))
    (by simpa using h0) (by
      intro x hx
      exact ⟨[], [], rfl, hx, by simp, by simp⟩) hne hw hpw
  obtain ⟨t1, t2⟩ := flatten_good n' h2
  rw [h3] at t1
  refine ⟨flatten n', by rw [highlights, h1]; rfl, t1, ?_⟩
  intro s hs x hx
  obtain ⟨u1, u2⟩ := t2 s hs x hx
  rw [h3] at u1
  exact ⟨_, h4 x u1, u2⟩

/-- The pieces of a tiling are sorted and do not overlap, and they cover everything. -/
theorem C44_sorted (a b : Nat) (out : List Hl) (h : Tiling a b out) :
    (out.Pairwise fun s t => s.hi ≤ t.lo) ∧ (∀ s ∈ out, a ≤ s.lo ∧ s.lo < s.hi ∧ s.hi ≤ b) ∧
      ∀ x, a ≤ x → x < b → ∃ s ∈ out, s.has x := by
  have hle : ∀ (a : Nat) (out : List Hl), Tiling a b out → a ≤ b := by
    intro a out
    induction out generalizing a with
    | nil => intro h; exact Nat.le_of_eq h
    | cons r rs ih =>
      rintro ⟨h1, h2, h3⟩
      have := ih _ h3
      omega
  induction out generalizing a with
  | nil => exact ⟨.nil, by simp, fun x h1 h2 => by cases h; omega⟩
  | cons r rs ih =>
    obtain ⟨h1, h2, h3⟩ := h
    obtain ⟨i1, i2, i3⟩ := ih _ h3
    have := hle _ _ h3
    refine ⟨List.pairwise_cons.2 ⟨fun t ht => (i2 t ht).1, i1⟩, ?_, ?_⟩
    · intro s hs
      rcases List.mem_cons.1 hs with rfl | hs
      · omega
      · have := i2 s hs; omega
    · intro x hx1 hx2
      by_cases hx : x < r.hi
      · exact ⟨r, by simp, by simp only [Hl.has]; omega⟩
      · obtain ⟨s, hs, h⟩ := i3 x (by omega) hx2
        exact ⟨s, by simp [hs], h⟩

/-- `aa(bb)cc` with the call, its name and its argument highlighted, in the order of a preorder traversal. -/
example : ∃ out, highlights ⟨0, 8, 0⟩ [⟨0, 6, 1⟩, ⟨0, 2, 2⟩, ⟨3, 5, 3⟩, ⟨6, 8, 4⟩] = some out ∧ Tiling 0 8 out ∧
    ∀ s ∈ out, ∀ x, s.has x → ∃ i, InnermostAt (⟨0, 8, 0⟩ :: [⟨0, 6, 1⟩, ⟨0, 2, 2⟩, ⟨3, 5, 3⟩, ⟨6, 8, 4⟩]) x i ∧ s.hl = i.hl := by
  refine C44_tiles ⟨0, 8, 0⟩ _ (by decide) (by decide) (by decide) ?_
  simp [Laminar, Hl.Within]

example : highlights ⟨0, 8, 0⟩ [⟨0, 6, 1⟩, ⟨0, 2, 2⟩, ⟨3, 5, 3⟩, ⟨6, 8, 4⟩] =
    some [⟨0, 2, 2⟩, ⟨2, 3, 1⟩, ⟨3, 5, 3⟩, ⟨5, 6, 1⟩, ⟨6, 8, 4⟩] := by
  simp [highlights, addAll, add, Hl.contains, HNode.r, flatten, flattenFrom, seg]

/-- An outer range that comes after the inner ones takes them in. -/
example : highlights ⟨0, 8, 0⟩ [⟨0, 2, 2⟩, ⟨3, 5, 3⟩, ⟨6, 7, 4⟩, ⟨0, 6, 1⟩] =
    some [⟨0, 2, 2⟩, ⟨2, 3, 1⟩, ⟨3, 5, 3⟩, ⟨5, 6, 1⟩, ⟨6, 7, 4⟩, ⟨7, 8, 0⟩] := by
  have h1 : add (.mk ⟨0, 8, 0⟩ []) ⟨0, 2, 2⟩ = some (.mk ⟨0, 8, 0⟩ [.mk ⟨0, 2, 2⟩ []]) := by rw [add]; rfl
  have h2 : add (.mk ⟨0, 8, 0⟩ [.mk ⟨0, 2, 2⟩ []]) ⟨3, 5, 3⟩ = some (.mk ⟨0, 8, 0⟩ [.mk ⟨0, 2, 2⟩ [], .mk ⟨3, 5, 3⟩ []]) := by
    rw [add]; rfl
  have h3 : add (.mk ⟨0, 8, 0⟩ [.mk ⟨0, 2, 2⟩ [], .mk ⟨3, 5, 3⟩ []]) ⟨6, 7, 4⟩ =
      some (.mk ⟨0, 8, 0⟩ [.mk ⟨0, 2, 2⟩ [], .mk ⟨3, 5, 3⟩ [], .mk ⟨6, 7, 4⟩ []]) := by
    rw [add]; rfl
  have h4 : add (.mk ⟨0, 8, 0⟩ [.mk ⟨0, 2, 2⟩ [], .mk ⟨3, 5, 3⟩ [], .mk ⟨6, 7, 4⟩ []]) ⟨0, 6, 1⟩ =
      some (.mk ⟨0, 8, 0⟩ [.mk ⟨0, 6, 1⟩ [.mk ⟨0, 2, 2⟩ [], .mk ⟨3, 5, 3⟩ []], .mk ⟨6, 7, 4⟩ []]) := by
    rw [add]; rfl
  simp only [highlights, addAll, h1, h2, h3, h4, Option.bind_some, Option.map_some]
  rfl

/-- Ranges that overlap without being nested: the reported ranges overlap. -/
theorem C44_overlap_fails : ∃ (root : Hl) (rs out : List Hl), (∀ r ∈ rs, r.lo < r.hi ∧ r.Within root) ∧
    highlights root rs = some out ∧ ¬ out.Pairwise fun s t => s.hi ≤ t.lo := by
  refine ⟨⟨0, 10, 0⟩, [⟨0, 5, 1⟩, ⟨3, 8, 2⟩], [⟨0, 3, 0⟩, ⟨0, 5, 1⟩, ⟨5, 8, 2⟩, ⟨8, 10, 0⟩], by decide, ?_, by decide⟩
  have h1 : add (.mk ⟨0, 10, 0⟩ []) ⟨0, 5, 1⟩ = some (.mk ⟨0, 10, 0⟩ [.mk ⟨0, 5, 1⟩ []]) := by rw [add]; rfl
  have h2 : add (.mk ⟨0, 10, 0⟩ [.mk ⟨0, 5, 1⟩ []]) ⟨3, 8, 2⟩ = some (.mk ⟨0, 10, 0⟩ [.mk ⟨3, 8, 2⟩ [.mk ⟨0, 5, 1⟩ []]]) := by
    rw [add]; rfl
  simp only [highlights, addAll, h1, h2, Option.bind_some, Option.map_some]
  rfl

end Verif.Ide.Highlights
