import Verif.TextEdit.Props
import Verif.Syntax.Tree

/-! Model of ide-db/src/syntax_helpers/tree_diff.rs. -/

namespace Verif.TextEdit.TreeDiff
open Verif Verif.TextEdit Verif.TextEdit.Spec
open Verif.Parser (Green)
open Verif.Syntax (Elem SyntaxKind)
open Verif.Lexer (blen)

/-- `TreeDiffInsertPos` (tree_diff.rs:15–19). -/
inductive Pos where
  | after (e : Elem)
  | first (e : Elem)

/-- Equality of positions: kind of position and identity of the element. In `rowan` two elements are the same if they have the
same green element and offset, which for different elements of a tree is possible only when they are empty. -/
def Pos.key : Pos → Bool × List Nat
  | .after e => (true, e.path)
  | .first e => (false, e.path)

/-- tree_diff.rs:32–35. -/
def Pos.offset : Pos → Nat
  | .after e => e.stop
  | .first e => e.start

/-- `TreeDiff` (tree_diff.rs:21–27). Elements of the new tree are given without their place. Each element of the old tree is
visited once, so no replacement overwrites another one. -/
structure Diff where
  replacements : List (Elem × Green)
  deletions : List Elem
  insertions : List (Pos × List Green)

/-- `insertions.entry(pos).or_default().extend(xs)` of an `IndexMap`. -/
def insertEntry (p : Pos) (xs : List Green) : List (Pos × List Green) → List (Pos × List Green)
  | [] => [(p, xs)]
  | (q, ys) :: rest => if q.key = p.key then (q, ys ++ xs) :: rest else (q, ys) :: insertEntry p xs rest

def Diff.insert (d : Diff) (p : Pos) (xs : List Green) : Diff := { d with insertions := insertEntry p xs d.insertions }
def Diff.delete (d : Diff) (e : Elem) : Diff := { d with deletions := d.deletions ++ [e] }
def Diff.replace (d : Diff) (e : Elem) (t : Green) : Diff := { d with replacements := d.replacements ++ [(e, t)] }

/-- `syntax_element_eq` (tree_diff.rs:71–81). -/
def elemEq (l r : Green) : Bool :=
  decide (l.kind = r.kind) && decide (l.len = r.len) && decide (l.isTok = r.isTok) && decide (l.text = r.text)

/-- The look-ahead of tree_diff.rs:126–135: the elements before the first one equal to `l`, and those after it. -/
def lookAhead (l : Green) : List Green → Option (List Green × List Green)
  | [] => none
  | r :: rs => if elemEq l r then some ([], rs) else (lookAhead l rs).map fun x => (r :: x.1, x.2)

/-- tree_diff.rs:105–109 and 138–142. -/
def insertPos (parent : Elem) : Option Elem → Pos
  | some prev => .after prev
  | none => .first parent

mutual
/-- `go` (tree_diff.rs:84–152). -/
def goElem (d : Diff) (path : List Nat) (start : Nat) : Green → Green → Diff
  | .node k cs, .node _ rs => goKids d ⟨path, start, .node k cs⟩ none 0 start cs rs
  | .node k cs, .tok k' t => d.replace ⟨path, start, .node k cs⟩ (.tok k' t)
  | .tok k t, r => d.replace ⟨path, start, .tok k t⟩ r
/-- The loop of `go` (tree_diff.rs:98–151): `i` and `s` are the index and the offset of the next child of the old node. When no
child of the old node is left, the remaining ones of the new node are inserted one by one. -/
def goKids (d : Diff) (parent : Elem) (last : Option Elem) (i s : Nat) : List Green → List Green → Diff
  | [], rs => rs.foldl (fun d r => d.insert (insertPos parent last) [r]) d
  | l :: ls, [] =>
    goKids (d.delete ⟨i :: parent.path, s, l⟩) parent (some ⟨i :: parent.path, s, l⟩) (i + 1) (s + l.len) ls []
  | l :: ls, r :: rs =>
    if elemEq l r then goKids d parent (some ⟨i :: parent.path, s, l⟩) (i + 1) (s + l.len) ls rs
    else match lookAhead l rs with
      | some (pre, post) =>
        goKids (d.insert (insertPos parent last) (r :: pre)) parent (some ⟨i :: parent.path, s, l⟩) (i + 1) (s + l.len) ls post
      | none =>
        goKids (goElem d (i :: parent.path) s l r) parent (some ⟨i :: parent.path, s, l⟩) (i + 1) (s + l.len) ls rs
end

/-- `tree_diff` (tree_diff.rs:57–69) of a node of a file and another tree. -/
def treeDiff (old : Elem) (new : Green) : Diff :=
  if elemEq old.green new then ⟨[], [], []⟩ else goElem ⟨[], [], []⟩ old.path old.start old.green new

/-- `into_text_edit` (tree_diff.rs:30–45), as the changes in the order in which they are given to the builder. The replacements
are in the order of a hash map: any order `reps`. -/
def changes (d : Diff) (reps : List (Elem × Green)) : List Change :=
  (d.insertions.flatMap fun x => x.2.map fun t => ⟨x.1.offset, x.1.offset, encode t.text⟩) ++
  reps.map (fun x => ⟨x.1.start, x.1.stop, encode x.2.text⟩) ++
  d.deletions.map (fun e => ⟨e.start, e.stop, []⟩)

/-! ### The steps in the order in which they are taken -/

inductive Op where
  | ins (p : Pos) (ts : List Green)
  | rep (e : Elem) (t : Green)
  | del (e : Elem)

mutual
def opsElem (path : List Nat) (start : Nat) : Green → Green → List Op
  | .node k cs, .node _ rs => opsKids ⟨path, start, .node k cs⟩ none 0 start cs rs
  | .node k cs, .tok k' t => [.rep ⟨path, start, .node k cs⟩ (.tok k' t)]
  | .tok k t, r => [.rep ⟨path, start, .tok k t⟩ r]
def opsKids (parent : Elem) (last : Option Elem) (i s : Nat) : List Green → List Green → List Op
  | [], [] => []
  | [], r :: rs => [.ins (insertPos parent last) (r :: rs)]
  | l :: ls, [] => .del ⟨i :: parent.path, s, l⟩ :: opsKids parent (some ⟨i :: parent.path, s, l⟩) (i + 1) (s + l.len) ls []
  | l :: ls, r :: rs =>
    if elemEq l r then opsKids parent (some ⟨i :: parent.path, s, l⟩) (i + 1) (s + l.len) ls rs
    else match lookAhead l rs with
      | some (pre, post) =>
        .ins (insertPos parent last) (r :: pre) :: opsKids parent (some ⟨i :: parent.path, s, l⟩) (i + 1) (s + l.len) ls post
      | none =>
        opsElem (i :: parent.path) s l r ++ opsKids parent (some ⟨i :: parent.path, s, l⟩) (i + 1) (s + l.len) ls rs
end

def Diff.step (d : Diff) : Op → Diff
  | .ins p ts => d.insert p ts
  | .rep e t => d.replace e t
  | .del e => d.delete e

theorem insertEntry_twice (p : Pos) (xs ys : List Green) (m : List (Pos × List Green)) :
    insertEntry p ys (insertEntry p xs m) = insertEntry p (xs ++ ys) m := by
  induction m with
  | nil => simp [insertEntry]
  | cons q m ih =>
    obtain ⟨q, zs⟩ := q
    unfold insertEntry
    by_cases h : q.key = p.key
    · simp [h, insertEntry]
    · simp [h, insertEntry, ih]

theorem foldl_insert (p : Pos) (rs : List Green) : ∀ (xs : List Green) (d : Diff),
    rs.foldl (fun d r => d.insert p [r]) (d.insert p xs) = d.insert p (xs ++ rs) := by
  induction rs with
  | nil => intro xs d; simp
  | cons r rs ih =>
    intro xs d
    rw [List.foldl_cons]
    have : (d.insert p xs).insert p [r] = d.insert p (xs ++ [r]) := by
      unfold Diff.insert
      simp only [insertEntry_twice]
    rw [this, ih]
    simp

mutual
theorem goElem_ops (d : Diff) (path : List Nat) (start : Nat) (l r : Green) :
    goElem d path start l r = (opsElem path start l r).foldl Diff.step d := by
  cases l with
  | tok k t => simp [goElem, opsElem, Diff.step]
  | node k cs =>
    cases r with
    | tok k' t => simp [goElem, opsElem, Diff.step]
    | node k' rs =>
      rw [goElem, opsElem]
      exact goKids_ops d _ none 0 start cs rs
theorem goKids_ops (d : Diff) (parent : Elem) (last : Option Elem) (i s : Nat) (ls rs : List Green) :
    goKids d parent last i s ls rs = (opsKids parent last i s ls rs).foldl Diff.step d := by
  cases ls with
  | nil =>
    cases rs with
    | nil => simp [goKids, opsKids]
    | cons r rs =>
      rw [goKids, opsKids, List.foldl_cons, foldl_insert]
      rfl
  | cons l ls =>
    cases rs with
    | nil =>
      rw [goKids, opsKids, List.foldl_cons]
      exact goKids_ops _ parent _ _ _ ls []
    | cons r rs =>
      rw [goKids, opsKids]
      split
      · exact goKids_ops _ parent _ _ _ ls rs
      · cases lookAhead l rs with
        | some x =>
          dsimp only
          rw [List.foldl_cons]
          exact goKids_ops _ parent _ _ _ ls x.2
        | none =>
          dsimp only
          rw [List.foldl_append, ← goElem_ops d]
          exact goKids_ops _ parent _ _ _ ls rs
end

/-! ### Positions are used once -/

def opKey : Op → Option (Bool × List Nat)
  | .ins p _ => some p.key
  | _ => none

def opKeys (ops : List Op) : List (Bool × List Nat) := ops.filterMap opKey

theorem opKeys_append (a b : List Op) : opKeys (a ++ b) = opKeys a ++ opKeys b := List.filterMap_append

theorem suffix_len_eq {a b c : List Nat} (h1 : a <:+ c) (h2 : b <:+ c) (h : a.length = b.length) : a = b := by
  obtain ⟨x, rfl⟩ := h1
  obtain ⟨y, hy⟩ := h2
  exact (List.append_inj' hy h.symm).2.symm

mutual
theorem elem_keys (path : List Nat) (start : Nat) (l r : Green) :
    (opKeys (opsElem path start l r)).Nodup ∧
    ∀ k ∈ opKeys (opsElem path start l r), path <:+ k.2 ∧ (k.1 = true → k.2 ≠ path) := by
  cases l with
  | tok k t => simp [opsElem, opKeys, List.filterMap_cons, opKey]
  | node k cs =>
    cases r with
    | tok k' t => simp [opsElem, opKeys, List.filterMap_cons, opKey]
    | node k' rs =>
      rw [opsElem]
      obtain ⟨h1, h2⟩ := kids_keys ⟨path, start, .node k cs⟩ none 0 start cs rs trivial
      refine ⟨h1, ?_⟩
      intro x hx
      rcases h2 x hx with rfl | ⟨j, _, hj⟩
      · simp [insertPos, Pos.key]
      · dsimp only at hj
        refine ⟨(List.suffix_cons j path).trans hj, ?_⟩
        intro _ he
        have := hj.length_le
        rw [he, List.length_cons] at this
        omega
theorem kids_keys (parent : Elem) (last : Option Elem) (i s : Nat) (ls rs : List Green)
    (hl : match last with | none => True | some e => ∃ j < i, e.path = j :: parent.path) :
    (opKeys (opsKids parent last i s ls rs)).Nodup ∧
    ∀ k ∈ opKeys (opsKids parent last i s ls rs), k = (insertPos parent last).key ∨ ∃ j, i ≤ j ∧ (j :: parent.path) <:+ k.2 := by
  cases ls with
  | nil =>
    cases rs with
    | nil => simp [opsKids, opKeys]
    | cons r rs => simp [opsKids, opKeys, opKey]
  | cons l ls =>
    have hnext : ∀ rs, (opKeys (opsKids parent (some ⟨i :: parent.path, s, l⟩) (i + 1) (s + l.len) ls rs)).Nodup ∧
        ∀ k ∈ opKeys (opsKids parent (some ⟨i :: parent.path, s, l⟩) (i + 1) (s + l.len) ls rs),
          k = (true, i :: parent.path) ∨ ∃ j, i + 1 ≤ j ∧ (j :: parent.path) <:+ k.2 := fun rs =>
      kids_keys parent (some ⟨i :: parent.path, s, l⟩) (i + 1) (s + l.len) ls rs ⟨i, by omega, rfl⟩
    have hweak : ∀ k : Bool × List Nat, (k = (true, i :: parent.path) ∨ ∃ j, i + 1 ≤ j ∧ (j :: parent.path) <:+ k.2) →
        ∃ j, i ≤ j ∧ (j :: parent.path) <:+ k.2 := by
      rintro k (rfl | ⟨j, hj, h⟩)
      · exact ⟨i, Nat.le_refl _, List.suffix_refl _⟩
      · exact ⟨j, by omega, h⟩
    cases rs with
    | nil =>
      rw [opsKids]
      obtain ⟨h1, h2⟩ := hnext []
      have hk : ∀ (e : Elem) (x : List Op), opKeys (Op.del e :: x) = opKeys x := by intro e x; simp [opKeys, List.filterMap_cons, opKey]
      rw [hk]
      exact ⟨h1, fun k hx => Or.inr (hweak k (h2 k hx))⟩
    | cons r rs =>
      rw [opsKids]
      split
      · obtain ⟨h1, h2⟩ := hnext rs
        exact ⟨h1, fun k hx => Or.inr (hweak k (h2 k hx))⟩
      · cases hla : lookAhead l rs with
        | some x =>
          dsimp only
          obtain ⟨h1, h2⟩ := hnext x.2
          have hk : ∀ (p : Pos) (ts : List Green) (x : List Op), opKeys (Op.ins p ts :: x) = p.key :: opKeys x := by
            intro e ts x; simp [opKeys, opKey]
          rw [hk]
          constructor
          · refine List.nodup_cons.2 ⟨?_, h1⟩
            intro hm
            have h3 := h2 _ hm
            cases last with
            | none =>
              simp only [insertPos, Pos.key] at h3
              rcases h3 with h3 | ⟨j, _, h3⟩
              · cases h3
              · have := h3.length_le
                rw [List.length_cons] at this
                omega
            | some e =>
              obtain ⟨j0, hj0, he⟩ := hl
              simp only [insertPos, Pos.key, he] at h3
              rcases h3 with h3 | ⟨j, hj, h3⟩
              · simp only [Prod.mk.injEq, List.cons.injEq, true_and, and_true] at h3
                omega
              · have := h3.eq_of_length (by simp)
                simp only [List.cons.injEq, and_true] at this
                omega
          · intro k hk
            rcases List.mem_cons.1 hk with rfl | hk
            · exact Or.inl rfl
            · exact Or.inr (hweak k (h2 k hk))
        | none =>
          dsimp only
          obtain ⟨h1, h2⟩ := hnext rs
          obtain ⟨h3, h4⟩ := elem_keys (i :: parent.path) s l r
          rw [opKeys_append]
          constructor
          · refine List.nodup_append.2 ⟨h3, h1, ?_⟩
            rintro a ha b hb rfl
            obtain ⟨h5, h6⟩ := h4 a ha
            rcases h2 a hb with rfl | ⟨j, hj, h7⟩
            · exact h6 rfl rfl
            · have := suffix_len_eq h5 h7 (by simp)
              simp only [List.cons.injEq, and_true] at this
              omega
          · intro k hk
            rcases List.mem_append.1 hk with hk | hk
            · exact Or.inr ⟨i, Nat.le_refl _, (h4 k hk).1⟩
            · exact Or.inr (hweak k (h2 k hk))
end

def opIns : Op → Option (Pos × List Green)
  | .ins p ts => some (p, ts)
  | _ => none
def opRep : Op → Option (Elem × Green)
  | .rep e t => some (e, t)
  | _ => none
def opDel : Op → Option Elem
  | .del e => some e
  | _ => none

theorem insertEntry_new (p : Pos) (xs : List Green) (m : List (Pos × List Green)) (h : ∀ q ∈ m, q.1.key ≠ p.key) :
    insertEntry p xs m = m ++ [(p, xs)] := by
  induction m with
  | nil => rfl
  | cons q m ih =>
    obtain ⟨q, ys⟩ := q
    unfold insertEntry
    rw [if_neg (h (q, ys) (by simp)), ih (fun x hx => h x (by simp [hx]))]
    rfl

theorem steps_eq (ops : List Op) : ∀ d : Diff, (opKeys ops).Nodup → (∀ q ∈ d.insertions, q.1.key ∉ opKeys ops) →
    ops.foldl Diff.step d = ⟨d.replacements ++ ops.filterMap opRep, d.deletions ++ ops.filterMap opDel,
      d.insertions ++ ops.filterMap opIns⟩ := by
  induction ops with
  | nil => intro d _ _; simp
  | cons o ops ih =>
    intro d hn hd
    rw [List.foldl_cons]
    cases o with
    | ins p ts =>
      have hk : opKeys (Op.ins p ts :: ops) = p.key :: opKeys ops := by simp [opKeys, opKey]
      rw [hk] at hn hd
      obtain ⟨hn1, hn2⟩ := List.nodup_cons.1 hn
      have he : insertEntry p ts d.insertions = d.insertions ++ [(p, ts)] :=
        insertEntry_new p ts _ (fun q hq he => hd q hq (by rw [he]; simp))
      simp only [Diff.step, Diff.insert, he]
      rw [ih _ hn2]
      · simp [List.filterMap_cons, opIns, opRep, opDel]
      · intro q hq
        rcases List.mem_append.1 hq with hq | hq
        · exact fun hm => hd q hq (by simp [hm])
        · rw [List.mem_singleton] at hq
          subst hq
          exact hn1
    | rep e t =>
      have hk : opKeys (Op.rep e t :: ops) = opKeys ops := by simp [opKeys, List.filterMap_cons, opKey]
      rw [hk] at hn hd
      simp only [Diff.step, Diff.replace]
      rw [ih ⟨d.replacements ++ [(e, t)], d.deletions, d.insertions⟩ hn hd]
      simp [List.filterMap_cons, opIns, opRep, opDel]
    | del e =>
      have hk : opKeys (Op.del e :: ops) = opKeys ops := by simp [opKeys, List.filterMap_cons, opKey]
      rw [hk] at hn hd
      simp only [Diff.step, Diff.delete]
      rw [ih ⟨d.replacements, d.deletions ++ [e], d.insertions⟩ hn hd]
      simp [List.filterMap_cons, opIns, opRep, opDel]

/-! ### The changes in the order of the text -/

def opChanges : Op → List Change
  | .ins p ts => ts.map fun t => ⟨p.offset, p.offset, encode t.text⟩
  | .rep e t => [⟨e.start, e.stop, encode t.text⟩]
  | .del e => [⟨e.start, e.stop, []⟩]

/-- The changes turn the text `x` at offset `s` into `y`, from left to right. -/
inductive Edits : Nat → List Change → List Char → List Char → Prop where
  | keep (s : Nat) (x : List Char) : Edits s [] x x
  | change (s : Nat) (x y : List Char) : Edits s [⟨s, s + blen x, encode y⟩] x y
  | seq {s : Nat} {c1 c2 : List Change} {x1 x2 y1 y2 : List Char} : Edits s c1 x1 y1 → Edits (s + blen x1) c2 x2 y2 →
      Edits s (c1 ++ c2) (x1 ++ x2) (y1 ++ y2)

theorem elemEq_text {l r : Green} (h : elemEq l r = true) : l.text = r.text := by
  unfold elemEq at h
  simp only [Bool.and_eq_true, decide_eq_true_eq] at h
  exact h.2

theorem lookAhead_text {l : Green} {rs pre post : List Green} (h : lookAhead l rs = some (pre, post)) :
    (rs.map Green.text).flatten = (pre.map Green.text).flatten ++ l.text ++ (post.map Green.text).flatten := by
  induction rs generalizing pre post with
  | nil => simp [lookAhead] at h
  | cons r rs ih =>
    unfold lookAhead at h
    split at h
    · rename_i he
      cases h
      simp [elemEq_text he]
    · obtain ⟨⟨p, q⟩, hp, he⟩ := Option.map_eq_some_iff.1 h
      cases he
      simp [ih hp]

theorem Edits.inserts (s : Nat) (ts : List Green) :
    Edits s (ts.map fun t => ⟨s, s, encode t.text⟩) [] (ts.map Green.text).flatten := by
  induction ts with
  | nil => exact Edits.keep s []
  | cons t ts ih => exact Edits.seq (x1 := []) (x2 := []) (Edits.change s [] t.text) ih

mutual
theorem elem_edits (path : List Nat) (start : Nat) (l r : Green) :
    Edits start ((opsElem path start l r).flatMap opChanges) l.text r.text := by
  cases l with
  | tok k t => exact Edits.change start (Green.tok k t).text r.text
  | node k cs =>
    cases r with
    | tok k' t => exact Edits.change start (Green.node k cs).text (Green.tok k' t).text
    | node k' rs =>
      rw [opsElem, Green.text_node, Green.text_node]
      exact kids_edits ⟨path, start, .node k cs⟩ none 0 start cs rs rfl
theorem kids_edits (parent : Elem) (last : Option Elem) (i s : Nat) (ls rs : List Green)
    (hl : (insertPos parent last).offset = s) :
    Edits s ((opsKids parent last i s ls rs).flatMap opChanges) (ls.map Green.text).flatten (rs.map Green.text).flatten := by
  cases ls with
  | nil =>
    cases rs with
    | nil => exact Edits.keep s []
    | cons r rs =>
      have := Edits.inserts s (r :: rs)
      simpa [opsKids, opChanges, hl] using this
  | cons l ls =>
    have hnext := fun rs => kids_edits parent (some ⟨i :: parent.path, s, l⟩) (i + 1) (s + l.len) ls rs rfl
    rw [List.map_cons, List.flatten_cons]
    cases rs with
    | nil =>
      rw [opsKids, List.flatMap_cons]
      exact Edits.seq (y1 := []) (Edits.change s l.text []) (hnext [])
    | cons r rs =>
      rw [opsKids]
      split
      · rename_i he
        rw [List.map_cons, List.flatten_cons, ← elemEq_text he]
        exact Edits.seq (Edits.keep s l.text) (hnext rs)
      · cases hla : lookAhead l rs with
        | some x =>
          dsimp only
          rw [List.flatMap_cons, List.map_cons, List.flatten_cons, lookAhead_text (pre := x.1) (post := x.2) hla]
          have h1 := Edits.inserts s (r :: x.1)
          have h2 := Edits.seq h1 (Edits.seq (Edits.keep _ l.text) (hnext x.2))
          simpa [opChanges, hl] using h2
        | none =>
          dsimp only
          rw [List.flatMap_append, List.map_cons, List.flatten_cons]
          exact Edits.seq (elem_edits _ s l r) (hnext rs)
end

theorem encode_append (a b : List Char) : encode (a ++ b) = encode a ++ encode b := by simp [encode]

theorem encode_length (a : List Char) : (encode a).length = blen a := by
  induction a with
  | nil => rfl
  | cons c cs ih =>
    rw [show c :: cs = [c] ++ cs from rfl, encode_append, List.length_append, ih, Lexer.blen_append]
    congr 1
    simp [encode, blen]

/-- A change that lies on the boundaries of characters of `x`, placed at `s`. -/
def Within (s : Nat) (x : List Char) (c : Change) : Prop :=
  IsStr c.newText ∧ c.start ≤ c.stop ∧ (∃ a b, x = a ++ b ∧ c.start = s + blen a) ∧ (∃ a b, x = a ++ b ∧ c.stop = s + blen a)

theorem Within.bounds {s : Nat} {x : List Char} {c : Change} (h : Within s x c) : s ≤ c.start ∧ c.stop ≤ s + blen x := by
  obtain ⟨_, _, ⟨a, b, _, h1⟩, ⟨a', b', rfl, h2⟩⟩ := h
  rw [Lexer.blen_append]
  omega

theorem Edits.within {s : Nat} {cs : List Change} {x y : List Char} (h : Edits s cs x y) : ∀ c ∈ cs, Within s x c := by
  induction h with
  | keep => intro c hc; cases hc
  | change s x y =>
    intro c hc
    rw [List.mem_singleton] at hc
    subst hc
    exact ⟨⟨y, rfl⟩, Nat.le_add_right _ _, ⟨[], x, rfl, rfl⟩, ⟨x, [], by simp, rfl⟩⟩
  | @seq s c1 c2 x1 x2 y1 y2 _ _ ih1 ih2 =>
    intro c hc
    rcases List.mem_append.1 hc with hc | hc
    · obtain ⟨h1, h2, ⟨a, b, rfl, h3⟩, ⟨a', b', h4, h5⟩⟩ := ih1 c hc
      exact ⟨h1, h2, ⟨a, b ++ x2, by simp, h3⟩, ⟨a', b' ++ x2, by rw [h4]; simp, h5⟩⟩
    · obtain ⟨h1, h2, ⟨a, b, rfl, h3⟩, ⟨a', b', h4, h5⟩⟩ := ih2 c hc
      exact ⟨h1, h2, ⟨x1 ++ a, b, by simp, by rw [Lexer.blen_append]; omega⟩,
        ⟨x1 ++ a', b', by rw [h4]; simp, by rw [Lexer.blen_append]; omega⟩⟩

theorem Edits.ordered {s : Nat} {cs : List Change} {x y : List Char} (h : Edits s cs x y) :
    cs.Pairwise fun a b => a.stop ≤ b.start := by
  induction h with
  | keep => exact List.Pairwise.nil
  | change s x y => exact List.pairwise_singleton _ _
  | seq h1 h2 ih1 ih2 =>
    refine List.pairwise_append.2 ⟨ih1, ih2, ?_⟩
    intro a ha b hb
    exact Nat.le_trans (h1.within a ha).bounds.2 (h2.within b hb).bounds.1

theorem splice_skip (s n : Nat) (rest : List Change) (x tail : Text) (hx : x.length = n)
    (h : ∀ c ∈ rest, s + n ≤ c.start ∧ c.start ≤ c.stop) : splice s rest (x ++ tail) = x ++ splice (s + n) rest tail := by
  cases rest with
  | nil => rfl
  | cons c cs =>
    obtain ⟨h1, h2⟩ := h c (by simp)
    simp only [splice]
    rw [List.take_append, List.drop_append, List.take_of_length_le (by omega : x.length ≤ c.start - s),
      List.drop_eq_nil_of_le (by omega : x.length ≤ c.stop - s)]
    rw [show c.start - s - x.length = c.start - (s + n) by omega, show c.stop - s - x.length = c.stop - (s + n) by omega]
    simp

theorem Edits.splice_eq {s : Nat} {cs : List Change} {x y : List Char} (h : Edits s cs x y) :
    ∀ (rest : List Change) (tail : Text), (∀ c ∈ rest, s + blen x ≤ c.start ∧ c.start ≤ c.stop) →
      splice s (cs ++ rest) (encode x ++ tail) = encode y ++ splice (s + blen x) rest tail := by
  induction h with
  | keep s x =>
    intro rest tail hr
    exact splice_skip s (blen x) rest (encode x) tail (encode_length x) hr
  | change s x y =>
    intro rest tail hr
    have hl := encode_length x
    simp only [List.singleton_append, splice, Nat.sub_self, List.take_zero, List.nil_append]
    rw [show s + blen x - s = (encode x).length by omega, List.drop_left]
  | @seq s c1 c2 x1 x2 y1 y2 h1 h2 ih1 ih2 =>
    intro rest tail hr
    rw [Lexer.blen_append] at hr
    rw [encode_append, encode_append, List.append_assoc, List.append_assoc, List.append_assoc, ih1, ih2, Lexer.blen_append]
    · simp [Nat.add_assoc]
    · intro c hc
      have := hr c hc
      omega
    · intro c hc
      rcases List.mem_append.1 hc with hc | hc
      · have := h2.within c hc
        exact ⟨this.bounds.1, this.2.1⟩
      · have := hr c hc
        omega

/-! ### Sorting -/

/-- An element below another one. -/
inductive Below : Green → Green → Prop where
  | child {x g : Green} : x ∈ g.children → Below x g
  | step {x c g : Green} : c ∈ g.children → Below x c → Below x g

/-- No element below it is empty. -/
def Solid (g : Green) : Prop := ∀ x, Below x g → x.text ≠ []

theorem Solid.child {g c : Green} (h : Solid g) (hc : c ∈ g.children) : Solid c := fun x hx => h x (.step hc hx)

def opFull : Op → Prop
  | .ins _ _ => True
  | .rep e _ => e.green.text ≠ []
  | .del e => e.green.text ≠ []

mutual
theorem elem_full (path : List Nat) (start : Nat) (l r : Green) (hs : Solid l)
    (hr : l.text ≠ [] ∨ (l.isTok = false ∧ r.isTok = false)) : ∀ o ∈ opsElem path start l r, opFull o := by
  cases l with
  | tok k t =>
    intro o ho
    simp only [opsElem, List.mem_singleton] at ho
    subst ho
    rcases hr with hr | ⟨hr, _⟩
    · exact hr
    · cases hr
  | node k cs =>
    cases r with
    | tok k' t =>
      intro o ho
      simp only [opsElem, List.mem_singleton] at ho
      subst ho
      rcases hr with hr | ⟨_, hr⟩
      · exact hr
      · cases hr
    | node k' rs =>
      rw [opsElem]
      exact kids_full _ _ _ _ cs rs (fun c hc => ⟨hs c (.child hc), hs.child hc⟩)
theorem kids_full (parent : Elem) (last : Option Elem) (i s : Nat) (ls rs : List Green)
    (hs : ∀ c ∈ ls, c.text ≠ [] ∧ Solid c) : ∀ o ∈ opsKids parent last i s ls rs, opFull o := by
  cases ls with
  | nil =>
    cases rs with
    | nil => intro o ho; simp [opsKids] at ho
    | cons r rs =>
      intro o ho
      simp only [opsKids, List.mem_singleton] at ho
      subst ho
      trivial
  | cons l ls =>
    have hl := hs l (by simp)
    have hls : ∀ c ∈ ls, c.text ≠ [] ∧ Solid c := fun c hc => hs c (by simp [hc])
    cases rs with
    | nil =>
      rw [opsKids]
      intro o ho
      rcases List.mem_cons.1 ho with rfl | ho
      · exact hl.1
      · exact kids_full _ _ _ _ ls [] hls o ho
    | cons r rs =>
      rw [opsKids]
      split
      · exact kids_full _ _ _ _ ls rs hls
      · cases lookAhead l rs with
        | some x =>
          intro o ho
          rcases List.mem_cons.1 ho with rfl | ho
          · trivial
          · exact kids_full _ _ _ _ ls x.2 hls o ho
        | none =>
          intro o ho
          rcases List.mem_append.1 ho with ho | ho
          · exact elem_full _ _ l r hl.2 (Or.inl hl.1) o ho
          · exact kids_full _ _ _ _ ls rs hls o ho
end

def insChanges (l : List (Pos × List Green)) : List Change :=
  l.flatMap fun x => x.2.map fun t => ⟨x.1.offset, x.1.offset, encode t.text⟩
def repChanges (l : List (Elem × Green)) : List Change := l.map (fun x => ⟨x.1.start, x.1.stop, encode x.2.text⟩)
def delChanges (l : List Elem) : List Change := l.map (fun e => ⟨e.start, e.stop, []⟩)

theorem ops_perm (ops : List Op) : (ops.flatMap opChanges).Perm
    (insChanges (ops.filterMap opIns) ++ repChanges (ops.filterMap opRep) ++ delChanges (ops.filterMap opDel)) := by
  induction ops with
  | nil => exact List.Perm.refl _
  | cons o ops ih =>
    rw [List.flatMap_cons]
    cases o with
    | ins p ts =>
      simp only [List.filterMap_cons, opIns, opRep, opDel, insChanges, List.flatMap_cons, opChanges, List.append_assoc]
      refine List.Perm.append_left _ ?_
      simpa only [insChanges, List.append_assoc] using ih
    | rep e t =>
      simp only [List.filterMap_cons, opIns, opRep, opDel, repChanges, List.map_cons, opChanges, List.singleton_append]
      refine ((List.Perm.cons _ ih).trans ?_)
      rw [List.append_assoc, List.append_assoc]
      exact List.perm_middle.symm
    | del e =>
      simp only [List.filterMap_cons, opIns, opRep, opDel, delChanges, List.map_cons, opChanges, List.singleton_append]
      exact (List.Perm.cons _ ih).trans List.perm_middle.symm

theorem full_lt {e : Elem} (h : e.green.text ≠ []) : e.start < e.stop := by
  have := Lexer.blen_pos h
  unfold Elem.stop Green.len
  omega

theorem ops_ins (ops : List Op) (hf : ∀ o ∈ ops, opFull o) (p : Change → Bool) (hp : ∀ c, c.start < c.stop → p c = false) :
    (ops.flatMap opChanges).filter p = (insChanges (ops.filterMap opIns)).filter p := by
  induction ops with
  | nil => rfl
  | cons o ops ih =>
    have ih := ih (fun o ho => hf o (by simp [ho]))
    have ho := hf o (by simp)
    rw [List.flatMap_cons, List.filter_append, ih]
    cases o with
    | ins q ts =>
      simp only [List.filterMap_cons, opIns, insChanges, List.flatMap_cons, opChanges, List.filter_append]
    | rep e t =>
      have := hp ⟨e.start, e.stop, encode t.text⟩ (full_lt ho)
      simp [opChanges, List.filterMap_cons, opIns, this]
    | del e =>
      have := hp ⟨e.start, e.stop, []⟩ (full_lt ho)
      simp [opChanges, List.filterMap_cons, opIns, this]

theorem perm_small {l m : List Change} (hp : l.Perm m) (h : l.length ≤ 1) : l = m := by
  cases l with
  | nil => exact (List.nil_perm.1 hp).symm
  | cons a l =>
    cases l with
    | nil => exact List.singleton_perm.1 hp
    | cons b l => simp at h

/-- Giving the changes to the builder as insertions, replacements in any order and deletions, and sorting them, gives the order
of the text. -/
theorem stable (ops : List Op) (reps : List (Elem × Green)) (hf : ∀ o ∈ ops, opFull o)
    (hr : reps.Perm (ops.filterMap opRep)) (ho : (ops.flatMap opChanges).Pairwise fun a b => a.stop ≤ b.start)
    (hv : ∀ c ∈ ops.flatMap opChanges, c.start ≤ c.stop) :
    IsStableSort Change.key (insChanges (ops.filterMap opIns) ++ repChanges reps ++ delChanges (ops.filterMap opDel))
      (ops.flatMap opChanges) := by
  have hperm : (ops.flatMap opChanges).Perm
      (insChanges (ops.filterMap opIns) ++ repChanges reps ++ delChanges (ops.filterMap opDel)) :=
    (ops_perm ops).trans (List.Perm.append_right _ (List.Perm.append_left _ (List.Perm.map _ hr.symm)))
  constructor
  · refine ho.imp_of_mem ?_
    intro a b ha hb hab
    have h1 := hv a ha
    have h2 := hv b hb
    rw [key_le]
    omega
  · intro k
    by_cases hk : (ofLex k).1 = (ofLex k).2
    · have hp : ∀ c : Change, c.start < c.stop → decide (c.key = k) = false := by
        intro c hc
        rw [decide_eq_false_iff_not]
        rintro rfl
        simp only [Change.key, ofLex_toLex] at hk
        omega
      unfold withKey
      rw [ops_ins ops hf _ hp, List.filter_append, List.filter_append]
      have h1 : (repChanges reps).filter (fun c => decide (c.key = k)) = [] := by
        rw [List.filter_eq_nil_iff]
        intro c hc
        obtain ⟨x, hx, rfl⟩ := List.mem_map.1 hc
        obtain ⟨o, ho, he⟩ := List.mem_filterMap.1 (hr.mem_iff.1 hx)
        have hof := hf o ho
        cases o with
        | rep e t =>
          cases he
          rw [hp _ (full_lt (e := e) hof)]
          simp
        | ins p ts => cases he
        | del e => cases he
      have h2 : (delChanges (ops.filterMap opDel)).filter (fun c => decide (c.key = k)) = [] := by
        rw [List.filter_eq_nil_iff]
        intro c hc
        obtain ⟨x, hx, rfl⟩ := List.mem_map.1 hc
        obtain ⟨o, ho, he⟩ := List.mem_filterMap.1 hx
        have hof := hf o ho
        cases o with
        | del e =>
          cases he
          rw [hp _ (full_lt (e := x) hof)]
          simp
        | ins p ts => cases he
        | rep e t => cases he
      rw [h1, h2]
      simp
    · unfold withKey
      apply perm_small (hperm.filter _)
      have hpw : ((ops.flatMap opChanges).filter (fun c => decide (c.key = k))).Pairwise fun a b => a.stop ≤ b.start :=
        ho.sublist List.filter_sublist
      match hw : (ops.flatMap opChanges).filter (fun c => decide (c.key = k)) with
      | [] => rw [hw]; simp
      | [_] => rw [hw]; simp
      | a :: b :: t =>
        exfalso
        rw [hw] at hpw
        have hab := (List.pairwise_cons.1 hpw).1 b (by simp)
        have ha : a ∈ (ops.flatMap opChanges).filter (fun c => decide (c.key = k)) := by rw [hw]; simp
        have hb : b ∈ (ops.flatMap opChanges).filter (fun c => decide (c.key = k)) := by rw [hw]; simp
        have hva := hv a (List.mem_filter.1 ha).1
        have hka : a.key = k := by simpa using (List.mem_filter.1 ha).2
        have hkb : b.key = k := by simpa using (List.mem_filter.1 hb).2
        rw [← hka] at hk hkb
        simp only [Change.key, ofLex_toLex, toLex_inj, Prod.mk.injEq] at hk hkb
        omega

theorem boundary (a b : List Char) : isCharBoundary (encode (a ++ b)) (blen a) = true := by
  have hl : (encode (a ++ b)).length = blen a + blen b := by rw [encode_length, Lexer.blen_append]
  rw [isCharBoundary_iff (by omega)]
  right
  rw [encode_append, ← encode_length a, List.drop_left]
  exact IsStr.headStarts ⟨b, rfl⟩

/-- **C48.** The edit made from the difference of two nodes turns the text of the old one, anywhere in a file, into that of the
new one, for every order of the replacements. Missing: old trees with empty elements. -/
theorem C48_partial (old : Elem) (new : Green) (reps : List (Elem × Green)) (pre post : List Char)
    (hold : old.green.isTok = false) (hnew : new.isTok = false) (hpre : old.start = blen pre) (hs : Solid old.green)
    (hr : reps.Perm (treeDiff old new).replacements) :
    ∃ e, build (changes (treeDiff old new) reps) = some e ∧
      apply e (encode (pre ++ old.green.text ++ post)) = some (encode (pre ++ new.text ++ post)) := by
  by_cases heq : elemEq old.green new = true
  · have ht := elemEq_text heq
    have hd : treeDiff old new = ⟨[], [], []⟩ := by unfold treeDiff; rw [if_pos heq]
    rw [hd] at hr ⊢
    have : reps = [] := List.perm_nil.1 hr
    subst this
    exact ⟨[], rfl, by rw [ht]; rfl⟩
  · let ops := opsElem old.path old.start old.green new
    have hd : treeDiff old new = ⟨ops.filterMap opRep, ops.filterMap opDel, ops.filterMap opIns⟩ := by
      unfold treeDiff
      rw [if_neg heq, goElem_ops, steps_eq _ _ (elem_keys _ _ _ _).1 (by intro q hq; cases hq)]
      simp [ops]
    rw [hd] at hr ⊢
    have hf : ∀ o ∈ ops, opFull o := elem_full _ _ _ _ hs (Or.inr ⟨hold, hnew⟩)
    have he : Edits old.start (ops.flatMap opChanges) old.green.text new.text := elem_edits _ _ _ _
    have hv : ∀ c ∈ ops.flatMap opChanges, c.start ≤ c.stop := fun c hc => (he.within c hc).2.1
    have hst := stable ops reps hf hr he.ordered hv
    have hvalid : ∀ c ∈ ops.flatMap opChanges, ValidIn (encode (pre ++ old.green.text ++ post)) c := by
      intro c hc
      obtain ⟨h1, h2, ⟨a, b, h3, h4⟩, ⟨a', b', h5, h6⟩⟩ := he.within c hc
      have hb : ∀ a b, old.green.text = a ++ b → ∀ n, n = old.start + blen a →
          isCharBoundary (encode (pre ++ old.green.text ++ post)) n = true := by
        rintro a b hab n rfl
        have := boundary (pre ++ a) (b ++ post)
        rw [Lexer.blen_append, ← hpre] at this
        rw [hab]
        simpa using this
      refine ⟨h2, ?_, hb a b h3 _ h4, hb a' b' h5 _ h6, h1⟩
      rw [encode_length, Lexer.blen_append, Lexer.blen_append, h6, h5, Lexer.blen_append]
      omega
    have hperm : (ops.flatMap opChanges).Perm
        (insChanges (ops.filterMap opIns) ++ repChanges reps ++ delChanges (ops.filterMap opDel)) :=
      (ops_perm ops).trans (List.Perm.append_right _ (List.Perm.append_left _ (List.Perm.map _ hr.symm)))
    obtain ⟨e, h1, h2⟩ := C01_apply_is_simultaneous _ (ops.flatMap opChanges) (encode (pre ++ old.green.text ++ post))
      (fun c hc => hvalid c (hperm.mem_iff.2 hc))
      ((hperm.pairwise_iff (fun {a b} (h : Disjoint a b) => Or.symm h)).1 (he.ordered.imp fun h => Or.inl h)) hst
    refine ⟨e, h1, ?_⟩
    rw [h2, encode_append, encode_append, List.append_assoc]
    have h3 := splice_skip 0 (blen pre) (ops.flatMap opChanges) (encode pre) (encode old.green.text ++ encode post)
      (encode_length pre) (fun c hc => ⟨by rw [Nat.zero_add, ← hpre]; exact (he.within c hc).bounds.1, hv c hc⟩)
    have h4 := he.splice_eq [] (encode post) (by intro c hc; cases hc)
    rw [List.append_nil] at h4
    rw [h3, Nat.zero_add, ← hpre, h4]
    simp [splice, encode_append]

/-- `fun f ( ) { x }` as a tree: a name replaced inside, a token inserted and one deleted. -/
def exOld : Green := .node .FUN [.tok .FUN_KW ['f'], .tok .WHITESPACE [' '], .node .NAME [.tok .IDENT ['a']],
  .node .BLOCK_EXPR [.tok .L_CURLY ['{'], .tok .R_CURLY ['}'], .tok .WHITESPACE [' ']]]
def exNew : Green := .node .FUN [.tok .PUBLIC_KW ['p'], .tok .FUN_KW ['f'], .tok .WHITESPACE [' '], .node .NAME [.tok .IDENT ['é']],
  .node .BLOCK_EXPR [.tok .L_CURLY ['{'], .node .NAME [.tok .IDENT ['b']], .tok .R_CURLY ['}']]]

theorem exOld_solid : Solid exOld := by
  intro x hx
  have h1 : ∀ c ∈ exOld.children, c.text ≠ [] ∧ ∀ d ∈ c.children, d.text ≠ [] ∧ d.children = [] := by
    simp [exOld, Green.children, Green.text, Green.leaves, Green.leavesList]
  cases hx with
  | child h => exact (h1 x h).1
  | step hc h =>
    cases h with
    | child h => exact ((h1 _ hc).2 x h).1
    | step hd h =>
      have := ((h1 _ hc).2 _ hd).2
      cases h with
      | child h => rw [this] at h; cases h
      | step h _ => rw [this] at h; cases h

example : ∃ e, build (changes (treeDiff (Elem.root exOld) exNew) (treeDiff (Elem.root exOld) exNew).replacements) = some e ∧
    apply e (encode exOld.text) = some (encode exNew.text) := by
  have := C48_partial (Elem.root exOld) exNew _ [] [] rfl rfl rfl exOld_solid (List.Perm.refl _)
  simp only [List.nil_append, List.append_nil] at this
  exact this

/-- An empty node of the old tree that is replaced by a token, with another token inserted after it: the insertion is given to
the builder first, and the two come out in the wrong order. -/
theorem C48_empty_fails : ¬ ∀ (old new : Green), old.isTok = false → new.isTok = false →
    ∃ e, build (changes (treeDiff (Elem.root old) new) (treeDiff (Elem.root old) new).replacements) = some e ∧
      apply e (encode old.text) = some (encode new.text) := by
  intro h
  obtain ⟨e, h1, h2⟩ := h (.node .BLOCK_EXPR [.tok .IDENT ['a'], .node .NAME []])
    (.node .BLOCK_EXPR [.tok .IDENT ['a'], .tok .IDENT ['x'], .tok .COMMA [',']]) rfl rfl
  have h3 := build_eq h1
  subst h3
  revert h2
  decide +kernel

end Verif.TextEdit.TreeDiff
