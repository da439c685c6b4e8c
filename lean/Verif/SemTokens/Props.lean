import Verif.SemTokens.Model

/-! Property theorems for semantic tokens: C45, C46. -/

namespace Verif.SemTokens

namespace Spec

/-- An absolute token. -/
structure Abs where
  line : Nat
  char : Nat
  length : Nat
  type : Nat
deriving DecidableEq, Repr

/-- Decoding by the rules of the protocol: positions are relative to the previous token, the start
character only if on the same line. -/
def decode (line char : Nat) : List Token → List Abs
  | [] => []
  | t :: ts =>
    let line' := line + t.deltaLine
    let char' := if t.deltaLine = 0 then char + t.deltaStart else t.deltaStart
    ⟨line', char', t.length, t.tokenType⟩ :: decode line' char' ts

/-- Tokens as the client should see them. -/
def expected (ts : List (Range × Nat)) : List Abs :=
  ts.map fun t => ⟨t.1.start.line, t.1.start.character, t.1.stop.character - t.1.start.character, t.2⟩

/-- Single-line tokens in document order. -/
def Sorted (ts : List (Range × Nat)) : Prop :=
  ts.Pairwise (fun a b => Pos.le a.1.start b.1.start) ∧
    ∀ t ∈ ts, t.1.start.line = t.1.stop.line ∧ t.1.start.character ≤ t.1.stop.character

/-- The wire format: five integers per token. -/
def flat (ts : List Token) : List Nat :=
  ts.flatMap fun t => [t.deltaLine, t.deltaStart, t.length, t.tokenType, t.modifiers]

/-- Applying one edit to the integers the client holds. -/
def applyEdit (data : List Nat) (e : Edit) : List Nat :=
  data.take e.start ++ flat e.data ++ data.drop (e.start + e.deleteCount)

end Spec

open Spec

theorem decode_append (l c : Nat) (xs ys : List Token) :
    ∃ l' c', decode l c (xs ++ ys) = decode l c xs ++ decode l' c' ys ∧
      ∀ z, decode l c (xs ++ z) = decode l c xs ++ decode l' c' z := by
  induction xs generalizing l c with
  | nil => exact ⟨l, c, rfl, fun _ => rfl⟩
  | cons t ts ih =>
    obtain ⟨l', c', _, h2⟩ := ih (l + t.deltaLine)
      (if t.deltaLine = 0 then c + t.deltaStart else t.deltaStart)
    exact ⟨l', c', by simp [decode, h2], fun z => by simp [decode, h2]⟩

/-- Invariant of the builder: the decoder stands where the builder stands. -/
def Inv (b : Builder) (done : List (Range × Nat)) : Prop :=
  (b.data = [] ↔ done = []) ∧
  (b.data = [] → b.prevLine = 0 ∧ b.prevChar = 0) ∧
  (∀ z, decode 0 0 (b.data ++ z) = expected done ++ decode b.prevLine b.prevChar z) ∧
  (∀ t ∈ done.getLast?, b.prevLine = t.1.start.line ∧ b.prevChar = t.1.start.character)

theorem push_inv {b : Builder} {done : List (Range × Nat)} {r : Range} {ty : Nat} (h : Inv b done)
    (hle : ∀ t ∈ done, Pos.le t.1.start r.start) (hr : r.start.character ≤ r.stop.character) :
    ∃ b', b.push r ty = some b' ∧ Inv b' (done ++ [(r, ty)]) := by
  obtain ⟨h1, h2, h3, h4⟩ := h
  have hle' : Pos.le ⟨b.prevLine, b.prevChar⟩ r.start := by
    cases hl : done.getLast? with
    | none =>
      have : done = [] := by simpa using hl
      have := h2 (h1.2 this)
      unfold Pos.le; simp only [this]; omega
    | some t =>
      have := h4 t (by rw [hl]; rfl)
      have h5 := hle t (List.mem_of_getLast? hl)
      unfold Pos.le at h5 ⊢; simp only [this]; exact h5
  unfold Pos.le at hle'
  simp only at hle'
  have hd : ∃ dl ds, (if b.data.isEmpty then some (r.start.line, r.start.character)
      else (checkedSub r.start.line b.prevLine).bind fun pushLine =>
        if pushLine = 0 then (checkedSub r.start.character b.prevChar).map fun c => (pushLine, c)
        else some (pushLine, r.start.character)) = some (dl, ds) ∧
      b.prevLine + dl = r.start.line ∧ (if dl = 0 then b.prevChar + ds else ds) = r.start.character := by
    by_cases he : b.data = []
    · have := h2 he
      refine ⟨r.start.line, r.start.character, by simp [he], by omega, ?_⟩
      split <;> omega
    · simp only [List.isEmpty_iff, he, if_false, checkedSub]
      by_cases hl : r.start.line = b.prevLine
      · refine ⟨0, r.start.character - b.prevChar, ?_, by omega, ?_⟩
        · have : b.prevChar ≤ r.start.character := by omega
          simp [hl, this]
        · simp; omega
      · refine ⟨r.start.line - b.prevLine, r.start.character, ?_, by omega, ?_⟩
        · have h5 : b.prevLine ≤ r.start.line := by omega
          have h6 : r.start.line - b.prevLine ≠ 0 := by omega
          simp [h5, h6]
        · have h6 : r.start.line - b.prevLine ≠ 0 := by omega
          simp [h6]
  obtain ⟨dl, ds, e1, e2, e3⟩ := hd
  have hpush : b.push r ty = some { prevLine := r.start.line, prevChar := r.start.character
                                    data := b.data ++ [⟨dl, ds, r.stop.character - r.start.character, ty, 0⟩] } := by
    unfold Builder.push
    simp only [e1, Option.bind_some]
    simp only [checkedSub, hr, if_true, Option.map_some]
  refine ⟨_, hpush, by simp, by simp, ?_, by simp⟩
  intro z
  simp only [List.append_assoc, List.cons_append, List.nil_append]
  rw [h3]
  simp only [decode, e2, e3, expected, List.map_append, List.map_cons, List.map_nil, List.append_assoc,
    List.cons_append, List.nil_append]

theorem pushAll_inv {b : Builder} {done ts : List (Range × Nat)} (h : Inv b done)
    (hs : Sorted (done ++ ts)) : ∃ b', pushAll b ts = some b' ∧ Inv b' (done ++ ts) := by
  induction ts generalizing b done with
  | nil => exact ⟨b, rfl, by simpa using h⟩
  | cons t ts ih =>
    obtain ⟨r, ty⟩ := t
    have hp := List.pairwise_append.1 hs.1
    have hr := (hs.2 (r, ty) (by simp)).2
    obtain ⟨b1, e1, i1⟩ := push_inv (ty := ty) h (fun t ht => hp.2.2 t ht (r, ty) (by simp)) hr
    obtain ⟨b2, e2, i2⟩ := ih i1 (by simpa using hs)
    exact ⟨b2, by simp [pushAll, e1, e2], by simpa using i2⟩

/-- **C45.** For single-line tokens in document order no subtraction overflows, and decoding the data by
the rules of the protocol gives back every token's position, length and type, in order. -/
theorem C45_decode (ts : List (Range × Nat)) (hs : Sorted ts) :
    ∃ b, pushAll {} ts = some b ∧ decode 0 0 b.data = expected ts := by
  have h0 : Inv {} [] := ⟨by simp, by simp, by simp [expected], by simp⟩
  obtain ⟨b, h1, h2⟩ := pushAll_inv (done := []) h0 (by simpa using hs)
  refine ⟨b, h1, ?_⟩
  have := h2.2.2.1 []
  simpa [decode] using this

/-- **C45 (necessity).** Sending tokens out of order overflows: if a later token starts before the
previous one, no data is produced. -/
theorem C45_out_of_order_overflows (b b' : Builder) (r1 r2 : Range) (t1 t2 : Nat)
    (h1 : b.push r1 t1 = some b') (hlt : ¬ Pos.le r1.start r2.start) : b'.push r2 t2 = none := by
  unfold Builder.push at h1
  rw [Option.bind_eq_some_iff] at h1
  obtain ⟨d, _, h2⟩ := h1
  rw [Option.map_eq_some_iff] at h2
  obtain ⟨len, _, rfl⟩ := h2
  unfold Pos.le at hlt
  unfold Builder.push checkedSub
  simp only [List.isEmpty_iff, List.append_eq_nil_iff, List.cons_ne_self, and_false, if_false]
  by_cases hl : r1.start.line ≤ r2.start.line
  · have h3 : r2.start.line - r1.start.line = 0 := by omega
    have h4 : ¬ r1.start.character ≤ r2.start.character := by omega
    simp [hl, h3, h4]
  · simp [hl]

example : Sorted [(⟨⟨0, 3⟩, ⟨0, 5⟩⟩, 1), (⟨⟨0, 5⟩, ⟨0, 9⟩⟩, 2), (⟨⟨4, 1⟩, ⟨4, 2⟩⟩, 3)] := by
  constructor
  · simp [Pos.le]
  · simp

/-! ### Deltas -/

theorem commonPrefix_le_left {α : Type} [DecidableEq α] (a b : List α) : commonPrefix a b ≤ a.length := by
  fun_induction commonPrefix a b <;> simp_all

theorem commonPrefix_le_right {α : Type} [DecidableEq α] (a b : List α) : commonPrefix a b ≤ b.length := by
  fun_induction commonPrefix a b <;> simp_all

theorem commonPrefix_take {α : Type} [DecidableEq α] (a b : List α) :
    a.take (commonPrefix a b) = b.take (commonPrefix a b) := by
  fun_induction commonPrefix a b <;> simp_all

theorem commonPrefix_self {α : Type} [DecidableEq α] (a : List α) : commonPrefix a a = a.length := by
  induction a with
  | nil => rfl
  | cons x xs ih => simp [commonPrefix, ih]

theorem suffix_eq {α : Type} [DecidableEq α] (a b : List α) :
    a.drop (a.length - commonPrefix a.reverse b.reverse) =
      b.drop (b.length - commonPrefix a.reverse b.reverse) := by
  have h := commonPrefix_take a.reverse b.reverse
  rw [List.take_reverse, List.take_reverse] at h
  exact List.reverse_inj.1 h

theorem flat_append (a b : List Token) : flat (a ++ b) = flat a ++ flat b := by simp [flat]

theorem flat_length (a : List Token) : (flat a).length = 5 * a.length := by
  induction a with
  | nil => rfl
  | cons t ts ih => simp only [flat, List.flatMap_cons, List.length_append] at ih ⊢; simp [ih]; omega

theorem take_flat (a : List Token) (n : Nat) : (flat a).take (5 * n) = flat (a.take n) := by
  induction a generalizing n with
  | nil => simp [flat]
  | cons t ts ih =>
    cases n with
    | zero => simp [flat]
    | succ n =>
      have := ih n
      simp only [flat, List.flatMap_cons, List.take_succ_cons] at this ⊢
      rw [← this, show 5 * (n + 1) = 5 * n + 5 from by omega]
      simp

theorem drop_flat (a : List Token) (n : Nat) : (flat a).drop (5 * n) = flat (a.drop n) := by
  induction a generalizing n with
  | nil => simp [flat]
  | cons t ts ih =>
    cases n with
    | zero => simp
    | succ n =>
      have := ih n
      simp only [flat, List.flatMap_cons, List.drop_succ_cons] at this ⊢
      rw [← this, show 5 * (n + 1) = 5 * n + 5 from by omega]
      simp

/-- **C46.** Applying the returned edits, in the units of the protocol, to the previously sent integers
gives exactly the new integers. -/
theorem C46_delta_reconstructs (old new : List Token) :
    (diffTokens old new).foldl applyEdit (flat old) = flat new := by
  -- split both arrays
  have hp := commonPrefix_take new old
  have hs := suffix_eq (new.drop (commonPrefix new old)) (old.drop (commonPrefix new old))
  unfold diffTokens
  simp only
  generalize hk : commonPrefix new old = k at *
  generalize hm : commonPrefix (new.drop k).reverse (old.drop k).reverse = m at *
  have hko : k ≤ old.length := hk ▸ commonPrefix_le_right new old
  have hmo : m ≤ (old.drop k).length := by
    rw [← hm, ← List.length_reverse (as := old.drop k)]; exact commonPrefix_le_right _ _
  have hmn : m ≤ (new.drop k).length := by
    rw [← hm, ← List.length_reverse (as := new.drop k)]; exact commonPrefix_le_left _ _
  have hnew : new = old.take k ++ ((new.drop k).take ((new.drop k).length - m) ++
      (old.drop k).drop ((old.drop k).length - m)) := by
    rw [← hs, List.take_append_drop, ← hp, List.take_append_drop]
  have hold : old = old.take k ++ ((old.drop k).take ((old.drop k).length - m) ++
      (old.drop k).drop ((old.drop k).length - m)) := by
    rw [List.take_append_drop, List.take_append_drop]
  split
  · rename_i he
    simp only [Bool.and_eq_true, List.isEmpty_iff] at he
    rw [he.1] at hold
    rw [he.2] at hnew
    rw [List.foldl_nil, hnew]
    exact congrArg flat hold
  · simp only [List.foldl_cons, List.foldl_nil, applyEdit]
    rw [take_flat, ← Nat.mul_add, drop_flat]
    conv => rhs; rw [hnew]
    rw [flat_append, flat_append, List.append_assoc]
    congr 3
    rw [List.drop_drop]
    congr 1
    simp only [List.length_take, List.length_drop]
    omega

/-- **C46 (nothing changed).** No edit is sent exactly when the arrays are equal. -/
theorem C46_no_edit_iff (old new : List Token) : diffTokens old new = [] ↔ old = new := by
  constructor
  · intro h
    have := C46_delta_reconstructs old new
    rw [h, List.foldl_nil] at this
    clear h
    induction old generalizing new with
    | nil =>
      cases new with
      | nil => rfl
      | cons t ts => simp [flat] at this
    | cons a as ih =>
      cases new with
      | nil => simp [flat] at this
      | cons b bs =>
        obtain ⟨a1, a2, a3, a4, a5⟩ := a
        obtain ⟨b1, b2, b3, b4, b5⟩ := b
        simp only [flat, List.flatMap_cons, List.cons_append, List.nil_append, List.cons.injEq] at this
        obtain ⟨rfl, rfl, rfl, rfl, rfl, h⟩ := this
        rw [ih bs h]
  · rintro rfl
    simp [diffTokens, commonPrefix_self]

example : diffTokens [⟨0, 1, 2, 3, 0⟩, ⟨0, 1, 2, 3, 0⟩] [⟨0, 1, 2, 3, 0⟩] = [⟨5, 5, []⟩] := by decide

end Verif.SemTokens
