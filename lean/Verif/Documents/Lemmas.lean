import Verif.Documents.Spec
import Mathlib.Data.List.Induction

/-! Lemmas about line indices and positions. -/

namespace Verif.Documents
open Verif Spec

theorem utf8Size_eq (c : Char) : c.utf8Size = if c.toNat ≤ 127 then 1 else if c.toNat ≤ 2047 then 2
    else if c.toNat ≤ 65535 then 3 else 4 := by
  unfold Char.utf8Size
  simp only [UInt32.le_iff_toNat_le]
  rfl

theorem utf8Size_pos (c : Char) : 0 < c.utf8Size := by
  rw [utf8Size_eq]; split <;> (try split) <;> (try split) <;> omega

theorem utf8Size_le (c : Char) : c.utf8Size ≤ 4 := by
  rw [utf8Size_eq]; split <;> (try split) <;> (try split) <;> omega

theorem lf_size : ('\n' : Char).utf8Size = 1 := by decide

@[simp] theorem byteLen_nil : byteLen [] = 0 := rfl
@[simp] theorem byteLen_cons (c : Char) (cs : List Char) : byteLen (c :: cs) = c.utf8Size + byteLen cs := by
  simp [byteLen]
@[simp] theorem byteLen_append (a b : List Char) : byteLen (a ++ b) = byteLen a + byteLen b := by
  simp [byteLen]

/-- Number of line feeds. -/
def lfs (cs : List Char) : Nat := cs.count '\n'

@[simp] theorem lfs_nil : lfs [] = 0 := rfl
@[simp] theorem lfs_append (a b : List Char) : lfs (a ++ b) = lfs a + lfs b := by simp [lfs]
theorem lfs_cons (c : Char) (cs : List Char) : lfs (c :: cs) = (if c = '\n' then 1 else 0) + lfs cs := by
  simp only [lfs, List.count_cons, beq_iff_eq]; omega

theorem lfs_eq_zero {l : List Char} (h : '\n' ∉ l) : lfs l = 0 := List.count_eq_zero.2 h

/-- Length of a text without line feeds in the units of an encoding. -/
def unitsOf (enc : Encoding) (cs : List Char) : Nat := (cs.map (units enc)).sum

@[simp] theorem unitsOf_nil (enc) : unitsOf enc [] = 0 := rfl
@[simp] theorem unitsOf_cons (enc) (c : Char) (cs : List Char) :
    unitsOf enc (c :: cs) = units enc c + unitsOf enc cs := by simp [unitsOf]
@[simp] theorem unitsOf_append (enc) (a b : List Char) :
    unitsOf enc (a ++ b) = unitsOf enc a + unitsOf enc b := by simp [unitsOf]

theorem unitsOf_utf8 (cs : List Char) : unitsOf .utf8 cs = byteLen cs := rfl

theorem units_pos (enc) (c : Char) : 0 < units enc c := by
  cases enc with
  | utf8 => exact utf8Size_pos c
  | utf16 => simp only [units]; split <;> omega
  | utf32 => simp [units]

theorem units_le (enc) (c : Char) : units enc c ≤ c.utf8Size := by
  cases enc with
  | utf8 => exact Nat.le_refl _
  | utf16 =>
    simp only [units]
    rw [utf8Size_eq]
    split <;> split <;> (try split) <;> (try split) <;> omega
  | utf32 => simp only [units]; exact utf8Size_pos c

theorem utf8Size_four (c : Char) : c.utf8Size = 4 ↔ ¬ c.toNat < 0x10000 := by
  rw [utf8Size_eq]
  split
  · constructor <;> intro <;> omega
  · split
    · constructor <;> intro <;> omega
    · split
      · constructor <;> intro <;> omega
      · constructor <;> intro <;> omega

theorem wideLen_eq {enc : Encoding} (he : enc ≠ .utf8) (k b : Nat) (c : Char) :
    wideLen enc ⟨k, b, b + c.utf8Size⟩ = units enc c := by
  cases enc with
  | utf8 => exact absurd rfl he
  | utf16 =>
    simp only [wideLen, units]
    rw [Nat.add_sub_cancel_left]
    by_cases h : c.utf8Size = 4
    · rw [if_pos h, if_neg ((utf8Size_four c).1 h)]
    · rw [if_neg h, if_pos (Decidable.not_not.1 (fun h' => h ((utf8Size_four c).2 h')))]
  | utf32 => rfl

theorem units_of_size_one (enc) {c : Char} (h : c.utf8Size = 1) : units enc c = 1 := by
  have := units_pos enc c
  have := units_le enc c
  omega

/-! ### Newlines -/

theorem newlinesFrom_append (off : Nat) (a b : List Char) :
    newlinesFrom off (a ++ b) = newlinesFrom off a ++ newlinesFrom (off + byteLen a) b := by
  induction a generalizing off with
  | nil => simp [newlinesFrom]
  | cons c cs ih =>
    simp only [List.cons_append, newlinesFrom]
    split
    · rename_i h; subst h
      rw [ih, List.cons_append]; simp only [byteLen_cons, lf_size]; rw [Nat.add_assoc]
    · rw [ih]; simp only [byteLen_cons]; rw [Nat.add_assoc]

theorem newlinesFrom_length (off : Nat) (a : List Char) : (newlinesFrom off a).length = lfs a := by
  induction a generalizing off with
  | nil => rfl
  | cons c cs ih =>
    rw [newlinesFrom, lfs_cons]
    split <;> (simp [ih]; try omega)

theorem newlinesFrom_bounds {off : Nat} {a : List Char} {v : Nat} (h : v ∈ newlinesFrom off a) :
    off < v ∧ v ≤ off + byteLen a := by
  induction a generalizing off with
  | nil => simp [newlinesFrom] at h
  | cons c cs ih =>
    rw [newlinesFrom] at h
    split at h
    · rename_i hc; subst hc
      rw [byteLen_cons, lf_size]
      rcases List.mem_cons.1 h with rfl | h
      · omega
      · have := ih h; omega
    · have := ih h
      rw [byteLen_cons]
      omega

/-- Complete lines: empty, or ending with a line feed. -/
def Full (p : List Char) : Prop := p = [] ∨ ∃ q, p = q ++ ['\n']

theorem startOffset_full {p x : List Char} (hp : Full p) :
    (LineIndex.new (p ++ x)).startOffset (lfs p) = some (byteLen p) := by
  rcases hp with rfl | ⟨q, rfl⟩
  · rfl
  · have h1 : lfs (q ++ ['\n']) = lfs q + 1 := by simp [lfs]
    rw [h1]
    simp only [LineIndex.startOffset, LineIndex.new]
    rw [newlinesFrom_append, newlinesFrom_append]
    rw [List.getElem?_append_left (by simp [newlinesFrom_length, newlinesFrom])]
    rw [List.getElem?_append_right (by simp [newlinesFrom_length])]
    simp [newlinesFrom_length, newlinesFrom, lf_size]

/-! ### Wide characters -/

theorem wideFrom_append (l c : Nat) (a b : List Char) :
    wideFrom l c (a ++ b) = wideFrom l c a ++
      wideFrom (posFrom .utf8 l c a).line (posFrom .utf8 l c a).character b := by
  induction a generalizing l c with
  | nil => rfl
  | cons x xs ih =>
    simp only [List.cons_append, wideFrom, posFrom]
    split
    · rw [ih]
    · split
      · rename_i h; rw [ih]; simp [units, h]
      · rw [ih]; simp [units]

theorem posFrom_line (enc) (l c : Nat) (a : List Char) : (posFrom enc l c a).line = l + lfs a := by
  induction a generalizing l c with
  | nil => rfl
  | cons x xs ih =>
    rw [posFrom, lfs_cons]
    split <;> rw [ih] <;> omega

theorem posFrom_append (enc) (l c : Nat) (a b : List Char) :
    posFrom enc l c (a ++ b) = posFrom enc (posFrom enc l c a).line (posFrom enc l c a).character b := by
  induction a generalizing l c with
  | nil => rfl
  | cons x xs ih =>
    simp only [List.cons_append, posFrom]
    split <;> rw [ih]

theorem posFrom_noLf (enc) (l c : Nat) {a : List Char} (h : '\n' ∉ a) :
    posFrom enc l c a = ⟨l, c + unitsOf enc a⟩ := by
  induction a generalizing c with
  | nil => rfl
  | cons x xs ih =>
    simp only [List.mem_cons, not_or] at h
    rw [posFrom, if_neg (fun e => h.1 e.symm), ih _ h.2, unitsOf_cons, Nat.add_assoc]

theorem posFrom_full (enc) {p : List Char} (hp : Full p) : posFrom enc 0 0 p = ⟨lfs p, 0⟩ := by
  rcases hp with rfl | ⟨q, rfl⟩
  · rfl
  · rw [posFrom_append]
    simp only [posFrom, if_true, posFrom_line, lfs_append]
    simp [lfs]

theorem posOf_eq (enc) {p l : List Char} (hp : Full p) (hl : '\n' ∉ l) :
    posOf enc (p ++ l) = ⟨lfs p, unitsOf enc l⟩ := by
  rw [posOf, posFrom_append, posFrom_full enc hp, posFrom_noLf enc _ _ hl, Nat.zero_add]

theorem wideFrom_line {l c : Nat} {a : List Char} {w : WideChar} (h : w ∈ wideFrom l c a) :
    l ≤ w.line ∧ w.line ≤ l + lfs a := by
  induction a generalizing l c with
  | nil => simp [wideFrom] at h
  | cons x xs ih =>
    rw [wideFrom] at h
    rw [lfs_cons]
    split at h
    · have := ih h; simp_all; omega
    · rename_i hx
      split at h
      · have := ih h; simp_all
      · rcases List.mem_cons.1 h with rfl | h
        · simp
        · have := ih h; simp_all

theorem wideFrom_full_lt {p : List Char} (hp : Full p) {w : WideChar} (h : w ∈ wideFrom 0 0 p) :
    w.line < lfs p := by
  rcases hp with rfl | ⟨q, rfl⟩
  · simp [wideFrom] at h
  · rw [wideFrom_append] at h
    simp only [wideFrom, if_true, List.append_nil] at h
    have := (wideFrom_line h).2
    have h1 : lfs (q ++ ['\n']) = lfs q + 1 := by simp [lfs]
    omega

theorem wideFrom_stop {l c : Nat} {a : List Char} {w : WideChar} (h : w ∈ wideFrom l c a)
    (ha : '\n' ∉ a) : c ≤ w.start ∧ c < w.stop := by
  induction a generalizing c with
  | nil => simp [wideFrom] at h
  | cons x xs ih =>
    simp only [List.mem_cons, not_or] at ha
    rw [wideFrom, if_neg (fun e => ha.1 e.symm)] at h
    have hp := utf8Size_pos x
    split at h
    · have := ih h ha.2; omega
    · rcases List.mem_cons.1 h with rfl | h
      · simp only; omega
      · have := ih h ha.2; omega

/-! ### The data of one line -/

/-- What follows a line: nothing, or a line feed and more. -/
def Rest (r : List Char) : Prop := r = [] ∨ ∃ r', r = '\n' :: r'

theorem filter_none {k : Nat} {l : List WideChar} (h : ∀ w ∈ l, w.line ≠ k) :
    l.filter (·.line == k) = [] := by
  rw [List.filter_eq_nil_iff]; intro w hw; simpa using h w hw

theorem filter_all {k : Nat} {l : List WideChar} (h : ∀ w ∈ l, w.line = k) :
    l.filter (·.line == k) = l := by
  rw [List.filter_eq_self]; intro w hw; simpa using h w hw

theorem wideOf_line {p l r : List Char} (hp : Full p) (hl : '\n' ∉ l) (hr : Rest r) :
    (LineIndex.new (p ++ l ++ r)).wideOf (lfs p) = wideFrom (lfs p) 0 l := by
  simp only [LineIndex.wideOf, LineIndex.new]
  rw [wideFrom_append, wideFrom_append, List.filter_append, List.filter_append]
  rw [filter_none (fun w hw => Nat.ne_of_lt (wideFrom_full_lt hp hw))]
  rw [posFrom_full _ hp]
  simp only
  rw [filter_all (l := wideFrom (lfs p) 0 l)]
  · have : List.filter (fun x => x.line == lfs p) (wideFrom (posFrom Encoding.utf8 0 0 (p ++ l)).line
        (posFrom Encoding.utf8 0 0 (p ++ l)).character r) = [] := by
      apply filter_none
      intro w hw
      rcases hr with rfl | ⟨r', rfl⟩
      · simp [wideFrom] at hw
      · rw [wideFrom, if_pos rfl] at hw
        have := (wideFrom_line hw).1
        rw [posFrom_line, lfs_append] at this
        omega
    rw [this]; simp
  · intro w hw
    have := wideFrom_line hw
    rw [lfs_eq_zero hl] at this
    omega

theorem line_full {p l r : List Char} (hp : Full p) (hl : '\n' ∉ l) (hr : Rest r) :
    (LineIndex.new (p ++ l ++ r)).line (lfs p) =
      some (byteLen p, byteLen p + byteLen l + (if r = [] then 0 else 1)) := by
  rw [LineIndex.line, List.append_assoc, startOffset_full hp]
  simp only [Option.map_some, Option.some.injEq, Prod.mk.injEq, true_and]
  simp only [LineIndex.new]
  rw [newlinesFrom_append, List.getElem?_append_right (by simp [newlinesFrom_length]),
    newlinesFrom_append, newlinesFrom_length, Nat.sub_self]
  have h0 : newlinesFrom (0 + byteLen p) l = [] := by
    rw [← List.length_eq_zero_iff, newlinesFrom_length, lfs_eq_zero hl]
  rw [h0, List.nil_append]
  rcases hr with rfl | ⟨r', rfl⟩
  · simp [newlinesFrom]
  · simp [newlinesFrom]

theorem toUtf8_spec {enc : Encoding} (he : enc ≠ .utf8) (k b : Nat) {l1 l2 : List Char}
    (h1 : '\n' ∉ l1) (h2 : '\n' ∉ l2) :
    toUtf8Loop enc (b + unitsOf enc l1) (wideFrom k b (l1 ++ l2)) = b + byteLen l1 := by
  induction l1 generalizing b with
  | nil =>
    simp only [unitsOf_nil, Nat.add_zero, List.nil_append, byteLen_nil]
    cases hw : wideFrom k b l2 with
    | nil => rfl
    | cons w ws =>
      have := (wideFrom_stop (w := w) (by rw [hw]; simp) h2).1
      rw [toUtf8Loop, if_neg (by omega)]
  | cons c cs ih =>
    simp only [List.mem_cons, not_or] at h1
    simp only [List.cons_append, wideFrom, if_neg (fun e : c = '\n' => h1.1 e.symm), unitsOf_cons,
      byteLen_cons]
    split
    · rename_i hs
      rw [units_of_size_one enc hs, hs, ← Nat.add_assoc, ih _ h1.2, Nat.add_assoc]
    · have := units_pos enc c
      have hle := units_le enc c
      rw [toUtf8Loop, if_pos (by simp only; omega), wideLen_eq he]
      simp only [Nat.add_sub_cancel_left]
      rw [show b + (units enc c + unitsOf enc cs) + (c.utf8Size - units enc c) =
        (b + c.utf8Size) + unitsOf enc cs from by omega, ih _ h1.2, Nat.add_assoc]

/-- Columns past the end of the line keep their excess. -/
theorem toUtf8_past {enc : Encoding} (he : enc ≠ .utf8) (k b x : Nat) {l : List Char} (h : '\n' ∉ l) :
    toUtf8Loop enc (b + unitsOf enc l + x) (wideFrom k b l) = b + byteLen l + x := by
  induction l generalizing b with
  | nil => simp [wideFrom, toUtf8Loop]
  | cons c cs ih =>
    simp only [List.mem_cons, not_or] at h
    simp only [wideFrom, if_neg (fun e : c = '\n' => h.1 e.symm), unitsOf_cons, byteLen_cons]
    split
    · rename_i hs
      rw [units_of_size_one enc hs, hs, ← Nat.add_assoc, ih _ h.2]; omega
    · have := units_pos enc c
      have hle := units_le enc c
      rw [toUtf8Loop, if_pos (by simp only; omega), wideLen_eq he]
      simp only [Nat.add_sub_cancel_left]
      rw [show b + (units enc c + unitsOf enc cs) + x + (c.utf8Size - units enc c) =
        (b + c.utf8Size) + unitsOf enc cs + x from by omega, ih _ h.2]; omega

theorem toWide_spec {enc : Encoding} (he : enc ≠ .utf8) (k b u : Nat) {l1 l2 : List Char}
    (h1 : '\n' ∉ l1) (h2 : '\n' ∉ l2) :
    toWideLoop enc (b + byteLen l1) (u + byteLen l1) (wideFrom k b (l1 ++ l2)) =
      some (u + unitsOf enc l1) := by
  induction l1 generalizing b u with
  | nil =>
    simp only [unitsOf_nil, Nat.add_zero, List.nil_append, byteLen_nil]
    cases hw : wideFrom k b l2 with
    | nil => rfl
    | cons w ws =>
      have := (wideFrom_stop (w := w) (by rw [hw]; simp) h2).2
      rw [toWideLoop, if_neg (by omega)]
  | cons c cs ih =>
    simp only [List.mem_cons, not_or] at h1
    simp only [List.cons_append, wideFrom, if_neg (fun e : c = '\n' => h1.1 e.symm), unitsOf_cons,
      byteLen_cons]
    split
    · rename_i hs
      rw [units_of_size_one enc hs, hs, ← Nat.add_assoc, ← Nat.add_assoc, ih _ _ h1.2, Nat.add_assoc]
    · have := units_pos enc c
      have hle := units_le enc c
      rw [toWideLoop, if_pos (by simp only; omega)]
      simp only [wideLen_eq he, Nat.add_sub_cancel_left]
      rw [if_pos (by omega)]
      rw [show u + (c.utf8Size + byteLen cs) - (c.utf8Size - units enc c) =
        (u + units enc c) + byteLen cs from by omega,
        show b + (c.utf8Size + byteLen cs) = (b + c.utf8Size) + byteLen cs from by omega, ih _ _ h1.2,
        Nat.add_assoc]

/-- Every text splits into complete lines and a line without line feed. -/
theorem exists_lines (t : List Char) : ∃ p l, t = p ++ l ∧ Full p ∧ '\n' ∉ l := by
  induction t using List.reverseRecOn with
  | nil => exact ⟨[], [], rfl, Or.inl rfl, by simp⟩
  | append_singleton t c ih =>
    obtain ⟨p, l, rfl, hp, hl⟩ := ih
    by_cases hc : c = '\n'
    · subst hc
      exact ⟨p ++ l ++ ['\n'], [], by simp, Or.inr ⟨p ++ l, rfl⟩, by simp⟩
    · refine ⟨p, l ++ [c], by simp, hp, ?_⟩
      simp only [List.mem_append, List.mem_singleton, not_or]
      exact ⟨hl, fun e => hc e.symm⟩

/-- Every text splits at its first line feed. -/
theorem exists_rest (t : List Char) : ∃ l r, t = l ++ r ∧ '\n' ∉ l ∧ Rest r := by
  induction t with
  | nil => exact ⟨[], [], rfl, by simp, Or.inl rfl⟩
  | cons c t ih =>
    by_cases hc : c = '\n'
    · subst hc; exact ⟨[], '\n' :: t, rfl, by simp, Or.inr ⟨t, rfl⟩⟩
    · obtain ⟨l, r, rfl, hl, hr⟩ := ih
      refine ⟨c :: l, r, rfl, ?_, hr⟩
      simp only [List.mem_cons, not_or]
      exact ⟨fun e => hc e.symm, hl⟩

theorem takeWhile_append_all {p : Nat → Bool} {a b : List Nat} (ha : ∀ x ∈ a, p x = true) :
    (a ++ b).takeWhile p = a ++ b.takeWhile p := by
  induction a with
  | nil => rfl
  | cons x xs ih =>
    simp only [List.cons_append]
    rw [List.takeWhile_cons_of_pos (ha x (by simp)), ih (fun y hy => ha y (by simp [hy]))]

theorem lineCol_spec {p l1 l2 r : List Char} (hp : Full p) (h1 : '\n' ∉ l1) (h2 : '\n' ∉ l2)
    (hr : Rest r) :
    (LineIndex.new (p ++ (l1 ++ l2) ++ r)).lineCol (byteLen p + byteLen l1) =
      some (lfs p, byteLen l1) := by
  have hlen : (LineIndex.new (p ++ (l1 ++ l2) ++ r)).len = byteLen p + byteLen l1 + byteLen l2 + byteLen r := by
    simp [LineIndex.new]; omega
  rw [LineIndex.lineCol, hlen, if_neg (by omega)]
  have hpp : partitionPoint (· ≤ byteLen p + byteLen l1)
      (LineIndex.new (p ++ (l1 ++ l2) ++ r)).newlines = lfs p := by
    simp only [LineIndex.new]
    have h0 : '\n' ∉ l1 ++ l2 := by simp [h1, h2]
    rw [newlinesFrom_append, newlinesFrom_append]
    have hn : newlinesFrom (0 + byteLen p) (l1 ++ l2) = [] := by
      rw [← List.length_eq_zero_iff, newlinesFrom_length, lfs_eq_zero h0]
    rw [hn, List.append_nil, partitionPoint, takeWhile_append_all, List.length_append,
      newlinesFrom_length]
    · rcases hr with rfl | ⟨r', rfl⟩
      · simp [newlinesFrom]
      · rw [newlinesFrom, if_pos rfl, List.takeWhile_cons_of_neg]
        · simp
        · simp only [byteLen_append]; simp; omega
    · intro v hv
      have := newlinesFrom_bounds hv
      simp; omega
  rw [hpp]
  simp only
  rw [List.append_assoc, startOffset_full hp]
  simp

/-- The position of an offset on a character boundary. -/
theorem lspPosition_spec (enc : Encoding) (a b : List Char) :
    lspPosition enc (LineIndex.new (a ++ b)) (byteLen a) = some (posOf enc a) := by
  obtain ⟨p, l1, rfl, hp, h1⟩ := exists_lines a
  obtain ⟨l2, r, rfl, h2, hr⟩ := exists_rest b
  have e : p ++ l1 ++ (l2 ++ r) = p ++ (l1 ++ l2) ++ r := by simp
  unfold lspPosition
  rw [e, byteLen_append, lineCol_spec hp h1 h2 hr, posOf_eq enc hp h1]
  simp only [Option.bind_some]
  have hw := wideOf_line (p := p) (l := l1 ++ l2) (r := r) hp (by simp [h1, h2]) hr
  cases enc with
  | utf8 => simp only [unitsOf_utf8]
  | utf16 =>
    simp only [hw]
    have := toWide_spec (enc := .utf16) (by decide) (lfs p) 0 0 h1 h2
    rw [Nat.zero_add] at this
    rw [this]; simp
  | utf32 =>
    simp only [hw]
    have := toWide_spec (enc := .utf32) (by decide) (lfs p) 0 0 h1 h2
    rw [Nat.zero_add] at this
    rw [this]; simp

theorem utf8Col_spec (enc : Encoding) (k : Nat) {l1 l2 : List Char} (h1 : '\n' ∉ l1) (h2 : '\n' ∉ l2) :
    utf8Col enc (wideFrom k 0 (l1 ++ l2)) (unitsOf enc l1) = byteLen l1 := by
  cases enc with
  | utf8 => rfl
  | utf16 => simpa [utf8Col] using toUtf8_spec (enc := .utf16) (by decide) k 0 h1 h2
  | utf32 => simpa [utf8Col] using toUtf8_spec (enc := .utf32) (by decide) k 0 h1 h2

theorem utf8Col_past (enc : Encoding) (k x : Nat) {l : List Char} (h : '\n' ∉ l) :
    utf8Col enc (wideFrom k 0 l) (unitsOf enc l + x) = byteLen l + x := by
  cases enc with
  | utf8 => rfl
  | utf16 => simpa [utf8Col] using toUtf8_past (enc := .utf16) (by decide) k 0 x h
  | utf32 => simpa [utf8Col] using toUtf8_past (enc := .utf32) (by decide) k 0 x h

/-- The offset of the position before any part of a document. -/
theorem offset_spec (enc : Encoding) (a b : List Char) :
    offset enc (LineIndex.new (a ++ b)) (posOf enc a) = some (byteLen a) := by
  obtain ⟨p, l1, rfl, hp, h1⟩ := exists_lines a
  obtain ⟨l2, r, rfl, h2, hr⟩ := exists_rest b
  have e : p ++ l1 ++ (l2 ++ r) = p ++ (l1 ++ l2) ++ r := by simp
  have h12 : '\n' ∉ l1 ++ l2 := by simp [h1, h2]
  unfold offset
  rw [e, posOf_eq enc hp h1]
  simp only
  rw [wideOf_line hp h12 hr, line_full hp h12 hr, utf8Col_spec enc _ h1 h2]
  simp only [Option.map_some, Option.some.injEq, byteLen_append]
  omega

/-! ### Splitting and replacing -/

theorem splitAtByte_append (a b : List Char) : splitAtByte (byteLen a) (a ++ b) = some (a, b) := by
  induction a with
  | nil => cases b <;> rfl
  | cons c cs ih =>
    have := utf8Size_pos c
    rw [byteLen_cons]
    obtain ⟨n, hn⟩ : ∃ n, c.utf8Size + byteLen cs = n + 1 := ⟨c.utf8Size + byteLen cs - 1, by omega⟩
    rw [hn, List.cons_append, splitAtByte, if_pos (by omega), ← hn, Nat.add_sub_cancel_left, ih]
    rfl

theorem splitAtByte_some {n : Nat} {t a b : List Char} (h : splitAtByte n t = some (a, b)) :
    t = a ++ b ∧ byteLen a = n := by
  induction t generalizing n a b with
  | nil =>
    cases n with
    | zero => simp only [splitAtByte, Option.some.injEq, Prod.mk.injEq] at h; simp [← h.1, ← h.2]
    | succ n => simp [splitAtByte] at h
  | cons c cs ih =>
    cases n with
    | zero => simp only [splitAtByte, Option.some.injEq, Prod.mk.injEq] at h; simp [← h.1, ← h.2]
    | succ n =>
      rw [splitAtByte] at h
      split at h
      · rename_i hle
        rw [Option.map_eq_some_iff] at h
        obtain ⟨⟨x, y⟩, hx, he⟩ := h
        simp only [Prod.mk.injEq] at he
        obtain ⟨rfl, rfl⟩ := he
        obtain ⟨rfl, h2⟩ := ih hx
        simp only [byteLen_cons, List.cons_append, true_and]; omega
      · simp at h

theorem replaceRange_append (a b c new : List Char) :
    replaceRange (a ++ b ++ c) (byteLen a) (byteLen (a ++ b)) new = some (a ++ new ++ c) := by
  rw [replaceRange, splitAtByte_append (a ++ b) c, List.append_assoc, splitAtByte_append]
  rfl

theorem replaceRange_some {t new t' : List Char} {s e : Nat} (h : replaceRange t s e new = some t') :
    ∃ a a' b b', t = a ++ a' ∧ byteLen a = s ∧ t = b' ++ b ∧ byteLen b' = e ∧ t' = a ++ new ++ b := by
  rw [replaceRange, Option.bind_eq_some_iff] at h
  obtain ⟨⟨a, a'⟩, h1, h⟩ := h
  rw [Option.bind_eq_some_iff] at h
  obtain ⟨⟨b', b⟩, h2, h⟩ := h
  simp only [Option.some.injEq] at h
  obtain ⟨e1, e2⟩ := splitAtByte_some h1
  obtain ⟨e3, e4⟩ := splitAtByte_some h2
  exact ⟨a, a', b, b', e1, e2, e3, e4, h.symm⟩

/-- Two prefixes of a text compare as their byte lengths. -/
theorem prefix_of_byteLen_le {p x a y : List Char} (h : p ++ x = a ++ y) (hle : byteLen p ≤ byteLen a) :
    ∃ z, a = p ++ z := by
  induction p generalizing a with
  | nil => exact ⟨a, rfl⟩
  | cons c p ih =>
    cases a with
    | nil => simp only [byteLen_cons, byteLen_nil] at hle; have := utf8Size_pos c; omega
    | cons d a =>
      simp only [List.cons_append, List.cons.injEq] at h
      obtain ⟨rfl, h⟩ := h
      obtain ⟨z, rfl⟩ := ih h (by simpa using hle)
      exact ⟨z, rfl⟩

/-! ### Sharing of line data between texts -/

/-- Two indices agree on all lines before `k`. -/
def Same (k : Nat) (ix iy : LineIndex) : Prop :=
  ∀ l, l < k → ix.line l = iy.line l ∧ ix.wideOf l = iy.wideOf l

theorem Same.refl (k ix) : Same k ix ix := fun _ _ => ⟨rfl, rfl⟩

theorem Same.trans {k ix iy iz} (h1 : Same k ix iy) (h2 : Same k iy iz) : Same k ix iz := fun l hl =>
  ⟨(h1 l hl).1.trans (h2 l hl).1, (h1 l hl).2.trans (h2 l hl).2⟩

theorem Same.mono {j k ix iy} (hjk : j ≤ k) (h : Same k ix iy) : Same j ix iy := fun l hl =>
  h l (Nat.lt_of_lt_of_le hl hjk)

theorem Same.offset {k ix iy} (h : Same k ix iy) {enc : Encoding} {p : Pos} (hp : p.line < k) :
    Documents.offset enc ix p = Documents.offset enc iy p := by
  unfold Documents.offset
  rw [(h p.line hp).1, (h p.line hp).2]

theorem same_of_prefix {p x y : List Char} :
    Same (lfs p) (LineIndex.new (p ++ x)) (LineIndex.new (p ++ y)) := by
  intro l hl
  have hlen : ∀ off, (newlinesFrom off p).length = lfs p := fun off => newlinesFrom_length off p
  constructor
  · have hs : ∀ z, (LineIndex.new (p ++ z)).line l =
        ((match l with | 0 => some 0 | n + 1 => (newlinesFrom 0 p)[n]?).map
          fun s => (s, ((newlinesFrom 0 p)[l]?).getD 0)) := by
      intro z
      have hg : (newlinesFrom 0 (p ++ z))[l]? = (newlinesFrom 0 p)[l]? := by
        rw [newlinesFrom_append, List.getElem?_append_left (by rw [hlen]; exact hl)]
      have hsome : ∃ v, (newlinesFrom 0 p)[l]? = some v :=
        ⟨_, List.getElem?_eq_getElem (by rw [hlen]; exact hl)⟩
      obtain ⟨v, hv⟩ := hsome
      simp only [LineIndex.line, LineIndex.new, hg, hv, Option.getD_some]
      congr 1
      cases l with
      | zero => rfl
      | succ n =>
        simp only [LineIndex.startOffset]
        rw [newlinesFrom_append, List.getElem?_append_left (by rw [hlen]; omega)]
    rw [hs, hs]
  · have hs : ∀ z, (LineIndex.new (p ++ z)).wideOf l = (wideFrom 0 0 p).filter (·.line == l) := by
      intro z
      simp only [LineIndex.wideOf, LineIndex.new]
      rw [wideFrom_append, List.filter_append]
      have : List.filter (fun x => x.line == l) (wideFrom (posFrom Encoding.utf8 0 0 p).line
          (posFrom Encoding.utf8 0 0 p).character z) = [] := by
        apply filter_none
        intro w hw
        have := (wideFrom_line hw).1
        rw [posFrom_line] at this
        omega
      rw [this, List.append_nil]
    rw [hs, hs]

theorem exists_prefix_of_newline {off n v : Nat} {t : List Char}
    (h : (newlinesFrom off t)[n]? = some v) :
    ∃ q x, t = (q ++ ['\n']) ++ x ∧ lfs (q ++ ['\n']) = n + 1 ∧ v = off + byteLen (q ++ ['\n']) := by
  induction t generalizing off n with
  | nil => simp [newlinesFrom] at h
  | cons c cs ih =>
    rw [newlinesFrom] at h
    split at h
    · rename_i hc; subst hc
      cases n with
      | zero =>
        simp only [List.getElem?_cons_zero, Option.some.injEq] at h
        exact ⟨[], cs, rfl, by simp [lfs], by simp [lf_size]; omega⟩
      | succ n =>
        rw [List.getElem?_cons_succ] at h
        obtain ⟨q, x, rfl, h2, h3⟩ := ih h
        refine ⟨'\n' :: q, x, by simp, ?_, ?_⟩
        · rw [List.cons_append, lfs_cons, h2]; simp; omega
        · rw [List.cons_append, byteLen_cons, h3, lf_size]; omega
    · rename_i hc
      obtain ⟨q, x, rfl, h2, h3⟩ := ih h
      refine ⟨c :: q, x, by simp, ?_, ?_⟩
      · rw [List.cons_append, lfs_cons, h2, if_neg hc]; omega
      · rw [List.cons_append, byteLen_cons, h3]; omega

theorem exists_prefix_of_start {l v : Nat} {t : List Char}
    (h : (LineIndex.new t).startOffset l = some v) :
    ∃ p x, t = p ++ x ∧ Full p ∧ lfs p = l ∧ v = byteLen p := by
  cases l with
  | zero =>
    simp only [LineIndex.startOffset, Option.some.injEq] at h
    exact ⟨[], t, rfl, Or.inl rfl, rfl, by simp [← h]⟩
  | succ n =>
    obtain ⟨q, x, h1, h2, h3⟩ := exists_prefix_of_newline (by simpa [LineIndex.startOffset, LineIndex.new] using h)
    exact ⟨_, x, h1, Or.inr ⟨q, rfl⟩, h2, by omega⟩

/-- An edit starting on line `s` leaves the data of the lines before `s` unchanged. -/
theorem same_of_edit {enc : Encoding} {t t' new : List Char} {r : Range} {s e : Nat}
    (hr : textRange enc (LineIndex.new t) r = some (s, e)) (ht : replaceRange t s e new = some t') :
    Same r.start.line (LineIndex.new t) (LineIndex.new t') := by
  rw [textRange, Option.bind_eq_some_iff] at hr
  obtain ⟨s', h1, h2⟩ := hr
  rw [Option.bind_eq_some_iff] at h2
  obtain ⟨e', _, h3⟩ := h2
  split at h3
  · simp at h3
  · simp only [Option.some.injEq, Prod.mk.injEq] at h3
    obtain ⟨rfl, rfl⟩ := h3
    rw [offset, Option.map_eq_some_iff] at h1
    obtain ⟨⟨ls, le⟩, h4, h5⟩ := h1
    rw [LineIndex.line, Option.map_eq_some_iff] at h4
    obtain ⟨st, h6, h7⟩ := h4
    simp only [Prod.mk.injEq] at h7
    obtain ⟨p, x, hx, _, hl, hv⟩ := exists_prefix_of_start h6
    obtain ⟨a, a', b, b', e1, e2, _, _, e5⟩ := replaceRange_some ht
    obtain ⟨z, hz⟩ := prefix_of_byteLen_le (hx.symm.trans e1) (by simp only at h5; omega)
    rw [e5, hx, hz, ← hl]
    simp only [List.append_assoc]
    exact same_of_prefix

end Verif.Documents
