import Verif.Completion.Model

/-! Property theorems for completion relevance: C47. -/

namespace Verif.Completion

namespace Spec

/-- Lexicographic order on texts by code points, the client's order of sort texts. -/
def lexLt : List Char → List Char → Prop
  | [], [] => False
  | [], _ :: _ => True
  | _ :: _, [] => False
  | a :: as, b :: bs => a.val < b.val ∨ (a = b ∧ lexLt as bs)

/-- Mathematical score of an item. -/
def scoreNat (r : Relevance) : Nat :=
  2147483647 + (if r.isLocal then 1 else 0) + (if r.isOutOfScope then 0 else 100) +
    (if r.exactNameMatch then 20 else 0) +
    (match r.typeMatch with
      | some .exact => 18
      | some .couldUnify => 5
      | none => 0)

end Spec

open Spec

/-- The `u32` arithmetic does not overflow. -/
theorem score_toNat (r : Relevance) : r.score.toNat = scoreNat r := by
  obtain ⟨e, t, l, o⟩ := r
  cases e <;> cases l <;> cases o <;> (rcases t with _ | ⟨_ | _⟩) <;> rfl

theorem hexDigit_val {n : Nat} (h : n < 16) :
    (hexDigit n).val.toNat = if n < 10 then 48 + n else 87 + n := by
  have : ∀ n, n < 16 → (hexDigit n).val.toNat = if n < 10 then 48 + n else 87 + n := by decide
  exact this n h

theorem hexDigit_lt {a b : Nat} (ha : a < 16) (hb : b < 16) :
    (hexDigit a).val < (hexDigit b).val ↔ a < b := by
  rw [UInt32.lt_iff_toNat_lt, hexDigit_val ha, hexDigit_val hb]
  split <;> split <;> omega

theorem hexDigit_inj {a b : Nat} (ha : a < 16) (hb : b < 16) : hexDigit a = hexDigit b ↔ a = b := by
  constructor
  · intro h
    have := congrArg (fun c : Char => c.val.toNat) h
    simp only [hexDigit_val ha, hexDigit_val hb] at this
    split at this <;> split at this <;> omega
  · rintro rfl; rfl

/-- The last `k` hexadecimal digits. -/
def digits : Nat → Nat → List Char
  | 0, _ => []
  | k + 1, n => hexDigit (n / 16 ^ k % 16) :: digits k n

theorem mod_succ (n k : Nat) : n % 16 ^ (k + 1) = 16 ^ k * (n / 16 ^ k % 16) + n % 16 ^ k := by
  rw [Nat.pow_succ, Nat.mod_mul, Nat.add_comm]

theorem digits_lt (k a b : Nat) : lexLt (digits k a) (digits k b) ↔ a % 16 ^ k < b % 16 ^ k := by
  induction k with
  | zero => simp [digits, lexLt, Nat.mod_one]
  | succ k ih =>
    have h16 : ∀ n : Nat, n / 16 ^ k % 16 < 16 := fun n => Nat.mod_lt _ (by decide)
    simp only [digits, lexLt, hexDigit_lt (h16 a) (h16 b), hexDigit_inj (h16 a) (h16 b), ih]
    rw [mod_succ a k, mod_succ b k]
    have ha : a % 16 ^ k < 16 ^ k := Nat.mod_lt _ (Nat.pow_pos (by decide))
    have hb : b % 16 ^ k < 16 ^ k := Nat.mod_lt _ (Nat.pow_pos (by decide))
    generalize a / 16 ^ k % 16 = x
    generalize b / 16 ^ k % 16 = y
    generalize a % 16 ^ k = p at *
    generalize b % 16 ^ k = q at *
    generalize 16 ^ k = m at *
    rcases Nat.lt_trichotomy x y with h | h | h
    · have : m * (x + 1) ≤ m * y := Nat.mul_le_mul_left _ h
      rw [Nat.mul_add, Nat.mul_one] at this
      constructor
      · intro; omega
      · intro; exact Or.inl h
    · subst h; simp
    · have : m * (y + 1) ≤ m * x := Nat.mul_le_mul_left _ h
      rw [Nat.mul_add, Nat.mul_one] at this
      constructor
      · rintro (h' | h') <;> omega
      · intro; omega

/-- Fixed-width hexadecimal text is ordered as the numbers. -/
theorem hex8_lt (x y : UInt32) : lexLt (hex8 x) (hex8 y) ↔ x < y := by
  have e : ∀ z : UInt32, hex8 z = digits 8 z.toNat := by
    intro z; simp [hex8, digits]
  rw [e, e, digits_lt, UInt32.lt_iff_toNat_lt]
  have hx := x.toNat_lt
  have hy := y.toNat_lt
  rw [Nat.mod_eq_of_lt (by simpa using hx), Nat.mod_eq_of_lt (by simpa using hy)]

theorem xor_ones (x : UInt32) : (x ^^^ 0xFFFFFFFF).toNat = 4294967295 - x.toNat := by
  have h : x ^^^ 0xFFFFFFFF = ~~~ x := by
    apply UInt32.toBitVec_inj.1
    simp only [UInt32.toBitVec_xor, UInt32.toBitVec_not]
    have : (UInt32.toBitVec 0xFFFFFFFF) = BitVec.allOnes 32 := by decide
    rw [this, BitVec.xor_allOnes]
  rw [h, UInt32.toNat_not]
  rfl

/-- **C47 (any score).** For all 32-bit scores the client's ascending order of sort texts is the descending
order of scores; equal scores have equal sort texts. -/
theorem C47_sort_text_order (s t : UInt32) :
    (lexLt (sortTextOf s) (sortTextOf t) ↔ t < s) ∧ (sortTextOf s = sortTextOf t ↔ s = t) := by
  have key : ∀ s t : UInt32, lexLt (sortTextOf s) (sortTextOf t) ↔ t < s := by
    intro s t
    rw [sortTextOf, sortTextOf, hex8_lt, UInt32.lt_iff_toNat_lt, xor_ones, xor_ones,
      UInt32.lt_iff_toNat_lt]
    have := s.toNat_lt
    have := t.toNat_lt
    omega
  refine ⟨key s t, ?_, fun h => by rw [h]⟩
  intro h
  have irr : ∀ l : List Char, ¬ lexLt l l := by
    intro l
    induction l with
    | nil => simp [lexLt]
    | cons a l ih => simp [lexLt, ih]
  have h1 : ¬ t < s := fun hlt => by
    have := (key s t).2 hlt
    rw [h] at this
    exact irr _ this
  have h2 : ¬ s < t := fun hlt => by
    have := (key t s).2 hlt
    rw [h] at this
    exact irr _ this
  rw [UInt32.lt_iff_toNat_lt] at h1 h2
  exact UInt32.toNat_inj.1 (by omega)

theorem foldl_max (items : List Relevance) (m : UInt32) :
    let r := items.foldl (fun m r => if m < r.score then r.score else m) m
    m ≤ r ∧ (∀ i ∈ items, i.score ≤ r) ∧ (r = m ∨ ∃ i ∈ items, i.score = r) := by
  induction items generalizing m with
  | nil => simp
  | cons a l ih =>
    simp only [List.foldl_cons]
    obtain ⟨h1, h2, h3⟩ := ih (if m < a.score then a.score else m)
    generalize l.foldl (fun m r => if m < r.score then r.score else m)
      (if m < a.score then a.score else m) = r at *
    simp only [UInt32.le_iff_toNat_le, UInt32.lt_iff_toNat_lt] at *
    refine ⟨?_, ?_, ?_⟩
    · split at h1 <;> omega
    · intro i hi
      rcases List.mem_cons.1 hi with rfl | hi
      · split at h1 <;> omega
      · exact h2 i hi
    · rcases h3 with h3 | ⟨i, hi, h3⟩
      · split at h3
        · exact Or.inr ⟨a, by simp, h3.symm⟩
        · exact Or.inl h3
      · exact Or.inr ⟨i, by simp [hi], h3⟩

/-- **C47.** Among the items sent for one request: item `i` sorts strictly before item `j` exactly if its
relevance (as a number, no overflow) is greater, and an item is preselected exactly if no item is more
relevant and it is relevant at all (above the base score). -/
theorem C47_items (items : List Relevance) :
    (completionScores items).length = items.length ∧
    (∀ (i j : Nat) (a b : Scored) (r s : Relevance), items[i]? = some r → items[j]? = some s →
      (completionScores items)[i]? = some a → (completionScores items)[j]? = some b →
      (lexLt a.sortText b.sortText ↔ scoreNat s < scoreNat r)) ∧
    (∀ (i : Nat) (a : Scored) (r : Relevance), items[i]? = some r →
      (completionScores items)[i]? = some a →
      (a.preselect = true ↔ (∀ s ∈ items, scoreNat s ≤ scoreNat r) ∧ 2147483647 < scoreNat r)) := by
  refine ⟨by simp [completionScores], ?_, ?_⟩
  · intro i j a b r s hr hs ha hb
    simp only [completionScores, List.getElem?_map, hr, hs, Option.map_some, Option.some.injEq] at ha hb
    subst ha; subst hb
    simp only [setScore]
    rw [(C47_sort_text_order _ _).1, UInt32.lt_iff_toNat_lt, score_toNat, score_toNat]
  · intro i a r hr ha
    simp only [completionScores, List.getElem?_map, hr, Option.map_some, Option.some.injEq] at ha
    subst ha
    simp only [setScore]
    have hmem : r ∈ items := List.mem_of_getElem? hr
    obtain ⟨h1, h2, h3⟩ := foldl_max items 0
    generalize items.foldl (fun m r => if m < r.score then r.score else m) 0 = mx at *
    have hb : baseScore.toNat = 2147483647 := rfl
    simp only [Relevance.isRelevant, Bool.and_eq_true, decide_eq_true_eq, beq_iff_eq,
      UInt32.lt_iff_toNat_lt, hb, score_toNat]
    simp only [UInt32.le_iff_toNat_le, score_toNat] at h2
    constructor
    · rintro ⟨h4, h5⟩
      refine ⟨fun s hs => ?_, h4⟩
      have := h2 s hs
      rw [← h5, score_toNat] at this
      exact this
    · rintro ⟨h4, h5⟩
      refine ⟨h5, ?_⟩
      apply UInt32.toNat_inj.1
      rw [score_toNat]
      rcases h3 with h3 | ⟨k, hk, h3⟩
      · have := h2 _ hmem
        rw [h3] at this
        have h0 : (0 : UInt32).toNat = 0 := rfl
        omega
      · have h6 := h4 k hk
        have h7 := h2 _ hmem
        rw [← h3, score_toNat] at h7 ⊢
        omega

example : (completionScores [⟨true, none, false, false⟩, ⟨false, some .exact, true, true⟩]).map
    (fun s => (s.preselect, String.ofList s.sortText)) =
    [(true, "7fffff88"), (false, "7fffffed")] := by decide

/-- **C47 (ranking).** In-scope items always come before out-of-scope ones, and, scope being equal, exact
name matches before the rest. -/
theorem C47_ranking (r s : Relevance) :
    (r.isOutOfScope = false → s.isOutOfScope = true → lexLt (sortTextOf r.score) (sortTextOf s.score)) ∧
    (r.isOutOfScope = s.isOutOfScope → r.exactNameMatch = true → s.exactNameMatch = false →
      s.typeMatch = none ∨ s.typeMatch = some .couldUnify ∨ r.typeMatch = s.typeMatch →
      lexLt (sortTextOf r.score) (sortTextOf s.score)) := by
  obtain ⟨e, t, l, o⟩ := r
  obtain ⟨e', t', l', o'⟩ := s
  rw [(C47_sort_text_order _ _).1, UInt32.lt_iff_toNat_lt, score_toNat, score_toNat]
  constructor
  · rintro rfl rfl
    cases e <;> cases l <;> cases e' <;> cases l' <;>
      (rcases t with _ | ⟨_ | _⟩) <;> (rcases t' with _ | ⟨_ | _⟩) <;> simp [scoreNat]
  · rintro rfl rfl rfl h
    cases o <;> cases l <;> cases l' <;>
      (rcases t with _ | ⟨_ | _⟩) <;> (rcases t' with _ | ⟨_ | _⟩) <;> simp [scoreNat] at h ⊢

end Verif.Completion
