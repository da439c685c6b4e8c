import Verif.TokenSet.Model
import Verif.Lexer.Kinds
import Mathlib.Data.List.Nodup

/-! Property theorem C27. -/

namespace Verif.TokenSet
open Verif.Syntax (SyntaxKind)

/-- The ways the parser builds token sets. -/
inductive Expr where
  | empty
  | new (ks : List SyntaxKind)
  | union (a b : Expr)
  | sub (a b : Expr)
  | setOrKind (a : Expr) (k : SyntaxKind)
  | kindOrKind (k k' : SyntaxKind)
  | kindOrSet (k : SyntaxKind) (a : Expr)

/-- The token set built. -/
def Expr.eval : Expr → TSet
  | .empty => TokenSet.empty
  | .new ks => TokenSet.new ks
  | .union a b => TokenSet.union a.eval b.eval
  | .sub a b => TokenSet.sub a.eval b.eval
  | .setOrKind a k => TokenSet.setOrKind a.eval k
  | .kindOrKind k k' => TokenSet.kindOrKind k k'
  | .kindOrSet k a => TokenSet.kindOrSet k a.eval

/-- Membership in the mathematical set. -/
def Expr.Mem (x : SyntaxKind) : Expr → Prop
  | .empty => False
  | .new ks => x ∈ ks
  | .union a b => a.Mem x ∨ b.Mem x
  | .sub a b => a.Mem x ∧ ¬ b.Mem x
  | .setOrKind a k => a.Mem x ∨ x = k
  | .kindOrKind k k' => x = k ∨ x = k'
  | .kindOrSet k a => x = k ∨ a.Mem x

/-- All kinds the set is built from are below 128; otherwise constructing it panics. -/
def Expr.Small : Expr → Prop
  | .empty => True
  | .new ks => ∀ k ∈ ks, k.toNat < 128
  | .union a b => a.Small ∧ b.Small
  | .sub a b => a.Small ∧ b.Small
  | .setOrKind a k => a.Small ∧ k.toNat < 128
  | .kindOrKind k k' => k.toNat < 128 ∧ k'.toNat < 128
  | .kindOrSet k a => k.toNat < 128 ∧ a.Small

theorem ofNat_toNat (k : SyntaxKind) : SyntaxKind.ofNat k.toNat = k := by cases k <;> rfl

theorem toNat_inj {a b : SyntaxKind} (h : a.toNat = b.toNat) : a = b := by
  rw [← ofNat_toNat a, h, ofNat_toNat]

theorem getLsbD_mask (k : SyntaxKind) (i : Nat) :
    (mask k).getLsbD i = decide (i = k.toNat % 128) := by
  unfold mask
  rw [BitVec.getLsbD_shiftLeft]
  by_cases h : i = k.toNat % 128
  · have : k.toNat % 128 < 128 := Nat.mod_lt _ (by decide)
    subst h
    simp [this]
  · simp only [h, decide_false, Bool.and_eq_false_imp]
    intro h1
    simp only [Bool.and_eq_true, decide_eq_true_eq, Bool.not_eq_eq_eq_not, Bool.not_true,
      decide_eq_false_iff_not] at h1
    rw [BitVec.getLsbD_one]
    simp
    omega

theorem contains_eq (a : TSet) (k : SyntaxKind) : contains a k = a.getLsbD (k.toNat % 128) := by
  have hlt : k.toNat % 128 < 128 := Nat.mod_lt _ (by decide)
  unfold contains
  cases h : a.getLsbD (k.toNat % 128) with
  | true =>
    rw [bne_iff_ne]
    intro h0
    have := congrArg (fun x : BitVec 128 => x.getLsbD (k.toNat % 128)) h0
    simp [BitVec.getLsbD_and, h, getLsbD_mask] at this
  | false =>
    rw [Bool.eq_false_iff]
    intro h0
    rw [bne_iff_ne] at h0
    apply h0
    apply BitVec.eq_of_getLsbD_eq
    intro i hi
    rw [BitVec.getLsbD_and, getLsbD_mask]
    by_cases hik : i = k.toNat % 128
    · subst hik; simp [h]
    · simp [hik]

theorem getLsbD_new (ks : List SyntaxKind) (i : Nat) :
    (new ks).getLsbD i = true ↔ ∃ k ∈ ks, i = k.toNat % 128 := by
  have key : ∀ (ks : List SyntaxKind) (acc : TSet),
      (ks.foldl (fun res k => res ||| mask k) acc).getLsbD i = true ↔
        acc.getLsbD i = true ∨ ∃ k ∈ ks, i = k.toNat % 128 := by
    intro ks
    induction ks with
    | nil => simp
    | cons k ks ih =>
      intro acc
      rw [List.foldl_cons, ih, BitVec.getLsbD_or, getLsbD_mask]
      simp only [Bool.or_eq_true, decide_eq_true_eq, List.mem_cons, exists_eq_or_imp, or_assoc]
  unfold new
  rw [key]
  simp

theorem eval_bit (e : Expr) (x : SyntaxKind) (hx : x.toNat < 128) (hs : e.Small) :
    e.eval.getLsbD x.toNat = true ↔ e.Mem x := by
  have hmod : x.toNat % 128 = x.toNat := Nat.mod_eq_of_lt hx
  have one : ∀ k : SyntaxKind, k.toNat < 128 → (x.toNat = k.toNat % 128 ↔ x = k) := by
    intro k hk
    rw [Nat.mod_eq_of_lt hk]
    exact ⟨toNat_inj, fun h => by rw [h]⟩
  induction e with
  | empty => simp [Expr.eval, Expr.Mem, TokenSet.empty]
  | new ks =>
    simp only [Expr.eval, Expr.Mem, getLsbD_new]
    constructor
    · rintro ⟨k, hk, h⟩; rw [(one k (hs k hk)).1 h]; exact hk
    · intro h; exact ⟨x, h, hmod.symm⟩
  | union a b iha ihb =>
    simp only [Expr.eval, Expr.Mem, TokenSet.union, BitVec.getLsbD_or, Bool.or_eq_true, iha hs.1, ihb hs.2]
  | sub a b iha ihb =>
    simp only [Expr.eval, Expr.Mem, TokenSet.sub, BitVec.getLsbD_and, BitVec.getLsbD_not, Bool.and_eq_true,
      iha hs.1, hx, decide_true, Bool.true_and, Bool.not_eq_eq_eq_not, Bool.not_true]
    have hb : b.eval.getLsbD x.toNat = true ↔ b.Mem x := ihb hs.2
    rw [← hb]; simp
  | setOrKind a k iha =>
    simp only [Expr.eval, Expr.Mem, TokenSet.setOrKind, TokenSet.union, BitVec.getLsbD_or, Bool.or_eq_true,
      iha hs.1, getLsbD_new, List.mem_singleton, exists_eq_left, one k hs.2]
  | kindOrKind k k' =>
    simp only [Expr.eval, Expr.Mem, TokenSet.kindOrKind, getLsbD_new, List.mem_cons, List.not_mem_nil, or_false,
      exists_eq_or_imp, exists_eq_left, one k hs.1, one k' hs.2]
  | kindOrSet k a iha =>
    simp only [Expr.eval, Expr.Mem, TokenSet.kindOrSet, TokenSet.union, BitVec.getLsbD_or, Bool.or_eq_true,
      iha hs.2, getLsbD_new, List.mem_singleton, exists_eq_left, one k hs.1]

/-- The kinds of tokens the parser sees: what the lexer makes, without trivia, and the end of the file. -/
def ParserSees (k : SyntaxKind) : Prop :=
  k = .EOF ∨ (k.isTrivia = false ∧ ∃ t, Lexer.syntaxKind t = some k)

theorem parserSees_small {k : SyntaxKind} (h : ParserSees k) : k.toNat < 128 := by
  rcases h with rfl | ⟨h1, t, h2⟩
  · decide
  · cases t <;> cases h2 <;> first | decide | (revert h1; decide)

/-- **C27.** For every token set the parser can build without a panic and every token kind it can look at,
membership is membership in the mathematical set, and looking it up does not panic. -/
theorem C27_contains_iff_mem (e : Expr) (hs : e.Small) (x : SyntaxKind) (hx : ParserSees x) :
    (contains e.eval x = true ↔ e.Mem x) ∧ maskChecked x = some (mask x) := by
  have h := parserSees_small hx
  refine ⟨?_, if_pos h⟩
  rw [contains_eq, Nat.mod_eq_of_lt h]
  exact eval_bit e x h hs

/-- **C27 (all kinds below 128).** The same for every kind with an index below 128. -/
theorem C27_contains_iff_mem_small (e : Expr) (hs : e.Small) (x : SyntaxKind) (hx : x.toNat < 128) :
    contains e.eval x = true ↔ e.Mem x := by
  rw [contains_eq, Nat.mod_eq_of_lt hx]
  exact eval_bit e x hx hs

/-- **C27 (listing).** The kinds listed by a token set are its members, each once. -/
theorem C27_kinds_lists_members (e : Expr) (hs : e.Small) :
    (kinds e.eval).Nodup ∧ ∀ x, x ∈ kinds e.eval ↔ x.toNat < 128 ∧ e.Mem x := by
  have hall : ∀ i < 128, (SyntaxKind.ofNat i).toNat = i := by decide +kernel
  constructor
  · unfold kinds
    refine List.Nodup.filter _ ?_
    refine List.Nodup.map_on ?_ List.nodup_range
    intro i hi j hj h
    rw [← hall i (List.mem_range.1 hi), ← hall j (List.mem_range.1 hj), h]
  · intro x
    unfold kinds
    rw [List.mem_filter, List.mem_map]
    constructor
    · rintro ⟨⟨i, hi, rfl⟩, hc⟩
      have h := hall i (List.mem_range.1 hi)
      have hlt : (SyntaxKind.ofNat i).toNat < 128 := by rw [h]; exact List.mem_range.1 hi
      exact ⟨hlt, (C27_contains_iff_mem_small e hs _ hlt).1 hc⟩
    · rintro ⟨hlt, hm⟩
      exact ⟨⟨x.toNat, List.mem_range.2 hlt, toNat_inj (hall _ hlt)⟩,
        (C27_contains_iff_mem_small e hs x hlt).2 hm⟩

/-- **C27 (emptiness).** A token set is empty exactly if the set has no member below 128. -/
theorem C27_isEmpty_iff (e : Expr) (hs : e.Small) :
    isEmpty e.eval = true ↔ ∀ x : SyntaxKind, x.toNat < 128 → ¬ e.Mem x := by
  have hall : ∀ i < 128, (SyntaxKind.ofNat i).toNat = i := by decide +kernel
  unfold isEmpty
  rw [beq_iff_eq]
  constructor
  · intro h x hx hm
    rw [← eval_bit e x hx hs, h] at hm
    simp at hm
  · intro h
    apply BitVec.eq_of_getLsbD_eq
    intro i hi
    have h1 := h (SyntaxKind.ofNat i) (by rw [hall i hi]; exact hi)
    rw [← eval_bit e _ (by rw [hall i hi]; exact hi) hs, hall i hi] at h1
    simpa using h1

example : (Expr.sub (.union (.new [.IDENT, .COMMA]) (.kindOrKind .SEMICOLON .PIPE)) (.new [.COMMA])).Small ∧
    (Expr.sub (.union (.new [.IDENT, .COMMA]) (.kindOrKind .SEMICOLON .PIPE)) (.new [.COMMA])).Mem .PIPE ∧
    ParserSees .PIPE := by
  refine ⟨?_, ?_, Or.inr ⟨rfl, .Pipe, rfl⟩⟩
  · simp [Expr.Small]; decide
  · simp [Expr.Mem]

/-- **C27 fails beyond 128.** Without overflow checks a kind with an index of 128 or more aliases another
one: a set with only `EOF` contains `WILDCARD_IDENT`, a kind the parser gives to tokens it builds. With
overflow checks the lookup panics. -/
theorem C27_large_kind_aliases_fails : contains (new [.EOF]) .WILDCARD_IDENT = true ∧
    maskChecked .WILDCARD_IDENT = none ∧ maskChecked .COMMENT = none := by
  decide +kernel

end Verif.TokenSet
