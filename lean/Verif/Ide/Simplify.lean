import Verif.Parser.PrecBodyProps

/-! C76: the fixes that write an expression in a shorter way (ide-diagnostics/src/handlers: can_be_replaced_with_compound_expr.rs,
can_be_replaced_with_index_expr.rs, can_be_replaced_with_method_call.rs, replace_with_resource_index_expr.rs, redundant_cast.rs). -/

namespace Verif.Ide.Simplify
open Verif Verif.Parser
open Verif.Syntax (SyntaxKind)

/-! ### Model

The expressions are those of C64 (`Verif.Parser.Ex`): what is not among them is not modelled. Their names are left out, and with them
the questions to the database whether a fix is offered: a fix is modelled as if the answer were yes. -/

/-- `ArithOp` (node_ext/bin_expr.rs:33–42), and the operator of `Assignment { op: Some(..) }` (operators.rs:122–140). -/
def compoundOp : SyntaxKind → Option SyntaxKind
  | .PLUS => some .PLUS_EQ
  | .STAR => some .STAR_EQ
  | .MINUS => some .MINUS_EQ
  | .SLASH => some .SLASH_EQ
  | .PERCENT => some .PERCENT_EQ
  | .SHL => some .SHL_EQ
  | .SHR => some .SHR_EQ
  | .CARET => some .CARET_EQ
  | .PIPE => some .PIPE_EQ
  | .AMP => some .AMP_EQ
  | _ => none

/-- Is a compound assignment suggested (can_be_replaced_with_compound_expr.rs:13–38)? `same` is the comparison of the green trees of
the left sides. A range is no `BIN_EXPR`. -/
def compoundShown (same : Ex → Ex → Bool) : Ex → Bool
  | .bin k l (.bin k' l' _) => decide (k = .EQ) && decide (k' ≠ .DOT_DOT) && same l l'
  | _ => false

/-- The fix (can_be_replaced_with_compound_expr.rs:40–73). -/
def compoundFix : Ex → Option Ex
  | .bin _ l (.bin k _ r) => (compoundOp k).map fun k' => .bin k' l r
  | _ => none

/-- What is indexed (can_be_replaced_with_index_expr.rs:110–118, 131–133). -/
def indexBase : Ex → Ex
  | .path addr more => .path addr more
  | .paren e => .paren e
  | .un .borrow e => e
  | .un .borrowMut e => e
  | e => .paren e

/-- The first argument. -/
def firstArg : Args → Option Ex
  | .none => none
  | .one e => some e
  | .more e _ => some e

/-- The arguments after the first. -/
def restArgs : Args → Args
  | .more _ a => a
  | _ => .none

/-- The fix of `*vector::borrow(v, i)` and `*v.borrow(i)` (can_be_replaced_with_index_expr.rs:83–142). -/
def indexFix : Ex → Option Ex
  | .un .deref (.call _ a) => (firstArg a).bind fun r => (firstArg (restArgs a)).map fun i => .index (indexBase r) i
  | .un .deref (.method r a) => (firstArg a).map fun i => .index (indexBase r) i
  | _ => none

/-- What the method is called on (can_be_replaced_with_method_call.rs:93–96, 121–132). -/
def methodBase (r : Ex) : Ex :=
  let r := match r with
    | .un .borrow e => e
    | .un .borrowMut e => e
    | e => e
  if [SyntaxKind.PAREN_EXPR, .DOT_EXPR, .METHOD_CALL_EXPR, .INDEX_EXPR, .CALL_EXPR, .PATH_EXPR, .LITERAL].contains r.kind then r else .paren r

/-- The fix of `m::f(x, …)` (can_be_replaced_with_method_call.rs:85–151). -/
def methodFix : Ex → Option Ex
  | .call _ a => (firstArg a).map fun r => .method (methodBase r) (restArgs a)
  | _ => none

/-- The fix of a redundant cast (redundant_cast.rs:46–64). -/
def castFix : Ex → Option Ex
  | .cast e _ _ => some e
  | _ => none

/-- A place in the arguments of a call. -/
inductive ArgHole where
  | only
  | first (a : Args)
  | later (e : Ex) (h : ArgHole)

/-- An expression with a place for one of its operands. -/
inductive Frame where
  | paren
  | un (o : UnOp)
  | field (num : Bool)
  | base (i : Ex)
  | idx (e : Ex)
  | callee (a : Args)
  | arg (f : Ex) (h : ArgHole)
  | recv (a : Args)
  | margs (e : Ex) (h : ArgHole)
  | left (k : SyntaxKind) (r : Ex)
  | right (k : SyntaxKind) (l : Ex)
  | castOf (addr : Bool) (more : Nat)

def ArgHole.fill : ArgHole → Ex → Args
  | .only, x => .one x
  | .first a, x => .more x a
  | .later e h, x => .more e (h.fill x)

def Frame.fill : Frame → Ex → Ex
  | .paren, x => .paren x
  | .un o, x => .un o x
  | .field num, x => .field x num
  | .base i, x => .index x i
  | .idx e, x => .index e x
  | .callee a, x => .call x a
  | .arg f h, x => .call f (h.fill x)
  | .recv a, x => .method x a
  | .margs e h, x => .method e (h.fill x)
  | .left k r, x => .bin k x r
  | .right k l, x => .bin k l x
  | .castOf addr more, x => .cast x addr more

/-- The expression put into a larger one, from the inside. -/
def fill : List Frame → Ex → Ex
  | [], x => x
  | f :: c, x => fill c (f.fill x)

/-- The fix of `borrow_global<T>(a)` (replace_with_resource_index_expr.rs:53–121), outside of specifications. The first frame is the
parent of the call. The type arguments are not in the model of the expression. -/
def resourceFix (c : List Frame) (mut' addr : Bool) (more : Nat) : Ex → Option Ex
  | .call _ (.one a) =>
    match c.head? with
    | some (.field _) => some (.index (.path addr more) a)
    | some (.recv _) => some (.index (.path addr more) a)
    | _ => some (.un (if mut' then .borrowMut else .borrow) (.index (.path addr more) a))
  | _ => none

/-! ### Specification -/

/-- The operator takes the operand at that place without parentheses. -/
def Frame.Takes : Frame → Ex → Prop
  | .left k _, x => level k < x.last
  | .castOf .., x => level .AS_KW < x.last
  | .field _, x | .base _, x | .callee _, x | .recv _, x => x.Primary
  | _, _ => True

/-- How the operators are written. -/
def spelled : List (SyntaxKind × List Char) :=
  [(.PLUS, ['+']), (.STAR, ['*']), (.MINUS, ['-']), (.SLASH, ['/']), (.PERCENT, ['%']), (.SHL, ['<', '<']), (.SHR, ['>', '>']),
    (.CARET, ['^']), (.PIPE, ['|']), (.AMP, ['&']), (.PLUS_EQ, ['+', '=']), (.STAR_EQ, ['*', '=']), (.MINUS_EQ, ['-', '=']),
    (.SLASH_EQ, ['/', '=']), (.PERCENT_EQ, ['%', '=']), (.SHL_EQ, ['<', '<', '=']), (.SHR_EQ, ['>', '>', '=']),
    (.CARET_EQ, ['^', '=']), (.PIPE_EQ, ['|', '=']), (.AMP_EQ, ['&', '='])]

/-- The second operator is the first one followed by `=`. -/
def Compound (k k' : SyntaxKind) : Prop := ∃ w, (k, w) ∈ spelled ∧ (k', w ++ ['=']) ∈ spelled

/-- The operand of a borrow. -/
def Borrows (r x : Ex) : Prop := r = .un .borrow x ∨ r = .un .borrowMut x

/-- What is borrowed, or the expression if it is no borrow; without parentheses. -/
def Borrowed (r s : Ex) : Prop := (∃ x, Borrows r x ∧ s = x.strip) ∨ ((∀ x, ¬ Borrows r x) ∧ s = r.strip)

mutual
/-- How many calls there are in an expression. -/
def calls : Ex → Nat
  | .path .. => 0
  | .lit _ => 0
  | .paren e => calls e
  | .un _ e => calls e
  | .field e _ => calls e
  | .index e i => calls e + calls i
  | .call f a => 1 + calls f + callsArgs a
  | .method e a => 1 + calls e + callsArgs a
  | .bin _ l r => calls l + calls r
  | .cast e _ _ => calls e
def callsArgs : Args → Nat
  | .none => 0
  | .one e => calls e
  | .more e a => calls e + callsArgs a
end

/-! ### Lemmas -/

theorem fits_mono : ∀ {e : Ex} {m m' : Nat}, m' ≤ m → e.Fits m → e.Fits m'
  | .path .., _, _, _, h | .lit _, _, _, _, h | .paren _, _, _, _, h | .un .., _, _, _, h | .field .., _, _, _, h
  | .index .., _, _, _, h | .call .., _, _, _, h | .method .., _, _, _, h => h
  | .bin _ l _, _, _, hm, h => ⟨h.1, le_trans hm h.2.1, fits_mono (e := l) hm h.2.2.1, h.2.2.2⟩
  | .cast e _ _, _, _, hm, h => ⟨h.1, le_trans hm h.2.1, fits_mono (e := e) hm h.2.2.1, h.2.2.2⟩

theorem hole_ne (h : ArgHole) (x : Ex) : h.fill x ≠ .none := by
  cases h <;> simp [ArgHole.fill]

theorem hole_fits {h : ArgHole} {a b : Ex} (hab : ∀ m, a.Fits m → b.Fits m) : (h.fill a).Fits → (h.fill b).Fits := by
  induction h with
  | only => exact hab 1
  | first x => exact fun hx => ⟨hab 1 hx.1, hx.2⟩
  | later e h ih => exact fun hx => ⟨hx.1, hole_ne h b, ih hx.2.2⟩

theorem frame_fits {f : Frame} {a b : Ex} {m : Nat} (hab : ∀ m, a.Fits m → b.Fits m) (hm : b.minus = true → a.minus = true)
    (ht : f.Takes b) (h : (f.fill a).Fits m) : (f.fill b).Fits m := by
  cases f with
  | paren => exact hab 1 h
  | un o => exact hab 255 h
  | field num => exact ⟨ht, hab 255 h.2⟩
  | base i => exact ⟨ht, hab 255 h.2.1, h.2.2⟩
  | idx e => exact ⟨h.1, h.2.1, hab 1 h.2.2⟩
  | callee x => exact ⟨ht, hab 255 h.2.1, h.2.2⟩
  | arg f x => exact ⟨h.1, h.2.1, hole_fits hab h.2.2⟩
  | recv x => exact ⟨ht, hab 255 h.2.1, h.2.2⟩
  | margs e x => exact ⟨h.1, h.2.1, hole_fits hab h.2.2⟩
  | left k r => exact ⟨h.1, h.2.1, hab m h.2.2.1, ht, h.2.2.2.2⟩
  | right k l =>
    refine ⟨h.1, h.2.1, h.2.2.1, h.2.2.2.1, hab _ h.2.2.2.2.1, fun hk => ?_⟩
    have := h.2.2.2.2.2 hk
    cases hb : b.minus
    · rfl
    · rw [hm hb] at this
      cases this
  | castOf addr more => exact ⟨h.1, h.2.1, hab m h.2.2.1, ht⟩

theorem frame_minus {f : Frame} {a b : Ex} (hm : b.minus = true → a.minus = true) (h : (f.fill b).minus = true) :
    (f.fill a).minus = true := by
  cases f <;> first | exact hm h | exact h

theorem takes_fill {f g : Frame} (a b : Ex) : g.Takes (f.fill a) ↔ g.Takes (f.fill b) := by
  cases g <;> cases f <;> exact Iff.rfl

theorem fits_takes {f : Frame} {x : Ex} {m : Nat} (h : (f.fill x).Fits m) : f.Takes x := by
  cases f with
  | paren | un | idx | arg | margs | right => trivial
  | field | base | callee | recv => exact h.1
  | left k r => exact h.2.2.2.1
  | castOf addr more => exact h.2.2.2

theorem hole_inner {h : ArgHole} {x : Ex} (hx : (h.fill x).Fits) : ∃ m, x.Fits m := by
  induction h with
  | only => exact ⟨1, hx⟩
  | first a => exact ⟨1, hx.1⟩
  | later e h ih => exact ih hx.2.2

theorem frame_inner {f : Frame} {x : Ex} {m : Nat} (h : (f.fill x).Fits m) : ∃ m', x.Fits m' := by
  cases f with
  | paren => exact ⟨_, h⟩
  | un => exact ⟨_, h⟩
  | field => exact ⟨_, h.2⟩
  | base | callee | recv => exact ⟨_, h.2.1⟩
  | idx => exact ⟨_, h.2.2⟩
  | arg | margs => exact hole_inner h.2.2
  | left => exact ⟨_, h.2.2.1⟩
  | right => exact ⟨_, h.2.2.2.2.1⟩
  | castOf => exact ⟨_, h.2.2.1⟩

theorem fill_inner {c : List Frame} {x : Ex} {m : Nat} (h : (fill c x).Fits m) : ∃ m', x.Fits m' := by
  induction c generalizing x with
  | nil => exact ⟨m, h⟩
  | cons f c ih =>
    obtain ⟨m', h'⟩ := ih (x := f.fill x) h
    exact frame_inner h'

theorem fill_takes {f : Frame} {c : List Frame} {x : Ex} {m : Nat} (h : (fill (f :: c) x).Fits m) : f.Takes x := by
  obtain ⟨m', h'⟩ := fill_inner (c := c) (x := f.fill x) h
  exact fits_takes h'

theorem fill_fits {c : List Frame} {a b : Ex} {m : Nat} (hab : ∀ m, a.Fits m → b.Fits m) (hm : b.minus = true → a.minus = true)
    (ht : ∀ f, c.head? = some f → f.Takes b) (h : (fill c a).Fits m) : (fill c b).Fits m := by
  induction c generalizing a b with
  | nil => exact hab m h
  | cons f c ih =>
    have hf := ht f rfl
    refine ih (a := f.fill a) (b := f.fill b) (fun _ => frame_fits hab hm hf) (frame_minus hm) (fun g hg => ?_) h
    cases c with
    | nil => cases hg
    | cons g' c =>
      cases hg
      exact (takes_fill a b).1 (fill_takes h)

/-- Names, literals, calls and the like fit anywhere. -/
theorem takes_primary {b : Ex} (h : b.Primary) (f : Frame) : f.Takes b := by
  have hl := b.last_primary h
  cases f with
  | paren | un | idx | arg | margs | right => trivial
  | field | base | callee | recv => exact h
  | left k r => show level k < b.last; rw [hl]; exact level_lt k
  | castOf => show level .AS_KW < b.last; rw [hl]; exact level_lt _

theorem firstArg_fits {a : Args} {e : Ex} (h : a.Fits) (ha : firstArg a = some e) : e.Fits 1 := by
  cases a with
  | none => cases ha
  | one x => cases ha; exact h
  | more x y => cases ha; exact h.1

theorem restArgs_fits {a : Args} (h : a.Fits) : (restArgs a).Fits := by
  cases a with
  | none => trivial
  | one x => trivial
  | more x y => exact h.2.2

theorem compoundOp_some {k k' : SyntaxKind} (h : compoundOp k = some k') :
    level k' = 1 ∧ 1 < level k ∧ IsBin k' ∧ k' ≠ .DOT_DOT ∧ Compound k k' := by
  unfold compoundOp at h
  split at h <;> cases h <;> refine ⟨by decide, by decide, by decide, by decide, ?_⟩ <;> unfold Compound <;>
    first
    | exact ⟨['+'], by decide, by decide⟩
    | exact ⟨['*'], by decide, by decide⟩
    | exact ⟨['-'], by decide, by decide⟩
    | exact ⟨['/'], by decide, by decide⟩
    | exact ⟨['%'], by decide, by decide⟩
    | exact ⟨['<', '<'], by decide, by decide⟩
    | exact ⟨['>', '>'], by decide, by decide⟩
    | exact ⟨['^'], by decide, by decide⟩
    | exact ⟨['|'], by decide, by decide⟩
    | exact ⟨['&'], by decide, by decide⟩

/-! ### Theorems -/

/-- **C76 (compound assignments).** In any expression that reads as it is written, `x = y op z` can be replaced by what the fix makes
of it: the operator followed by `=`, between the same operands. The result reads as it is written. -/
theorem C76_compound {same : Ex → Ex → Bool} {c : List Frame} {e e' : Ex} {m : Nat} (hs : compoundShown same e = true)
    (h : compoundFix e = some e') (hf : (fill c e).Fits m) :
    (fill c e').Fits m ∧ ∃ k k' x y z, e = .bin .EQ x (.bin k y z) ∧ same x y = true ∧ e' = .bin k' x z ∧ Compound k k' := by
  unfold compoundShown at hs
  split at hs
  · next k0 l k l' r =>
    simp only [Bool.and_eq_true, decide_eq_true_eq] at hs
    obtain ⟨⟨rfl, -⟩, hsame⟩ := hs
    unfold compoundFix at h
    dsimp only at h
    obtain ⟨k', hk, rfl⟩ := Option.map_eq_some_iff.1 h
    obtain ⟨h1, h2, h3, h4, h5⟩ := compoundOp_some hk
    have hlast : (Ex.bin k' l r).last = (Ex.bin .EQ l (.bin k l' r)).last := by
      show level k' + 1 = level .EQ + 1
      rw [h1]; decide
    refine ⟨fill_fits (a := .bin .EQ l (.bin k l' r)) (fun m hm => ?_) (fun x => x) (fun f hf' => ?_) hf, k, k', l, l', r, rfl, hsame, rfl, h5⟩
    · have he : level .EQ = 1 := by decide
      have hm1 : m ≤ level .EQ := hm.2.1
      have hm2 : level .EQ < l.last := hm.2.2.2.1
      have hr : r.Fits (level k + 1) := hm.2.2.2.2.1.2.2.2.2.1
      exact ⟨h3, by omega, hm.2.2.1, by omega, fits_mono (by omega) hr, fun hd => absurd hd h4⟩
    · cases c with
      | nil => cases hf'
      | cons g c =>
        cases hf'
        have := fill_takes hf
        cases f <;> first | trivial | (show _ < (Ex.bin k' l r).last; rw [hlast]; exact this)
  · cases hs

/-- **C76 (operators).** There is a fix for every operator that has a compound assignment. -/
theorem C76_operators {k k' : SyntaxKind} (h : Compound k k') (x y z : Ex) :
    compoundFix (.bin .EQ x (.bin k y z)) = some (.bin k' x z) := by
  have : ∀ a ∈ spelled, ∀ b ∈ spelled, b.2 = a.2 ++ ['='] → compoundOp a.1 = some b.1 := by decide
  obtain ⟨w, h1, h2⟩ := h
  unfold compoundFix
  dsimp only
  rw [show compoundOp k = some k' from this _ h1 _ h2 rfl]
  rfl

example : Compound .SHL .SHL_EQ := ⟨['<', '<'], by decide, by decide⟩

/-- **C76 (calls in compound assignments).** The fix leaves out the second occurrence of the left side, and nothing else. So it leaves
all calls in place if there are none in the left side. -/
theorem C76_calls {same : Ex → Ex → Bool} (hsame : ∀ x y, same x y = true → x = y) {e e' : Ex} (hs : compoundShown same e = true)
    (h : compoundFix e = some e') : ∃ k x r, e = .bin k x r ∧ calls e = calls e' + calls x := by
  unfold compoundShown at hs
  split at hs
  · next k0 l k l' r =>
    simp only [Bool.and_eq_true, decide_eq_true_eq] at hs
    have := hsame _ _ hs.2
    subst this
    unfold compoundFix at h
    dsimp only at h
    obtain ⟨k', hk, rfl⟩ := Option.map_eq_some_iff.1 h
    refine ⟨k0, l, _, rfl, ?_⟩
    simp only [calls]
    omega
  · cases hs

theorem indexBase_spec {r : Ex} (hf : r.Fits 1) (hb : ∀ x, Borrows r x → x.Primary) :
    (indexBase r).Primary ∧ (indexBase r).Fits 255 ∧ Borrowed r (indexBase r).strip := by
  have no : ∀ {o x}, o ≠ .borrow → o ≠ .borrowMut → ∀ y, ¬ Borrows (.un o x) y := by
    rintro o x h1 h2 y (h | h) <;> cases h
    · exact h1 rfl
    · exact h2 rfl
  cases r with
  | path => exact ⟨trivial, hf, .inr ⟨fun y h => (by rcases h with h | h <;> cases h), rfl⟩⟩
  | paren => exact ⟨trivial, hf, .inr ⟨fun y h => (by rcases h with h | h <;> cases h), rfl⟩⟩
  | un o x =>
    cases o with
    | borrow => exact ⟨hb x (.inl rfl), hf, .inl ⟨x, .inl rfl, rfl⟩⟩
    | borrowMut => exact ⟨hb x (.inr rfl), hf, .inl ⟨x, .inr rfl, rfl⟩⟩
    | _ => exact ⟨trivial, hf, .inr ⟨no (by decide) (by decide), rfl⟩⟩
  | _ => exact ⟨trivial, hf, .inr ⟨fun y h => (by rcases h with h | h <;> cases h), rfl⟩⟩

/-- What `*vector::borrow(r, i)` or `*r.borrow(i)` is made of. -/
def Element (e r i : Ex) : Prop :=
  (∃ f, e = .un .deref (.call f (.more r (.one i)))) ∨ (∃ f a, e = .un .deref (.call f (.more r (.more i a)))) ∨
    (e = .un .deref (.method r (.one i))) ∨ ∃ a, e = .un .deref (.method r (.more i a))

/-- **C76 (index expressions, partial).** In any expression that reads as it is written, the dereferenced call can be replaced by what
the fix makes of it: the vector, or what is borrowed for it, with the index in brackets. Missing is a vector that is borrowed from
something other than a name, a call and the like, see `C76_index_fails`. -/
theorem C76_index_partial {c : List Frame} {e e' r i : Ex} {m : Nat} (he : Element e r i) (h : indexFix e = some e')
    (hf : (fill c e).Fits m) (hb : ∀ x, Borrows r x → x.Primary) :
    (fill c e').Fits m ∧ ∃ x, Borrowed r x ∧ e'.strip = .index x i.strip := by
  obtain ⟨m', hm'⟩ := fill_inner hf
  have key : r.Fits 1 ∧ i.Fits 1 ∧ e' = .index (indexBase r) i ∧ e.minus = false := by
    rcases he with ⟨f, rfl⟩ | ⟨f, a, rfl⟩ | rfl | ⟨a, rfl⟩
    · obtain ⟨-, -, h1, -, h2⟩ := hm'
      cases h
      exact ⟨h1, h2, rfl, rfl⟩
    · obtain ⟨-, -, h1, -, h2, -, -⟩ := hm'
      cases h
      exact ⟨h1, h2, rfl, rfl⟩
    · obtain ⟨-, h1, h2⟩ := hm'
      cases h
      exact ⟨fits_mono (by omega) h1, h2, rfl, rfl⟩
    · obtain ⟨-, h1, h2, -, -⟩ := hm'
      cases h
      exact ⟨fits_mono (by omega) h1, h2, rfl, rfl⟩
  obtain ⟨h1, h2, rfl, hmin⟩ := key
  obtain ⟨hp, hfb, hs⟩ := indexBase_spec h1 hb
  have hfit : ∀ m, (Ex.index (indexBase r) i).Fits m := fun _ => ⟨hp, hfb, h2⟩
  refine ⟨fill_fits (fun m _ => hfit m) (fun hh => ?_) (fun f _ => takes_primary (by trivial) f) hf, ?_⟩
  · rw [Ex.minus_primary (by trivial) (hfit 1)] at hh
    cases hh
  · exact ⟨_, hs, rfl⟩

theorem methodBase_spec {r : Ex} (hf : r.Fits 1) :
    (methodBase r).Primary ∧ (methodBase r).Fits 255 ∧ Borrowed r (methodBase r).strip := by
  have key : ∀ x : Ex, x.Fits 1 → (if [SyntaxKind.PAREN_EXPR, .DOT_EXPR, .METHOD_CALL_EXPR, .INDEX_EXPR, .CALL_EXPR, .PATH_EXPR, .LITERAL].contains
      x.kind then x else Ex.paren x).Primary ∧ (if [SyntaxKind.PAREN_EXPR, .DOT_EXPR, .METHOD_CALL_EXPR, .INDEX_EXPR, .CALL_EXPR, .PATH_EXPR,
      .LITERAL].contains x.kind then x else Ex.paren x).Fits 255 ∧ (if [SyntaxKind.PAREN_EXPR, .DOT_EXPR, .METHOD_CALL_EXPR, .INDEX_EXPR,
      .CALL_EXPR, .PATH_EXPR, .LITERAL].contains x.kind then x else Ex.paren x).strip = x.strip := by
    intro x hx
    cases x with
    | bin k l r =>
      have : (Ex.bin k l r).kind = .RANGE_EXPR ∨ (Ex.bin k l r).kind = .BIN_EXPR := by
        simp only [Ex.kind]; split <;> simp
      rcases this with h | h <;> rw [h] <;> exact ⟨trivial, hx, rfl⟩
    | un o y => cases o <;> exact ⟨trivial, hx, rfl⟩
    | _ => exact ⟨trivial, hx, rfl⟩
  have no : ∀ {o x}, o ≠ .borrow → o ≠ .borrowMut → ∀ y, ¬ Borrows (.un o x) y := by
    rintro o x h1 h2 y (h | h) <;> cases h
    · exact h1 rfl
    · exact h2 rfl
  cases r with
  | un o x =>
    cases o with
    | borrow =>
      obtain ⟨h1, h2, h3⟩ := key x (fits_mono (by omega) (show x.Fits 255 from hf))
      exact ⟨h1, h2, .inl ⟨x, .inl rfl, h3⟩⟩
    | borrowMut =>
      obtain ⟨h1, h2, h3⟩ := key x (fits_mono (by omega) (show x.Fits 255 from hf))
      exact ⟨h1, h2, .inl ⟨x, .inr rfl, h3⟩⟩
    | _ =>
      obtain ⟨h1, h2, h3⟩ := key _ hf
      exact ⟨h1, h2, .inr ⟨no (by decide) (by decide), h3⟩⟩
  | _ =>
    obtain ⟨h1, h2, h3⟩ := key _ hf
    exact ⟨h1, h2, .inr ⟨fun y h => (by rcases h with h | h <;> cases h), h3⟩⟩

/-- **C76 (method calls).** In any expression that reads as it is written, a call can be replaced by what the fix makes of it: the
method call on the first argument, or on what is borrowed there, with the other arguments. -/
theorem C76_method {c : List Frame} {e e' : Ex} {m : Nat} (h : methodFix e = some e') (hf : (fill c e).Fits m) :
    (fill c e').Fits m ∧ ∃ f r a x, (e = .call f (.one r) ∧ a = .none ∨ e = .call f (.more r a)) ∧ Borrowed r x ∧
      e'.strip = .method x a.strip := by
  obtain ⟨m', hm'⟩ := fill_inner hf
  have key : ∃ f r a, (e = .call f (.one r) ∧ a = .none ∨ e = .call f (.more r a)) ∧ r.Fits 1 ∧ a.Fits ∧ e' = .method (methodBase r) a := by
    cases e with
    | call f a =>
      obtain ⟨-, -, ha⟩ := hm'
      cases a with
      | none => cases h
      | one r => cases h; exact ⟨f, r, .none, .inl ⟨rfl, rfl⟩, ha, trivial, rfl⟩
      | more r a => cases h; exact ⟨f, r, a, .inr rfl, ha.1, ha.2.2, rfl⟩
    | _ => cases h
  obtain ⟨f, r, a, he, h1, h2, rfl⟩ := key
  obtain ⟨hp, hfb, hs⟩ := methodBase_spec h1
  have hfit : ∀ m, (Ex.method (methodBase r) a).Fits m := fun _ => ⟨hp, hfb, h2⟩
  refine ⟨fill_fits (fun m _ => hfit m) (fun hh => ?_) (fun f _ => takes_primary (by trivial) f) hf, ?_⟩
  · rw [Ex.minus_primary (by trivial) (hfit 1)] at hh
    cases hh
  · exact ⟨f, r, a, _, he, hs, rfl⟩

/-- **C76 (redundant casts, partial).** In any expression that reads as it is written, a cast can be replaced by its operand exactly if
no binary operator follows it that would take a part of the operand. Missing are the other casts, see `C76_cast_fails`. -/
theorem C76_cast_partial {c : List Frame} {e e' : Ex} {m : Nat} (h : castFix e = some e') (hf : (fill c e).Fits m) :
    (fill c e').Fits m ↔ ∀ k r, c.head? = some (.left k r) → level k < e'.last := by
  cases e with
  | cast x addr more =>
    cases h
    constructor
    · intro h k r hc
      cases c with
      | nil => cases hc
      | cons f c =>
        cases hc
        exact fill_takes h
    · intro h
      refine fill_fits (a := .cast e' addr more) (fun m hm => hm.2.2.1) (fun hh => hh) (fun f hc => ?_) hf
      have ht : f.Takes (.cast e' addr more) := by
        cases c with
        | nil => cases hc
        | cons g c => cases hc; exact fill_takes hf
      obtain ⟨m', hm'⟩ := fill_inner hf
      cases f with
      | paren | un | idx | arg | margs | right => trivial
      | field | base | callee | recv => exact ht.elim
      | left k r => exact h k r hc
      | castOf => exact hm'.2.2.2
  | _ => cases h

/-- **C76 (resources, partial).** In any expression that reads as it is written, `borrow_global<T>(a)` can be replaced by what the fix
makes of it, a borrow of `T[a]` or `T[a]` itself. Missing is a call that is indexed or called, see `C76_resource_fails`. -/
theorem C76_resource_partial {c : List Frame} {e e' : Ex} {m more : Nat} {mut' addr : Bool} (h : resourceFix c mut' addr more e = some e')
    (hp : addr = true → more ≠ 0) (hf : (fill c e).Fits m) (hi : ∀ i, c.head? ≠ some (.base i)) (hc : ∀ a, c.head? ≠ some (.callee a)) :
    (fill c e').Fits m ∧ ∃ f a, e = .call f (.one a) ∧ (e' = .index (.path addr more) a ∨
      e' = .un (if mut' then .borrowMut else .borrow) (.index (.path addr more) a)) := by
  obtain ⟨m', hm'⟩ := fill_inner hf
  have key : ∃ f a, e = .call f (.one a) ∧ a.Fits 1 := by
    cases e with
    | call f a =>
      cases a with
      | one a => exact ⟨f, a, rfl, hm'.2.2⟩
      | _ => cases h
    | _ => cases h
  obtain ⟨f, a, rfl, ha⟩ := key
  have hfit : ∀ m, (Ex.index (.path addr more) a).Fits m := fun _ => ⟨trivial, hp, ha⟩
  have hprim : (fill c (.index (.path addr more) a)).Fits m :=
    fill_fits (fun m _ => hfit m) (fun hh => by cases hh) (fun f _ => takes_primary (by trivial) f) hf
  unfold resourceFix at h
  dsimp only at h
  split at h
  · cases h; exact ⟨hprim, f, a, rfl, .inl rfl⟩
  · cases h; exact ⟨hprim, f, a, rfl, .inl rfl⟩
  · next h1 h2 =>
    cases h
    refine ⟨fill_fits (fun m _ => ?_) (fun hh => ?_) (fun g hg => ?_) hf, f, a, rfl, .inr rfl⟩
    · exact hfit 255
    · cases mut' <;> cases hh
    · cases g with
      | paren | un | idx | arg | margs | right => trivial
      | field num => exact absurd hg (h1 num)
      | recv a => exact absurd hg (h2 a)
      | base i => exact absurd hg (hi i)
      | callee a => exact absurd hg (hc a)
      | left k r => exact level_lt k
      | castOf => exact level_lt _

/-- One of the fixes, where it keeps the expression readable. -/
inductive Fixed (c : List Frame) (e e' : Ex) : Prop where
  | compound (same : Ex → Ex → Bool) (hs : compoundShown same e = true) (h : compoundFix e = some e')
  | index (r i : Ex) (he : Element e r i) (hb : ∀ x, Borrows r x → x.Primary) (h : indexFix e = some e')
  | method (h : methodFix e = some e')
  | cast (h : castFix e = some e') (hk : ∀ k r, c.head? = some (.left k r) → level k < e'.last)
  | resource (mut' addr : Bool) (more : Nat) (hp : addr = true → more ≠ 0) (hi : ∀ i, c.head? ≠ some (.base i))
      (hc : ∀ a, c.head? ≠ some (.callee a)) (h : resourceFix c mut' addr more e = some e')

theorem Fixed.fits {c : List Frame} {e e' : Ex} {m : Nat} (h : Fixed c e e') (hf : (fill c e).Fits m) : (fill c e').Fits m := by
  cases h with
  | compound same hs h => exact (C76_compound hs h hf).1
  | index r i he hb h => exact (C76_index_partial he h hf hb).1
  | method h => exact (C76_method h hf).1
  | cast h hk => exact (C76_cast_partial h hf).2 hk
  | resource mut' addr more hp hi hc h => exact (C76_resource_partial h hp hf hi hc).1

/-- A statement or the last expression of a body, with the expression in it replaced. -/
inductive Replaced (x x' : Ex) : List Stm → Option Ex → List Stm → Option Ex → Prop where
  | expr (pre post : List Stm) (t : Option Ex) : Replaced x x' (pre ++ .expr x :: post) t (pre ++ .expr x' :: post) t
  | bind (pre post : List Stm) (t : Option Ex) : Replaced x x' (pre ++ .bind x :: post) t (pre ++ .bind x' :: post) t
  | tail (ss : List Stm) : Replaced x x' ss (some x) ss (some x')

open Verif.Lexer (Graphemes tokenize) in
/-- **C76 (the text after a fix, partial).** In a body that reads as it is written, a fix is applied to an expression, however deep
it is in a statement. Then the text after the fix is parsed without an error, and its tree is that of the body with the expression
replaced by what the fix makes of it. The text has to be written in the tokens of C64. Missing: as in the theorems above and in
`C64_body_partial`. -/
theorem C76_reads_partial {g : List Char → Nat} (hg : Graphemes g) (hb : AsciiBreaks g) (debug : Bool) {c : List Frame} {e e' : Ex}
    (h : Fixed c e e') {ss ss' : List Stm} {t t' : Option Ex} (hr : Replaced (fill c e) (fill c e') ss t ss' t') (hf : BodyFits ss t)
    {text : List Char} {fuel : Nat} (hfuel : 2 * text.length + 2 ≤ fuel) {raw : List Lexer.RawToken} {ps : List Piece}
    (ht : tokenize g fuel text = some (some raw)) (hp : pieces text raw = some ps) {q : Nat}
    (hi : Input.IsFun ⟨source ps, debug⟩ ss' t' q) :
    ∃ tree, parseText g debug fuel text = .tree tree [] ∧ tree.marks = marks (funTree ss' t') := by
  refine C64_body_partial hg hb debug hfuel ht hp hi ?_
  cases hr with
  | expr pre post t =>
    refine ⟨fun s hs => ?_, hf.2⟩
    have hx : (fill c e).Fits 1 := hf.1 (.expr (fill c e)) (by simp)
    rcases List.mem_append.1 hs with hs | hs
    · exact hf.1 s (List.mem_append_left _ hs)
    · rcases List.mem_cons.1 hs with rfl | hs
      · exact h.fits hx
      · exact hf.1 s (List.mem_append_right _ (List.mem_cons_of_mem _ hs))
  | bind pre post t =>
    refine ⟨fun s hs => ?_, hf.2⟩
    have hx : (fill c e).Fits 1 := hf.1 (.bind (fill c e)) (by simp)
    rcases List.mem_append.1 hs with hs | hs
    · exact hf.1 s (List.mem_append_left _ hs)
    · rcases List.mem_cons.1 hs with rfl | hs
      · exact h.fits hx
      · exact hf.1 s (List.mem_append_right _ (List.mem_cons_of_mem _ hs))
  | tail ss =>
    refine ⟨hf.1, fun x hx => ?_⟩
    cases hx
    exact h.fits (hf.2 _ rfl)

end Verif.Ide.Simplify
