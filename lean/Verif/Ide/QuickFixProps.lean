import Verif.Ide.QuickFix

/-! C65: a quick fix that rewrites an expression leaves the operators around it with their operands. -/

namespace Verif.Ide
open Verif.Syntax (SyntaxKind)
open Verif.Parser
open Verif.Lexer (oneChar Graphemes tokenize)

/-! ### Argument lists -/

theorem argList_fits : ∀ {l : List Ex}, (argList l).Fits ↔ ∀ e ∈ l, e.Fits 1
  | [] => by simp [argList, Args.Fits]
  | [e] => by simp [argList, Args.Fits]
  | e :: e' :: es => by
    have ih := argList_fits (l := e' :: es)
    have : argList (e' :: es) ≠ .none := by cases es <;> simp [argList]
    simp only [argList, Args.Fits, ih, List.mem_cons, forall_eq_or_imp]
    simp [this]

theorem args_fits : ∀ {a : Args}, a.Fits → ∀ e ∈ args a, e.Fits 1
  | .none, _ => by simp [args]
  | .one e, h => by
    intro x hx
    have : x = e := by simpa [args] using hx
    exact this ▸ h
  | .more e a, h => by
    intro x hx
    rcases List.mem_cons.1 hx with rfl | hx
    · exact h.1
    · exact args_fits h.2.2 x hx

/-! ### Levels -/

theorem fits_mono : ∀ {e : Ex} {m m' : Nat}, e.Fits m → m' ≤ m → e.Fits m'
  | .path .., _, _, h, _ | .lit _, _, _, h, _ | .paren _, _, _, h, _ | .field .., _, _, h, _ | .index .., _, _, h, _
  | .call .., _, _, h, _ | .method .., _, _, h, _ | .un .., _, _, h, _ => h
  | .bin .., _, _, h, hm => ⟨h.1, Nat.le_trans hm h.2.1, fits_mono h.2.2.1 hm, h.2.2.2.1, h.2.2.2.2.1, h.2.2.2.2.2⟩
  | .cast .., _, _, h, hm => ⟨h.1, Nat.le_trans hm h.2.1, fits_mono h.2.2.1 hm, h.2.2.2⟩

/-- What can be written where `x` was, as far as the operators around are concerned. -/
structure Suits (x y : Ex) : Prop where
  fits : ∀ m, x.Fits m → y.Fits m
  minus : ∀ m, x.Fits m → x.minus = false → y.minus = false

/-- The same with the operator on the right. -/
structure Better (x y : Ex) : Prop extends Suits x y where
  primary : x.Primary → y.Primary
  last : x.last ≤ y.last

theorem Suits.fill {x y : Ex} (h : Suits x y) (f : Frame) (hp : Place.postfix [f] = true → y.Primary)
    (hlast : Place.right [f] < y.last) : Better (f.fill x) (f.fill y) := by
  have hargs : ∀ before after, (argList (before ++ x :: after)).Fits → (argList (before ++ y :: after)).Fits := by
    intro b a hf
    rw [argList_fits] at hf ⊢
    intro e he
    rcases List.mem_append.1 he with he | he
    · exact hf e (List.mem_append_left _ he)
    · rcases List.mem_cons.1 he with rfl | he
      · exact h.fits 1 (hf x (by simp))
      · exact hf e (by simp [he])
  cases f with
  | paren => exact ⟨⟨fun m hf => h.fits 1 hf, fun _ _ _ => rfl⟩, fun _ => trivial, Nat.le_refl _⟩
  | un o => exact ⟨⟨fun m hf => h.fits 255 hf, fun _ _ h => h⟩, fun h => h, Nat.le_refl _⟩
  | field num =>
    exact ⟨⟨fun m hf => ⟨hp rfl, h.fits 255 hf.2⟩, fun _ hf hm => h.minus 255 hf.2 hm⟩, fun _ => trivial, Nat.le_refl _⟩
  | indexBase i =>
    exact ⟨⟨fun m hf => ⟨hp rfl, h.fits 255 hf.2.1, hf.2.2⟩, fun _ hf hm => h.minus 255 hf.2.1 hm⟩, fun _ => trivial, Nat.le_refl _⟩
  | indexArg e => exact ⟨⟨fun m hf => ⟨hf.1, hf.2.1, h.fits 1 hf.2.2⟩, fun _ _ hm => hm⟩, fun _ => trivial, Nat.le_refl _⟩
  | callee a =>
    exact ⟨⟨fun m hf => ⟨hp rfl, h.fits 255 hf.2.1, hf.2.2⟩, fun _ hf hm => h.minus 255 hf.2.1 hm⟩, fun _ => trivial, Nat.le_refl _⟩
  | callArg f b a => exact ⟨⟨fun m hf => ⟨hf.1, hf.2.1, hargs b a hf.2.2⟩, fun _ _ hm => hm⟩, fun _ => trivial, Nat.le_refl _⟩
  | receiver a =>
    exact ⟨⟨fun m hf => ⟨hp rfl, h.fits 255 hf.2.1, hf.2.2⟩, fun _ hf hm => h.minus 255 hf.2.1 hm⟩, fun _ => trivial, Nat.le_refl _⟩
  | methodArg e b a => exact ⟨⟨fun m hf => ⟨hf.1, hf.2.1, hargs b a hf.2.2⟩, fun _ _ hm => hm⟩, fun _ => trivial, Nat.le_refl _⟩
  | left k r =>
    exact ⟨⟨fun m hf => ⟨hf.1, hf.2.1, h.fits m hf.2.2.1, hlast, hf.2.2.2.2.1, hf.2.2.2.2.2⟩,
      fun m hf hm => h.minus m hf.2.2.1 hm⟩, fun h => h, Nat.le_refl _⟩
  | right k l =>
    exact ⟨⟨fun m hf => ⟨hf.1, hf.2.1, hf.2.2.1, hf.2.2.2.1, h.fits _ hf.2.2.2.2.1, fun hk => h.minus _ hf.2.2.2.2.1 (hf.2.2.2.2.2 hk)⟩,
      fun m hf hm => hm⟩, fun h => h, Nat.le_refl _⟩
  | cast addr more =>
    exact ⟨⟨fun m hf => ⟨hf.1, hf.2.1, h.fits m hf.2.2.1, hlast⟩, fun m hf hm => h.minus m hf.2.2.1 hm⟩, fun h => h, Nat.le_refl _⟩

theorem frame_right {x : Ex} {m : Nat} {f : Frame} (h : (f.fill x).Fits m) : Place.right [f] < x.last := by
  cases f
  case left k r => exact h.2.2.2.1
  case cast addr more => exact h.2.2.2
  all_goals exact x.last_pos

theorem right_cons (f : Frame) (fs : Place) : Place.right (f :: fs) = Place.right [f] := by cases f <;> rfl

/-- What is in the place fits as well as the whole. -/
theorem fill_fits : ∀ {fs : Place} {x : Ex} {m : Nat}, (Place.fill fs x).Fits m → ∃ m', x.Fits m' ∧ Place.right fs < x.last
  | [], x, m, h => ⟨m, h, x.last_pos⟩
  | f :: fs, x, m, h => by
    obtain ⟨m', h', -⟩ := fill_fits (fs := fs) (x := f.fill x) h
    have hargs : ∀ before after, (argList (before ++ x :: after)).Fits → x.Fits 1 := fun b a hf => argList_fits.1 hf x (by simp)
    rw [right_cons]
    refine (fun hx => ⟨_, hx.choose_spec, frame_right h'⟩ : (∃ k, x.Fits k) → _) ?_
    cases f with
    | paren => exact ⟨1, h'⟩
    | un o => exact ⟨255, h'⟩
    | field num => exact ⟨255, h'.2⟩
    | indexBase i => exact ⟨255, h'.2.1⟩
    | indexArg e => exact ⟨1, h'.2.2⟩
    | callee a => exact ⟨255, h'.2.1⟩
    | callArg f b a => exact ⟨1, hargs b a h'.2.2⟩
    | receiver a => exact ⟨255, h'.2.1⟩
    | methodArg e b a => exact ⟨1, hargs b a h'.2.2⟩
    | left k r => exact ⟨m', h'.2.2.1⟩
    | right k l => exact ⟨_, h'.2.2.2.2.1⟩
    | cast addr more => exact ⟨m', h'.2.2.1⟩

theorem frame_postfix {x : Ex} {m : Nat} {f : Frame} (h : (f.fill x).Fits m) (hp : Place.postfix [f] = true) : x.Primary := by
  cases f
  case field num => exact h.1
  case indexBase i => exact h.1
  case callee a => exact h.1
  case receiver a => exact h.1
  all_goals cases hp

theorem postfix_cons (f : Frame) (fs : Place) : Place.postfix (f :: fs) = Place.postfix [f] := by cases f <;> rfl

theorem Better.place : ∀ {fs : Place} {x y : Ex}, Better x y → Better (Place.fill fs x) (Place.fill fs y)
  | [], _, _, h => h
  | f :: fs, x, y, h => by
    have key {m : Nat} (hf : (f.fill x).Fits m) :=
      h.toSuits.fill f (fun hp => h.primary (frame_postfix hf hp)) (Nat.lt_of_lt_of_le (frame_right hf) h.last)
    refine Better.place (fs := fs) ⟨⟨fun m hf => (key hf).fits m hf, fun m hf hm => (key hf).minus m hf hm⟩, ?_, ?_⟩
    · cases f <;> first | exact fun _ => trivial | exact fun h => h
    · cases f <;> exact Nat.le_refl _

/-- Replacing an expression: enough that the new one suits, that it can be followed by a `.` if there is one, and that the operator
on its right, if any, is not taken by it. -/
theorem Suits.place {fs : Place} {x y : Ex} (h : Suits x y) (hp : Place.postfix fs = true → y.Primary) (hr : Place.right fs < y.last)
    {m : Nat} (hf : (Place.fill fs x).Fits m) : (Place.fill fs y).Fits m := by
  cases fs with
  | nil => exact h.fits m hf
  | cons f fs =>
    rw [right_cons] at hr
    rw [postfix_cons] at hp
    exact (Better.place (fs := fs) (h.fill f hp hr)).fits m hf

theorem right_lt (fs : Place) : Place.right fs < 255 := by
  unfold Place.right
  split
  · exact level_lt _
  · exact level_lt _
  · omega

theorem place_primary {fs : Place} {x y : Ex} (hy : y.Primary) (h : ∀ m, x.Fits m → y.Fits m) {m : Nat} (hf : (Place.fill fs x).Fits m) :
    (Place.fill fs y).Fits m :=
  Suits.place ⟨h, fun m hf _ => Ex.minus_primary hy (h m hf)⟩ (fun _ => hy) (by rw [Ex.last_primary hy]; exact right_lt fs) hf

/-! ### The properties -/

theorem receiver_primary {e : Ex} : (receiver e).Primary ∧ (receiver e).strip = e.strip := by
  unfold receiver
  cases e
  case un o e => cases o <;> exact ⟨trivial, rfl⟩
  case bin k l r =>
    have : bareReceiver.contains (Ex.bin k l r).kind = false := by
      show bareReceiver.contains (if k = .DOT_DOT then _ else _) = false
      split <;> decide
    rw [this]
    exact ⟨trivial, rfl⟩
  all_goals exact ⟨trivial, rfl⟩

theorem receiver_fits {e : Ex} {m : Nat} (h : e.Fits 1) : (receiver e).Fits m := by
  have hp := (receiver_primary (e := e)).1
  unfold receiver at hp ⊢
  split
  · rename_i hc
    rw [if_pos hc] at hp
    exact e.fits_primary hp h
  · exact h

theorem unborrow_fits {e : Ex} (h : e.Fits 1) : (unborrow e).Fits 1 := by
  unfold unborrow
  split
  · exact fits_mono (e := _) h (by omega)
  · exact fits_mono (e := _) h (by omega)
  · exact h

/-- **C65 (method calls).** `f(r, …)` is replaced by `r.f(…)` with the same arguments after the first. The receiver is the first
argument, up to a borrow at its start and parentheses. Wherever the call was, every operator around it keeps its operands. -/
theorem C65_method {x y : Ex} (h : methodFix x = some y) :
    (∀ (fs : Place) (m : Nat), (Place.fill fs x).Fits m → (Place.fill fs y).Fits m) ∧
    ∃ f a r rest r', x = .call f a ∧ args a = r :: rest ∧ y = .method r' (argList rest) ∧
      (r'.strip = r.strip ∨ Ex.un .borrow r'.strip = r.strip ∨ Ex.un .borrowMut r'.strip = r.strip) := by
  unfold methodFix at h
  split at h
  · rename_i addr more a
    split at h
    · cases h
    · rename_i r rest ha
      cases h
      refine ⟨fun fs m hf => place_primary (x := .call (.path addr more) a)
        (y := .method (receiver (unborrow r)) (argList rest)) trivial ?_ hf, _, _, r, rest, _, rfl, ha, rfl, ?_⟩
      · intro m hx
        have h1 := args_fits hx.2.2
        rw [ha] at h1
        exact ⟨receiver_primary.1, receiver_fits (unborrow_fits (h1 r (by simp))), argList_fits.2 fun e he => h1 e (by simp [he])⟩
      · rw [receiver_primary.2]
        unfold unborrow
        split
        · exact .inr (.inl rfl)
        · exact .inr (.inr rfl)
        · exact .inl rfl
  · cases h

theorem assignOp_spec {k k' : SyntaxKind} (h : assignOp k = some k') : IsBin k ∧ IsBin k' ∧ level k' = 1 ∧ k' ≠ .DOT_DOT := by
  unfold assignOp at h
  split at h <;> first | (cases h; decide) | cases h

/-- **C65 (compound assignments).** `l = l op r` is replaced by `l op= r`, and wherever it was, every operator around it keeps its
operands, and so do those in `l` and in `r`. -/
theorem C65_compound {same : Ex → Ex → Bool} (hsame : ∀ a b, same a b = true → a = b) {x y : Ex} (h : compoundFix same x = some y) :
    (∀ (fs : Place) (m : Nat), (Place.fill fs x).Fits m → (Place.fill fs y).Fits m) ∧
    ∃ k k' l r, x = .bin .EQ l (.bin k l r) ∧ y = .bin k' l r ∧ assignOp k = some k' := by
  unfold compoundFix at h
  split at h
  · rename_i hr
    split at h
    · rename_i k0 l k a r
      obtain ⟨k', hk, rfl⟩ := Option.map_eq_some_iff.1 h
      have hx : k0 = .EQ ∧ l = a := by
        unfold compoundReported at hr
        split at hr
        · rename_i heq
          cases heq
          exact ⟨rfl, hsame _ _ (Bool.and_eq_true_iff.1 hr).2⟩
        · cases hr
      obtain ⟨rfl, rfl⟩ := hx
      obtain ⟨h1, h2, h3, h4⟩ := assignOp_spec hk
      refine ⟨fun fs m hf => ?_, k, k', l, r, rfl, rfl, hk⟩
      have he : level .EQ = 1 := by decide
      refine Suits.place (x := .bin .EQ l (.bin k l r)) (y := .bin k' l r) ⟨?_, fun _ _ h => h⟩ ?_ ?_ hf
      · rintro m ⟨-, a2, a3, a4, ⟨-, b2, b3, b4, b5, b6⟩, -⟩
        rw [he] at a2 a4 b2
        exact ⟨h2, by rw [h3]; exact a2, a3, by rw [h3]; exact a4, by rw [h3]; exact fits_mono b5 (by omega), fun h => absurd h h4⟩
      · intro hp
        obtain ⟨_, h5, -⟩ := fill_fits hf
        cases fs with
        | nil => cases hp
        | cons f fs =>
          rw [postfix_cons] at hp
          obtain ⟨_, h6, -⟩ := fill_fits (fs := fs) (x := f.fill _) hf
          exact (frame_postfix h6 hp).elim
      · obtain ⟨_, -, h6⟩ := fill_fits hf
        simpa only [Ex.last, he, h3] using h6
    · cases h
  · cases h

/-- How the operators between two operands are written. -/
def symbol : SyntaxKind → Option String
  | .EQ => "=" | .PLUS_EQ => "+=" | .MINUS_EQ => "-=" | .STAR_EQ => "*=" | .SLASH_EQ => "/=" | .PERCENT_EQ => "%="
  | .AMP_EQ => "&=" | .PIPE_EQ => "|=" | .CARET_EQ => "^=" | .SHL_EQ => "<<=" | .SHR_EQ => ">>="
  | .IMPLIES => "==>" | .LESS_IMPLIES => "<==>" | .DOT_DOT => ".." | .PIPE_PIPE => "||" | .AMP_AMP => "&&"
  | .EQ_EQ => "==" | .NOT_EQ => "!=" | .L_ANGLE => "<" | .R_ANGLE => ">" | .LT_EQ => "<=" | .GT_EQ => ">="
  | .PIPE => "|" | .CARET => "^" | .AMP => "&" | .SHL => "<<" | .SHR => ">>" | .PLUS => "+" | .MINUS => "-"
  | .STAR => "*" | .SLASH => "/" | .PERCENT => "%"
  | _ => none

/-- **C65 (which operators).** The compound operator is written as the operator followed by `=`, and every operator for which there is
such an assignment has a fix. -/
theorem C65_compound_operator (k k' : SyntaxKind) (hk' : level k' = 1) :
    assignOp k = some k' ↔ ∃ t, symbol k = some t ∧ symbol k' = some (t ++ "=") := by
  have h1 : k' ∈ levels.head! := by
    revert hk'
    cases k' <;> decide +kernel
  have h2 : (assignOp k).isSome = true → k ∈ levels.flatten := by
    cases k <;> decide +kernel
  have h3 : (symbol k).isSome = true → k ∈ levels.flatten := by
    cases k <;> decide +kernel
  have h4 : ∀ k ∈ levels.flatten, ∀ k' ∈ levels.head!, assignOp k = some k' ↔ (symbol k).isSome ∧ symbol k' = (symbol k).map (· ++ "=") := by
    decide +kernel
  constructor
  · intro h
    obtain ⟨h5, h6⟩ := (h4 k (h2 (by simp [h])) k' h1).1 h
    obtain ⟨t, ht⟩ := Option.isSome_iff_exists.1 h5
    exact ⟨t, ht, by rw [h6, ht]; rfl⟩
  · rintro ⟨t, h5, h6⟩
    refine (h4 k (h3 (by simp [h5])) k' h1).2 ⟨by simp [h5], ?_⟩
    rw [h5, h6]
    rfl

/-- **C65 (casts).** `e as T` is replaced by `e`. The operators around keep their operands exactly if the operator on the right of the
cast is of a lower level than those in `e`, or of the same. -/
theorem C65_cast {x y : Ex} (h : castFix x = some y) {fs : Place} {m : Nat} (hf : (Place.fill fs x).Fits m) :
    (Place.fill fs y).Fits m ↔ Place.right fs < y.last := by
  unfold castFix at h
  split at h
  · rename_i e addr more
    cases h
    refine ⟨fun hy => ?_, fun hr => ?_⟩
    · obtain ⟨_, -, h2⟩ := fill_fits hy
      exact h2
    · refine Suits.place (x := .cast y addr more) ⟨fun m hx => hx.2.2.1, fun _ _ h => h⟩ ?_ hr hf
      intro hp
      cases fs with
      | nil => cases hp
      | cons f fs =>
        rw [postfix_cons] at hp
        obtain ⟨_, h6, -⟩ := fill_fits (fs := fs) (x := f.fill _) hf
        exact (frame_postfix h6 hp).elim
  · cases h

/-- **C65 fails (casts).** `a + b as T * c` is `((a + b) as T) * c`. Without the cast it is `a + b * c`, and the tokens that should be
`(a + b) * c` are `a + (b * c)`. -/
theorem C65_cast_fails : ∃ (fs : Place) (x y z : Ex), castFix x = some y ∧ (Place.fill fs x).Fits 1 ∧ ¬(Place.fill fs y).Fits 1 ∧
    z.Fits 1 ∧ z.strip ≠ (Place.fill fs y).strip ∧ ∀ (I : Input) (p q : Nat), (Place.fill fs y).At I p q → z.At I p q := by
  refine ⟨[.left .STAR (.path false 0)], .cast (.bin .PLUS (.path false 0) (.path false 0)) false 0, .bin .PLUS (.path false 0) (.path false 0),
    .bin .PLUS (.path false 0) (.bin .STAR (.path false 0) (.path false 0)), rfl, ?_, ?_, ?_, ?_, ?_⟩
  · simp only [Place.fill, Frame.fill, Ex.Fits, Ex.last, Ex.minus]
    exact ⟨by decide, by decide, ⟨by simp, by decide, ⟨by decide, by decide, by simp, by decide, by simp, by simp⟩, by decide⟩, by decide, by simp, by simp⟩
  · intro h
    exact absurd h.2.2.2.1 (by decide)
  · simp only [Ex.Fits, Ex.last, Ex.minus]
    exact ⟨by decide, by decide, by simp, by decide, ⟨by decide, by decide, by simp, by decide, by simp, by simp⟩, by simp⟩
  · simp [Place.fill, Frame.fill, Ex.strip]
  · rintro I p q ⟨r, ⟨r', h1, h2, h3⟩, h4, h5⟩
    exact ⟨r', h1, h2, r, h3, h4, h5⟩

theorem indexBase_spec (r : Ex) : (indexBase r).strip = r.strip ∨ Ex.un .borrow (indexBase r).strip = r.strip ∨
    Ex.un .borrowMut (indexBase r).strip = r.strip := by
  unfold indexBase
  split <;> simp [Ex.strip]

theorem indexBase_fits {r : Ex} (h : r.Fits 1) : (indexBase r).Fits 1 := by
  unfold indexBase
  split
  · exact h
  · exact h
  · exact fits_mono (m := 255) h (by omega)
  · exact fits_mono (m := 255) h (by omega)
  · exact h

/-- **C65 (index expressions, partial).** `*borrow(r, i)` is replaced by `r[i]`, and `*r.borrow(i)` too. If `r` is `&e`, then `e` must be
what an index can follow. Then the operators around keep their operands. Missing: any other `e`, for which see below. -/
theorem C65_index_partial {x y : Ex} (h : indexFix x = some y) (hb : ∀ e i, y = .index e i → e.Primary) :
    (∀ (fs : Place) (m : Nat), (Place.fill fs x).Fits m → (Place.fill fs y).Fits m) ∧
    ∃ r r' i, y = .index r' i ∧ (r'.strip = r.strip ∨ Ex.un .borrow r'.strip = r.strip ∨ Ex.un .borrowMut r'.strip = r.strip) ∧
      ((∃ f a rest, x = .un .deref (.call f a) ∧ args a = r :: i :: rest) ∨ ∃ a rest, x = .un .deref (.method r a) ∧ args a = i :: rest) := by
  unfold indexFix at h
  split at h
  · rename_i addr more a
    split at h
    · rename_i r i rest ha
      cases h
      refine ⟨fun fs m hf => place_primary (x := .un .deref (.call (.path addr more) a)) (y := .index (indexBase r) i) trivial ?_ hf,
        r, _, i, rfl, indexBase_spec r, .inl ⟨_, _, rest, rfl, ha⟩⟩
      intro m hx
      have h1 := args_fits (a := a) hx.2.2
      rw [ha] at h1
      have hp := hb _ _ rfl
      exact ⟨hp, Ex.fits_primary hp (indexBase_fits (h1 r (by simp))), h1 i (by simp)⟩
    · cases h
  · rename_i r a
    split at h
    · rename_i i rest ha
      cases h
      refine ⟨fun fs m hf => place_primary (x := .un .deref (.method r a)) (y := .index (indexBase r) i) trivial ?_ hf,
        r, _, i, rfl, indexBase_spec r, .inr ⟨_, rest, rfl, ha⟩⟩
      intro m hx
      have h1 := args_fits (a := a) hx.2.2
      rw [ha] at h1
      have hp := hb _ _ rfl
      exact ⟨hp, Ex.fits_primary hp (indexBase_fits (fits_mono hx.2.1 (by omega))), h1 i (by simp)⟩
    · cases h
  · cases h

/-- **C65 (resources).** `borrow_global<T>(a)` is replaced by `T[a]` before a `.`, and by `&T[a]` or `&mut T[a]` elsewhere, and the operators
around keep their operands. Outside specifications nothing else than a `.` may follow directly, as a reference can be neither
called nor indexed. -/
theorem C65_resource {spec isMut addr : Bool} {more : Nat} (hpath : addr = true → more ≠ 0) {fs : Place} {x y : Ex}
    (h : resourceFix spec isMut addr more fs x = some y) (hfs : spec = true ∨ fs.dotted = fs.postfix) :
    (∀ m, (Place.fill fs x).Fits m → (Place.fill fs y).Fits m) ∧
    ∃ f a, x = .call f (.one a) ∧ (y = .index (.path addr more) a ∨ y = .un .borrow (.index (.path addr more) a) ∨
      y = .un .borrowMut (.index (.path addr more) a)) := by
  unfold resourceFix at h
  split at h
  · rename_i a1 m1 a
    dsimp only at h
    cases h
    have hin : ∀ m, (Ex.call (.path a1 m1) (.one a)).Fits m → ∀ m', (Ex.index (.path addr more) a).Fits m' :=
      fun m hx m' => ⟨trivial, hpath, hx.2.2⟩
    refine ⟨fun m hf => ?_, _, a, rfl, ?_⟩
    · split
      · exact place_primary (x := .call (.path a1 m1) (.one a)) (y := .index (.path addr more) a) trivial (fun m hx => hin m hx m) hf
      · rename_i hd
        simp only [Bool.or_eq_true, not_or, Bool.not_eq_true] at hd
        have hpost : fs.postfix = false := by
          rcases hfs with h | h
          · rw [h] at hd; cases hd.2
          · rw [← h]; exact hd.1
        refine Suits.place (x := .call (.path a1 m1) (.one a)) ⟨fun m hx => hin m hx 255, fun m _ _ => ?_⟩ ?_ ?_ hf
        · cases isMut <;> rfl
        · intro hp; rw [hpost] at hp; cases hp
        · exact right_lt fs
    · cases isMut <;> split <;> simp
  · cases h

/-- **C65 (parentheses).** The receiver of the new method call is put in parentheses exactly if a `.` cannot follow it. -/
theorem C65_receiver (e : Ex) : (e.Primary → receiver e = e) ∧ (¬ e.Primary → receiver e = .paren e) := by
  unfold receiver
  cases e with
  | un o e => cases o <;> simp [bareReceiver, Ex.kind, Ex.Primary]
  | bin k l r => by_cases h : k = .DOT_DOT <;> simp [bareReceiver, Ex.kind, Ex.Primary, h]
  | _ => simp [bareReceiver, Ex.kind, Ex.Primary]

/-- **C65 (indexed expressions).** An index can follow what is indexed, unless that was borrowed. -/
theorem C65_index_base (r : Ex) (h : ∀ o e, r = .un o e → o = .borrow ∨ o = .borrowMut → e.Primary) : (indexBase r).Primary := by
  unfold indexBase
  split
  · trivial
  · trivial
  · exact h _ _ rfl (.inl rfl)
  · exact h _ _ rfl (.inr rfl)
  · trivial

/-- **C65 (references).** The resource is borrowed, and as mutable if it was, exactly if it is neither in a specification nor followed
by the name of a field or of a method. -/
theorem C65_resource_shape {spec isMut addr : Bool} {more : Nat} {fs : Place} {x y : Ex} (h : resourceFix spec isMut addr more fs x = some y) :
    ((spec = true ∨ (∃ num rest, fs = .field num :: rest) ∨ ∃ a rest, fs = .receiver a :: rest) → ∃ a, y = .index (.path addr more) a) ∧
    (¬ (spec = true ∨ (∃ num rest, fs = .field num :: rest) ∨ ∃ a rest, fs = .receiver a :: rest) →
      ∃ a, y = .un (if isMut then .borrowMut else .borrow) (.index (.path addr more) a)) := by
  unfold resourceFix at h
  split at h
  · rename_i a1 m1 a
    dsimp only at h
    cases h
    constructor
    · rintro (rfl | ⟨num, rest, rfl⟩ | ⟨b, rest, rfl⟩)
      · exact ⟨a, by simp⟩
      · exact ⟨a, rfl⟩
      · exact ⟨a, rfl⟩
    · intro hn
      refine ⟨a, ?_⟩
      rw [if_neg]
      intro hd
      rw [Bool.or_eq_true] at hd
      rcases hd with hd | hd
      · unfold Place.dotted at hd
        split at hd
        · exact hn (.inr (.inl ⟨_, _, rfl⟩))
        · exact hn (.inr (.inr ⟨_, _, rfl⟩))
        · cases hd
      · exact hn (.inl hd)
  · cases h

/-! ### In the text -/

/-- A place in the body of a function. -/
inductive Spot where
  | stmt (before : List Stm) (bind : Bool) (fs : Place) (after : List Stm) (tail : Option Ex)
  | tail (ss : List Stm) (fs : Place)

/-- The place in the expression. -/
def Spot.place : Spot → Place
  | .stmt _ _ fs _ _ => fs
  | .tail _ fs => fs

/-- The statements with `x` in the place. -/
def Spot.stms (x : Ex) : Spot → List Stm
  | .stmt before bind fs after _ => before ++ (if bind then .bind (fs.fill x) else .expr (fs.fill x)) :: after
  | .tail ss _ => ss

/-- The expression at the end with `x` in the place. -/
def Spot.last (x : Ex) : Spot → Option Ex
  | .stmt _ _ _ _ e => e
  | .tail _ fs => some (fs.fill x)

/-- A fix that keeps the reading of what is around it. -/
inductive Safe (same : Ex → Ex → Bool) (fs : Place) (x y : Ex) : Prop
  | method (h : methodFix x = some y)
  | compound (h : compoundFix same x = some y)
  | index (h : indexFix x = some y) (hb : ∀ e i, y = .index e i → e.Primary)
  | cast (h : castFix x = some y) (hr : fs.right < y.last)
  | resource (spec isMut addr : Bool) (more : Nat) (hpath : addr = true → more ≠ 0) (h : resourceFix spec isMut addr more fs x = some y)
      (hfs : spec = true ∨ fs.dotted = fs.postfix)

theorem Safe.fits {same : Ex → Ex → Bool} (hsame : ∀ a b, same a b = true → a = b) {fs : Place} {x y : Ex} (h : Safe same fs x y) {m : Nat}
    (hf : (fs.fill x).Fits m) : (fs.fill y).Fits m := by
  cases h with
  | method h => exact (C65_method h).1 fs m hf
  | compound h => exact (C65_compound hsame h).1 fs m hf
  | index h hb => exact (C65_index_partial h hb).1 fs m hf
  | cast h hr => exact (C65_cast h hf).2 hr
  | resource _ _ _ _ hpath h hfs => exact (C65_resource hpath h hfs).1 m hf

/-- **C65 (whole files, partial).** In a file with one function a fix is applied somewhere in its body, and the new text is that of the
new body. Then it is parsed without an error to the old tree with the new expression in the place of the old one. Missing: as in
`C64_body_partial`, and what white space and comments there are in the new text; the excluded index expressions and casts. -/
theorem C65_file_partial {g : List Char → Nat} (hg : Graphemes g) (hb : AsciiBreaks g) (debug : Bool) {same : Ex → Ex → Bool}
    (hsame : ∀ a b, same a b = true → a = b) {at' : Spot} {x y : Ex} (hfix : Safe same at'.place x y)
    (hold : BodyFits (at'.stms x) (at'.last x)) {text : List Char} {fuel : Nat} (hfuel : 2 * text.length + 2 ≤ fuel)
    {raw : List Lexer.RawToken} {ps : List Piece} (ht : tokenize g fuel text = some (some raw)) (hp : pieces text raw = some ps) {q : Nat}
    (h : Input.IsFun ⟨source ps, debug⟩ (at'.stms y) (at'.last y) q) :
    ∃ t, parseText g debug fuel text = .tree t [] ∧ t.marks = marks (funTree (at'.stms y) (at'.last y)) := by
  refine C64_body_partial hg hb debug hfuel ht hp h ?_
  cases at' with
  | stmt before bind fs after tail =>
    refine ⟨fun s hs => ?_, hold.2⟩
    rcases List.mem_append.1 hs with hs | hs
    · exact hold.1 s (List.mem_append_left _ hs)
    · rcases List.mem_cons.1 hs with rfl | hs
      · have := hold.1 (if bind then .bind (fs.fill x) else .expr (fs.fill x)) (by simp [Spot.stms])
        cases bind <;> exact hfix.fits hsame this
      · exact hold.1 s (by simp [Spot.stms, hs])
  | tail ss fs =>
    refine ⟨hold.1, fun z hz => ?_⟩
    cases hz
    exact hfix.fits hsame (hold.2 _ rfl)

end Verif.Ide
