import Verif.Parser.Logic

/-! The judgement on pieces of the parser and its rules. -/

namespace Verif.Parser
open Verif.Syntax (SyntaxKind)
open Verif.TokenSet (TSet)

/-- What the tokens of every source file satisfy: none is of the kind of the end of the file, a token is joined only to
a token that is there, and the word `for` is an identifier. -/
class Input.Valid (I : Input) : Prop where
  eof : ∀ p, p < I.size → I.kindAt p ≠ .EOF
  joint : ∀ p, I.jointAt p = true → p + 1 < I.size
  for_ident : ∀ p, I.isKeyword p "for" = true → I.kindAt p = .IDENT
  small : ∀ p, (I.kindAt p).toNat < 128

/-- The panics that a source file may cause. -/
def Allowed (I : Input) : Why → Prop
  | .expected .COLON_COLON => ∃ p, I.kindAt p = .MODULE_KW ∧ I.kindAt (p + 1) ≠ .INT_NUMBER ∧ I.kindAt (p + 1) ≠ .IDENT ∧
      I.kindAt (p + 1) ≠ .COLON_COLON ∧ I.kindAt (p + 2) = .COLON_COLON
  | .expected .L_PAREN => ∃ p, ((I.isKeyword p "requires_of" = true ∨ I.isKeyword p "aborts_of" = true ∨
      I.isKeyword p "ensures_of" = true ∨ I.isKeyword p "result_of" = true) ∧ I.kindAt (p + 1) = .L_ANGLE) ∨
      I.isKeyword p "apply" = true
  | .bomb => ∃ p, I.isKeyword p "include" = true
  | .stuck => I.debug = true
  | .overflow => I.debug = true
  | _ => False

/-- The marker that may be given a parent. -/
abbrev Handle : Type := Option CM

def HandleOk (I : Input) (s0 : St) (h : Handle) (s : St) : Prop := ∀ cm, h = some cm → ExtR I s0 cm s

/-- The result of a run from position `p` in a state that extends `s0`. -/
def Good (I : Input) (s0 : St) (p : Nat) (Q : α → Nat → Handle → Prop) : Res α → Prop
  | .ok a s' => p ≤ s'.pos ∧ s'.pos ≤ I.size ∧ ∃ h', Ext I s0 s' ∧ HandleOk I s0 h' s' ∧ Q a s'.pos h'
  | .panic w => Allowed I w
  | .stop => False

/-- The judgement. -/
def T (I : Input) (p : Nat) (h : Handle) (prog : P α) (Q : α → Nat → Handle → Prop) : Prop :=
  ∀ E s0 s, Ext I s0 s → HandleOk I s0 h s → s.pos = p → s.pos ≤ I.size → s0.events ≠ [] → Good I s0 p Q (prog I E s)

/-- Nothing is said of the value and the marker. -/
abbrev Any {α : Type} : α → Nat → Handle → Prop := fun _ _ _ => True

section
variable {I : Input} {p p0 q : Nat} {h : Handle} {α β : Type} {prog : P α} {Q Q' : α → Nat → Handle → Prop}

theorem HandleOk.none (s0 s : St) : HandleOk I s0 none s := by intro cm hc; cases hc

theorem T.mono (h1 : T I p h prog Q) (hq : ∀ a q h, p ≤ q → q ≤ I.size → Q a q h → Q' a q h) : T I p h prog Q' := by
  intro E s0 s he hh hp hn hne
  have := h1 E s0 s he hh hp hn hne
  revert this
  cases prog I E s with
  | ok a s' =>
    rintro ⟨h1, h2, h', e', hh', hQ⟩
    exact ⟨h1, h2, h', e', hh', hq _ _ _ h1 h2 hQ⟩
  | panic w => exact id
  | stop => exact id

theorem T.any (h1 : T I p h prog Q) : T I p h prog Any := h1.mono fun _ _ _ _ _ _ => trivial

theorem T.forget (h1 : T I p none prog Q) : T I p h prog Q := by
  intro E s0 s he hh hp hn hne
  exact h1 E s0 s he (HandleOk.none _ _) hp hn hne

theorem T.pure {a : α} (hQ : Q a p h) : T I p h (Pure.pure a) Q := by
  intro E s0 s he hh hp hn hne
  subst hp
  exact ⟨Nat.le_refl _, hn, h, he, hh, hQ⟩

/-- What follows is checked for the outcome of the first piece. -/
theorem T.bind {f : α → P β} {Q : β → Nat → Handle → Prop}
    (h1 : T I p h prog fun a q h' => p ≤ q → q ≤ I.size → T I q h' (f a) Q) : T I p h (prog >>= f) Q := by
  intro E s0 s he hh hp hn hne
  have := h1 E s0 s he hh hp hn hne
  show Good I s0 p Q (P.bind' prog f I E s)
  unfold P.bind'
  revert this
  cases prog I E s with
  | ok a s' =>
    rintro ⟨h1, h2, h', e', hh', hQ⟩
    have := hQ h1 h2 E s0 s' e' hh' rfl h2 hne
    show Good I s0 p Q (f a I E s')
    revert this
    cases f a I E s' with
    | ok b s'' => rintro ⟨h3, h4, h''⟩; exact ⟨Nat.le_trans h1 h3, h4, h''⟩
    | panic w => exact id
    | stop => exact id
  | panic w => exact id
  | stop => exact id

/-- What follows is checked for every position after the first piece. -/
theorem T.seq {f : α → P β} {Q : β → Nat → Handle → Prop} (h1 : T I p h prog Any)
    (h2 : ∀ a q h', p ≤ q → q ≤ I.size → T I q h' (f a) Q) : T I p h (prog >>= f) Q :=
  T.bind (h1.mono fun a q h' _ _ _ => h2 a q h')

theorem T.ite {c : Prop} [Decidable c] {a b : P α} (ha : c → T I p h a Q) (hb : ¬ c → T I p h b Q) :
    T I p h (if c then a else b) Q := by
  split
  · exact ha ‹_›
  · exact hb ‹_›

theorem T.iff {c : Bool} {a : P Unit} {Q : Unit → Nat → Handle → Prop} (ha : c = true → T I p h a Q)
    (hb : c = false → Q () p h) : T I p h (iff c a) Q := by
  unfold Verif.Parser.iff
  cases c
  · exact T.pure (hb rfl)
  · exact ha rfl

theorem T.drop {Q : Unit → Nat → Handle → Prop} (h1 : T I p h prog fun _ => Q ()) : T I p h (drop prog) Q :=
  T.bind (h1.mono fun _ _ _ _ _ hQ _ _ => T.pure hQ)

theorem T.crash {w : Why} (hw : Allowed I w) : T I p h (crash w : P α) Q := by
  intro E s0 s he hh hp hn hne
  exact hw

theorem T.assert {c : Bool} {k : SyntaxKind} {Q : Unit → Nat → Handle → Prop} (hc : c = true) (hQ : Q () p h) :
    T I p h (assert c k) Q := by
  unfold Verif.Parser.assert
  rw [if_pos hc]; exact T.pure hQ

/-! Questions. -/

theorem T.question {a : Nat → α} {prog : P α} (hp : ∀ E s, prog I E s = .ok (a s.pos) s) (hQ : Q (a p) p h) :
    T I p h prog Q := by
  intro E s0 s he hh hpos hn hne
  rw [hp, hpos]
  exact ⟨by omega, hn, h, he, hh, by rw [hpos]; exact hQ⟩

theorem T.current {Q : SyntaxKind → Nat → Handle → Prop} (hQ : Q (I.kindAt p) p h) : T I p h current Q :=
  T.question (a := fun p => I.kindAt p) (fun _ _ => rfl) hQ
theorem T.nth {n : Nat} {Q : SyntaxKind → Nat → Handle → Prop} (hQ : Q (I.kindAt (p + n)) p h) : T I p h (nth n) Q :=
  T.question (a := fun p => I.kindAt (p + n)) (fun _ _ => rfl) hQ
theorem T.at' {k : SyntaxKind} {Q : Bool → Nat → Handle → Prop} (hQ : Q (I.atKind p k) p h) : T I p h (at' k) Q :=
  T.question (a := fun p => I.atKind p k) (fun _ _ => rfl) hQ
theorem T.nthAt {n : Nat} {k : SyntaxKind} {Q : Bool → Nat → Handle → Prop} (hQ : Q (I.atKind (p + n) k) p h) :
    T I p h (nthAt n k) Q :=
  T.question (a := fun p => I.atKind (p + n) k) (fun _ _ => rfl) hQ
theorem T.atTs {ts : TSet} {Q : Bool → Nat → Handle → Prop} (hQ : Q (TokenSet.contains ts (I.kindAt p)) p h) :
    T I p h (atTs ts) Q :=
  T.question (a := fun p => TokenSet.contains ts (I.kindAt p)) (fun _ _ => rfl) hQ
theorem T.nthAtTs {n : Nat} {ts : TSet} {Q : Bool → Nat → Handle → Prop} (hQ : Q (TokenSet.contains ts (I.kindAt (p + n))) p h) :
    T I p h (nthAtTs n ts) Q :=
  T.question (a := fun p => TokenSet.contains ts (I.kindAt (p + n))) (fun _ _ => rfl) hQ
theorem T.atKw {kw : String} {Q : Bool → Nat → Handle → Prop} (hQ : Q (I.isKeyword p kw) p h) : T I p h (atKw kw) Q :=
  T.question (a := fun p => I.isKeyword p kw) (fun _ _ => rfl) hQ
theorem T.atKwIdent {kw : String} {Q : Bool → Nat → Handle → Prop} (hQ : Q (I.kindAt p == .IDENT && I.isKeyword p kw) p h) :
    T I p h (atKwIdent kw) Q :=
  T.question (a := fun p => I.kindAt p == .IDENT && I.isKeyword p kw) (fun _ _ => rfl) hQ
theorem T.nthAtRSet {n : Nat} {rs : RSet} {Q : Bool → Nat → Handle → Prop} (hQ : Q (I.atRSet (p + n) rs) p h) :
    T I p h (nthAtRSet n rs) Q :=
  T.question (a := fun p => I.atRSet (p + n) rs) (fun _ _ => rfl) hQ
theorem T.containsCurrent {rs : RSet} {Q : Bool → Nat → Handle → Prop} (hQ : Q (I.atRSet p rs) p h) :
    T I p h (containsCurrent rs) Q :=
  T.question (a := fun p => I.atRSet p rs) (fun _ _ => rfl) hQ
theorem T.prevWs {Q : Nat → Nat → Handle → Prop} (hQ : Q (I.prevWs p) p h) : T I p h prevWs Q :=
  T.question (a := fun p => I.prevWs p) (fun _ _ => rfl) hQ
theorem T.getPos {Q : Nat → Nat → Handle → Prop} (hQ : Q p p h) : T I p h getPos Q :=
  T.question (a := fun p => p) (fun _ _ => rfl) hQ
theorem T.remaining {Q : Nat → Nat → Handle → Prop} (hQ : Q (I.size - p) p h) : T I p h remaining Q :=
  T.question (a := fun p => I.size - p) (fun _ _ => rfl) hQ
theorem T.debugBuild {Q : Bool → Nat → Handle → Prop} (hQ : Q I.debug p h) : T I p h debugBuild Q :=
  T.question (a := fun _ => I.debug) (fun _ _ => rfl) hQ

theorem T.outerRec {Q : RSet → Nat → Handle → Prop} (hQ : ∀ rs, Q rs p h) : T I p h outerRec Q := by
  intro E s0 s he hh hpos hn hne
  exact ⟨by omega, hn, h, he, hh, by rw [hpos]; exact hQ _⟩
theorem T.stmtKind {Q : StmtKind → Nat → Handle → Prop} (hQ : ∀ k, Q k p h) : T I p h stmtKind Q := by
  intro E s0 s he hh hpos hn hne
  exact ⟨by omega, hn, h, he, hh, by rw [hpos]; exact hQ _⟩

/-! Tokens and errors. -/

theorem kindAt_lt {p : Nat} (hk : I.kindAt p ≠ .EOF) : p < I.size := by
  by_contra hc
  apply hk
  unfold Input.kindAt
  rw [List.getElem?_eq_none (by unfold Input.size at hc; omega)]

theorem advance_eq [I.Valid] {p n : Nat} (hn : p + n ≤ I.size) : advance I p n = p + n := by
  induction n generalizing p with
  | zero => rfl
  | succ n ih =>
    unfold advance
    rw [if_neg (Input.Valid.eof p (by omega)), ih (by omega)]
    omega

theorem atParts_spec [I.Valid] {ks : List SyntaxKind} {p : Nat} (hks : ks ≠ []) (he : SyntaxKind.EOF ∉ ks)
    (h : I.atParts p ks = true) :
    p + ks.length ≤ I.size ∧ ∀ j, p ≤ j → j + 1 < p + ks.length → I.jointAt j = true := by
  induction ks generalizing p with
  | nil => exact absurd rfl hks
  | cons k ks ih =>
    cases ks with
    | nil =>
      simp only [Input.atParts, beq_iff_eq] at h
      have : p < I.size := kindAt_lt (by rw [h]; intro hc; apply he; simp [hc])
      refine ⟨by simp; omega, fun j h1 h2 => ?_⟩
      simp at h2; omega
    | cons k' ks =>
      simp only [Input.atParts, Bool.and_eq_true, beq_iff_eq] at h
      obtain ⟨h1, h2⟩ := ih (by simp) (fun hc => he (List.mem_cons_of_mem _ hc)) h.2
      simp only [List.length_cons] at h1 h2 ⊢
      refine ⟨by omega, fun j h3 h4 => ?_⟩
      rcases Nat.lt_or_ge p j with h5 | h5
      · exact h2 j (by omega) (by omega)
      · have : j = p := by omega
        subst this; exact h.1.2

theorem parts_ne (k : SyntaxKind) : parts k ≠ [] := by
  unfold parts; split <;> simp

theorem parts_eof {k : SyntaxKind} (hk : k ≠ .EOF) : SyntaxKind.EOF ∉ parts k := by
  unfold parts; split <;> simp
  exact fun h => hk h.symm

theorem atKind_spec [I.Valid] {k : SyntaxKind} {p : Nat} (hk : k ≠ .EOF) (h : I.atKind p k = true) :
    p + (parts k).length ≤ I.size ∧ ∀ j, p ≤ j → j + 1 < p + (parts k).length → I.jointAt j = true :=
  atParts_spec (parts_ne k) (parts_eof hk) h

theorem T.doBump [I.Valid] {k : SyntaxKind} {n : Nat} {Q : Unit → Nat → Handle → Prop} (hl : Leaf I p k n) (h1 : 1 ≤ n) (h2 : p + n ≤ I.size)
    (hj : ∀ j, p ≤ j → j + 1 < p + n → I.jointAt j = true) (hQ : Q () (p + n) none) : T I p h (doBump k n) Q := by
  intro E s0 s he hh hp hn hne
  subst hp
  show Good I s0 _ Q (.ok () ⟨advance I s.pos n, s.events ++ [Event.token k n]⟩)
  rw [advance_eq h2]
  exact ⟨by simp, h2, none, he.trans (Ext.token s k hl h1 h2 hj), HandleOk.none _ _, hQ⟩

theorem T.eat [I.Valid] {k : SyntaxKind} {Q : Bool → Nat → Handle → Prop} (hk : k ≠ .EOF)
    (h1 : I.atKind p k = true → p + (parts k).length ≤ I.size → Q true (p + (parts k).length) none)
    (h2 : I.atKind p k = false → Q false p h) : T I p h (eat k) Q := by
  unfold Verif.Parser.eat
  refine T.bind (T.at' fun _ _ => ?_)
  refine T.ite (fun hc => ?_) (fun hc => ?_)
  · obtain ⟨hs, hj⟩ := atKind_spec hk hc
    have : 1 ≤ (parts k).length := by
      have := parts_ne k
      cases hp : parts k with
      | nil => exact absurd hp this
      | cons => simp
    exact T.bind (T.doBump (.operator k hc) this hs hj fun _ _ => T.pure (h1 hc hs))
  · exact T.pure (h2 (by simpa using hc))

/-- `eat` for a kind that is a single token. -/
theorem T.eat1 [I.Valid] {k : SyntaxKind} {Q : Bool → Nat → Handle → Prop} (hk : parts k = [k]) (hk' : k ≠ .EOF)
    (h1 : I.kindAt p = k → p + 1 ≤ I.size → Q true (p + 1) none) (h2 : I.kindAt p ≠ k → Q false p h) : T I p h (Verif.Parser.eat k) Q := by
  refine T.eat hk' ?_ ?_
  · rw [hk, Input.atKind, hk]
    simpa [Input.atParts] using h1
  · rw [Input.atKind, hk]
    simpa [Input.atParts] using h2

theorem T.bump [I.Valid] {k : SyntaxKind} {Q : Unit → Nat → Handle → Prop} (hk : k ≠ .EOF) (h0 : I.atKind p k = true)
    (h1 : p + (parts k).length ≤ I.size → Q () (p + (parts k).length) none) : T I p h (bump k) Q := by
  unfold Verif.Parser.bump
  refine T.bind (T.eat hk (fun _ hs _ _ => T.pure (h1 hs)) (fun hc => ?_))
  rw [h0] at hc; cases hc

theorem T.bump1 [I.Valid] {k : SyntaxKind} {Q : Unit → Nat → Handle → Prop} (hk : parts k = [k]) (hk' : k ≠ .EOF)
    (h0 : I.kindAt p = k) (h1 : p + 1 ≤ I.size → Q () (p + 1) none) : T I p h (Verif.Parser.bump k) Q := by
  unfold Verif.Parser.bump
  exact T.bind (T.eat1 hk hk' (fun _ hs _ _ => T.pure (h1 hs)) (fun hc => absurd h0 hc))

theorem T.bumpAny [I.Valid] {Q : Unit → Nat → Handle → Prop}
    (h1 : I.kindAt p ≠ .EOF → p + 1 ≤ I.size → Q () (p + 1) none) (h2 : I.kindAt p = .EOF → Q () p h) : T I p h bumpAny Q := by
  unfold Verif.Parser.bumpAny
  refine T.bind (T.nth fun _ _ => ?_)
  refine T.ite (fun hc => T.pure (h2 hc)) (fun hc => ?_)
  have := kindAt_lt hc
  exact T.doBump (.same _ rfl) (by omega) (by omega) (fun j h1 h2 => by omega) (h1 hc (by omega))

theorem T.bumpRemapMany [I.Valid] {n : Nat} {Q : Unit → Nat → Handle → Prop} (h1 : 1 ≤ n) (h2 : p + n ≤ I.size)
    (hj : ∀ j, p ≤ j → j + 1 < p + n → I.jointAt j = true)
    (hl : ∀ j, p ≤ j → j < p + n → I.kindAt j = .IDENT ∨ I.kindAt j = .STAR) (hQ : Q () (p + n) none) :
    T I p h (bumpRemapMany .WILDCARD_IDENT n) Q := by
  unfold Verif.Parser.bumpRemapMany
  refine T.bind (T.nth fun _ _ => ?_)
  refine T.ite (fun hc => ?_) (fun hc => T.doBump (.wildcard n hl) h1 h2 hj hQ)
  exact absurd hc (Input.Valid.eof _ (by omega))

theorem kw_ne_eof [I.Valid] {kw : String} (hk : I.isKeyword p kw = true) : I.kindAt p ≠ .EOF := by
  apply Input.Valid.eof
  by_contra hc
  unfold Input.isKeyword at hk
  rw [List.getElem?_eq_none (by unfold Input.size at hc; omega)] at hk
  simp at hk

theorem T.bumpRemap' [I.Valid] {k : SyntaxKind} {Q : Unit → Nat → Handle → Prop} (hl : Leaf I p k 1) (h0 : I.kindAt p ≠ .EOF)
    (h1 : p + 1 ≤ I.size → Q () (p + 1) none) : T I p h (bumpRemap k) Q := by
  unfold Verif.Parser.bumpRemap
  refine T.bind (T.nth fun _ _ => ?_)
  refine T.ite (fun hc => absurd hc h0) (fun hc => ?_)
  have := kindAt_lt hc
  exact T.doBump hl (by omega) (by omega) (fun j h1 h2 => by omega) (h1 (by omega))

theorem T.bumpRemap [I.Valid] {k : SyntaxKind} {w : String} {Q : Unit → Nat → Handle → Prop} (hw : spelling k = some w)
    (hk : I.isKeyword p w = true) (h1 : p + 1 ≤ I.size → Q () (p + 1) none) : T I p h (bumpRemap k) Q :=
  T.bumpRemap' (.word k w hw hk) (kw_ne_eof hk) h1

theorem T.bumpSame [I.Valid] {k : SyntaxKind} {Q : Unit → Nat → Handle → Prop} (h0 : I.kindAt p = k) (hk : k ≠ .EOF)
    (h1 : p + 1 ≤ I.size → Q () (p + 1) none) : T I p h (Verif.Parser.bumpRemap k) Q :=
  T.bumpRemap' (.same k h0) (h0 ▸ hk) h1

theorem T.bumpName [I.Valid] {Q : Unit → Nat → Handle → Prop} (h0 : I.kindAt p = .UNDERSCORE ∨ I.kindAt p = .FRIEND_KW)
    (h1 : p + 1 ≤ I.size → Q () (p + 1) none) : T I p h (Verif.Parser.bumpRemap .IDENT) Q :=
  T.bumpRemap' (.name h0) (by rcases h0 with h0 | h0 <;> rw [h0] <;> decide) h1

theorem T.error {Q : Unit → Nat → Handle → Prop} (hQ : Q () p none) : T I p h error Q := by
  intro E s0 s he hh hp hn hne
  subst hp
  exact ⟨Nat.le_refl _, hn, none, he.trans (Ext.error s), HandleOk.none _ _, hQ⟩

theorem T.expect1 [I.Valid] {k : SyntaxKind} {Q : Bool → Nat → Handle → Prop} (hk : parts k = [k]) (hk' : k ≠ .EOF)
    (h1 : I.kindAt p = k → p + 1 ≤ I.size → Q true (p + 1) none) (h2 : I.kindAt p ≠ k → Q false p none) :
    T I p h (expect k) Q := by
  unfold Verif.Parser.expect
  refine T.bind (T.eat1 hk hk' (fun hc hs _ _ => ?_) (fun hc _ _ => ?_))
  · rw [if_pos rfl]; exact T.pure (h1 hc hs)
  · rw [if_neg (by simp)]
    exact T.bind (T.error fun _ _ => T.pure (h2 hc))

/-! What a piece appends at the outermost level. -/

/-- The result of a run from `s` at position `p`, with what is appended at the outermost level. -/
def GoodV (I : Input) (s : St) (p : Nat) (Q : α → Nat → Handle → List Top → Prop) : Res α → Prop
  | .ok a s' => p ≤ s'.pos ∧ s'.pos ≤ I.size ∧ ∃ h' ts, ExtT I s s' ts ∧ Q a s'.pos h' ts
  | .panic w => Allowed I w
  | .stop => False

/-- The judgement on a piece that uses no marker from before it. -/
def TV (I : Input) (p : Nat) (prog : P α) (Q : α → Nat → Handle → List Top → Prop) : Prop :=
  ∀ E s, s.pos = p → s.pos ≤ I.size → s.events ≠ [] → GoodV I s p Q (prog I E s)

theorem T.tv (h1 : T I p none prog Q) :
    TV I p prog fun a q h ts => Q a q h ∧ ∀ cm, h = some cm → Top.node cm.kind ∈ ts := by
  intro E s hp hn hne
  have := h1 E s s (Ext.refl I s) (HandleOk.none _ _) hp hn hne
  revert this
  cases prog I E s with
  | ok a s' =>
    rintro ⟨h1, h2, h', e', hh', hQ⟩
    cases h' with
    | none =>
      obtain ⟨ts, e'⟩ := e'
      exact ⟨h1, h2, none, ts, e', hQ, fun cm hc => by cases hc⟩
    | some cm =>
      obtain ⟨ts, e', hm⟩ := (hh' cm rfl).extT
      exact ⟨h1, h2, some cm, ts, e', hQ, fun cm' hc => by cases hc; exact hm⟩
  | panic w => exact id
  | stop => exact id

theorem TV.mono {V V' : α → Nat → Handle → List Top → Prop} (h1 : TV I p prog V)
    (hq : ∀ a q h ts, p ≤ q → q ≤ I.size → V a q h ts → V' a q h ts) : TV I p prog V' := by
  intro E s hp hn hne
  have := h1 E s hp hn hne
  revert this
  cases prog I E s with
  | ok a s' =>
    rintro ⟨h1, h2, h', ts, e', hQ⟩
    exact ⟨h1, h2, h', ts, e', hq _ _ _ _ h1 h2 hQ⟩
  | panic w => exact id
  | stop => exact id

theorem TV.pure {a : α} {V : α → Nat → Handle → List Top → Prop} (hQ : V a p none []) : TV I p (Pure.pure a) V := by
  intro E s hp hn hne
  subst hp
  exact ⟨Nat.le_refl _, hn, none, [], ExtT.refl I s, hQ⟩

theorem TV.bind {f : α → P β} {V : β → Nat → Handle → List Top → Prop}
    (h1 : TV I p prog fun a q _ ts => p ≤ q → q ≤ I.size → TV I q (f a) fun b q' h' us => V b q' h' (ts ++ us)) :
    TV I p (prog >>= f) V := by
  intro E s hp hn hne
  have := h1 E s hp hn hne
  show GoodV I s p V (P.bind' prog f I E s)
  unfold P.bind'
  revert this
  cases prog I E s with
  | ok a s' =>
    rintro ⟨h1, h2, h', ts, e', hQ⟩
    have := hQ h1 h2 E s' rfl h2 (e'.ext.ne hne)
    show GoodV I s p V (f a I E s')
    revert this
    cases f a I E s' with
    | ok b s'' => rintro ⟨h3, h4, h'', us, e'', hV⟩; exact ⟨Nat.le_trans h1 h3, h4, h'', _, e'.trans e'', hV⟩
    | panic w => exact id
    | stop => exact id
  | panic w => exact id
  | stop => exact id

theorem TV.ite {c : Prop} [Decidable c] {a b : P α} {V : α → Nat → Handle → List Top → Prop} (ha : c → TV I p a V)
    (hb : ¬ c → TV I p b V) : TV I p (if c then a else b) V := by
  split
  · exact ha ‹_›
  · exact hb ‹_›

theorem TV.question {a : Nat → α} {prog : P α} {V : α → Nat → Handle → List Top → Prop}
    (hp : ∀ E s, prog I E s = .ok (a s.pos) s) (hQ : V (a p) p none []) : TV I p prog V := by
  intro E s hpos hn hne
  rw [hp, hpos]
  exact ⟨by omega, hn, none, [], ExtT.refl I s, by rw [hpos]; exact hQ⟩

theorem TV.doBump [I.Valid] {k : SyntaxKind} {n : Nat} {V : Unit → Nat → Handle → List Top → Prop} (hl : Leaf I p k n)
    (h1 : 1 ≤ n) (h2 : p + n ≤ I.size)
    (hj : ∀ j, p ≤ j → j + 1 < p + n → I.jointAt j = true) (hQ : V () (p + n) none [.tok k]) : TV I p (Verif.Parser.doBump k n) V := by
  intro E s hp hn hne
  subst hp
  show GoodV I s _ V (.ok () ⟨advance I s.pos n, s.events ++ [Event.token k n]⟩)
  rw [advance_eq h2]
  exact ⟨by simp, h2, none, _, ExtT.token s k hl h1 h2 hj, hQ⟩

theorem TV.eat1 [I.Valid] {k : SyntaxKind} {V : Bool → Nat → Handle → List Top → Prop} (hk : parts k = [k]) (hk' : k ≠ .EOF)
    (h0 : I.kindAt p = k) (hQ : V true (p + 1) none [.tok k]) : TV I p (Verif.Parser.eat k) V := by
  unfold Verif.Parser.eat
  have hlt : p < I.size := kindAt_lt (h0 ▸ hk')
  refine TV.bind (TV.question (a := fun p => I.atKind p k) (fun _ _ => rfl) fun _ _ => ?_)
  refine TV.ite (fun hc => ?_) (fun hc => absurd (by simp [Input.atKind, hk, Input.atParts, h0]) hc)
  rw [hk]
  exact TV.bind (TV.doBump (.same k h0) (Nat.le_refl _) hlt (fun j h1 h2 => by simp at h2; omega) fun _ _ => TV.pure hQ)

theorem TV.eat0 [I.Valid] {k : SyntaxKind} {V : Bool → Nat → Handle → List Top → Prop} (hk : parts k = [k])
    (h0 : I.kindAt p ≠ k) (hQ : V false p none []) : TV I p (Verif.Parser.eat k) V := by
  unfold Verif.Parser.eat
  refine TV.bind (TV.question (a := fun p => I.atKind p k) (fun _ _ => rfl) fun _ _ => ?_)
  exact TV.ite (fun hc => absurd hc (by simp [Input.atKind, hk, Input.atParts, h0])) (fun hc => TV.pure hQ)

theorem TV.bump1 [I.Valid] {k : SyntaxKind} {V : Unit → Nat → Handle → List Top → Prop} (hk : parts k = [k]) (hk' : k ≠ .EOF)
    (h0 : I.kindAt p = k) (hQ : V () (p + 1) none [.tok k]) : TV I p (Verif.Parser.bump k) V := by
  unfold Verif.Parser.bump
  exact TV.bind (TV.eat1 hk hk' h0 fun _ _ => TV.pure hQ)

theorem TV.bumpAny [I.Valid] {V : Unit → Nat → Handle → List Top → Prop} (h0 : I.kindAt p ≠ .EOF)
    (hQ : V () (p + 1) none [.tok (I.kindAt p)]) : TV I p Verif.Parser.bumpAny V := by
  unfold Verif.Parser.bumpAny
  refine TV.bind (TV.question (a := fun p => I.kindAt (p + 0)) (fun _ _ => rfl) fun _ _ => ?_)
  refine TV.ite (fun hc => absurd hc h0) (fun hc => ?_)
  have := kindAt_lt hc
  exact TV.doBump (.same _ rfl) (by omega) (by omega) (fun j h1 h2 => by omega) hQ

theorem TV.bumpName [I.Valid] {V : Unit → Nat → Handle → List Top → Prop} (h0 : I.kindAt p = .UNDERSCORE ∨ I.kindAt p = .FRIEND_KW)
    (hQ : V () (p + 1) none [.tok .IDENT]) : TV I p (Verif.Parser.bumpRemap .IDENT) V := by
  unfold Verif.Parser.bumpRemap
  refine TV.bind (TV.question (a := fun p => I.kindAt (p + 0)) (fun _ _ => rfl) fun _ _ => ?_)
  have hne : I.kindAt p ≠ .EOF := by rcases h0 with h0 | h0 <;> rw [h0] <;> decide
  refine TV.ite (fun hc => absurd hc hne) (fun hc => ?_)
  have := kindAt_lt hc
  exact TV.doBump (.name h0) (by omega) (by omega) (fun j h1 h2 => by omega) hQ

/-- What follows appends something, whatever it is. -/
theorem TV.seq {f : α → P β} {V : α → Nat → Handle → List Top → Prop} {QB : β → Nat → Handle → Prop}
    {W : β → Nat → Handle → List Top → Prop} (h1 : TV I p prog V)
    (h2 : ∀ a q h' ts, p ≤ q → q ≤ I.size → V a q h' ts → T I q none (f a) QB)
    (h3 : ∀ a q h' ts b q' h'' us, V a q h' ts → QB b q' h'' → W b q' h'' (ts ++ us)) : TV I p (prog >>= f) W :=
  TV.bind (h1.mono fun a q h' ts _ _ hV => fun h4 h5 => (h2 a q h' ts h4 h5 hV).tv.mono fun b q' h'' us _ _ hb =>
    h3 a q h' ts b q' h'' us hV hb.1)

/-! Markers. -/

theorem T.nodeOfV {body : P SyntaxKind} {Q : CM → Nat → Handle → Prop}
    (hb : TV I p body fun k q _ ts => k ≠ .TOMBSTONE ∧ Req I k ts ∧ ∀ cm, cm.kind = k → Q cm q (some cm)) :
    T I p h (nodeOf body) Q := by
  intro E s0 s he hh hp hn hne
  subst hp
  have h1 := hb E ⟨s.pos, s.events ++ [Event.tombstone]⟩ rfl hn (by simp)
  show Good I s0 _ Q (P.bind' start (fun m => P.bind' body fun k => complete m k) I E s)
  simp only [P.bind', start]
  revert h1
  cases body I E ⟨s.pos, s.events ++ [Event.tombstone]⟩ with
  | ok k s' =>
    rintro ⟨h1, h2, h', ts, e', hk, hreq, hQ⟩
    obtain ⟨fp, hslot, hr⟩ := e'.node hk hreq
    have hc := he.andR hr
    simp only [complete, hslot]
    exact ⟨h1, h2, _, hc.ext, fun cm hcm => by cases hcm; exact hc, hQ _ rfl⟩
  | panic w => exact id
  | stop => exact id

theorem T.nodeV {k : SyntaxKind} {body : P Unit} {Q : CM → Nat → Handle → Prop} (hk : k ≠ .TOMBSTONE)
    (hb : TV I p body fun _ q _ ts => Req I k ts ∧ ∀ cm, cm.kind = k → Q cm q (some cm)) : T I p h (node k body) Q := by
  intro E s0 s he hh hp hn hne
  subst hp
  have h1 := hb E ⟨s.pos, s.events ++ [Event.tombstone]⟩ rfl hn (by simp)
  show Good I s0 _ Q (P.bind' start (fun m => P.bind' body fun _ => complete m k) I E s)
  simp only [P.bind', start]
  revert h1
  cases body I E ⟨s.pos, s.events ++ [Event.tombstone]⟩ with
  | ok a s' =>
    rintro ⟨h1, h2, h', ts, e', hreq, hQ⟩
    obtain ⟨fp, hslot, hr⟩ := e'.node hk hreq
    have hc := he.andR hr
    simp only [complete, hslot]
    exact ⟨h1, h2, _, hc.ext, fun cm hcm => by cases hcm; exact hc, hQ _ rfl⟩
  | panic w => exact id
  | stop => exact id

theorem T.node {k : SyntaxKind} {body : P Unit} {Q : CM → Nat → Handle → Prop} (hk : plain k = true)
    (hb : T I p none body fun _ q _ => ∀ cm, cm.kind = k → Q cm q (some cm)) : T I p h (node k body) Q :=
  T.nodeV (plain.ne hk) (hb.tv.mono fun _ _ _ _ _ _ hQ => ⟨plain.req hk, hQ.1⟩)

theorem T.nodeOf {body : P SyntaxKind} {Q : CM → Nat → Handle → Prop}
    (hb : T I p none body fun k q _ => plain k = true ∧ ∀ cm, cm.kind = k → Q cm q (some cm)) : T I p h (nodeOf body) Q :=
  T.nodeOfV (hb.tv.mono fun _ _ _ _ _ _ hQ => ⟨plain.ne hQ.1.1, plain.req hQ.1.1, hQ.1.2⟩)

/-- What is left of a marker. -/
def EndedV (I : Input) (Q : Option CM × α → Nat → Handle → Prop) (p : Nat) (r : Outcome × α) (q : Nat) (ts : List Top) : Prop :=
  match r.1 with
  | .complete k => k ≠ .TOMBSTONE ∧ Req I k ts ∧ ∀ cm, cm.kind = k → Q (some cm, r.2) q (some cm)
  | .abandon => Q (none, r.2) q none
  | .rollback => Q (none, r.2) p none

/-- What is left of a marker of a kind of which nothing is required. -/
def Ended (Q : Option CM × α → Nat → Handle → Prop) (p : Nat) (r : Outcome × α) (q : Nat) : Prop :=
  match r.1 with
  | .complete k => plain k = true ∧ ∀ cm, cm.kind = k → Q (some cm, r.2) q (some cm)
  | .abandon => Q (none, r.2) q none
  | .rollback => Q (none, r.2) p none

theorem abandon_ok {s0 s s' : St} (he : Ext I s0 s) (e' : Ext I ⟨s.pos, s.events ++ [Event.tombstone]⟩ s') (E : Env)
    (hl : s'.pos ≤ I.size) {Q : Unit → Nat → Handle → Prop} (hQ : Q () s'.pos none) :
    Good I s0 s.pos Q (abandon s.events.length I E s') := by
  unfold abandon
  split
  · rename_i hm
    obtain ⟨h1, h2⟩ := e'.pop hm
    have hpos := congrArg St.pos h2
    simp only at hpos
    rw [if_pos h1, h2]
    refine ⟨Nat.le_refl _, by omega, none, he, HandleOk.none _ _, ?_⟩
    rw [← hpos]; exact hQ
  · exact ⟨e'.le, hl, none, he.trans ((Ext.tombstone s).trans e'), HandleOk.none _ _, hQ⟩

theorem rollback_eq {s s' : St} (e' : Ext I ⟨s.pos, s.events ++ [Event.tombstone]⟩ s') (E : Env) :
    rollback s.events.length I E s' = .ok () s := by
  unfold rollback
  split
  · rename_i hm
    obtain ⟨h1, h2⟩ := e'.pop hm
    rw [if_pos h1, h2]
  · obtain ⟨h1, h2⟩ := ((Ext.tombstone s).trans e').undo
    unfold popTo
    rw [if_pos h1, h2]

theorem T.markedV {body : P (Outcome × α)} {Q : Option CM × α → Nat → Handle → Prop}
    (hb : TV I p body fun r q _ ts => EndedV I Q p r q ts) : T I p h (marked body) Q := by
  intro E s0 s he hh hp hn hne
  subst hp
  have h1 := hb E ⟨s.pos, s.events ++ [Event.tombstone]⟩ rfl hn (by simp)
  unfold Verif.Parser.marked
  show Good I s0 _ Q (P.bind' start (fun m => P.bind' body _) I E s)
  simp only [P.bind', start]
  revert h1
  cases body I E ⟨s.pos, s.events ++ [Event.tombstone]⟩ with
  | ok r s' =>
    rintro ⟨h1, h2, h', ts, e', hQ⟩
    obtain ⟨o, a⟩ := r
    cases o with
    | complete k =>
      obtain ⟨hk, hreq, hQ⟩ := hQ
      obtain ⟨fp, hslot, hr⟩ := e'.node hk hreq
      have hc := he.andR hr
      show Good I s0 _ Q (P.bind' (complete s.events.length k) (fun cm => P.pure' (some cm, a)) I E s')
      simp only [P.bind', complete, hslot]
      exact ⟨h1, h2, _, hc.ext, fun cm hcm => by cases hcm; exact hc, hQ _ rfl⟩
    | abandon =>
      have := abandon_ok he e'.ext E h2 (Q := fun _ q h => Q (none, a) q h) hQ
      show Good I s0 _ Q (P.bind' (abandon s.events.length) (fun _ => P.pure' (none, a)) I E s')
      simp only [P.bind']
      revert this
      cases abandon s.events.length I E s' with
      | ok u s'' => exact id
      | panic w => exact id
      | stop => exact id
    | rollback =>
      show Good I s0 _ Q (P.bind' (rollback s.events.length) (fun _ => P.pure' (none, a)) I E s')
      simp only [P.bind', rollback_eq e'.ext E]
      exact ⟨Nat.le_refl _, hn, none, he, HandleOk.none _ _, hQ⟩
  | panic w => exact id
  | stop => exact id

theorem T.marked {body : P (Outcome × α)} {Q : Option CM × α → Nat → Handle → Prop}
    (hb : T I p none body fun r q _ => Ended Q p r q) : T I p h (marked body) Q := by
  refine T.markedV (hb.tv.mono ?_)
  rintro r q h' ts _ _ ⟨hE, -⟩
  unfold Ended at hE
  unfold EndedV
  cases hr : r.1 with
  | complete k => rw [hr] at hE; exact ⟨plain.ne hE.1, plain.req hE.1, hE.2⟩
  | abandon => rw [hr] at hE; exact hE
  | rollback => rw [hr] at hE; exact hE

theorem T.blockV {body : P (Outcome × α)}
    (hb : TV I p body fun r q _ ts => EndedV I (fun x q h => Q x.2 q h) p r q ts) : T I p h (block body) Q := by
  unfold Verif.Parser.block
  refine T.bind (T.markedV (hb.mono ?_))
  intro r q h ts hq hs hE
  unfold EndedV at hE ⊢
  cases hr : r.1 with
  | complete k => rw [hr] at hE; exact ⟨hE.1, hE.2.1, fun cm hk _ _ => T.pure (hE.2.2 cm hk)⟩
  | abandon => rw [hr] at hE; exact fun _ _ => T.pure hE
  | rollback => rw [hr] at hE; exact fun _ _ => T.pure hE

theorem T.block {body : P (Outcome × α)}
    (hb : T I p none body fun r q _ => Ended (fun x q h => Q x.2 q h) p r q) : T I p h (block body) Q := by
  unfold Verif.Parser.block
  refine T.bind (T.marked (hb.mono ?_))
  intro r q h hq hs hE
  unfold Ended at hE ⊢
  cases hr : r.1 with
  | complete k => rw [hr] at hE; exact ⟨hE.1, fun cm hk _ _ => T.pure (hE.2 cm hk)⟩
  | abandon => rw [hr] at hE; exact fun _ _ => T.pure hE
  | rollback => rw [hr] at hE; exact fun _ _ => T.pure hE

theorem T.precededV {cm : CM} {body : P (SyntaxKind × α)} {Q : CM × α → Nat → Handle → Prop} (hh : h = some cm)
    (hb : TV I p body fun r q _ ts => r.1 ≠ .TOMBSTONE ∧ (∀ us, Req I r.1 (Top.node cm.kind :: us ++ ts)) ∧
      ∀ cm', cm'.kind = r.1 → Q (cm', r.2) q (some cm')) :
    T I p h (preceded cm body) Q := by
  intro E s0 s he hh' hp hn hne
  subst hp
  have hr := hh' cm hh
  have h1 := hb E ⟨s.pos, (s.events ++ [Event.tombstone]).set cm.pos (Event.start cm.kind (some (s.events.length - cm.pos)))⟩
    rfl hn (by
      intro hc
      have := congrArg List.length hc
      simp at this)
  have hslot : (s.events ++ [Event.tombstone])[cm.pos]? = some (Event.start cm.kind none) :=
    (hr.precede (k2 := .ERROR) (by decide) (fun _ => trivial) (ExtT.refl _ _)).1
  unfold Verif.Parser.preceded
  show Good I s0 _ Q (P.bind' (precede cm) (fun m => P.bind' body _) I E s)
  simp only [P.bind', precede, hslot]
  revert h1
  cases body I E ⟨s.pos, (s.events ++ [Event.tombstone]).set cm.pos (Event.start cm.kind (some (s.events.length - cm.pos)))⟩ with
  | ok r s' =>
    rintro ⟨h1, h2, h', ts, e', hk, hreq, hQ⟩
    obtain ⟨k2, a⟩ := r
    obtain ⟨_, hs2, hc⟩ := hr.precede hk hreq e'
    show Good I s0 _ Q (P.bind' (complete s.events.length k2) (fun c => P.pure' (c, a)) I E s')
    simp only [P.bind', complete, hs2]
    exact ⟨h1, h2, _, hc.ext, fun cm hcm => by cases hcm; exact hc, hQ _ rfl⟩
  | panic w => exact id
  | stop => exact id

theorem T.preceded {cm : CM} {body : P (SyntaxKind × α)} {Q : CM × α → Nat → Handle → Prop} (hh : h = some cm)
    (hb : T I p none body fun r q _ => plain r.1 = true ∧ ∀ cm', cm'.kind = r.1 → Q (cm', r.2) q (some cm')) :
    T I p h (preceded cm body) Q :=
  T.precededV hh (hb.tv.mono fun _ _ _ _ _ _ hQ => ⟨plain.ne hQ.1.1, fun _ => plain.req hQ.1.1, hQ.1.2⟩)

theorem T.extended {body : P (Option (CM × α))} {Q : Option (CM × α) → Nat → Handle → Prop}
    (hb : T I p none body fun r q h' => match r with
      | some (cm, a) => h' = some cm ∧ exprKind cm.kind = true ∧ Q (some (cm, a)) q (some cm)
      | none => Q none q none) : T I p h (extended body) Q := by
  intro E s0 s he hh hp hn hne
  subst hp
  have h1 := hb E ⟨s.pos, s.events ++ [Event.tombstone]⟩ ⟨s.pos, s.events ++ [Event.tombstone]⟩ (Ext.refl _ _)
    (HandleOk.none _ _) rfl hn (by simp)
  unfold Verif.Parser.extended
  show Good I s0 _ Q (P.bind' start (fun m => P.bind' body _) I E s)
  simp only [P.bind', start]
  revert h1
  cases body I E ⟨s.pos, s.events ++ [Event.tombstone]⟩ with
  | ok r s' =>
    rintro ⟨h1, h2, h', e', hh', hQ⟩
    cases r with
    | none =>
      have := abandon_ok he e' E h2 (Q := fun _ q h => Q none q h) hQ
      show Good I s0 _ Q (P.bind' (abandon s.events.length) (fun _ => P.pure' none) I E s')
      simp only [P.bind']
      revert this
      cases abandon s.events.length I E s' with
      | ok u s'' => exact id
      | panic w => exact id
      | stop => exact id
    | some r =>
      obtain ⟨cm, a⟩ := r
      obtain ⟨hh, hex, hQ⟩ := hQ
      obtain ⟨hslot, hr⟩ := (hh' cm hh).extend hex
      have hc := he.andR hr
      show Good I s0 _ Q (P.bind' (extendTo cm s.events.length) (fun c => P.pure' (some (c, a))) I E s')
      simp only [P.bind', extendTo, hslot]
      exact ⟨h1, h2, _, hc.ext, fun cm' hcm => by cases hcm; exact hc, hQ⟩
  | panic w => exact id
  | stop => exact id

/-! Recovery. -/

theorem T.withRec {f : RSet → RSet} (h1 : T I p h prog Q) : T I p h (withRec f prog) Q := by
  intro E s0 s he hh hp hn hne
  exact h1 _ s0 s he hh hp hn hne

theorem T.withRecovery {rs : RSet} (h1 : T I p h prog Q) : T I p h (withRecovery rs prog) Q := T.withRec h1
theorem T.resetRecovery (h1 : T I p h prog Q) : T I p h (resetRecovery prog) Q := T.withRec h1
theorem T.withRecTs {ts : TSet} (h1 : T I p h prog Q) : T I p h (withRecTs ts prog) Q := T.withRec h1
theorem T.withRecTok {k : SyntaxKind} (h1 : T I p h prog Q) : T I p h (withRecTok k prog) Q := T.withRec h1
theorem T.withRecKw {kw : String} (h1 : T I p h prog Q) : T I p h (withRecKw kw prog) Q := T.withRec h1
theorem T.withStmt {k : StmtKind} (h1 : T I p h prog Q) : T I p h (withStmt k prog) Q := by
  intro E s0 s he hh hp hn hne
  exact h1 _ s0 s he hh hp hn hne

/-- It makes progress unless it is at the end. -/
theorem errorAndBump_spec [I.Valid] : T I p h errorAndBump fun _ q _ => I.kindAt p ≠ .EOF → p < q := by
  unfold errorAndBump
  refine T.bind (T.node rfl ?_)
  refine T.bind (T.bumpAny (fun h1 h2 _ _ => T.error fun cm _ _ _ => T.pure fun _ => by omega)
    (fun h1 _ _ => T.error fun cm _ _ _ => T.pure fun h2 => absurd h1 h2))

theorem errorAndBump_ok [I.Valid] : T I p h errorAndBump Any := errorAndBump_spec.any

theorem bumpUntil_ok [I.Valid] {rs : RSet} {n : Nat} (hn : I.size < p + n) : T I p h (bumpUntil rs n) Any := by
  induction n generalizing p h with
  | zero =>
    intro E s0 s he hh hp hs hne
    omega
  | succ n ih =>
    unfold bumpUntil
    refine T.bind (T.at' fun _ _ => ?_)
    refine T.bind (T.containsCurrent fun _ _ => ?_)
    refine T.ite (fun _ => T.pure trivial) (fun hc => ?_)
    refine T.bind (T.bumpAny (fun _ _ _ _ => ih (by omega)) (fun h1 _ _ => ?_))
    simp [Input.atKind, parts, Input.atParts, h1] at hc

theorem errorAndRecover_ok [I.Valid] {rs : RSet} : T I p h (errorAndRecover rs) Any := by
  unfold errorAndRecover
  refine T.bind (T.outerRec fun o _ _ => ?_)
  refine T.bind (T.containsCurrent fun _ _ => ?_)
  refine T.ite (fun _ => T.error trivial) (fun _ => ?_)
  refine T.seq errorAndBump_ok fun _ q h' h1 h2 => ?_
  refine T.bind (T.remaining fun _ _ => bumpUntil_ok (by omega))

theorem wrapWithError_ok {cm : CM} (hh : h = some cm) : T I p h (wrapWithError cm) Any := by
  unfold wrapWithError
  refine T.bind (T.preceded hh ?_)
  exact T.bind (T.error fun _ _ => T.pure ⟨rfl, fun _ _ _ _ => T.pure trivial⟩)

/-! Loops. -/

theorem iterN_ok [I.Valid] {stop : TSet} {body : β → P (Bool × β)} {Inv : β → Nat → Prop} {n : Nat} {b : β} (p0 : Nat) (h0 : Inv b p)
    (hp0 : p0 ≤ p) (hn : I.size < p + n)
    (hb : ∀ b q h, p0 ≤ q → q ≤ I.size → I.kindAt q ≠ .EOF → Inv b q → T I q h (body b) fun r q' _ => Inv r.2 q') :
    T I p h (iterN stop body n b) fun b q _ => Inv b q := by
  induction n generalizing p h b with
  | zero =>
    intro E s0 s he hh hp hs hne
    omega
  | succ n ih =>
    unfold iterN
    refine T.bind (T.at' fun _ hps => ?_)
    refine T.bind (T.current fun _ _ => ?_)
    refine T.ite (fun _ => T.pure h0) (fun hc => ?_)
    refine T.bind (T.getPos fun _ _ => ?_)
    refine T.bind (T.withRec ((hb b p h hp0 hps ?_ h0).mono ?_))
    · intro hk
      simp [Input.atKind, parts, Input.atParts, hk] at hc
    · intro r q h' hq hs hI _ _
      refine T.ite (fun _ => T.pure hI) (fun _ => ?_)
      refine T.bind (T.outerRec fun o _ _ => ?_)
      refine T.bind (T.current fun _ _ => ?_)
      refine T.ite (fun _ => T.pure hI) (fun _ => ?_)
      refine T.bind (T.getPos fun _ _ => ?_)
      refine T.ite (fun _ => ?_) (fun hne => ?_)
      · refine T.bind (T.debugBuild fun _ _ => ?_)
        exact T.ite (fun hd => T.crash hd) (fun _ => T.pure hI)
      · exact ih hI (by omega) (by omega)

theorem T.iterate [I.Valid] {stop : TSet} {body : β → P (Bool × β)} {b : β} {Q : β → Nat → Handle → Prop} (Inv : β → Nat → Prop) (h0 : Inv b p)
    (hb : ∀ b q h, p ≤ q → q ≤ I.size → I.kindAt q ≠ .EOF → Inv b q → T I q h (body b) fun r q' _ => Inv r.2 q')
    (hQ : ∀ b q h, Inv b q → p ≤ q → q ≤ I.size → Q b q h) : T I p h (iterate stop body b) Q := by
  unfold Verif.Parser.iterate
  refine T.bind (T.remaining fun _ _ => ?_)
  exact (iterN_ok p h0 (Nat.le_refl _) (by omega) hb).mono fun a q h h1 h2 h3 => hQ _ _ _ h3 h1 h2

theorem T.iterate_any [I.Valid] {stop : TSet} {body : β → P (Bool × β)} {b : β}
    (hb : ∀ b q h, p ≤ q → q ≤ I.size → I.kindAt q ≠ .EOF → T I q h (body b) Any) : T I p h (Verif.Parser.iterate stop body b) Any :=
  T.iterate (fun _ _ => True) trivial (fun b q h h1 h2 h3 _ => hb b q h h1 h2 h3) (fun _ _ _ _ _ _ => trivial)

theorem loopN_ok {body : β → P (Bool × β)} {Inv : β → Nat → Handle → Prop} {n : Nat} {b : β} (p0 : Nat) (h0 : Inv b p h)
    (hp0 : p0 ≤ p) (hn : I.size < p + n)
    (hb : ∀ b q h, p0 ≤ q → q ≤ I.size → Inv b q h → T I q h (body b) fun r q' h' => Inv r.2 q' h' ∧ (r.1 = true → q < q')) :
    T I p h (loopN body n b) Inv := by
  induction n generalizing p h b with
  | zero =>
    intro E s0 s he hh hp hs hne
    omega
  | succ n ih =>
    unfold loopN
    by_cases hps : p ≤ I.size
    · refine T.bind ((hb b p h hp0 hps h0).mono ?_)
      rintro r q h' hq hs ⟨hI, hr⟩ _ _
      refine T.ite (fun hc => ?_) (fun _ => T.pure hI)
      have := hr hc
      exact ih hI (by omega) (by omega)
    · intro E s0 s he hh hp hs hne
      omega

theorem T.loop {body : β → P (Bool × β)} {b : β} {Q : β → Nat → Handle → Prop} (Inv : β → Nat → Handle → Prop) (h0 : Inv b p h)
    (hb : ∀ b q h, p ≤ q → q ≤ I.size → Inv b q h → T I q h (body b) fun r q' h' => Inv r.2 q' h' ∧ (r.1 = true → q < q'))
    (hQ : ∀ b q h, p ≤ q → q ≤ I.size → Inv b q h → Q b q h) : T I p h (loop body b) Q := by
  unfold Verif.Parser.loop
  refine T.bind (T.remaining fun _ _ => ?_)
  exact (loopN_ok p h0 (Nat.le_refl _) (by omega) hb).mono fun a q h h1 h2 h3 => hQ _ _ _ h1 h2 h3

theorem contains_single (k : SyntaxKind) : TokenSet.contains (TokenSet.new [k]) k = true := by
  cases k <;> rfl

theorem delimitedN_ok [I.Valid] {element : P Bool} {d : SyntaxKind} {e : Option SyntaxKind} {n : Nat} {b : Bool} (p0 : Nat)
    (hd : parts d = [d]) (hd' : d ≠ .EOF) (hp0 : p0 ≤ p) (hn : I.size < p + n)
    (hb : ∀ q h, p0 ≤ q → q ≤ I.size → (∀ k, e = some k → I.kindAt q ≠ k) → T I q h element Any) :
    T I p h (delimitedN element d e n b) Any := by
  induction n generalizing p h b with
  | zero =>
    intro E s0 s he hh hp hs hne
    omega
  | succ n ih =>
    unfold delimitedN
    dsimp only
    refine T.bind (T.outerRec fun o _ _ => ?_)
    refine T.bind (T.at' fun _ hps => ?_)
    refine T.bind (T.atTs fun _ _ => ?_)
    refine T.ite (fun _ => T.pure trivial) (fun hc => ?_)
    refine T.bind (T.getPos fun _ _ => ?_)
    have hend : ∀ k, e = some k → I.kindAt p ≠ k := by
      rintro k rfl rfl
      refine hc ?_
      dsimp only
      rw [contains_single, Bool.or_true]
    refine T.seq (T.withRecTs (hb p h hp0 hps hend)) fun a q h' hq hs => ?_
    refine T.bind (T.atTs fun _ _ => ?_)
    refine T.ite (fun _ => T.pure trivial) (fun _ => ?_)
    refine T.seq (T.iff (fun _ => errorAndRecover_ok) (fun _ => trivial)) fun _ q1 h1 hq1 hs1 => ?_
    refine T.bind (T.containsCurrent fun _ _ => ?_)
    refine T.ite (fun _ => T.pure trivial) (fun _ => ?_)
    refine T.seq (T.expect1 hd hd' (fun _ _ => trivial) (fun _ => trivial)) fun _ q2 h2 hq2 hs2 => ?_
    refine T.bind (T.containsCurrent fun _ _ => ?_)
    refine T.ite (fun _ => T.pure trivial) (fun _ => ?_)
    refine T.bind (T.getPos fun _ _ => ?_)
    refine T.ite (fun _ => ?_) (fun hne => ?_)
    · refine T.bind (T.debugBuild fun _ _ => ?_)
      exact T.ite (fun hd => T.crash hd) (fun _ => T.pure trivial)
    · exact ih (by omega) (by omega)

theorem T.delimited [I.Valid] {element : P Bool} {d : SyntaxKind} {e : Option SyntaxKind}
    (hd : parts d = [d]) (hd' : d ≠ .EOF)
    (hb : ∀ q h, p ≤ q → q ≤ I.size → (∀ k, e = some k → I.kindAt q ≠ k) → T I q h element Any) :
    T I p h (delimited element d e) Any := by
  unfold Verif.Parser.delimited
  refine T.bind (T.remaining fun _ _ => ?_)
  exact delimitedN_ok p hd hd' (Nat.le_refl _) (by omega) hb

end
end Verif.Parser
