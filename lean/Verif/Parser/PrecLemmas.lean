import Verif.Parser.Emits
import Verif.Parser.Precedence
import Verif.Parser.Grammar.Top
import Verif.TokenSet.Props

/-! Lemmas for the theorem on operators: the operator at a position, paths, and type arguments that are tried in vain. -/

namespace Verif.Parser
open Verif.Syntax (SyntaxKind)
open Verif.TokenSet (TSet)

variable {I : Input} {E : Env} {p q : Nat}

/-! ### The operator -/

/-- The value of `currentOp` at a position. -/
def Input.op (I : Input) (p : Nat) : Nat × SyntaxKind :=
  match currentOp I ⟨RSet.new, .Move⟩ ⟨p, []⟩ with
  | .ok o _ => o
  | _ => (0, .AT)

theorem currentOp_run (s : St) : currentOp I E s = .ok (I.op s.pos) s := rfl

theorem op_eq : I.op p = (
    if I.kindAt p = .EQ then (1, .EQ)
    else if I.kindAt p = .R_ANGLE ∧ I.atKind p .SHR_EQ = true then (1, .SHR_EQ)
    else if I.kindAt p = .L_ANGLE ∧ I.atKind p .LESS_IMPLIES = true then (1, .LESS_IMPLIES)
    else if I.kindAt p = .L_ANGLE ∧ I.atKind p .SHL_EQ = true then (1, .SHL_EQ)
    else if I.kindAt p = .IMPLIES ∨ I.kindAt p = .PLUS_EQ ∨ I.kindAt p = .MINUS_EQ ∨ I.kindAt p = .STAR_EQ ∨ I.kindAt p = .SLASH_EQ ∨ I.kindAt p = .PIPE_EQ ∨ I.kindAt p = .CARET_EQ
      ∨ I.kindAt p = .AMP_EQ ∨ I.kindAt p = .PERCENT_EQ then (1, I.kindAt p)
    else if I.kindAt p = .AS_KW then (2, .AS_KW)
    else if I.kindAt p = .IDENT ∧ I.isKeyword p "is" = true then (2, .IS_KW)
    else if I.kindAt p = .DOT_DOT then (3, .DOT_DOT)
    else if I.kindAt p = .PIPE ∧ I.atKind p .PIPE_PIPE = true then (4, .PIPE_PIPE)
    else if I.kindAt p = .AMP ∧ I.atKind p .AMP_AMP = true then (5, .AMP_AMP)
    else if I.kindAt p = .R_ANGLE ∧ I.atKind p .GT_EQ = true then (6, .GT_EQ)
    else if I.kindAt p = .R_ANGLE ∧ I.atKind p .SHR = true then (10, .SHR)
    else if I.kindAt p = .R_ANGLE then (6, .R_ANGLE)
    else if I.kindAt p = .L_ANGLE ∧ I.atKind p .LT_EQ = true then (6, .LT_EQ)
    else if I.kindAt p = .L_ANGLE ∧ I.atKind p .SHL = true then (10, .SHL)
    else if I.kindAt p = .L_ANGLE then (6, .L_ANGLE)
    else if I.kindAt p = .NOT_EQ ∨ I.kindAt p = .EQ_EQ then (6, I.kindAt p)
    else if I.kindAt p = .PIPE then (7, .PIPE)
    else if I.kindAt p = .CARET then (8, .CARET)
    else if I.kindAt p = .AMP then (9, .AMP)
    else if I.kindAt p = .PLUS ∨ I.kindAt p = .MINUS then (11, I.kindAt p)
    else if I.kindAt p = .PERCENT ∨ I.kindAt p = .SLASH ∨ I.kindAt p = .STAR then (12, I.kindAt p)
    else (0, .AT)) := rfl

theorem isBin_mem {k : SyntaxKind} (h : IsBin k) :
    k ∈ [.EQ, .IMPLIES, .LESS_IMPLIES, .PLUS_EQ, .MINUS_EQ, .STAR_EQ, .SLASH_EQ, .PERCENT_EQ, .AMP_EQ, .PIPE_EQ, .CARET_EQ,
      .SHL_EQ, .SHR_EQ, .DOT_DOT, .PIPE_PIPE, .AMP_AMP, .EQ_EQ, .NOT_EQ, .L_ANGLE, .R_ANGLE, .LT_EQ, .GT_EQ,
      .PIPE, .CARET, .AMP, .SHL, .SHR, .PLUS, .MINUS, .STAR, .SLASH, SyntaxKind.PERCENT] := by
  revert h
  cases k <;> decide

theorem op_of_opAt {k : SyntaxKind} (hk : IsBin k) (h : I.OpAt p k) : I.op p = (level k, k) := by
  obtain ⟨h1, h2⟩ := h
  have h3 : ∀ k', IsBin k' → (parts k).length < (parts k').length → I.atKind p k' = false := by
    intro k' hb hl
    cases hc : I.atKind p k' with
    | false => rfl
    | true => have := h2 k' hb hc; omega
  have hm := isBin_mem hk
  have a1 := h3 .LESS_IMPLIES (by decide)
  have a2 := h3 .SHL_EQ (by decide)
  have a3 := h3 .LT_EQ (by decide)
  have a4 := h3 .SHL (by decide)
  have a5 := h3 .SHR_EQ (by decide)
  have a6 := h3 .GT_EQ (by decide)
  have a7 := h3 .SHR (by decide)
  have a8 := h3 .PIPE_PIPE (by decide)
  have a9 := h3 .AMP_AMP (by decide)
  clear h2 h3
  rw [op_eq]
  simp only [List.mem_cons, List.not_mem_nil, or_false] at hm
  simp only [Input.atKind] at h1 a1 a2 a3 a4 a5 a6 a7 a8 a9
  rcases hm with h | h | h | h | h | h | h | h | h | h | h | h | h | h | h | h | h | h | h | h | h | h | h | h | h | h | h | h |
    h | h | h | h <;> subst h <;>
  simp [parts, Input.atParts] at h1 a1 a2 a3 a4 a5 a6 a7 a8 a9 <;>
  simp [Input.atKind, parts, Input.atParts, *] <;> first | decide | (split_ifs <;> first | decide | (exfalso; simp_all))

theorem op_as (h : I.kindAt p = .AS_KW) : I.op p = (level .AS_KW, .AS_KW) := by
  rw [op_eq]
  simp [Input.atKind, parts, Input.atParts, h]
  decide

theorem op_ends (h : I.Ends p) : I.op p = (0, .AT) := by
  unfold Input.Ends at h
  simp only [List.mem_cons, List.not_mem_nil, or_false] at h
  rw [op_eq]
  rcases h with h | h | h | h | h | h <;> simp [Input.atKind, parts, Input.atParts, h]

/-- Nothing that continues a name, a literal or a call. -/
def Input.Free (I : Input) (q : Nat) : Prop := I.kindAt q ≠ .L_PAREN ∧ I.kindAt q ≠ .L_BRACK ∧ I.kindAt q ≠ .DOT

theorem free_ends (h : I.Ends p) : I.Free p := by
  unfold Input.Ends at h
  simp only [List.mem_cons, List.not_mem_nil, or_false] at h
  unfold Input.Free
  rcases h with h | h | h | h | h | h <;> simp [h]

theorem kind_of_atKind {k : SyntaxKind} (h : I.atKind p k = true) : (parts k).head? = some (I.kindAt p) := by
  have hne := parts_ne k
  unfold Input.atKind at h
  generalize parts k = ks at h hne ⊢
  match ks with
  | [] => exact absurd rfl hne
  | [k] => simp [Input.atParts] at h; simp [h]
  | k :: k' :: ks => simp [Input.atParts] at h; simp [h]

/-- The first token of an operator. -/
theorem kind_of_opAt {k : SyntaxKind} (hk : IsBin k) (h : I.OpAt p k) :
    I.kindAt p ∈ [.EQ, .IMPLIES, .PLUS_EQ, .MINUS_EQ, .STAR_EQ, .SLASH_EQ, .PERCENT_EQ, .AMP_EQ, .PIPE_EQ, .CARET_EQ,
      .DOT_DOT, .EQ_EQ, .NOT_EQ, .L_ANGLE, .R_ANGLE, .PIPE, .CARET, .AMP, .PLUS, .MINUS, .STAR, .SLASH, SyntaxKind.PERCENT] := by
  have h1 := kind_of_atKind h.1
  have h2 : ∀ x, (parts k).head? = some x →
      x ∈ [.EQ, .IMPLIES, .PLUS_EQ, .MINUS_EQ, .STAR_EQ, .SLASH_EQ, .PERCENT_EQ, .AMP_EQ, .PIPE_EQ, .CARET_EQ,
      .DOT_DOT, .EQ_EQ, .NOT_EQ, .L_ANGLE, .R_ANGLE, .PIPE, .CARET, .AMP, .PLUS, .MINUS, .STAR, .SLASH, SyntaxKind.PERCENT] := by
    have hm := isBin_mem hk
    simp only [List.mem_cons, List.not_mem_nil, or_false] at hm
    rcases hm with h | h | h | h | h | h | h | h | h | h | h | h | h | h | h | h | h | h | h | h | h | h | h | h | h | h | h | h |
      h | h | h | h <;> subst h <;> intro x hx <;> simp [parts] at hx <;> subst hx <;> decide
  exact h2 _ h1

theorem free_opAt {k : SyntaxKind} (hk : IsBin k) (h : I.OpAt p k) : I.Free p := by
  have := kind_of_opAt hk h
  refine ⟨?_, ?_, ?_⟩ <;> intro hc <;> rw [hc] at this <;> revert this <;> decide

/-! ### Sets -/

theorem contains_union (a b : TSet) (k : SyntaxKind) :
    TokenSet.contains (TokenSet.union a b) k = (TokenSet.contains a k || TokenSet.contains b k) := by
  rw [TokenSet.contains_eq, TokenSet.contains_eq, TokenSet.contains_eq]
  unfold TokenSet.union
  exact BitVec.getLsbD_or

/-- The tokens that an expression starts with. -/
def startKinds : List SyntaxKind :=
  [.IDENT, .INT_NUMBER, .BYTE_STRING, .HEX_STRING, .TRUE_KW, .FALSE_KW, .L_PAREN, .AMP, .STAR, .BANG, .MINUS, .MOVE_KW]

/-- The recovery set has no token that an expression starts with, and of the words only contextual keywords. -/
def Calm (E : Env) : Prop :=
  (∀ k ∈ startKinds, E.outer.hasTok k = false) ∧ ∀ t ∈ E.outer.kws, t ≠ "copy".toList ∧ ∃ w ∈ words, t = w.toList

theorem Calm.join (h : Calm E) {t : TSet} (ht : ∀ k ∈ startKinds, TokenSet.contains t k = false) :
    Calm { E with outer := E.outer.join (.ofTs t) } := by
  refine ⟨fun k hk => ?_, fun w hw => h.2 w (by simpa [RSet.join, RSet.ofTs] using hw)⟩
  show TokenSet.contains (TokenSet.union _ t) k = false
  rw [contains_union, ht k hk]
  have := h.1 k hk
  unfold RSet.hasTok at this
  rw [this]
  rfl

theorem Calm.withTs (h : Calm E) {t : TSet} (ht : ∀ k ∈ startKinds, TokenSet.contains t k = false) :
    Calm { E with outer := E.outer.withTs t } := by
  refine ⟨fun k hk => ?_, fun w hw => h.2 w hw⟩
  show TokenSet.contains (TokenSet.union _ _) k = false
  rw [contains_union, ht k hk]
  have := h.1 k hk
  unfold RSet.hasTok at this
  rw [this]
  rfl

/-! ### Paths -/

theorem atKind_of {k : SyntaxKind} (hp : parts k = [k]) (h : I.kindAt p = k) : I.atKind p k = true := by
  rw [atKind_single hp, h]; simp

theorem atKind_not {k : SyntaxKind} (hp : parts k = [k]) (h : I.kindAt p ≠ k) : I.atKind p k = false := by
  rw [atKind_single hp]; simpa using h

theorem nameRef_run [I.Valid] (h : I.kindAt p = .IDENT) :
    Emits I E p nameRef true (p + 1) [.start .NAME_REF, tk .IDENT, .finish] := by
  have ha := atKind_of (I := I) (p := p) (k := .IDENT) rfl h
  unfold nameRef
  refine Emits.at' (Emits.ite_pos ha ?_)
  exact (Emits.bind (Builds.drop (Emits.node (k := .NAME_REF) (by decide) (Emits.bump (by decide) ha)))
    (b := true) (y := []) Emits.pure).steps rfl

/-- What may follow a segment of a path. -/
def Input.SegEnds (I : Input) (q : Nat) : PathMode → Prop
  | .Type => I.kindAt q ≠ .L_ANGLE
  | .Expr => (I.kindAt q = .COLON_COLON → I.kindAt (q + 1) ≠ .L_ANGLE) ∧ (I.kindAt q = .L_ANGLE → I.NoArgs q)

theorem optArgs_type {R : Rec} (h : I.kindAt p ≠ .L_ANGLE) : Emits I E p (optPathTypeArgList R .Type) () p [] := by
  unfold optPathTypeArgList optTypeArgListForType
  refine Emits.at' ?_
  rw [atKind_not rfl h]
  exact Emits.pure

/-- The segment, if there are no type arguments. -/
theorem segment_run [I.Valid] {R : Rec} {mode : PathMode} {first : Bool} (h : I.kindAt p = .IDENT)
    (ho : Emits I E (p + 1) (optPathTypeArgList R mode) () (p + 1) []) :
    Emits I E p (pathSegment R (some mode) first) true (p + 1) segTree := by
  unfold pathSegment
  refine (Emits.block (k := .PATH_SEGMENT) (x := [.start .NAME_REF, tk .IDENT, .finish]) (by decide) ?_).steps rfl
  refine Emits.current (Emits.ite_pos h ?_)
  refine (Emits.bind (nameRef_run h).drop (b := (Outcome.complete .PATH_SEGMENT, true)) (y := []) ?_).steps (by simp)
  exact Emits.bind ho Emits.pure

theorem address_run [I.Valid] {R : Rec} {mode : PathMode} (h : I.kindAt p = .INT_NUMBER) :
    Emits I E p (pathSegment R (some mode) true) true (p + 1) (firstTree true) := by
  have ha := atKind_of (I := I) (p := p) (k := .INT_NUMBER) rfl h
  unfold pathSegment
  refine (Emits.block (k := .PATH_SEGMENT) (x := [.start .PATH_ADDRESS, .start .VALUE_ADDRESS, tk .INT_NUMBER, .finish, .finish])
    (by decide) ?_).steps rfl
  refine Emits.current (Emits.ite_neg (by rw [h]; decide) (Emits.ite_neg (by rw [h]; decide) (Emits.ite_pos ⟨h, rfl⟩ ?_)))
  refine (Emits.bind (Builds.drop (Emits.node (k := .PATH_ADDRESS) (x := [.start .VALUE_ADDRESS, tk .INT_NUMBER, .finish])
    (by decide) ?_)) (b := (Outcome.complete .PATH_SEGMENT, true)) (y := []) Emits.pure).steps rfl
  unfold valueAddress
  exact Emits.at' (Emits.assert ha (Builds.drop (Emits.node (by decide) (Emits.bump (by decide) ha))))

/-- Between two segments there are no type arguments. -/
theorem moreAt_run [I.Valid] {R : Rec} {mode : PathMode} {more : Nat}
    (hmid : ∀ p, I.kindAt p = .COLON_COLON → I.kindAt (p + 1) = .IDENT → Emits I E p (optPathTypeArgList R mode) () p [])
    (hend : Emits I E q (optPathTypeArgList R mode) () q []) (hq : I.kindAt q ≠ .COLON_COLON) :
    ∀ {p} (_ : I.MoreAt more p q) {s0 s : St} {cm : CM} {z : List Step} {n : Nat}, s.pos = p → cm.kind = .PATH → AddsN s0 cm s z →
      more < n → ∃ cm' s' z', loopN (pathLoop R (some mode)) n cm I E s = .ok cm' s' ∧ s'.pos = q ∧ AddsN s0 cm' s' z' ∧
        .start cm'.kind :: z' = qualifyN more (.start .PATH :: z) := by
  induction more with
  | zero =>
    intro p hp s0 s cm z n hs hc ha hn
    obtain ⟨n, rfl⟩ : ∃ m, n = m + 1 := ⟨n - 1, by omega⟩
    have : q = p := hp
    subst this
    subst hs
    refine ⟨cm, s, z, ?_, rfl, ha, by rw [hc]; rfl⟩
    unfold loopN pathLoop
    rw [bind_assoc', bind_at, bind_assoc', bind_nthAt, atKind_not rfl hq]
    rfl
  | succ more ih =>
    intro p hp s0 s cm z n hs hc ha hn
    obtain ⟨n, rfl⟩ : ∃ m, n = m + 1 := ⟨n - 1, by omega⟩
    obtain ⟨h1, h2, -, h3⟩ := hp
    have hcc := atKind_of (I := I) (p := p) (k := .COLON_COLON) rfl h1
    have hseg : Emits I E (p + 2) (optPathTypeArgList R mode) () (p + 2) [] := by
      cases more with
      | zero => have : q = p + 2 := h3
                subst this; exact hend
      | succ m => exact hmid _ h3.1 h3.2.1
    have hb : Emits I E p (do bump .COLON_COLON; drop (pathSegment R (some mode) false); pure (SyntaxKind.PATH, ())) (SyntaxKind.PATH, ())
        (p + 2) (tk .COLON_COLON :: segTree) := by
      refine (Emits.bind (Emits.bump (by decide) hcc) (b := (SyntaxKind.PATH, ())) (y := segTree) ?_).steps rfl
      exact (Emits.bind (segment_run h2 hseg).drop (b := (SyntaxKind.PATH, ())) (y := []) Emits.pure).steps (by simp)
    obtain ⟨pos, s1, e1, hq1, ha1⟩ := Emits.preceded (k := .PATH) (by decide) hb s0 cm z s hs ha
    obtain ⟨cm', s', z', e', hq', ha', hz⟩ := ih h3 hq1 rfl ha1 (n := n) (by omega)
    refine ⟨cm', s', z', ?_, hq', ha', ?_⟩
    · rw [← e']
      have hstep : pathLoop R (some mode) cm I E s = .ok (true, ⟨pos, .PATH⟩) s1 := by
        unfold pathLoop
        rw [bind_at, bind_nthAt]
        rw [hs, hcc, atKind_not (k := .L_CURLY) rfl (by rw [h2]; decide)]
        show (preceded cm _ >>= _) I E s = _
        rw [bind_ok e1]
        rfl
      show (pathLoop R (some mode) cm >>= _) I E s = _
      rw [bind_ok hstep]
      rfl
    · rw [hz, hc]
      simp [qualifyN, qualify]

theorem moreAt_le {more : Nat} : ∀ {p}, I.MoreAt more p q → p + more ≤ q := by
  induction more with
  | zero => intro p h; have : q = p := h; omega
  | succ m ih => intro p h; have := ih h.2.2.2; omega

theorem path_run [I.Valid] {R : Rec} {mode : PathMode} {addr : Bool} {more : Nat} (h : I.PathAt addr more p q)
    (haddr : addr = true → more ≠ 0)
    (hmid : ∀ p, I.kindAt p = .COLON_COLON → I.kindAt (p + 1) = .IDENT → Emits I E p (optPathTypeArgList R mode) () p [])
    (hend : Emits I E q (optPathTypeArgList R mode) () q []) (hq : I.kindAt q ≠ .COLON_COLON) (hlt : q ≤ I.size) :
    Emits I E p (path R (some mode)) true q (pathTree addr more) := by
  obtain ⟨h1, h2⟩ := h
  have hfirst : Emits I E p (pathSegment R (some mode) true) true (p + 1) (firstTree addr) := by
    cases addr with
    | true => exact address_run h1
    | false =>
      refine segment_run h1.1 ?_
      cases more with
      | zero => have : q = p + 1 := h2
                subst this; exact hend
      | succ m => exact hmid _ h2.1 h2.2.1
  have hm : Emits I E p (do let seg ← pathSegment R (some mode) true; pure (if seg then Outcome.complete .PATH else .abandon, ()))
      (Outcome.complete .PATH, ()) (p + 1) (firstTree addr) :=
    (Emits.bind hfirst (b := (Outcome.complete .PATH, ())) (y := []) Emits.pure).steps (by simp)
  intro s hs
  obtain ⟨pos, s1, e1, hq1, ha1⟩ := Emits.marked (k := .PATH) (by decide) hm s hs
  have hmore := moreAt_le h2
  obtain ⟨cm', s', z', e', hq', ha', hz⟩ := moreAt_run hmid hend hq h2 hq1 rfl ha1 (n := I.toks.length - (p + 1) + 1)
    (by unfold Input.size at hlt; omega)
  refine ⟨s', ?_, hq', ?_⟩
  · unfold path
    rw [bind_ok e1]
    dsimp only
    rw [bind_drop (a := cm') (s' := s')]
    · rfl
    · unfold loop
      rw [bind_remaining, hq1, e']
  · have := ha'.adds
    rw [hz] at this
    exact this

/-! ### Type arguments -/

theorem Emits.isPathStart {β : Type} {f : Bool → P β} {b : β} {x : List Step}
    (h : Emits I E p (f ((I.kindAt p == .INT_NUMBER && I.atKind (p + 1) .COLON_COLON) || I.kindAt p == .IDENT ||
      I.kindAt p == .UNDERSCORE)) b q x) : Emits I E p (isPathStart >>= f) b q x :=
  Emits.of_eq (fun s hs => by subst hs; rfl) h

theorem pathType_run [I.Valid] {R : Rec} {addr : Bool} {more : Nat} (h : I.PathAt addr more p q)
    (haddr : addr = true → more ≠ 0) (hq : I.kindAt q ≠ .COLON_COLON) (hq' : I.kindAt q ≠ .L_ANGLE) (hlt : q ≤ I.size) :
    Emits I E p (pathType R) true q (.start .PATH_TYPE :: pathTree addr more ++ [.finish]) := by
  have hs : ((I.kindAt p == .INT_NUMBER && I.atKind (p + 1) .COLON_COLON) || I.kindAt p == .IDENT ||
      I.kindAt p == .UNDERSCORE) = true := by
    obtain ⟨h1, h2⟩ := h
    cases addr with
    | false => simp at h1; simp [h1.1]
    | true =>
      simp at h1
      cases more with
      | zero => exact absurd rfl (haddr rfl)
      | succ m => simp [h1, atKind_of (I := I) (p := p + 1) (k := .COLON_COLON) rfl h2.1]
  unfold pathType
  refine Emits.isPathStart ?_
  rw [hs]
  refine Emits.block (by decide) ?_
  refine (Emits.bind (path_run h haddr ?_ (optArgs_type hq') hq hlt) (b := (Outcome.complete .PATH_TYPE, true)) (y := [])
    Emits.pure).steps (by simp)
  intro p' h1 _
  exact optArgs_type (by rw [h1]; decide)

/-- What is no type is not read as one. -/
theorem typ_fails [I.Valid] {R : Rec} {rs : RSet} (h1 : I.kindAt p ∈ [SyntaxKind.STAR, .BANG, .L_ANGLE, .INT_NUMBER])
    (h2 : I.kindAt p = .INT_NUMBER → I.kindAt (p + 1) ≠ .COLON_COLON) : ∃ q x, Emits I E p (typeOrRecover R rs) false q x := by
  obtain ⟨q, x, -, h⟩ := Emits.errorAndRecover (I := I) (E := E) (p := p) (rs := rs)
  refine ⟨q, x ++ [], ?_⟩
  unfold typeOrRecover
  refine Emits.current (Emits.isPathStart ?_)
  have hs : ((I.kindAt p == .INT_NUMBER && I.atKind (p + 1) .COLON_COLON) || I.kindAt p == .IDENT ||
      I.kindAt p == .UNDERSCORE) = false := by
    simp only [List.mem_cons, List.not_mem_nil, or_false] at h1
    rcases h1 with h | h | h | h <;> simp [h]
    exact atKind_not rfl (h2 h)
  rw [hs]
  have hk : I.kindAt p ≠ .L_PAREN ∧ I.kindAt p ≠ .AMP ∧ I.kindAt p ≠ .PIPE := by
    simp only [List.mem_cons, List.not_mem_nil, or_false] at h1
    rcases h1 with h | h | h | h <;> simp [h]
  exact Emits.ite_neg hk.1 (Emits.ite_neg hk.2.1 (Emits.ite_neg hk.2.2 (Emits.ite_neg (by simp) (Emits.bind h Emits.pure))))

theorem typeArg_fails [I.Valid] {n : Nat} (h : I.kindAt p ∈ [SyntaxKind.EQ, .IMPLIES, .L_ANGLE, .MINUS, .STAR, .BANG, .TRUE_KW,
      .FALSE_KW, .BYTE_STRING, .HEX_STRING, .MOVE_KW, .INT_NUMBER])
    (h2 : I.kindAt p = .INT_NUMBER → I.kindAt (p + 1) ≠ .COLON_COLON) :
    ∃ q x, Emits I E p (typeArg (grammar (n + 1)) false) false q x := by
  have hne : I.kindAt p ≠ .IDENT := by intro hc; rw [hc] at h; revert h; decide
  unfold typeArg
  by_cases hf : TokenSet.contains TYPE_FIRST (I.kindAt p) = true
  · obtain ⟨q, x, ht⟩ := typ_fails (E := { E with outer := E.outer.withTs (ts [.COMMA]) }) (R := grammar n) (rs := .new) (I := I)
      (p := p) (by
        have key : ∀ k ∈ [SyntaxKind.EQ, .IMPLIES, .L_ANGLE, .MINUS, .STAR, .BANG, .TRUE_KW,
          .FALSE_KW, .BYTE_STRING, .HEX_STRING, .MOVE_KW, .INT_NUMBER], TokenSet.contains TYPE_FIRST k = true →
          k ∈ [SyntaxKind.STAR, .BANG, .L_ANGLE, .INT_NUMBER] := by decide +kernel
        exact key _ h hf) h2
    refine ⟨q, x ++ [], Emits.abandonedBlock (Emits.current (Emits.atTs (Emits.ite_neg hne (Emits.ite_pos hf ?_))))⟩
    exact Emits.bind (Emits.withRec (f := (·.withTs (ts [.COMMA]))) ht) (Emits.ite_pos rfl Emits.pure)
  · exact ⟨p, [], Emits.abandonedBlock (Emits.current (Emits.atTs (Emits.ite_neg hne (Emits.ite_neg hf Emits.pure))))⟩

theorem typeArg_path [I.Valid] {n more : Nat} (h : I.PathAt false more p q) (hq : I.kindAt q ≠ .COLON_COLON)
    (hq' : I.kindAt q ≠ .L_ANGLE) (hlt : q ≤ I.size) : ∃ x, Emits I E p (typeArg (grammar (n + 1)) false) true q x := by
  unfold typeArg
  refine ⟨_, Emits.block (k := .TYPE_ARG) (x := (.start .PATH_TYPE :: pathTree false more ++ [.finish]) ++ []) (by decide)
    (Emits.current (Emits.atTs (Emits.ite_pos h.1.1 ?_)))⟩
  exact Emits.bind (pathType_run h (by simp) hq hq' hlt).drop Emits.pure

theorem moreAt_size [I.Valid] {more : Nat} : ∀ {p}, I.MoreAt more p q → p ≤ I.size → q ≤ I.size := by
  induction more with
  | zero => intro p h hp; have : q = p := h; omega
  | succ m ih =>
    intro p h hp
    have := kindAt_lt (I := I) (p := p + 1) (by rw [h.2.1]; decide)
    exact ih h.2.2.2 (by omega)

theorem pathAt_size [I.Valid] {addr : Bool} {more : Nat} (h : I.PathAt addr more p q) : q ≤ I.size := by
  refine moreAt_size h.2 ?_
  have := kindAt_lt (I := I) (p := p) (by
    obtain ⟨h1, -⟩ := h
    cases addr <;> simp at h1
    · rw [h1.1]; decide
    · rw [h1]; decide)
  omega

/-- The type arguments are tried in vain. -/
theorem noArgs_run [I.Valid] {n : Nat} (h : I.kindAt p = .L_ANGLE) (hn : I.NoArgs p) :
    Emits I E p (block (typeArgListForExpr (grammar (n + 1)))) false p [] := by
  have hb := Emits.bump (E := E) (k := .L_ANGLE) (by decide) (atKind_of (I := I) (p := p) rfl h)
  suffices hs : ∃ q y, Emits I E (p + 1) (do
      let hasError ← iterate (ts [.R_ANGLE, .L_PAREN, .L_CURLY]) (fun hasError => do
        let a ← typeArg (grammar (n + 1)) false
        if !a then pure (false, true)
        else do
          let c ← eat .COMMA
          if !c then do
            let f ← atTs PATH_FIRST
            if f then do
              error
              pure (true, true)
            else pure (false, hasError)
          else pure (true, hasError)) false
      if hasError then pure (Outcome.rollback, false)
      else do
        let r ← eat .R_ANGLE
        if !r then pure (.rollback, false)
        else pure (.complete .TYPE_ARG_LIST, true)) (Outcome.rollback, false) q y by
    obtain ⟨q, y, hs⟩ := hs
    refine Emits.rolled (q := q) (x := [tk .L_ANGLE] ++ y) ?_ (by simp)
    unfold typeArgListForExpr
    exact Emits.bind hb hs
  rcases hn with hn | hn | ⟨more, q, hp, hq⟩
  · by_cases hl : I.kindAt (p + 1) = .L_PAREN
    · refine ⟨p + 1, [] ++ ([] ++ []), Emits.bind (Emits.iterate_stop (by rw [hl]; decide +kernel)) (Emits.ite_neg (by simp) ?_)⟩
      exact Emits.bind (Emits.eat_not (atKind_not rfl (by rw [hl]; decide))) (Emits.ite_pos rfl Emits.pure)
    · obtain ⟨q, x, ht⟩ := typeArg_fails (E := { E with outer := E.outer.join (.ofTs (ts [.R_ANGLE, .L_PAREN, .L_CURLY])) })
        (I := I) (p := p + 1) (n := n) (by
          have key : ∀ k ∈ [.EQ, .IMPLIES, .L_ANGLE, .L_PAREN, .MINUS, .STAR, .BANG, .TRUE_KW, .FALSE_KW, .BYTE_STRING,
            .HEX_STRING, SyntaxKind.MOVE_KW], k ≠ .L_PAREN → k ∈ [SyntaxKind.EQ, .IMPLIES, .L_ANGLE, .MINUS, .STAR, .BANG, .TRUE_KW,
            .FALSE_KW, .BYTE_STRING, .HEX_STRING, .MOVE_KW, .INT_NUMBER] := by decide
          exact key _ hn hl) (by intro hc; rw [hc] at hn; exact absurd hn (by decide))
      refine ⟨q, (x ++ []) ++ [], Emits.bind (Emits.iterate_once (b := true) ?_ ?_ ?_) (Emits.ite_pos rfl Emits.pure)⟩
      · intro hc; rw [hc] at hn; revert hn; decide
      · have key : ∀ k ∈ [.EQ, .IMPLIES, .L_ANGLE, .L_PAREN, .MINUS, .STAR, .BANG, .TRUE_KW, .FALSE_KW, .BYTE_STRING,
            .HEX_STRING, SyntaxKind.MOVE_KW], k ≠ .L_PAREN → TokenSet.contains (ts [.R_ANGLE, .L_PAREN, .L_CURLY]) k = false := by
          decide +kernel
        exact key _ hn hl
      · exact Emits.bind ht (Emits.ite_pos rfl Emits.pure)
  · obtain ⟨q, x, ht⟩ := typeArg_fails (E := { E with outer := E.outer.join (.ofTs (ts [.R_ANGLE, .L_PAREN, .L_CURLY])) })
        (I := I) (p := p + 1) (n := n) (by rw [hn.1]; decide) (fun _ => hn.2)
    refine ⟨q, (x ++ []) ++ [], Emits.bind (Emits.iterate_once (b := true) ?_ ?_ ?_) (Emits.ite_pos rfl Emits.pure)⟩
    · rw [hn.1]; decide
    · rw [hn.1]; decide +kernel
    · exact Emits.bind ht (Emits.ite_pos rfl Emits.pure)
  · have key : ∀ k ∈ afterPath, k ≠ .COLON_COLON ∧ k ≠ .L_ANGLE ∧ k ≠ .COMMA ∧ k ≠ .R_ANGLE ∧
        ¬ TokenSet.contains PATH_FIRST k = true := by decide +kernel
    replace hq := key _ hq
    obtain ⟨x, ht⟩ := typeArg_path (E := { E with outer := E.outer.join (.ofTs (ts [.R_ANGLE, .L_PAREN, .L_CURLY])) }) (n := n) hp
      hq.1 hq.2.1 (pathAt_size hp)
    refine ⟨q, (x ++ ([] ++ [])) ++ ([] ++ []), Emits.bind (m := q) (Emits.iterate_once (b := false) ?_ ?_ ?_)
      (Emits.ite_neg (by simp) ?_)⟩
    · rw [hp.1.1]; decide
    · rw [hp.1.1]; decide +kernel
    · refine Emits.bind ht (Emits.ite_neg (by simp) (Emits.bind (Emits.eat_not (atKind_not rfl hq.2.2.1)) (Emits.ite_pos rfl ?_)))
      exact Emits.atTs (Emits.ite_neg hq.2.2.2.2 Emits.pure)
    · exact Emits.bind (Emits.eat_not (atKind_not rfl hq.2.2.2.1)) (Emits.ite_pos rfl Emits.pure)

/-! ### Loops -/

theorem Adds.andN {a b c : St} {cm : CM} {z : List Step} (h1 : Adds a b []) (h2 : AddsN b cm c z) : AddsN a cm c z := by
  obtain ⟨s1, e1, d1, w1⟩ := h1
  obtain ⟨s2, e2, l2, r2, w2⟩ := h2
  have hl : b.events.length = a.events.length + s1.length := by rw [e1]; simp
  refine ⟨s1 ++ s2, by rw [e2, e1, List.append_assoc], by omega, ?_, by rw [width_append]; omega⟩
  have := r2.prepend d1
  rw [show s1.length + (cm.pos - b.events.length) = cm.pos - a.events.length by omega] at this
  simpa using this

theorem Builds.after {α β : Type} {m : Nat} {u : P α} {a : α} {g : α → P β} {f : CM → β} {k : SyntaxKind} {z : List Step}
    (h1 : Emits I E p u a m []) (h2 : Builds I E m (g a) f k q z) : Builds I E p (u >>= g) f k q z := by
  intro s hs
  obtain ⟨s1, e1, p1, a1⟩ := h1 s hs
  obtain ⟨pos, s2, e2, p2, a2⟩ := h2 s1 p1
  exact ⟨pos, s2, by rw [bind_ok e1, e2], p2, a1.andN a2⟩

/-- A piece that returns a node, and then some iterations of a loop, end with the node of the expression: the loop goes on
from there. -/
def Loops {β : Type} (I : Input) (E : Env) (p q : Nat) (e : Ex) (first : P (Option (CM × BlockLike)))
    (body : β → P (Bool × β)) (v : CM → β) (w : β → CM → Prop) : Prop :=
  ∀ s, s.pos = p → ∃ cm0 s0 k cm b s', first I E s = .ok (some (cm0, .NotBlock)) s0 ∧ s0.pos + k ≤ q ∧ s'.pos = q ∧
    cm.kind = e.kind ∧ AddsN s cm s' e.rest ∧ w b cm ∧ ∀ n, loopN body (n + k) (v cm0) I E s0 = loopN body n b I E s'

theorem Loops.base {β : Type} {e : Ex} {first : P (Option (CM × BlockLike))} {body : β → P (Bool × β)} {v : CM → β}
    {w : β → CM → Prop} (hw : ∀ c, w (v c) c)
    (h : Builds I E p first (fun c => some (c, .NotBlock)) e.kind q e.rest) : Loops I E p q e first body v w := by
  intro s hs
  obtain ⟨pos, s', e1, hq, ha⟩ := h s hs
  exact ⟨⟨pos, e.kind⟩, s', 0, ⟨pos, e.kind⟩, v ⟨pos, e.kind⟩, s', e1, by omega, hq, rfl, ha, hw _, fun n => rfl⟩

theorem Loops.step {β : Type} {m : Nat} {e e' : Ex} {first : P (Option (CM × BlockLike))} {body : β → P (Bool × β)} {v : CM → β}
    {w : β → CM → Prop} {x : List Step} (h : Loops I E p m e' first body v w)
    (hx : e.rest = .start e'.kind :: e'.rest ++ x) (hm : m < q)
    (hb : ∀ s0 s cm z b, s.pos = m → cm.kind = e'.kind → AddsN s0 cm s z → w b cm →
      ∃ pos s' b', body b I E s = .ok (true, b') s' ∧ s'.pos = q ∧ w b' ⟨pos, e.kind⟩ ∧
        AddsN s0 ⟨pos, e.kind⟩ s' (.start cm.kind :: z ++ x)) : Loops I E p q e first body v w := by
  intro s hs
  obtain ⟨cm0, s0, k, cm, b, s1, e1, hk, hq1, hc, ha, hw, hl⟩ := h s hs
  obtain ⟨pos, s', b', e2, hq, hw', ha'⟩ := hb s s1 cm _ b hq1 hc ha hw
  refine ⟨cm0, s0, k + 1, ⟨pos, e.kind⟩, b', s', e1, by omega, hq, rfl, ?_, hw', fun n => ?_⟩
  · rw [hx, ← hc]; exact ha'
  · rw [show n + (k + 1) = (n + 1) + k by omega, hl (n + 1)]
    show (body b >>= _) I E s1 = _
    rw [bind_ok e2]
    rfl

/-! ### Keywords -/

theorem PlainAt.kw (h : I.PlainAt p) {w : String} (hw : w ∈ words) : I.isKeyword p w = false := by
  have := h w hw
  unfold Input.textAt at this
  unfold Input.isKeyword
  cases ht : I.toks[p]? with
  | none => rfl
  | some t =>
    rw [ht] at this
    simp only at this
    simpa using this

theorem contains_sub (a b : TSet) (k : SyntaxKind) :
    TokenSet.contains (TokenSet.sub a b) k = (TokenSet.contains a k && !TokenSet.contains b k) := by
  rw [TokenSet.contains_eq, TokenSet.contains_eq, TokenSet.contains_eq]
  unfold TokenSet.sub
  rw [BitVec.getLsbD_and, BitVec.getLsbD_not]
  simp [Nat.mod_lt]

end Verif.Parser
