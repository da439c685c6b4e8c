import Verif.Parser.PrecFile

/-! Expressions in the body of a function: `module 0x1::m { fun f() { e; let x = e; e } }`. -/

namespace Verif.Parser
open Verif.Syntax (SyntaxKind)
open Verif.TokenSet (TSet)

/-! ### The statements -/

/-- A statement: an expression and a semicolon, or `let x = e;`. -/
inductive Stm where
  | expr (e : Ex)
  | bind (e : Ex)

/-- The expression of the statement. -/
def Stm.ex : Stm → Ex
  | .expr e => e
  | .bind e => e

/-- The calls for a statement. -/
def Stm.tree : Stm → List Step
  | .expr e => .start .EXPR_STMT :: e.tree ++ [tk .SEMICOLON, .finish]
  | .bind e => [.start .LET_STMT, tk .LET_KW, .start .IDENT_PAT, .start .NAME, tk .IDENT, .finish, .finish, tk .EQ] ++ e.tree ++
      [tk .SEMICOLON, .finish]

/-- The statement is written in the tokens from `p` to before `q`. -/
def Stm.At (I : Input) : Stm → Nat → Nat → Prop
  | .expr e, p, q => ∃ m, e.At I p m ∧ I.kindAt m = .SEMICOLON ∧ q = m + 1
  | .bind e, p, q => I.kindAt p = .LET_KW ∧ I.kindAt (p + 1) = .IDENT ∧ I.PlainAt (p + 1) ∧ I.kindAt (p + 2) = .EQ ∧
      ∃ m, e.At I (p + 3) m ∧ I.kindAt m = .SEMICOLON ∧ q = m + 1

/-- Statements and the expression at the end, from `p` to before `q`. -/
def bodyAt (I : Input) : List Stm → Option Ex → Nat → Nat → Prop
  | [], none, p, q => q = p
  | [], some e, p, q => e.At I p q
  | s :: ss, e, p, q => ∃ m, s.At I p m ∧ bodyAt I ss e m q

/-- The calls for them. -/
def bodyTree : List Stm → Option Ex → List Step
  | [], none => []
  | [], some e => e.tree
  | s :: ss, e => s.tree ++ bodyTree ss e

/-- No operand needs parentheses. -/
def BodyFits (ss : List Stm) (e : Option Ex) : Prop := (∀ s ∈ ss, s.ex.Fits 1) ∧ ∀ x, e = some x → x.Fits 1

/-- The tokens of `module 0x1::m { fun f() { … } }`, with any names and any address. -/
structure Input.IsFun (I : Input) (ss : List Stm) (e : Option Ex) (q : Nat) : Prop where
  module : I.kindAt 0 = .MODULE_KW
  address : I.kindAt 1 = .INT_NUMBER
  colons : I.kindAt 2 = .COLON_COLON
  mname : I.kindAt 3 = .IDENT
  open' : I.kindAt 4 = .L_CURLY
  funKw : I.kindAt 5 = .FUN_KW
  name : I.kindAt 6 = .IDENT
  plain : I.PlainAt 6
  lparen : I.kindAt 7 = .L_PAREN
  rparen : I.kindAt 8 = .R_PAREN
  lcurly : I.kindAt 9 = .L_CURLY
  body : bodyAt I ss e 10 q
  rcurly : I.kindAt q = .R_CURLY
  close : I.kindAt (q + 1) = .R_CURLY
  eof : I.kindAt (q + 2) = .EOF

/-- The calls for the block. -/
def blockTree (ss : List Stm) (e : Option Ex) : List Step :=
  [.start .BLOCK_EXPR, tk .L_CURLY] ++ bodyTree ss e ++ [tk .R_CURLY, .finish]

/-- The calls for the function. -/
def funItemTree (ss : List Stm) (e : Option Ex) : List Step :=
  [tk .FUN_KW, .start .NAME, tk .IDENT, .finish, .start .PARAM_LIST, tk .L_PAREN, tk .R_PAREN, .finish] ++ blockTree ss e

/-- The calls for the tree of the file. -/
def funTree (ss : List Stm) (e : Option Ex) : List Step :=
  [.start .SOURCE_FILE, .start .MODULE, tk .MODULE_KW, .start .VALUE_ADDRESS, tk .INT_NUMBER, .finish, tk .COLON_COLON,
    .start .NAME, tk .IDENT, .finish, tk .L_CURLY, .start .FUN] ++ funItemTree ss e ++ [.finish, tk .R_CURLY, .finish, .finish]

/-! ### The parser -/

variable {I : Input} {E : Env} {p q n : Nat}

theorem Emits.stmtKind {β : Type} {f : StmtKind → P β} {b : β} {x : List Step} (h : Emits I E p (f E.stmt) b q x) :
    Emits I E p (stmtKind >>= f) b q x := by
  refine Emits.of_eq (v := f E.stmt) ?_ h
  intro s _
  exact bind_stmtKind f

theorem stmt_start [I.Valid] {R : Rec} {x : List Step} (hE : E.stmt = .Move) (hk : I.kindAt p ≠ .POUND)
    (hl : I.kindAt p ≠ .LET_KW) (hu : I.kindAt p ≠ .USE_KW) (h : Emits I E p (exprStmt R) () q x) : Emits I E p (stmt R) () q x := by
  have hattrs : Emits I E p (attrs R) none p [] := by
    unfold attrs loop
    refine Emits.remaining ?_
    unfold loopN attrsLoop
    intro s hs
    subst hs
    refine ⟨s, ?_, rfl, Adds.refl s⟩
    rw [bind_assoc', bind_at, atKind_not rfl hk]
    rfl
  have hbody : Emits I E p (stmtBody R) () q x := by
    unfold stmtBody
    refine Emits.at' (Emits.stmtKind (Emits.at' (Emits.at' (Emits.nthAt (Emits.at' (Emits.atKwIdent ?_))))))
    rw [atKind_not rfl hl, atKind_not rfl hu, hE]
    exact Emits.ite_neg (by simp) (Emits.ite_neg (by simp) h)
  unfold stmt
  exact (Emits.bind hattrs hbody).steps (by simp)

theorem let_start [I.Valid] {R : Rec} {x : List Step} (hE : E.stmt = .Move)
    (hl : I.kindAt p = .LET_KW) (h : Emits I E p (letStmt R false) () q x) : Emits I E p (stmt R) () q x := by
  have hattrs : Emits I E p (attrs R) none p [] := by
    unfold attrs loop
    refine Emits.remaining ?_
    unfold loopN attrsLoop
    intro s hs
    subst hs
    refine ⟨s, ?_, rfl, Adds.refl s⟩
    rw [bind_assoc', bind_at, atKind_not rfl (by rw [hl]; decide)]
    rfl
  have hbody : Emits I E p (stmtBody R) () q x := by
    unfold stmtBody
    refine Emits.at' (Emits.stmtKind (Emits.at' (Emits.at' (Emits.nthAt (Emits.at' (Emits.atKwIdent ?_))))))
    rw [atKind_of rfl hl, hE]
    exact Emits.ite_pos rfl h
  unfold stmt
  exact (Emits.bind hattrs hbody).steps (by simp)

/-- An expression with a semicolon. -/
theorem exprStmt_run [I.Valid] {R : Rec} {k : SyntaxKind} {z : List Step}
    (h : Builds I { E with outer := E.outer.withTok .SEMICOLON } p (R.exprBp ⟨false, true⟩ 1) (fun c => some (c, .NotBlock)) k q z)
    (hq : I.kindAt q = .SEMICOLON) :
    Emits I E p (exprStmt R) () (q + 1) (.start .EXPR_STMT :: .start k :: z ++ [tk .SEMICOLON, .finish]) := by
  intro s hs
  obtain ⟨pos, s1, e1, hq1, ha⟩ := h s hs
  have hw : Wraps I E q (fun cm => preceded cm do
      drop (expect .SEMICOLON)
      pure (SyntaxKind.EXPR_STMT, ())) (fun c => (c, ())) .EXPR_STMT (q + 1) ([tk .SEMICOLON] ++ [.finish]) :=
    Emits.preceded (by decide) ((Emits.bind (Emits.expect (by decide) (atKind_of rfl hq)).drop (b := (SyntaxKind.EXPR_STMT, ()))
      (y := []) Emits.pure).steps rfl)
  obtain ⟨pos2, s2, e2, hq2, ha2⟩ := hw s ⟨pos, k⟩ z s1 hq1 ha
  refine ⟨s2, ?_, hq2, ?_⟩
  · unfold exprStmt
    rw [bind_ok (a := some (⟨pos, k⟩, BlockLike.NotBlock)) (s' := s1) e1]
    show (at' .R_CURLY >>= _) I E s1 = _
    rw [bind_at, hq1, atKind_not rfl (by rw [hq]; decide)]
    show drop _ I E s1 = _
    exact run_drop e2
  · have := ha2.adds
    simpa using this

/-- An expression before a closing brace. -/
theorem exprTail_run {R : Rec} {k : SyntaxKind} {z : List Step}
    (h : Builds I { E with outer := E.outer.withTok .SEMICOLON } p (R.exprBp ⟨false, true⟩ 1) (fun c => some (c, .NotBlock)) k q z)
    (hq : I.kindAt q = .R_CURLY) : Emits I E p (exprStmt R) () q (.start k :: z) := by
  unfold exprStmt
  refine (Builds.bind (E := E) (u := withRecTok .SEMICOLON (topLevelExprInStmt R)) (f := fun c => some (c, .NotBlock)) (k := k) (x := z) h
    (b := ()) (y := []) ?_).steps (by simp)
  intro c
  refine Emits.at' ?_
  rw [atKind_of rfl hq]
  exact Emits.pure

/-- A variable. -/
theorem identPat_run [I.Valid] {R : Rec} (h : I.kindAt p = .IDENT) (h1 : I.kindAt (p + 1) = .EQ) (hr : I.atRSet p (E.outer.join .new) = false) :
    Emits I E p (pattern R) true (p + 1) [.start .IDENT_PAT, .start .NAME, tk .IDENT, .finish, .finish] := by
  have hid : Emits I E p (drop identPat) () (p + 1) [.start .IDENT_PAT, .start .NAME, tk .IDENT, .finish, .finish] :=
    (Builds.drop (Emits.node (k := .IDENT_PAT) (by decide) (name_run h hr).drop)).steps rfl
  unfold pattern
  refine Emits.current (Emits.nthAt (Emits.nth (Emits.read (fun s _ => rfl) fun _ _ => ?_)))
  refine Emits.ite_neg (by rw [h]; simp) (Emits.ite_pos h ?_)
  refine (Emits.bind (Emits.ite_neg ?_ hid) (b := true) (y := []) Emits.pure).steps rfl
  rw [h1]
  decide

/-- The environment of a statement. -/
abbrev stmtEnv : Env := ⟨(RSet.new.join (.ofTs (ts [.R_CURLY]))).withTs (ts [.R_CURLY]), .Move⟩

theorem calm_stmt : Calm stmtEnv := ⟨by decide +kernel, fun t ht => by simp [RSet.join, RSet.withTs, RSet.new, RSet.ofTs] at ht⟩

theorem calm_expr : Calm { stmtEnv with outer := stmtEnv.outer.withTok .SEMICOLON } :=
  ⟨by decide +kernel, fun t ht => by simp [RSet.join, RSet.withTs, RSet.withTok, RSet.new, RSet.ofTs] at ht⟩

/-- `let x = e;` -/
theorem letStmt_run [I.Valid] {e : Ex} (h : (Stm.bind e).At I p q) (hf : e.Fits 1) (hn : q - p < n) :
    Emits I stmtEnv p (letStmt (grammar n) false) () q (Stm.bind e).tree := by
  obtain ⟨h1, h2, h3, h4, m, h5, h6, rfl⟩ := h
  have hlt := (e.first hf h5).1
  have hb := (e.runs (I := I)).one (n := n) (r := ⟨false, false⟩) calm_stmt hf h5 (by have := e.depth_le hf h5; omega) (ends_of h6 (by decide))
  obtain ⟨n, rfl⟩ : ∃ k, n = k + 1 := ⟨n - 1, by omega⟩
  have hpat : Emits I stmtEnv (p + 1) (drop (withRecovery (atStmtStart.withTs (ts [.EQ, .SEMICOLON])) (grammar (n + 1)).pattern)) () (p + 2)
      [.start .IDENT_PAT, .start .NAME, tk .IDENT, .finish, .finish] := by
    refine Emits.drop (a := true) (Emits.withRec (f := (·.join (atStmtStart.withTs (ts [.EQ, .SEMICOLON])))) ?_)
    refine identPat_run h2 h4 ?_
    unfold Input.atRSet
    rw [if_pos h2]
    show (TokenSet.contains _ _ || List.contains [] (I.textAt (p + 1))) = false
    rw [Bool.or_eq_false_iff]
    exact ⟨by decide +kernel, rfl⟩
  have hinit : Emits I stmtEnv (p + 2) (do optInitializerExpr (grammar (n + 1)); drop (expect .SEMICOLON)) () (m + 1)
      (tk .EQ :: e.tree ++ [tk .SEMICOLON]) := by
    have he : Emits I stmtEnv (p + 2) (optInitializerExpr (grammar (n + 1))) () m (tk .EQ :: e.tree) := by
      unfold optInitializerExpr
      refine (Emits.bind (Emits.eat (by decide) (atKind_of rfl h4)) (b := ()) (y := e.tree) (Emits.ite_pos rfl ?_)).steps rfl
      refine (Emits.bind (expr_run hb) (b := ()) (y := []) ?_).steps (by simp [Ex.tree])
      exact Emits.pure
    exact Emits.bind he (Emits.expect (by decide) (atKind_of rfl h6)).drop
  have hrest : Emits I stmtEnv (p + 2) (do
      let c ← at' .COLON
      iff c (withRecovery (atStmtStart.withTs (ts [.EQ, .SEMICOLON])) (typeAnnotation (grammar (n + 1))))
      optInitializerExpr (grammar (n + 1))
      drop (expect .SEMICOLON)) () (m + 1) (tk .EQ :: e.tree ++ [tk .SEMICOLON]) :=
    Emits.at' (Emits.iff_false (atKind_not rfl (by rw [h4]; decide)) hinit)
  unfold letStmt
  refine (Builds.drop (Emits.node (k := .LET_STMT) (by decide) (Emits.bind (Emits.bump (by decide) (atKind_of rfl h1))
    (Emits.atKwIdent (Emits.iff_false (by simp) (Emits.bind hpat hrest)))))).steps (by simp [Stm.tree])

/-- The tokens that a statement starts with. -/
def stmtKinds : List SyntaxKind := .LET_KW :: startKinds

/-- A statement. -/
theorem stmt_run [I.Valid] {s : Stm} (h : s.At I p q) (hf : s.ex.Fits 1) (hn : q - p < n) :
    Emits I stmtEnv p (stmt (grammar n)) () q s.tree ∧ p < q ∧ I.kindAt p ∈ stmtKinds := by
  cases s with
  | expr e =>
    obtain ⟨m, h1, h2, rfl⟩ := h
    obtain ⟨hlt, -, hfirst⟩ := e.first hf h1
    have hk := hfirst.kind
    have hne : ∀ k, k ∉ startKinds → I.kindAt p ≠ k := fun k hk' hc => hk' (hc ▸ hk)
    have hb := (e.runs (I := I)).one (n := n) (r := ⟨false, true⟩) calm_expr hf h1 (by have := e.depth_le hf h1; omega) (ends_of h2 (by decide))
    refine ⟨?_, by omega, List.mem_cons_of_mem _ hk⟩
    exact stmt_start rfl (hne _ (by decide)) (hne _ (by decide)) (hne _ (by decide)) ((exprStmt_run hb h2).steps (by simp [Stm.tree, Ex.tree]))
  | bind e =>
    have hl := h.1
    have hrun := letStmt_run h hf hn
    obtain ⟨h1, h2, h3, h4, m, h5, h6, rfl⟩ := h
    have hlt := (e.first hf h5).1
    exact ⟨let_start rfl hl hrun, by omega, by rw [hl]; decide⟩

/-- The expression at the end. -/
theorem tail_run [I.Valid] {e : Ex} (h : e.At I p q) (hf : e.Fits 1) (hq : I.kindAt q = .R_CURLY) (hn : q - p < n) :
    Emits I stmtEnv p (stmt (grammar n)) () q e.tree ∧ p < q ∧ I.kindAt p ∈ stmtKinds := by
  obtain ⟨hlt, -, hfirst⟩ := e.first hf h
  have hk := hfirst.kind
  have hne : ∀ k, k ∉ startKinds → I.kindAt p ≠ k := fun k hk' hc => hk' (hc ▸ hk)
  have hb := (e.runs (I := I)).one (n := n) (r := ⟨false, true⟩) calm_expr hf h (by have := e.depth_le hf h; omega) (ends_of hq (by decide))
  refine ⟨?_, by omega, List.mem_cons_of_mem _ hk⟩
  exact stmt_start rfl (hne _ (by decide)) (hne _ (by decide)) (hne _ (by decide)) (exprTail_run hb hq)

/-- The body of the loop in `stmtList`. -/
def stmtListBody (R : Rec) : Unit → P (Bool × Unit) := fun _ => do
  let s ← at' .SEMICOLON
  if s then do
    bump .SEMICOLON
    pure (true, ())
  else do
    withRecTs (ts [.R_CURLY]) R.stmt
    pure (true, ())

/-- One iteration of the loop over statements. -/
theorem iter_step {m f : Nat} {x y : List Step} (hk : I.kindAt p ∈ stmtKinds) (hm : p < m)
    (h : Emits I stmtEnv p (stmt (grammar n)) () m x)
    (hmk : I.kindAt m ∈ .R_CURLY :: stmtKinds)
    (h2 : Emits I ⟨RSet.new, .Move⟩ m (iterN (ts [.R_CURLY]) (stmtListBody (grammar (n + 1))) f ()) () q y) :
    Emits I ⟨RSet.new, .Move⟩ p (iterN (ts [.R_CURLY]) (stmtListBody (grammar (n + 1))) (f + 1) ()) () q (x ++ y) := by
  have hne : ∀ k, k ∉ stmtKinds → I.kindAt p ≠ k := fun k hk' hc => hk' (hc ▸ hk)
  have hbody : Emits I ⟨RSet.new.join (.ofTs (ts [.R_CURLY])), .Move⟩ p (stmtListBody (grammar (n + 1)) ()) (true, ()) m x := by
    unfold stmtListBody
    refine Emits.at' (Emits.ite_neg (by rw [atKind_not rfl (hne _ (by decide))]; simp) ?_)
    have h' : Emits I ⟨RSet.new.join (.ofTs (ts [.R_CURLY])), .Move⟩ p (withRecTs (ts [.R_CURLY]) (grammar (n + 1)).stmt) () m x :=
      Emits.withRec (E := ⟨RSet.new.join (.ofTs (ts [.R_CURLY])), .Move⟩) (f := (·.withTs (ts [.R_CURLY]))) h
    exact (Emits.bind h' (b := (true, ())) (y := []) Emits.pure).steps (List.append_nil _)
  rw [iterN]
  refine Emits.at' (Emits.current (Emits.ite_neg ?_ (Emits.getPos ?_)))
  · have : ∀ k ∈ stmtKinds, TokenSet.contains (ts [.R_CURLY]) k = false := by decide +kernel
    rw [this _ hk, atKind_single rfl]
    simpa using hne _ (by decide)
  · refine Emits.bind (Emits.withRec (f := (·.join (.ofTs (ts [.R_CURLY])))) hbody) ?_
    refine Emits.ite_neg (by simp) (Emits.outerRec (Emits.current (Emits.ite_neg ?_ (Emits.getPos (Emits.ite_neg (by omega) h2)))))
    have : ∀ k ∈ .R_CURLY :: stmtKinds, RSet.new.hasTok k = false := by decide +kernel
    rw [show RSet.hasTok (Env.outer ⟨RSet.new, .Move⟩) (I.kindAt m) = RSet.new.hasTok (I.kindAt m) from rfl, this _ hmk]
    simp

/-- The loop over statements at the closing brace. -/
theorem iter_end {f : Nat} (hq : I.kindAt q = .R_CURLY) {body : Unit → P (Bool × Unit)} :
    Emits I E q (iterN (ts [.R_CURLY]) body (f + 1) ()) () q [] := by
  rw [iterN]
  refine Emits.at' (Emits.current (Emits.ite_pos ?_ Emits.pure))
  rw [hq, show TokenSet.contains (ts [.R_CURLY]) .R_CURLY = true by decide +kernel]
  simp

theorem body_first [I.Valid] {ss : List Stm} {e : Option Ex} (hf : BodyFits ss e) (h : bodyAt I ss e p q) (hq : I.kindAt q = .R_CURLY) :
    I.kindAt p ∈ .R_CURLY :: stmtKinds ∧ p ≤ q := by
  induction ss generalizing p with
  | nil =>
    cases e with
    | none => cases h; exact ⟨by rw [hq]; decide, Nat.le_refl _⟩
    | some e =>
      have := e.first (hf.2 e rfl) h
      exact ⟨List.mem_cons_of_mem _ (List.mem_cons_of_mem _ this.2.2.kind), by omega⟩
  | cons s ss ih =>
    obtain ⟨m, h1, h2⟩ := h
    have := ih ⟨fun x hx => hf.1 x (List.mem_cons_of_mem _ hx), hf.2⟩ h2
    have := stmt_run (n := m - p + 1) h1 (hf.1 s (List.mem_cons_self ..)) (by omega)
    exact ⟨List.mem_cons_of_mem _ this.2.2, by omega⟩

theorem body_run [I.Valid] {ss : List Stm} {e : Option Ex} (hf : BodyFits ss e) (h : bodyAt I ss e p q) (hq : I.kindAt q = .R_CURLY)
    (hn : q - p < n) {f : Nat} (hfuel : q - p < f) :
    Emits I ⟨RSet.new, .Move⟩ p (iterN (ts [.R_CURLY]) (stmtListBody (grammar (n + 1))) f ()) () q (bodyTree ss e) := by
  obtain ⟨f, rfl⟩ : ∃ k, f = k + 1 := ⟨f - 1, by omega⟩
  induction ss generalizing p f with
  | nil =>
    cases e with
    | none => cases h; exact iter_end hq
    | some e =>
      obtain ⟨h1, h2, h3⟩ := tail_run (n := n) h (hf.2 e rfl) hq hn
      obtain ⟨f, rfl⟩ : ∃ k, f = k + 1 := ⟨f - 1, by omega⟩
      exact (iter_step h3 h2 h1 (by rw [hq]; decide) (iter_end hq)).steps (List.append_nil _)
  | cons s ss ih =>
    obtain ⟨m, h1, h2⟩ := h
    have hf' : BodyFits ss e := ⟨fun x hx => hf.1 x (List.mem_cons_of_mem _ hx), hf.2⟩
    obtain ⟨hm1, hm2⟩ := body_first hf' h2 hq
    have hlt := (stmt_run (n := m - p + 1) h1 (hf.1 s (List.mem_cons_self ..)) (by omega)).2.1
    obtain ⟨r1, r2, r3⟩ := stmt_run (n := n) h1 (hf.1 s (List.mem_cons_self ..)) (by omega)
    obtain ⟨f, rfl⟩ : ∃ k, f = k + 1 := ⟨f - 1, by omega⟩
    exact iter_step r3 r2 r1 hm1 (ih hf' h2 (by omega) f (by omega))

/-- The block. -/
theorem block_run [I.Valid] {ss : List Stm} {e : Option Ex} (hE : E.stmt = .Move) (hf : BodyFits ss e) (h0 : I.kindAt p = .L_CURLY)
    (h : bodyAt I ss e (p + 1) q) (hq : I.kindAt q = .R_CURLY) (hn : q - p < n) :
    Emits I E p (drop (blockExpr (grammar (n + 1)))) () (q + 1) (blockTree ss e) := by
  have hle := (body_first hf h hq).2
  have hs : q < I.size := kindAt_lt (by rw [hq]; decide)
  have hlist : Emits I ⟨RSet.new, .Move⟩ (p + 1) (stmtList (grammar (n + 1))) () q (bodyTree ss e) := by
    unfold stmtList iterate
    refine Emits.remaining ?_
    exact body_run hf h hq (by omega) (by unfold Input.size at hs; omega)
  have hin : Emits I ⟨RSet.new, .Move⟩ (p + 1) (do stmtList (grammar (n + 1)); drop (expect .R_CURLY)) () (q + 1) (bodyTree ss e ++ [tk .R_CURLY]) :=
    Emits.bind hlist (Emits.expect (by decide) (atKind_of rfl hq)).drop
  have hbody : Emits I ⟨RSet.new, .Move⟩ p (do bump .L_CURLY; stmtList (grammar (n + 1)); drop (expect .R_CURLY)) () (q + 1)
      ([tk .L_CURLY] ++ (bodyTree ss e ++ [tk .R_CURLY])) :=
    Emits.bind (Emits.bump (by decide) (atKind_of rfl h0)) hin
  have hnode := Emits.node (k := .BLOCK_EXPR) (by decide) hbody
  refine (Builds.drop (u := blockExpr (grammar (n + 1))) (f := fun c => c) (k := .BLOCK_EXPR) (x := tk .L_CURLY :: bodyTree ss e ++ [tk .R_CURLY, .finish])
    ?_).steps (by simp [blockTree])
  intro s hs
  obtain ⟨pos, s', e1, r1, r2⟩ := hnode s hs
  refine ⟨pos, s', ?_, r1, by simpa using r2⟩
  subst hs
  unfold blockExpr resetRecovery
  rw [bind_at, bind_assert (atKind_of rfl h0)]
  obtain ⟨o, k⟩ := E
  cases hE
  exact e1

theorem atRSet_name {o : RSet} (h : I.kindAt p = .IDENT) (hp : I.PlainAt p) (ho : o.hasTok .IDENT = false) (hk : o.kws = ["enum".toList] ∨ o.kws = []) :
    I.atRSet p o = false := by
  have h6 := hp "enum" (by decide)
  unfold Input.atRSet
  rw [if_pos h]
  show (o.hasTok .IDENT || List.contains o.kws (I.textAt p)) = false
  rw [ho, Bool.false_or, Bool.eq_false_iff]
  intro hc
  rw [List.contains_iff_mem] at hc
  rcases hk with hk | hk
  · rw [hk, List.mem_singleton] at hc
    exact h6 hc
  · rw [hk] at hc
    cases hc

theorem params_run [I.Valid] {R : Rec} (h1 : I.kindAt p = .L_PAREN) (h2 : I.kindAt (p + 1) = .R_PAREN) :
    Emits I E p (funParamList R) () (p + 2) [.start .PARAM_LIST, tk .L_PAREN, tk .R_PAREN, .finish] := by
  have hlist : Emits I E (p + 1) (withRecTok .R_PAREN (delimited (param R) .COMMA (some .R_PAREN))) () (p + 1) [] := by
    refine Emits.withRec (f := (·.withTok .R_PAREN)) ?_
    unfold delimited
    exact Emits.remaining (delimited_none h2)
  have hin : Emits I E (p + 1) (do withRecTok .R_PAREN (delimited (param R) .COMMA (some .R_PAREN)); drop (expect .R_PAREN)) () (p + 2)
      ([] ++ [tk .R_PAREN]) := Emits.bind hlist (Emits.expect (by decide) (atKind_of rfl h2)).drop
  unfold funParamList
  exact (Builds.drop (Emits.node (by decide) (Emits.bind (Emits.bump (by decide) (atKind_of rfl h1)) hin))).steps rfl

theorem signature_run [I.Valid] {ss : List Stm} {e : Option Ex} {R : Rec} (h : I.IsFun ss e q) :
    Emits I itemEnv 5 (funSignature R false) true 9
      [tk .FUN_KW, .start .NAME, tk .IDENT, .finish, .start .PARAM_LIST, tk .L_PAREN, tk .R_PAREN, .finish] := by
  have hname : Emits I itemEnv 6 (withRecovery itemStartRecSet do
      let n ← nameOrRecover (.ofTs (ts [.L_ANGLE, .L_PAREN]))
      if !n then pure false
      else do
        optTypeParamList
        pure true) true 7 [.start .NAME, tk .IDENT, .finish] := by
    refine Emits.withRec (f := (·.join itemStartRecSet)) ?_
    refine (Emits.bind (name_run h.name (atRSet_name h.name h.plain (by decide +kernel) (.inl (by decide)))) (b := true) (y := [])
      (Emits.ite_neg (by simp) ?_)).steps (by simp)
    unfold optTypeParamList
    refine (Emits.bind (a := ()) (m := 7) (x := []) (Emits.at' ?_) (b := true) (y := []) Emits.pure).steps rfl
    rw [atKind_not rfl (by rw [h.lparen]; decide)]
    exact Emits.pure
  have hparams : Emits I itemEnv 7 (withRecovery (itemStartRecSet.withTs (ts [.SEMICOLON, .L_CURLY])) do
      let l ← at' .L_PAREN
      if l then funParamList R else errorAndRecover .new) () 9 [.start .PARAM_LIST, tk .L_PAREN, tk .R_PAREN, .finish] := by
    refine Emits.withRec (f := (·.join (itemStartRecSet.withTs (ts [.SEMICOLON, .L_CURLY])))) ?_
    exact Emits.at' (Emits.ite_pos (atKind_of rfl h.lparen) (params_run h.lparen h.rparen))
  have hret : Emits I itemEnv 9 (withRecovery (itemStartRecSet.withTs (ts [.L_CURLY, .SEMICOLON])) do
      withRecTok .ACQUIRES_KW do
        optRetType R
        let b ← at' .L_BRACK
        iff b (if false then weight R else error)
      let a ← at' .ACQUIRES_KW
      iff a (if !false then acquires R else error)) () 9 [] := by
    refine Emits.withRec (f := (·.join (itemStartRecSet.withTs (ts [.L_CURLY, .SEMICOLON])))) ?_
    refine (Emits.bind (a := ()) (m := 9) (x := []) (Emits.withRec (f := (·.withTok .ACQUIRES_KW)) ?_) (b := ()) (y := []) (Emits.at' ?_)).steps rfl
    · unfold optRetType
      refine (Emits.bind (a := ()) (m := 9) (x := []) (Emits.at' ?_) (b := ()) (y := []) (Emits.at' ?_)).steps rfl
      · rw [atKind_not rfl (by rw [h.lcurly]; decide)]; exact Emits.pure
      · rw [atKind_not rfl (by rw [h.lcurly]; decide)]; exact Emits.pure
    · rw [atKind_not rfl (by rw [h.lcurly]; decide)]; exact Emits.pure
  unfold funSignature
  refine (Emits.bind (Emits.bump (by decide) (atKind_of rfl h.funKw)) (b := true)
    (y := [.start .NAME, tk .IDENT, .finish] ++ ([.start .PARAM_LIST, tk .L_PAREN, tk .R_PAREN, .finish] ++ ([] ++ []))) ?_).steps rfl
  exact Emits.bind hname (Emits.ite_neg (by simp) (Emits.bind hparams (Emits.bind hret Emits.pure)))

theorem function_run [I.Valid] {ss : List Stm} {e : Option Ex} (h : I.IsFun ss e q) (hf : BodyFits ss e) (hn : q < n) :
    Emits I itemEnv 5 (function (grammar n)) () (q + 1) (funItemTree ss e) := by
  have hle := (body_first hf h.body h.rcurly).2
  obtain ⟨n, rfl⟩ : ∃ k, n = k + 1 := ⟨n - 1, by omega⟩
  have hk : ∀ k, k ≠ .FUN_KW → I.kindAt 5 ≠ k := fun k hk hc => hk (by rw [← hc, h.funKw])
  have hmods : Emits I itemEnv 5 optFunModifiers () 5 [] := by
    unfold optFunModifiers
    refine Emits.iterate_once (hk _ (by decide)) (by rw [h.funKw]; decide +kernel) ?_
    have hv : ∀ E, Emits I E 5 visibilityModifier false 5 [] := by
      intro E
      unfold visibilityModifier
      exact Emits.current (Emits.atKw (Emits.ite_neg (hk _ (by decide)) (Emits.ite_neg (hk _ (by decide)) (Emits.ite_neg
        (fun hc => hk _ (by decide) hc.1) Emits.pure))))
    refine (Emits.bind (hv _) (b := (false, ())) (y := []) (Emits.ite_neg (by simp) (Emits.current (Emits.atKw ?_)))).steps rfl
    exact Emits.ite_neg (hk _ (by decide)) (Emits.ite_neg (hk _ (by decide)) (Emits.ite_neg
        (fun hc => hk _ (by decide) hc.1) Emits.pure))
  have hbody : Emits I itemEnv 9 (iff true (funBody (grammar (n + 1)))) () (q + 1) (blockTree ss e) := by
    show Emits I itemEnv 9 (funBody (grammar (n + 1))) () (q + 1) (blockTree ss e)
    unfold funBody
    exact Emits.at' (Emits.at' (Emits.ite_pos (atKind_of rfl h.lcurly) (block_run rfl hf h.lcurly h.body h.rcurly (by omega))))
  unfold function
  refine (Emits.bind hmods (b := ()) (y := funItemTree ss e) (Emits.at' (Emits.ite_pos (atKind_of rfl h.funKw) ?_))).steps rfl
  exact (Emits.bind (signature_run h) hbody).steps rfl

theorem funItem_run [I.Valid] {ss : List Stm} {e : Option Ex} (h : I.IsFun ss e q) (hf : BodyFits ss e) (hn : q < n) :
    Emits I itemEnv 5 (item (grammar n)) () (q + 1) (.start .FUN :: funItemTree ss e ++ [.finish]) := by
  have hk : ∀ k, k ≠ .FUN_KW → I.kindAt 5 ≠ k := fun k hk hc => hk (by rw [← hc, h.funKw])
  have hopt : Emits I itemEnv 5 (optItem (grammar n)) (.complete .FUN, true) (q + 1) (funItemTree ss e) := by
    unfold optItem
    refine Emits.current (Emits.read (fun s _ => rfl) (fun _ _ => Emits.atKw (Emits.read (fun s _ => rfl) (fun _ _ => Emits.read (fun s _ => rfl) (fun _ _ => ?_)))))
    refine Emits.ite_neg (hk _ (by decide)) (Emits.ite_neg (hk _ (by decide)) (Emits.ite_neg (fun hc => hk _ (by decide) hc.1)
      (Emits.ite_neg (hk _ (by decide)) (Emits.ite_neg (fun hc => hk _ (by decide) hc.1) (Emits.ite_pos (.inl h.funKw) ?_)))))
    exact (Emits.bind (function_run h hf hn) (b := (Outcome.complete .FUN, true)) (y := []) Emits.pure).steps (by simp)
  have hb : Emits I itemEnv 5 (do drop (attrs (grammar n)); optItem (grammar n)) (.complete .FUN, true) (q + 1) ([] ++ funItemTree ss e) :=
    Emits.bind (attrs_run (hk _ (by decide))) hopt
  unfold item
  refine (Emits.bind (Emits.block (k := .FUN) (x := [] ++ funItemTree ss e) (by decide) hb) (b := ()) (y := []) (Emits.ite_pos rfl (Emits.at' ?_))).steps (by simp)
  rw [atKind_not rfl (by rw [h.close]; decide)]
  exact Emits.pure

/-- The file, given its only item. -/
theorem file_of_item [I.Valid] {x : List Step} (h0 : I.kindAt 0 = .MODULE_KW) (h1 : I.kindAt 1 = .INT_NUMBER) (h2 : I.kindAt 2 = .COLON_COLON)
    (h3 : I.kindAt 3 = .IDENT) (h4 : I.kindAt 4 = .L_CURLY) (h5 : I.kindAt 5 ≠ .EOF) (h5' : TokenSet.contains (ts [.R_CURLY]) (I.kindAt 5) = false)
    (hq : 5 < q) (hc : I.kindAt q = .R_CURLY) (he : I.kindAt (q + 1) = .EOF) (h : Emits I itemEnv 5 (item (grammar n)) () q x) :
    Emits I ⟨RSet.new, .Move⟩ 0 (sourceFile (grammar n)) () (q + 1)
      ([.start .SOURCE_FILE, .start .MODULE, tk .MODULE_KW, .start .VALUE_ADDRESS, tk .INT_NUMBER, .finish, tk .COLON_COLON,
        .start .NAME, tk .IDENT, .finish, tk .L_CURLY] ++ x ++ [tk .R_CURLY, .finish, .finish]) := by
  have hitems : Emits I ⟨RSet.new.join (.ofTs TokenSet.empty), .Move⟩ 4 (itemListOrRecover (grammar n)) () (q + 1)
      (tk .L_CURLY :: x ++ [tk .R_CURLY]) := by
    have hbody : Emits I ⟨(RSet.new.join (.ofTs TokenSet.empty)).join (.ofTs (ts [.R_CURLY])), .Move⟩ 5
        (do withRecTok .R_CURLY (item (grammar n)); pure (true, ())) (true, ()) q x := by
      refine (Emits.bind (a := ()) (m := q) (x := x) ?_ (b := (true, ())) (y := []) Emits.pure).steps (List.append_nil _)
      exact Emits.withRec (f := (·.withTok .R_CURLY)) h
    have hiter := Emits.iterate_then (E := ⟨RSet.new.join (.ofTs TokenSet.empty), .Move⟩) (stop := ts [.R_CURLY]) (b0 := ()) (b := ())
      (body := fun _ => do withRecTok .R_CURLY (item (grammar n)); pure (true, ()))
      h5 h5' hbody (by omega) (by rw [hc]; decide +kernel)
    unfold itemListOrRecover itemList
    refine Emits.at' (Emits.ite_pos (atKind_of rfl h4) (Emits.at' (Emits.assert (atKind_of rfl h4) ?_)))
    refine (Emits.bind (Emits.bump (by decide) (atKind_of rfl h4)) (b := ()) (y := x ++ [tk .R_CURLY]) ?_).steps (by simp)
    exact Emits.bind hiter (Emits.expect (by decide) (atKind_of rfl hc)).drop
  have hmod : Emits I ⟨RSet.new.join (.ofTs TokenSet.empty), .Move⟩ 0 (moduleBody (grammar n)) () (q + 1)
      ([tk .MODULE_KW, .start .VALUE_ADDRESS, tk .INT_NUMBER, .finish, tk .COLON_COLON, .start .NAME, tk .IDENT, .finish] ++
        (tk .L_CURLY :: x ++ [tk .R_CURLY])) := by
    have haddr : Emits I ⟨RSet.new.join (.ofTs TokenSet.empty), .Move⟩ 1 anyAddress () 2 [.start .VALUE_ADDRESS, tk .INT_NUMBER, .finish] := by
      have ha := atKind_of (I := I) (k := .INT_NUMBER) rfl h1
      unfold anyAddress
      refine Emits.at' (Emits.at' (Emits.ite_pos ha ?_))
      unfold valueAddress
      exact Emits.at' (Emits.assert ha (Builds.drop (Emits.node (by decide) (Emits.bump (by decide) ha))))
    have hcc : Emits I ⟨RSet.new.join (.ofTs TokenSet.empty), .Move⟩ 1 (iff true do anyAddress; bump .COLON_COLON) () 3
        ([.start .VALUE_ADDRESS, tk .INT_NUMBER, .finish] ++ [tk .COLON_COLON]) :=
      Emits.bind haddr (Emits.bump (by decide) (atKind_of rfl h2))
    have hname : Emits I ⟨RSet.new.join (.ofTs TokenSet.empty), .Move⟩ 3 (drop (nameOrRecover (.ofTs TOP_LEVEL_FIRST))) () 4
        [.start .NAME, tk .IDENT, .finish] := by
      refine (name_run h3 ?_).drop
      unfold Input.atRSet
      rw [if_pos h3]
      show (TokenSet.contains _ _ || List.contains [] (I.textAt 3)) = false
      rw [Bool.or_eq_false_iff]
      exact ⟨by decide +kernel, rfl⟩
    unfold moduleBody
    refine (Emits.bind (Emits.bump (by decide) (atKind_of rfl h0)) (b := ())
      (y := ([.start .VALUE_ADDRESS, tk .INT_NUMBER, .finish] ++ [tk .COLON_COLON]) ++ ([.start .NAME, tk .IDENT, .finish] ++
        (tk .L_CURLY :: x ++ [tk .R_CURLY]))) (Emits.nthAt ?_)).steps (by simp)
    rw [show I.atKind (0 + (parts .MODULE_KW).length + 1) .COLON_COLON = true from atKind_of rfl h2]
    exact Emits.bind hcc (Emits.bind hname hitems)
  have htop : Emits I ⟨RSet.new.join (.ofTs TokenSet.empty), .Move⟩ 0 (do topItem (grammar n); pure (true, ())) (true, ()) (q + 1)
      (.start .MODULE :: ([tk .MODULE_KW, .start .VALUE_ADDRESS, tk .INT_NUMBER, .finish, tk .COLON_COLON, .start .NAME, tk .IDENT, .finish] ++
        (tk .L_CURLY :: x ++ [tk .R_CURLY])) ++ [.finish]) := by
    refine (Emits.bind (a := ()) (m := q + 1) ?_ (b := (true, ())) (y := []) Emits.pure).steps (by simp; rfl)
    have hb : Emits I ⟨RSet.new.join (.ofTs TokenSet.empty), .Move⟩ 0 (do
        let k ← current
        let a ← atKw "address"
        if k = .MODULE_KW then do
          moduleBody (grammar n)
          pure (Outcome.complete .MODULE, true)
        else if k = .SPEC_KW then do
          moduleSpecBody (grammar n)
          pure (.complete .MODULE_SPEC, true)
        else if k = .SCRIPT_KW then do
          scriptBody (grammar n)
          pure (.complete .SCRIPT, true)
        else if k = .IDENT ∧ a = true then do
          addressBody (grammar n)
          pure (.complete .ADDRESS_DEF, true)
        else pure (.abandon, false)) (.complete .MODULE, true) (q + 1) _ :=
      Emits.current (Emits.atKw (Emits.ite_pos h0 (Emits.bind hmod Emits.pure)))
    unfold topItem
    refine (Emits.bind (Emits.block (k := .MODULE) (by decide) (Emits.bind (attrs_run (by rw [h0]; decide)) hb)) (b := ()) (y := []) ?_).steps (by simp)
    exact Emits.pure
  unfold sourceFile
  have hiter := Emits.iterate_eof (E := ⟨RSet.new, .Move⟩) (stop := TokenSet.empty) (b0 := ()) (b := ())
    (body := fun _ => do topItem (grammar n); pure (true, ()))
    (by rw [h0]; decide) (by rw [h0]; decide +kernel) htop (by omega) he
  exact (Builds.drop (Emits.node (by decide) hiter)).steps (by simp)

theorem funFile_run [I.Valid] {ss : List Stm} {e : Option Ex} (h : I.IsFun ss e q) (hf : BodyFits ss e) (hn : q < n) :
    Emits I ⟨RSet.new, .Move⟩ 0 (sourceFile (grammar n)) () (q + 2) (funTree ss e) := by
  have hle := (body_first hf h.body h.rcurly).2
  exact (file_of_item h.module h.address h.colons h.mname h.open' (by rw [h.funKw]; decide) (by rw [h.funKw]; decide +kernel) (by omega)
    h.close h.eof (funItem_run h hf hn)).steps (by simp [funTree])

end Verif.Parser
