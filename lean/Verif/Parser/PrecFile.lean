import Verif.Parser.PrecMain

/-! The expression in a file: `module 0x1::m { const C: T = e; }`. -/

namespace Verif.Parser
open Verif.Syntax (SyntaxKind)
open Verif.TokenSet (TSet)

variable {I : Input} {E : Env} {p q n : Nat}

mutual
/-- The recursion is not deeper than there are tokens. -/
theorem Ex.depth_le [I.Valid] : ∀ (e : Ex) {m p q : Nat}, e.Fits m → e.At I p q → e.depth ≤ q - p
  | .path addr more, m, p, q, hf, h => by
    have := (Ex.first (.path addr more) (m := m) hf h).1
    simp only [Ex.depth]; omega
  | .lit k, m, p, q, hf, h => by
    have := (Ex.first (.lit k) (m := m) hf h).1
    simp only [Ex.depth]; omega
  | .paren e, m, p, q, hf, h => by
    obtain ⟨h1, -, m', h3, h4, rfl⟩ := h
    have := e.depth_le hf h3
    have := (e.first hf h3).1
    simp only [Ex.depth]; omega
  | .un o e, m, p, q, hf, h => by
    obtain ⟨m', h1, h2⟩ := h
    have := (un_first h1).1
    have := e.depth_le hf h2
    have := (e.first hf h2).1
    simp only [Ex.depth]; omega
  | .field e num, m, p, q, hf, h => by
    obtain ⟨m', h1, h2, h3, rfl, -⟩ := h
    have := e.depth_le hf.2 h1
    simp only [Ex.depth]; omega
  | .index e i, m, p, q, hf, h => by
    obtain ⟨m', n, h1, h2, h3, h4, rfl⟩ := h
    have := e.depth_le hf.2.1 h1
    have := i.depth_le hf.2.2 h3
    have := (e.first hf.2.1 h1).1
    have := (i.first hf.2.2 h3).1
    simp only [Ex.depth]; omega
  | .call e a, m, p, q, hf, h => by
    obtain ⟨m', n, h1, h2, h3, h4, rfl⟩ := h
    have := e.depth_le hf.2.1 h1
    have := a.depth_le hf.2.2 h3
    have := (e.first hf.2.1 h1).1
    have := (a.first hf.2.2 h3).1
    simp only [Ex.depth]; omega
  | .method e a, m, p, q, hf, h => by
    obtain ⟨m', n, h1, h2, h2', h2'', h3, h4, rfl⟩ := h
    have := e.depth_le hf.2.1 h1
    have := a.depth_le hf.2.2 h3
    have := (e.first hf.2.1 h1).1
    have := (a.first hf.2.2 h3).1
    simp only [Ex.depth]; omega
  | .bin k l r, m, p, q, hf, h => by
    obtain ⟨m', h1, h2, h3⟩ := h
    obtain ⟨f1, f2, f3, f4, f5, f6⟩ := hf
    have := l.depth_le f3 h1
    have := r.depth_le f5 h3
    have := (l.first f3 h1).1
    have := (r.first f5 h3).1
    simp only [Ex.depth]; omega
  | .cast e addr more, m, p, q, hf, h => by
    obtain ⟨m', h1, h2, h3, -⟩ := h
    have := e.depth_le hf.2.2.1 h1
    have := moreAt_le h3.2
    simp only [Ex.depth]; omega

theorem Args.depth_le [I.Valid] : ∀ (a : Args) {p q : Nat}, a.Fits → a.At I p q → a.depth ≤ q - p
  | .none, p, q, _, h => by simp [Args.depth]
  | .one e, p, q, hf, h => e.depth_le (m := 1) hf h
  | .more e a, p, q, hf, h => by
    obtain ⟨m, h1, h2, h3⟩ := h
    have := e.depth_le hf.1 h1
    have := a.depth_le hf.2.2 h3
    have := (e.first hf.1 h1).1
    have := (a.first hf.2.2 h3).1
    simp only [Args.depth]; omega
end

theorem Emits.iterate_eof {stop : TSet} {body : β → P (Bool × β)} {b0 b : β} {x : List Step} (h0 : I.kindAt p ≠ .EOF)
    (h1 : TokenSet.contains stop (I.kindAt p) = false)
    (h : Emits I { E with outer := E.outer.join (.ofTs stop) } p (body b0) (true, b) q x) (hq : q ≠ p)
    (h2 : I.kindAt q = .EOF) : Emits I E p (iterate stop body b0) b q x := by
  unfold Verif.Parser.iterate
  refine Emits.remaining ?_
  have hlt := kindAt_lt h0
  unfold Input.size at hlt
  unfold iterN
  refine Emits.at' (Emits.current (Emits.ite_neg (by rw [h1, atKind_single rfl]; simpa using h0) (Emits.getPos ?_)))
  refine (Emits.bind (Emits.withRec h) (b := b) (q := q) (y := []) ?_).steps (by simp)
  refine Emits.ite_neg (by simp) (Emits.outerRec (Emits.current ?_))
  by_cases ho : E.outer.hasTok (I.kindAt q) = true
  · exact Emits.ite_pos ho Emits.pure
  · refine Emits.ite_neg ho (Emits.getPos (Emits.ite_neg hq ?_))
    obtain ⟨n, hn⟩ : ∃ n, I.toks.length - p = n + 1 := ⟨I.toks.length - p - 1, by omega⟩
    rw [hn]
    unfold iterN
    exact Emits.at' (Emits.current (Emits.ite_pos (by rw [atKind_of rfl h2]; simp) Emits.pure))

theorem Emits.read {u : P α} {f : α → P β} {a : St → α} {b : β} {x : List Step} (hu : ∀ s, s.pos = p → u I E s = .ok (a s) s)
    (h : ∀ s, s.pos = p → Emits I E p (f (a s)) b q x) : Emits I E p (u >>= f) b q x := by
  intro s hs
  obtain ⟨t, h1, h2⟩ := h s hs s hs
  exact ⟨t, by rw [bind_ok (hu s hs)]; exact h1, h2⟩

theorem name_run [I.Valid] {rs : RSet} (h : I.kindAt p = .IDENT) (hr : I.atRSet p (E.outer.join rs) = false) :
    Emits I E p (nameOrRecover rs) true (p + 1) [.start .NAME, tk .IDENT, .finish] := by
  have ha := atKind_of (I := I) (p := p) (k := .IDENT) rfl h
  unfold nameOrRecover
  refine Emits.at' (Emits.ite_neg (by rw [ha]; simp) (Emits.outerRec (Emits.containsCurrent (Emits.ite_neg (by rw [hr]; simp) ?_))))
  exact (Emits.bind (Builds.drop (Emits.node (k := .NAME) (by decide) (Emits.bump (by decide) ha)))
    (b := true) (y := []) Emits.pure).steps rfl

theorem attrs_run {R : Rec} (h : I.kindAt p ≠ .POUND) : Emits I E p (drop (attrs R)) () p [] := by
  refine Emits.drop (a := none) ?_
  unfold attrs loop
  refine Emits.remaining ?_
  unfold loopN attrsLoop
  intro s hs
  subst hs
  refine ⟨s, ?_, rfl, Adds.refl s⟩
  rw [bind_assoc', bind_at, atKind_not rfl h]
  rfl

theorem type_run [I.Valid] {addr : Bool} {more : Nat} (h : I.PathAt addr more p q)
    (haddr : addr = true → more ≠ 0) (hq : I.kindAt q ≠ .COLON_COLON) (hq' : I.kindAt q ≠ .L_ANGLE) :
    Emits I E p (type_ (grammar (n + 1))) true q (.start .PATH_TYPE :: pathTree addr more ++ [.finish]) := by
  show Emits I E p (typeOrRecover (grammar n) .new) true q _
  unfold typeOrRecover
  refine Emits.current (Emits.isPathStart ?_)
  have hs : ((I.kindAt p == .INT_NUMBER && I.atKind (p + 1) .COLON_COLON) || I.kindAt p == .IDENT ||
      I.kindAt p == .UNDERSCORE) = true ∧ (I.kindAt p ≠ .L_PAREN ∧ I.kindAt p ≠ .AMP ∧ I.kindAt p ≠ .PIPE) := by
    obtain ⟨h1, h2⟩ := h
    cases addr with
    | false => simp at h1; simp [h1.1]
    | true =>
      simp at h1
      cases more with
      | zero => exact absurd rfl (haddr rfl)
      | succ m' => simp [h1, atKind_of (I := I) (p := p + 1) (k := .COLON_COLON) rfl h2.1]
  rw [hs.1]
  exact Emits.ite_neg hs.2.1 (Emits.ite_neg hs.2.2.1 (Emits.ite_neg hs.2.2.2 (Emits.ite_pos rfl
    (pathType_run h haddr hq hq' (pathAt_size h)))))

/-- The tokens of `module 0x1::m { const C: T = e; }`, with any names, any address and any expression. -/
structure Input.IsConst (I : Input) (e : Ex) (q : Nat) : Prop where
  module : I.kindAt 0 = .MODULE_KW
  address : I.kindAt 1 = .INT_NUMBER
  colons : I.kindAt 2 = .COLON_COLON
  mname : I.kindAt 3 = .IDENT
  open' : I.kindAt 4 = .L_CURLY
  const : I.kindAt 5 = .CONST_KW
  name : I.kindAt 6 = .IDENT
  plain : I.PlainAt 6
  colon : I.kindAt 7 = .COLON
  type : I.PathAt false 0 8 9
  eq : I.kindAt 9 = .EQ
  value : e.At I 10 q
  semi : I.kindAt q = .SEMICOLON
  close : I.kindAt (q + 1) = .R_CURLY
  eof : I.kindAt (q + 2) = .EOF

/-- The calls for the tree of the file. -/
def constTree (e : Ex) : List Step :=
  [.start .SOURCE_FILE, .start .MODULE, tk .MODULE_KW, .start .VALUE_ADDRESS, tk .INT_NUMBER, .finish, tk .COLON_COLON,
    .start .NAME, tk .IDENT, .finish, tk .L_CURLY, .start .CONST, tk .CONST_KW, .start .NAME, tk .IDENT, .finish, tk .COLON,
    .start .PATH_TYPE] ++ pathTree false 0 ++ [.finish, .start .INITIALIZER, tk .EQ] ++ e.tree ++
  [.finish, tk .SEMICOLON, .finish, tk .R_CURLY, .finish, .finish]

/-- The environment of the item. -/
abbrev itemEnv : Env :=
  ⟨((RSet.new.join (.ofTs TokenSet.empty)).join (.ofTs (ts [.R_CURLY]))).withTok .R_CURLY, .Move⟩

theorem initializer_run [I.Valid] {e : Ex} (hE : Calm E) (h : I.kindAt p = .EQ) (hf : e.Fits 1) (ha : e.At I (p + 1) q)
    (hq : I.Ends q) (hn : q - (p + 1) < n) :
    Emits I E p (initializerExpr (grammar n)) () q (.start .INITIALIZER :: tk .EQ :: e.tree ++ [.finish]) := by
  have hb := (e.runs (I := I)).one (n := n) (r := ⟨false, false⟩) hE hf ha (by have := e.depth_le hf ha; omega) hq
  unfold initializerExpr
  refine Emits.block (x := tk .EQ :: e.tree) (by decide) ?_
  refine (Emits.bind (Emits.expect (by decide) (atKind_of rfl h)) (b := (Outcome.complete .INITIALIZER, ())) (y := e.tree)
    (Emits.ite_neg (by simp) ?_)).steps rfl
  refine (Emits.bind (expr_run hb) (b := (Outcome.complete .INITIALIZER, ())) (y := []) ?_).steps (by simp [Ex.tree])
  exact Emits.iff_false (c := !true) rfl Emits.pure

/-- The calls for the item after the start of its node. -/
def itemTree (e : Ex) : List Step :=
  [tk .CONST_KW, .start .NAME, tk .IDENT, .finish, tk .COLON, .start .PATH_TYPE] ++ pathTree false 0 ++
    [.finish, .start .INITIALIZER, tk .EQ] ++ e.tree ++ [.finish, tk .SEMICOLON]

theorem const_run [I.Valid] {e : Ex} (h : I.IsConst e q) (hf : e.Fits 1) (hn : q < n) :
    Emits I itemEnv 5 (constBody (grammar n)) () (q + 1) (itemTree e) := by
  have hlt := (e.first hf h.value).1
  obtain ⟨n, rfl⟩ : ∃ k, n = k + 1 := ⟨n - 1, by omega⟩
  have hname : I.atRSet 6 (itemEnv.outer.join (itemStartRecSet.withTs (ts [.SEMICOLON]))) = false := by
    unfold Input.atRSet
    have h6 := h.plain "enum" (by decide)
    rw [if_pos h.name]
    show (TokenSet.contains _ _ || List.contains ["enum".toList] (I.textAt 6)) = false
    rw [Bool.or_eq_false_iff]
    refine ⟨by decide +kernel, ?_⟩
    rw [Bool.eq_false_iff]
    intro hc
    rw [List.contains_iff_mem, List.mem_singleton] at hc
    exact h6 hc
  have hann : ∀ E, Emits I E 7 (do
      let c ← at' .COLON
      if c then typeAnnotation (grammar (n + 1)) else error) () 9 (tk .COLON :: .start .PATH_TYPE :: pathTree false 0 ++ [.finish]) := by
    intro E
    refine Emits.at' (Emits.ite_pos (atKind_of rfl h.colon) ?_)
    unfold typeAnnotation
    refine Emits.at' (Emits.assert (atKind_of rfl h.colon) ?_)
    exact (Emits.bind (Emits.bump (by decide) (atKind_of rfl h.colon))
      (type_run h.type (by simp) (by rw [h.eq]; decide) (by rw [h.eq]; decide)).drop).steps rfl
  have hcalm : Calm ⟨itemEnv.outer.join (itemStartRecSet.withTs (ts [.SEMICOLON])), .Move⟩ := by
    refine ⟨by decide +kernel, fun t ht => ?_⟩
    have : t = "enum".toList := by
      simpa [itemEnv, RSet.join, RSet.withTs, RSet.withKw, RSet.withTok, RSet.new, RSet.ofTs, itemStartRecSet, functionModifierKws] using ht
    subst this
    exact ⟨by decide, "enum", by decide, rfl⟩
  have hinner : Emits I ⟨itemEnv.outer.join (itemStartRecSet.withTs (ts [.SEMICOLON])), .Move⟩ 7 (do
      withRecTok .EQ do
        let c ← at' .COLON
        if c then typeAnnotation (grammar (n + 1)) else error
      initializerExpr (grammar (n + 1))) () q
      ((tk .COLON :: .start .PATH_TYPE :: pathTree false 0 ++ [.finish]) ++ (.start .INITIALIZER :: tk .EQ :: e.tree ++ [.finish])) :=
    Emits.bind (Emits.withRec (f := (·.withTok .EQ)) (hann _))
      (initializer_run hcalm h.eq hf h.value (ends_of h.semi (by decide)) (by omega))
  have hend : Emits I itemEnv 7 (do
      withRecovery (itemStartRecSet.withTs (ts [.SEMICOLON])) do
        withRecTok .EQ do
          let c ← at' .COLON
          if c then typeAnnotation (grammar (n + 1)) else error
        initializerExpr (grammar (n + 1))
      drop (expect .SEMICOLON)) () (q + 1)
      (((tk .COLON :: .start .PATH_TYPE :: pathTree false 0 ++ [.finish]) ++ (.start .INITIALIZER :: tk .EQ :: e.tree ++ [.finish])) ++
        [tk .SEMICOLON]) :=
    Emits.bind (Emits.withRec (f := (·.join (itemStartRecSet.withTs (ts [.SEMICOLON])))) hinner)
      (Emits.expect (by decide) (atKind_of rfl h.semi)).drop
  unfold constBody
  refine (Emits.bind (Emits.bump (by decide) (atKind_of rfl h.const)) (b := ())
    (y := [.start .NAME, tk .IDENT, .finish] ++ (((tk .COLON :: .start .PATH_TYPE :: pathTree false 0 ++ [.finish]) ++
      (.start .INITIALIZER :: tk .EQ :: e.tree ++ [.finish])) ++ [tk .SEMICOLON])) ?_).steps (by simp [itemTree])
  exact Emits.bind (name_run h.name hname) (Emits.ite_neg (by simp) hend)

theorem item_run [I.Valid] {e : Ex} (h : I.IsConst e q) (hf : e.Fits 1) (hn : q < n) :
    Emits I itemEnv 5 (item (grammar n)) () (q + 1) (.start .CONST :: itemTree e ++ [.finish]) := by
  have hopt : Emits I itemEnv 5 (optItem (grammar n)) (.complete .CONST, true) (q + 1) (itemTree e) := by
    unfold optItem
    refine Emits.current (Emits.read (fun s _ => rfl) (fun _ _ => Emits.atKw (Emits.read (fun s _ => rfl) (fun _ _ => Emits.read (fun s _ => rfl) (fun _ _ => ?_)))))
    refine Emits.ite_neg (by rw [h.const]; decide) (Emits.ite_pos h.const ?_)
    exact (Emits.bind (const_run h hf hn) (b := (Outcome.complete .CONST, true)) (y := []) Emits.pure).steps (by simp)
  have hb : Emits I itemEnv 5 (do drop (attrs (grammar n)); optItem (grammar n)) (.complete .CONST, true) (q + 1) ([] ++ itemTree e) :=
    Emits.bind (attrs_run (by rw [h.const]; decide)) hopt
  unfold item
  refine (Emits.bind (Emits.block (k := .CONST) (x := [] ++ itemTree e) (by decide) hb) (b := ()) (y := []) (Emits.ite_pos rfl (Emits.at' ?_))).steps (by simp)
  rw [atKind_not rfl (by rw [h.close]; decide)]
  exact Emits.pure

theorem items_run [I.Valid] {e : Ex} (h : I.IsConst e q) (hf : e.Fits 1) (hn : q < n) :
    Emits I ⟨RSet.new.join (.ofTs TokenSet.empty), .Move⟩ 4 (itemListOrRecover (grammar n)) () (q + 2)
      (tk .L_CURLY :: .start .CONST :: itemTree e ++ [.finish, tk .R_CURLY]) := by
  have hlt := (e.first hf h.value).1
  have hbody : Emits I ⟨(RSet.new.join (.ofTs TokenSet.empty)).join (.ofTs (ts [.R_CURLY])), .Move⟩ 5
      (do withRecTok .R_CURLY (item (grammar n)); pure (true, ())) (true, ()) (q + 1) (.start .CONST :: itemTree e ++ [.finish]) := by
    refine (Emits.bind (a := ()) (m := q + 1) (x := .start .CONST :: itemTree e ++ [.finish]) ?_ (b := (true, ())) (y := []) Emits.pure).steps
      (List.append_nil _)
    exact Emits.withRec (f := (·.withTok .R_CURLY)) (item_run h hf hn)
  have hiter := Emits.iterate_then (E := ⟨RSet.new.join (.ofTs TokenSet.empty), .Move⟩) (stop := ts [.R_CURLY]) (b0 := ()) (b := ())
    (body := fun _ => do withRecTok .R_CURLY (item (grammar n)); pure (true, ()))
    (by rw [h.const]; decide) (by rw [h.const]; decide +kernel) hbody (by omega) (by rw [h.close]; decide +kernel)
  unfold itemListOrRecover itemList
  refine Emits.at' (Emits.ite_pos (atKind_of rfl h.open') (Emits.at' (Emits.assert (atKind_of rfl h.open') ?_)))
  refine (Emits.bind (Emits.bump (by decide) (atKind_of rfl h.open')) (b := ())
    (y := (.start .CONST :: itemTree e ++ [.finish]) ++ [tk .R_CURLY]) ?_).steps (by simp)
  exact Emits.bind hiter (Emits.expect (by decide) (atKind_of rfl h.close)).drop

theorem module_run [I.Valid] {e : Ex} (h : I.IsConst e q) (hf : e.Fits 1) (hn : q < n) :
    Emits I ⟨RSet.new.join (.ofTs TokenSet.empty), .Move⟩ 0 (moduleBody (grammar n)) () (q + 2)
      ([tk .MODULE_KW, .start .VALUE_ADDRESS, tk .INT_NUMBER, .finish, tk .COLON_COLON, .start .NAME, tk .IDENT, .finish] ++
        (tk .L_CURLY :: .start .CONST :: itemTree e ++ [.finish, tk .R_CURLY])) := by
  have haddr : Emits I ⟨RSet.new.join (.ofTs TokenSet.empty), .Move⟩ 1 anyAddress () 2 [.start .VALUE_ADDRESS, tk .INT_NUMBER, .finish] := by
    have ha := atKind_of (I := I) (k := .INT_NUMBER) rfl h.address
    unfold anyAddress
    refine Emits.at' (Emits.at' (Emits.ite_pos ha ?_))
    unfold valueAddress
    exact Emits.at' (Emits.assert ha (Builds.drop (Emits.node (by decide) (Emits.bump (by decide) ha))))
  have hcc : Emits I ⟨RSet.new.join (.ofTs TokenSet.empty), .Move⟩ 1 (iff true do anyAddress; bump .COLON_COLON) () 3
      ([.start .VALUE_ADDRESS, tk .INT_NUMBER, .finish] ++ [tk .COLON_COLON]) :=
    Emits.bind haddr (Emits.bump (by decide) (atKind_of rfl h.colons))
  have hname : Emits I ⟨RSet.new.join (.ofTs TokenSet.empty), .Move⟩ 3 (drop (nameOrRecover (.ofTs TOP_LEVEL_FIRST))) () 4
      [.start .NAME, tk .IDENT, .finish] := by
    refine (name_run h.mname ?_).drop
    unfold Input.atRSet
    rw [if_pos h.mname]
    show (TokenSet.contains _ _ || List.contains [] (I.textAt 3)) = false
    rw [Bool.or_eq_false_iff]
    exact ⟨by decide +kernel, rfl⟩
  unfold moduleBody
  refine (Emits.bind (Emits.bump (by decide) (atKind_of rfl h.module)) (b := ())
    (y := ([.start .VALUE_ADDRESS, tk .INT_NUMBER, .finish] ++ [tk .COLON_COLON]) ++ ([.start .NAME, tk .IDENT, .finish] ++
      (tk .L_CURLY :: .start .CONST :: itemTree e ++ [.finish, tk .R_CURLY]))) (Emits.nthAt ?_)).steps (by simp)
  rw [show I.atKind (0 + (parts .MODULE_KW).length + 1) .COLON_COLON = true from atKind_of rfl h.colons]
  exact Emits.bind hcc (Emits.bind hname (items_run h hf hn))

theorem file_run [I.Valid] {e : Ex} (h : I.IsConst e q) (hf : e.Fits 1) (hn : q < n) :
    Emits I ⟨RSet.new, .Move⟩ 0 (sourceFile (grammar n)) () (q + 2) (constTree e) := by
  have hlt := (e.first hf h.value).1
  have htop : Emits I ⟨RSet.new.join (.ofTs TokenSet.empty), .Move⟩ 0 (do topItem (grammar n); pure (true, ())) (true, ()) (q + 2)
      (.start .MODULE :: ([tk .MODULE_KW, .start .VALUE_ADDRESS, tk .INT_NUMBER, .finish, tk .COLON_COLON, .start .NAME, tk .IDENT, .finish] ++
        (tk .L_CURLY :: .start .CONST :: itemTree e ++ [.finish, tk .R_CURLY])) ++ [.finish]) := by
    refine (Emits.bind (a := ()) (m := q + 2) ?_ (b := (true, ())) (y := []) Emits.pure).steps (by simp; rfl)
    have hb : Emits I ⟨RSet.new.join (.ofTs TokenSet.empty), .Move⟩ 0 (do
        let k ← current
        let a ← atKw "address"
        if k = .MODULE_KW then do
          moduleBody (grammar n)
          pure (Outcome.complete .MODULE, true)
        else if k = .SPEC_KW then do
          moduleSpecBody (grammar n)
          pure (.complete .MODULE_SPEC, true)
        else if k = .SCRIPT_KW then do
          scriptBody (grammar n)
          pure (.complete .SCRIPT, true)
        else if k = .IDENT ∧ a = true then do
          addressBody (grammar n)
          pure (.complete .ADDRESS_DEF, true)
        else pure (.abandon, false)) (.complete .MODULE, true) (q + 2) _ :=
      Emits.current (Emits.atKw (Emits.ite_pos h.module (Emits.bind (module_run h hf hn) Emits.pure)))
    unfold topItem
    refine (Emits.bind (Emits.block (k := .MODULE) (by decide) (Emits.bind (attrs_run (by rw [h.module]; decide)) hb)) (b := ()) (y := []) ?_).steps (by simp)
    exact Emits.pure
  unfold sourceFile
  have hiter := Emits.iterate_eof (E := ⟨RSet.new, .Move⟩) (stop := TokenSet.empty) (b0 := ()) (b := ())
    (body := fun _ => do topItem (grammar n); pure (true, ()))
    (by rw [h.module]; decide) (by rw [h.module]; decide +kernel) htop (by omega) h.eof
  exact (Builds.drop (Emits.node (by decide) hiter)).steps (by simp [constTree, itemTree])

end Verif.Parser
