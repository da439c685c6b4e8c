import Verif.Parser.Hoare
import Lean.Elab.Tactic

/-! Automation for the judgement: the usual postcondition of a type, and a tactic that applies the rule for the head of
a piece of the parser. -/

namespace Verif.Parser
open Verif.Syntax (SyntaxKind)
open Verif.TokenSet (TSet)

/-- The usual postcondition of a type: a marker that is returned may be given a parent and is of an expression, of a kind
nothing is required. -/
class Post (α : Type) where
  post : α → Handle → Prop

instance : Post Unit := ⟨fun _ _ => True⟩
instance : Post Bool := ⟨fun _ _ => True⟩
instance : Post (Bool × α) := ⟨fun _ _ => True⟩
instance : Post (Nat × α) := ⟨fun _ _ => True⟩
instance : Post CM := ⟨fun c h => h = some c ∧ exprKind c.kind = true⟩
instance : Post (Option CM) := ⟨fun a h => ∀ c, a = some c → h = some c ∧ exprKind c.kind = true⟩
instance : Post (Option CM × α) := ⟨fun a h => ∀ c, a.1 = some c → h = some c ∧ exprKind c.kind = true⟩
instance : Post (CM × α) := ⟨fun a h => h = some a.1 ∧ exprKind a.1.kind = true⟩
instance : Post (Option (CM × α)) := ⟨fun a h => ∀ c b, a = some (c, b) → h = some c ∧ exprKind c.kind = true⟩
instance : Post SyntaxKind := ⟨fun k _ => plain k = true⟩
instance : Post (SyntaxKind × α) := ⟨fun k _ => plain k.1 = true⟩
instance : Post (Outcome × α) := ⟨fun r _ => ∀ k, r.1 = .complete k → plain k = true⟩

def Ok [Post α] : α → Nat → Handle → Prop := fun a _ h => Post.post a h

section
variable {I : Input} {p p0 q : Nat} {h : Handle} {α β : Type} {prog : P α}

theorem T.call [Post α] {f : α → P β} {Q : β → Nat → Handle → Prop} (h1 : T I p h prog Ok)
    (h2 : ∀ a q h', p ≤ q → q ≤ I.size → Post.post a h' → T I q h' (f a) Q) : T I p h (prog >>= f) Q :=
  T.bind (h1.mono fun a q h' _ _ hp => fun h3 h4 => h2 a q h' h3 h4 hp)

theorem T.drop_ok [Post α] (h1 : T I p h prog Ok) : T I p h (Verif.Parser.drop prog) Ok := T.drop (h1.mono fun _ _ _ _ _ _ => trivial)

theorem T.drop_any {Q : α → Nat → Handle → Prop} (h1 : T I p h prog Q) : T I p h (Verif.Parser.drop prog) Ok :=
  T.drop (h1.mono fun _ _ _ _ _ _ => trivial)

theorem T.node_ok {k : SyntaxKind} {body : P Unit} (hk : plain k = true) (hx : exprKind k = true) (hb : T I p none body Ok) :
    T I p h (Verif.Parser.node k body) Ok := T.node hk (hb.mono fun _ _ _ _ _ _ _ hc => ⟨rfl, hc ▸ hx⟩)

theorem T.drop_node {k : SyntaxKind} {body : P Unit} (hk : plain k = true) (hb : T I p none body Ok) :
    T I p h (Verif.Parser.drop (Verif.Parser.node k body)) Ok := T.drop (T.node hk (hb.mono fun _ _ _ _ _ _ _ _ => trivial))

/-- A node of one token. -/
theorem T.drop_tok [I.Valid] {k t : SyntaxKind} (hk : k ≠ .TOMBSTONE) (hr : Req I k [.tok t]) (ht : parts t = [t]) (ht' : t ≠ .EOF)
    (h0 : I.kindAt p = t) : T I p h (Verif.Parser.drop (Verif.Parser.node k (Verif.Parser.bump t))) Ok :=
  T.drop (T.nodeV hk (TV.bump1 ht ht' h0 ⟨hr, fun _ _ => trivial⟩))

/-- A node of one token that is made a name. -/
theorem T.drop_name [I.Valid] {k : SyntaxKind} (hk : k ≠ .TOMBSTONE) (hr : Req I k [.tok .IDENT])
    (h0 : I.kindAt p = .UNDERSCORE ∨ I.kindAt p = .FRIEND_KW) :
    T I p h (Verif.Parser.drop (Verif.Parser.node k (Verif.Parser.bumpRemap .IDENT))) Ok :=
  T.drop (T.nodeV hk (TV.bumpName h0 ⟨hr, fun _ _ => trivial⟩))

theorem T.nodeOf_ok {body : P SyntaxKind} (hb : T I p none body fun k _ _ => plain k = true ∧ exprKind k = true) :
    T I p h (Verif.Parser.nodeOf body) Ok :=
  T.nodeOf (hb.mono fun _ _ _ _ _ hk => ⟨hk.1, fun _ hc => ⟨rfl, hc ▸ hk.2⟩⟩)

theorem T.drop_nodeOf {body : P SyntaxKind} (hb : T I p none body Ok) : T I p h (Verif.Parser.drop (Verif.Parser.nodeOf body)) Ok :=
  T.drop (T.nodeOf (hb.mono fun _ _ _ _ _ hk => ⟨hk, fun _ _ => trivial⟩))

theorem T.marked_ok {body : P (Outcome × α)}
    (hb : T I p none body fun r _ _ => ∀ k, r.1 = .complete k → plain k = true ∧ exprKind k = true) :
    T I p h (Verif.Parser.marked body) Ok := by
  refine T.marked (hb.mono fun r q h' _ _ hk => ?_)
  unfold Ended
  cases hr : r.1 with
  | complete k => exact ⟨(hk k hr).1, fun cm hcm c hc => ⟨hc, by cases hc; exact hcm ▸ (hk k hr).2⟩⟩
  | abandon => intro c hc; cases hc
  | rollback => intro c hc; cases hc

/-- A type whose values hold no marker. -/
class Free (α : Type) [Post α] : Prop where
  free : ∀ (a : α) h, Post.post a h

instance : Free Unit := ⟨fun _ _ => trivial⟩
instance : Free Bool := ⟨fun _ _ => trivial⟩
instance : Free (Bool × α) := ⟨fun _ _ => trivial⟩
instance : Free (Nat × α) := ⟨fun _ _ => trivial⟩

theorem T.block_ok [Post α] [Free α] {body : P (Outcome × α)} (hb : T I p none body Ok) : T I p h (Verif.Parser.block body) Ok := by
  refine T.block (hb.mono fun r q h' _ _ hk => ?_)
  unfold Ended
  cases hr : r.1 with
  | complete k => exact ⟨hk k hr, fun cm _ => Free.free _ _⟩
  | abandon => exact Free.free _ _
  | rollback => exact Free.free _ _

theorem T.preceded_ok {cm : CM} {body : P (SyntaxKind × α)} (hh : h = some cm)
    (hb : T I p none body fun r _ _ => plain r.1 = true ∧ exprKind r.1 = true) :
    T I p h (Verif.Parser.preceded cm body) Ok :=
  T.preceded hh (hb.mono fun _ _ _ _ _ hk => ⟨hk.1, fun _ hc => ⟨rfl, hc ▸ hk.2⟩⟩)

theorem T.drop_preceded {cm : CM} {body : P (SyntaxKind × α)} (hh : h = some cm) (hb : T I p none body Ok) :
    T I p h (Verif.Parser.drop (Verif.Parser.preceded cm body)) Ok :=
  T.drop (T.preceded hh (hb.mono fun _ _ _ _ _ hk => ⟨hk, fun _ _ => trivial⟩))

theorem T.extended_ok {body : P (Option (CM × α))} (hb : T I p none body Ok) : T I p h (Verif.Parser.extended body) Ok := by
  refine T.extended (hb.mono fun r q h' _ _ hk => ?_)
  cases r with
  | none => intro c b hc; cases hc
  | some r =>
    obtain ⟨cm, a⟩ := r
    refine ⟨(hk cm a rfl).1, (hk cm a rfl).2, ?_⟩
    intro c b hc
    cases hc; exact ⟨rfl, (hk _ _ rfl).2⟩

theorem T.iterate_ok [I.Valid] [Post β] [Free β] {stop : TSet} {body : β → P (Bool × β)} {b : β}
    (hb : ∀ b q h, p ≤ q → q ≤ I.size → I.kindAt q ≠ .EOF → T I q h (body b) Ok) : T I p h (Verif.Parser.iterate stop body b) Ok :=
  T.iterate (fun _ _ => True) trivial (fun b q h h1 h2 h3 _ => (hb b q h h1 h2 h3).mono fun _ _ _ _ _ _ => trivial)
    (fun _ _ _ _ _ _ => Free.free _ _)

theorem T.delimited_ok [I.Valid] {element : P Bool} {d : SyntaxKind} {e : Option SyntaxKind}
    (hd : parts d = [d]) (hd' : d ≠ .EOF)
    (hb : ∀ q h, p ≤ q → q ≤ I.size → (∀ k, e = some k → I.kindAt q ≠ k) → T I q h element Ok) :
    T I p h (Verif.Parser.delimited element d e) Ok :=
  (T.delimited hd hd' fun q h h1 h2 h3 => (hb q h h1 h2 h3).any).mono fun _ _ _ _ _ _ => trivial

theorem T.of_any [Post α] [Free α] {Q : α → Nat → Handle → Prop} (h1 : T I p h prog Q) : T I p h prog Ok :=
  h1.mono fun _ _ _ _ _ _ => Free.free _ _

theorem errorAndBump_ok' [I.Valid] : T I p h errorAndBump Ok := errorAndBump_ok.of_any
theorem errorAndRecover_ok' [I.Valid] {rs : RSet} : T I p h (errorAndRecover rs) Ok := errorAndRecover_ok.of_any
theorem wrapWithError_ok' {cm : CM} (hh : h = some cm) : T I p h (wrapWithError cm) Ok := (wrapWithError_ok hh).of_any

end

/-- Proves the side conditions: facts on the current token, positions, kinds. -/
macro "tside" : tactic => `(tactic| first
  | exact True.intro
  | rfl
  | assumption
  | omega
  | decide
  | exact SyntaxKind.noConfusion
  | (simp_all [Input.atKind, parts, Input.atParts]; done)
  | (exact kw_ne_eof (by simp_all; done))
  | (exact kw_ne_eof (by assumption))
  | (simp_all [Ok, Post.post]; done)
  | (simp only [Ok, Post.post]; repeat' split
     all_goals (first | rfl | decide | (simp_all; done)))
  | ((try dsimp only); repeat' split
     all_goals exact ⟨rfl, rfl⟩)
  | (simp only [Ok, Post.post]; intro _ hk; repeat' split at hk
     all_goals (first | (cases hk; done) | (cases hk; rfl) | (cases hk; exact ⟨rfl, rfl⟩))))

open Lean Elab Tactic Meta in
/-- The pieces after which what follows is checked for their outcome. -/
def stepHeads : List Name :=
  [``current, ``nth, ``at', ``nthAt, ``atTs, ``nthAtTs, ``atKw, ``atKwIdent, ``nthAtRSet, ``containsCurrent, ``prevWs, ``getPos,
   ``outerRec, ``stmtKind, ``debugBuild, ``remaining, ``eat, ``expect, ``bump, ``bumpAny, ``bumpRemap, ``error, ``assert]

open Lean Elab Tactic Meta in
/-- Applies the rule for the head of the piece in the goal. -/
elab "tstep" : tactic => withMainContext do
  let g ← instantiateMVars (← getMainTarget)
  let g := g.consumeMData
  unless g.isAppOf ``T do throwError "not a judgement"
  let args := g.getAppArgs
  let prog := args[4]!.headBeta
  let fn := prog.getAppFn
  let some c := fn.constName? | throwError "no head: {prog}"
  let run (s : TacticM Syntax) : TacticM Unit := do evalTactic (← s)
  if c == ``Bind.bind then
    let x := prog.getAppArgs[4]!.headBeta
    let some cx := x.getAppFn.constName? | throwError "no head: {x}"
    let lem := cx.appendAfter "_ok"
    let env ← getEnv
    if stepHeads.contains cx then run `(tactic| refine T.bind ?_)
    else if env.contains lem || [``ite, ``iff, ``drop, ``node, ``nodeOf, ``marked, ``block, ``preceded, ``extended, ``iterate, ``delimited,
        ``withRec, ``withRecovery, ``resetRecovery, ``withRecTs, ``withRecTok, ``withRecKw, ``withStmt, ``Bind.bind,
        ``errorAndBump, ``errorAndRecover, ``wrapWithError].contains cx || (← isMatcher cx) then
      run `(tactic| refine T.call ?_ (fun _ _ _ _ _ _ => ?_))
    else run `(tactic| refine T.bind ?_)
  else if c == ``ite then run `(tactic| refine T.ite (fun _ => ?_) (fun _ => ?_))
  else if c == ``Pure.pure then run `(tactic| refine T.pure ?_)
  else if c == ``iff then run `(tactic| refine T.iff (fun _ => ?_) (fun _ => ?_))
  else if c == ``drop then
    let x := prog.getAppArgs.back!.headBeta
    match x.getAppFn.constName? with
    | some cx =>
      if cx == ``node then run `(tactic| first | refine T.drop_node rfl ?_ | refine T.drop_tok (by decide) (by simp [Req]) rfl (by decide) ?_ | refine T.drop_name (by decide) (by simp [Req]) ?_)
      else if cx == ``nodeOf then run `(tactic| refine T.drop_nodeOf ?_)
      else if cx == ``preceded then run `(tactic| refine T.drop_preceded ?_ ?_)
      else
        let lem := cx.appendAfter "_any"
        if (← getEnv).contains lem then
          let id := mkIdent lem
          run `(tactic| apply T.drop_any)
          run `(tactic| apply $id)
        else run `(tactic| refine T.drop_ok ?_)
    | none => run `(tactic| refine T.drop_ok ?_)
  else if c == ``current then run `(tactic| refine T.current ?_)
  else if c == ``nth then run `(tactic| refine T.nth ?_)
  else if c == ``at' then run `(tactic| refine T.at' ?_)
  else if c == ``nthAt then run `(tactic| refine T.nthAt ?_)
  else if c == ``atTs then run `(tactic| refine T.atTs ?_)
  else if c == ``nthAtTs then run `(tactic| refine T.nthAtTs ?_)
  else if c == ``atKw then run `(tactic| refine T.atKw ?_)
  else if c == ``atKwIdent then run `(tactic| refine T.atKwIdent ?_)
  else if c == ``nthAtRSet then run `(tactic| refine T.nthAtRSet ?_)
  else if c == ``containsCurrent then run `(tactic| refine T.containsCurrent ?_)
  else if c == ``prevWs then run `(tactic| refine T.prevWs ?_)
  else if c == ``getPos then run `(tactic| refine T.getPos ?_)
  else if c == ``remaining then run `(tactic| refine T.remaining ?_)
  else if c == ``debugBuild then run `(tactic| refine T.debugBuild ?_)
  else if c == ``outerRec then run `(tactic| refine T.outerRec (fun _ => ?_))
  else if c == ``stmtKind then run `(tactic| refine T.stmtKind (fun _ => ?_))
  else if c == ``eat then run `(tactic| refine T.eat1 rfl (by decide) (fun _ _ => ?_) (fun _ => ?_))
  else if c == ``expect then run `(tactic| refine T.expect1 rfl (by decide) (fun _ _ => ?_) (fun _ => ?_))
  else if c == ``bump then run `(tactic| refine T.bump1 rfl (by decide) ?_ (fun _ => ?_))
  else if c == ``bumpAny then run `(tactic| refine T.bumpAny (fun _ _ => ?_) (fun _ => ?_))
  else if c == ``bumpRemap then run `(tactic| first | refine T.bumpName ?_ (fun _ => ?_) | refine T.bumpSame (by assumption) (by decide) (fun _ => ?_) | refine T.bumpRemap rfl ?_ (fun _ => ?_))
  else if c == ``error then run `(tactic| refine T.error ?_)
  else if c == ``assert then run `(tactic| refine T.assert ?_ ?_)
  else if c == ``node then run `(tactic| refine T.node_ok rfl rfl ?_)
  else if c == ``nodeOf then run `(tactic| refine T.nodeOf_ok ?_)
  else if c == ``marked then run `(tactic| refine T.marked_ok ?_)
  else if c == ``block then run `(tactic| refine T.block_ok ?_)
  else if c == ``preceded then run `(tactic| refine T.preceded_ok ?_ ?_)
  else if c == ``extended then run `(tactic| refine T.extended_ok ?_)
  else if c == ``iterate then run `(tactic| refine T.iterate_ok (fun _ _ _ _ _ _ => ?_))
  else if c == ``delimited then run `(tactic| refine T.delimited_ok rfl (by decide) (fun _ _ _ _ _ => ?_))
  else if c == ``withRec then run `(tactic| refine T.withRec ?_)
  else if c == ``withRecovery then run `(tactic| refine T.withRecovery ?_)
  else if c == ``resetRecovery then run `(tactic| refine T.resetRecovery ?_)
  else if c == ``withRecTs then run `(tactic| refine T.withRecTs ?_)
  else if c == ``withRecTok then run `(tactic| refine T.withRecTok ?_)
  else if c == ``withRecKw then run `(tactic| refine T.withRecKw ?_)
  else if c == ``withStmt then run `(tactic| refine T.withStmt ?_)
  else if c == ``errorAndBump then run `(tactic| refine errorAndBump_ok')
  else if c == ``errorAndRecover then run `(tactic| refine errorAndRecover_ok')
  else if c == ``wrapWithError then run `(tactic| refine wrapWithError_ok' ?_)
  else if ← isMatcher c then run `(tactic| split)
  else
    let lem := c.appendAfter "_ok"
    if (← getEnv).contains lem then
      let id := mkIdent lem
      run `(tactic| apply $id)
    else
      let some prog' ← unfoldDefinition? prog | throwError "cannot unfold {prog}"
      let g' := mkAppN g.getAppFn (args.set! 4 prog'.headBeta)
      let mv ← getMainGoal
      let mv' ← mv.replaceTargetDefEq g'
      replaceMainGoal [mv']

/-- As many steps as possible. -/
macro "tgo" : tactic => `(tactic| repeat' (first | (intros; (try dsimp only); tstep) | tside))

end Verif.Parser
