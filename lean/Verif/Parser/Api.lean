import Verif.Parser.Source
import Verif.TokenSet.Model

/-! Model of `crates/syntax/src/parse/parser.rs` and `recovery_set.rs`: the operations the grammar is written in.

Simplifications. The recovery sets are pushed and popped in matched pairs around a call, and only the last one
is ever read (`outer_recovery_set`); so are the statement kinds. Both are therefore an environment of the run, not a
part of its state. Positions in the event list are unbounded (`u32` in the code). -/

namespace Verif.Parser
open Verif.Syntax (SyntaxKind)
open Verif.TokenSet (TSet)

/-- `RecoverySet` (recovery_set.rs 31-35). -/
structure RSet where
  ts : TSet
  kws : List (List Char)

namespace RSet

/-- `new` (50-55). -/
def new : RSet := ⟨TokenSet.empty, []⟩
/-- `from_ts` (57-61). -/
def ofTs (ts : TSet) : RSet := ⟨ts, []⟩
/-- `with_another_rs` (63-67). -/
def join (a b : RSet) : RSet := ⟨TokenSet.union a.ts b.ts, a.kws ++ b.kws⟩
/-- `with_ts` (69-72). -/
def withTs (a : RSet) (ts : TSet) : RSet := ⟨TokenSet.union a.ts ts, a.kws⟩
/-- `with_kw` (74-77). -/
def withKw (a : RSet) (kw : String) : RSet := ⟨a.ts, a.kws ++ [kw.toList]⟩
/-- `with_recovery_token` (79-89) for a kind. -/
def withTok (a : RSet) (k : SyntaxKind) : RSet := ⟨TokenSet.setOrKind a.ts k, a.kws⟩
/-- `without_recovery_token` (91-101) for a kind. -/
def withoutTok (a : RSet) (k : SyntaxKind) : RSet := ⟨TokenSet.sub a.ts (TokenSet.new [k]), a.kws⟩
/-- `token_set_contains` (107-109). -/
def hasTok (a : RSet) (k : SyntaxKind) : Bool := TokenSet.contains a.ts k

end RSet

/-- `StmtKind` (grammar/expressions/blocks.rs 19-24). -/
inductive StmtKind where
  | Move | Spec | Proof
deriving DecidableEq, Repr

/-- What a run reads: the outer recovery set (parser.rs 535-540) and the statement kind (46-48). -/
structure Env where
  outer : RSet
  stmt : StmtKind

/-- What a run changes: the position in the tokens and the events. -/
structure St where
  pos : Nat
  events : List Event
deriving DecidableEq

/-- Why a run panics. -/
inductive Why where
  /-- an `assert!` that the current token is of some kind, also the one in `bump` -/
  | expected (k : SyntaxKind)
  /-- `iterate_to_EOF` or `delimited_with_recovery` made no progress, with debug assertions -/
  | stuck
  /-- arithmetic overflow, with overflow checks -/
  | overflow
  /-- a marker was dropped -/
  | bomb
  /-- `unreachable!`, an index out of bounds, an underflow -/
  | unreachable
deriving DecidableEq, Repr

/-- The result of a run. `stop` is only in the model: the bound on the depth of the recursion is used up. -/
inductive Res (α : Type) where
  | ok (a : α) (s : St)
  | panic (w : Why)
  | stop

/-- A piece of the parser. -/
def P (α : Type) : Type := Input → Env → St → Res α

namespace P

def pure' (a : α) : P α := fun _ _ s => .ok a s
def bind' (p : P α) (f : α → P β) : P β := fun I E s =>
  match p I E s with
  | .ok a s' => f a I E s'
  | .panic w => .panic w
  | .stop => .stop

instance : Monad P where
  pure := pure'
  bind := bind'

end P

def crash (w : Why) : P α := fun _ _ _ => .panic w

/-- A statement under a condition. -/
def iff (c : Bool) (p : P Unit) : P Unit := if c then p else pure ()

/-- A statement whose value is not used. -/
def drop (p : P α) : P Unit := do let _ ← p; pure ()

/-- `assert!`. -/
def assert (c : Bool) (k : SyntaxKind) : P Unit := if c then pure () else crash (.expected k)

/-! Questions about the current token. -/

/-- `current` (parser.rs 130-132). -/
def current : P SyntaxKind := fun I _ s => .ok (I.kindAt s.pos) s
/-- `nth` (172-181); the grammar calls it with `n ≤ 1`. -/
def nth (n : Nat) : P SyntaxKind := fun I _ s => .ok (I.kindAt (s.pos + n)) s
/-- `at` (184-186). -/
def at' (k : SyntaxKind) : P Bool := fun I _ s => .ok (I.atKind s.pos k) s
/-- `nth_at` (216-250). -/
def nthAt (n : Nat) (k : SyntaxKind) : P Bool := fun I _ s => .ok (I.atKind (s.pos + n) k) s
/-- `at_ts` (329-331). -/
def atTs (ts : TSet) : P Bool := fun I _ s => .ok (TokenSet.contains ts (I.kindAt s.pos)) s
/-- `nth_at_ts` (196-199). -/
def nthAtTs (n : Nat) (ts : TSet) : P Bool := fun I _ s => .ok (TokenSet.contains ts (I.kindAt (s.pos + n))) s
/-- `at_contextual_kw` (347-349). -/
def atKw (kw : String) : P Bool := fun I _ s => .ok (I.isKeyword s.pos kw) s
/-- `at_contextual_kw_ident` (342-344). -/
def atKwIdent (kw : String) : P Bool := fun I _ s => .ok (I.kindAt s.pos == .IDENT && I.isKeyword s.pos kw) s

/-- `nth_at_rset` (201-213), and `contains_current` (recovery_set.rs 111-122) for the token at a position. -/
def Input.atRSet (I : Input) (p : Nat) (rs : RSet) : Bool :=
  if I.kindAt p = .IDENT then rs.hasTok .IDENT || rs.kws.contains (I.textAt p) else rs.hasTok (I.kindAt p)

def nthAtRSet (n : Nat) (rs : RSet) : P Bool := fun I _ s => .ok (I.atRSet (s.pos + n) rs) s
def containsCurrent (rs : RSet) : P Bool := fun I _ s => .ok (I.atRSet s.pos rs) s

/-- `prev_ws` (151-163). -/
def prevWs : P Nat := fun I _ s => .ok (I.prevWs s.pos) s
/-- `pos` (70-72). -/
def getPos : P Nat := fun _ _ s => .ok s.pos s
/-- `outer_recovery_set` (535-540). -/
def outerRec : P RSet := fun _ E s => .ok E.outer s
/-- `stmt_kind` (46-48). -/
def stmtKind : P StmtKind := fun _ E s => .ok E.stmt s
def debugBuild : P Bool := fun I _ s => .ok I.debug s
/-- The number of tokens left, a bound on the iterations of the loops. -/
def remaining : P Nat := fun I _ s => .ok (I.toks.length - s.pos) s

/-! Tokens and errors. -/

/-- `push_event` (480-482). -/
def pushEvent (e : Event) : P Unit := fun _ _ s => .ok () ⟨s.pos, s.events ++ [e]⟩

/-- `TextTokenSource::bump` (text_token_source.rs 76-83). -/
def advance (I : Input) (p : Nat) : Nat → Nat
  | 0 => p
  | n + 1 => advance I (if I.kindAt p = .EOF then p else p + 1) n

/-- `do_bump` (472-478). -/
def doBump (k : SyntaxKind) (n : Nat) : P Unit := fun I _ s =>
  .ok () ⟨advance I s.pos n, s.events ++ [Event.token k n]⟩

/-- `eat` (253-274). -/
def eat (k : SyntaxKind) : P Bool := do
  if ← at' k then do doBump k (parts k).length; pure true
  else pure false

/-- `bump` (363-365). -/
def bump (k : SyntaxKind) : P Unit := do
  let b ← eat k
  if b then pure () else crash (.expected k)

/-- `bump_any` (368-374). -/
def bumpAny : P Unit := do
  let k ← nth 0
  if k = .EOF then pure () else doBump k 1

/-- `bump_remap_many` (391-397). -/
def bumpRemapMany (k : SyntaxKind) (n : Nat) : P Unit := do
  if (← nth 0) = .EOF then pure () else doBump k n

/-- `bump_remap` (382-388). -/
def bumpRemap (k : SyntaxKind) : P Unit := do
  if (← nth 0) = .EOF then pure () else doBump k 1

/-- `error`, `push_error` (400-413). -/
def error : P Unit := pushEvent .error

/-- `expect`, `expect_with_error` (417-431). -/
def expect (k : SyntaxKind) : P Bool := do
  let b ← eat k
  if b then pure true else do error; pure false

/-! Markers. -/

/-- `CompletedMarker` (625-630). -/
structure CM where
  pos : Nat
  kind : SyntaxKind

/-- `start` (354-358): the index of the new event. -/
def start : P Nat := fun _ _ s => .ok s.events.length ⟨s.pos, s.events ++ [Event.tombstone]⟩

/-- `Marker::complete` (506-522). -/
def complete (m : Nat) (k : SyntaxKind) : P CM := fun _ _ s =>
  match s.events[m]? with
  | some (.start _ fp) => .ok ⟨m, k⟩ ⟨s.pos, s.events.set m (.start k fp) ++ [Event.finish]⟩
  | _ => .panic .unreachable

/-- `Marker::abandon` (526-538). -/
def abandon (m : Nat) : P Unit := fun _ _ s =>
  if m = s.events.length - 1 then
    if s.events.getLast? = some (.start .TOMBSTONE none) then .ok () ⟨s.pos, s.events.dropLast⟩ else .panic .unreachable
  else .ok () s

/-- The tokens of some events: how far `pop_event` (484-492) goes back for them. -/
def width : List Event → Nat
  | [] => 0
  | .token _ n :: es => n + width es
  | _ :: es => width es

/-- `pop_event` (484-492) until `n` events are left. -/
def popTo (n : Nat) : P Unit := fun _ _ s =>
  if width (s.events.drop n) ≤ s.pos then .ok () ⟨s.pos - width (s.events.drop n), s.events.take n⟩ else .panic .unreachable

/-- `Marker::abandon_with_rollback` (541-557). -/
def rollback (m : Nat) : P Unit := fun I E s =>
  if m = s.events.length - 1 then
    if s.events.getLast? = some (.start .TOMBSTONE none) then .ok () ⟨s.pos, s.events.dropLast⟩ else .panic .unreachable
  else popTo m I E s

/-- `event_pos` (123-125). -/
def eventPos : P Nat := fun _ _ s => if s.events = [] then .panic .unreachable else .ok (s.events.length - 1) s

/-- `CompletedMarker::abandon_with_rollback` (681-685): it does not end if there are fewer events than asked for. -/
def rollbackTo (parent : Nat) : P Unit := fun I E s =>
  if parent + 1 ≤ s.events.length then popTo (parent + 1) I E s else .stop

/-- `CompletedMarker::precede` (652-662). -/
def precede (cm : CM) : P Nat := fun _ _ s =>
  match (s.events ++ [Event.tombstone])[cm.pos]? with
  | some (.start k _) =>
    .ok s.events.length ⟨s.pos, (s.events ++ [Event.tombstone]).set cm.pos (.start k (some (s.events.length - cm.pos)))⟩
  | _ => .panic .unreachable

/-- `extend_to` (665-675). -/
def extendTo (cm : CM) (m : Nat) : P CM := fun _ _ s =>
  match s.events[m]? with
  | some (.start k _) => .ok cm ⟨s.pos, s.events.set m (.start k (some (cm.pos - m)))⟩
  | _ => .panic .unreachable

/-! The ways the grammar uses markers. A marker is always started, used up by the same function or a function it is
given to, and not used after that; so its uses are blocks. -/

/-- What becomes of a marker at the end of its block. -/
inductive Outcome where
  | complete (k : SyntaxKind)
  | abandon
  | rollback

/-- `let m = p.start(); ...` with the end given by the value of the block. -/
def marked (body : P (Outcome × α)) : P (Option CM × α) := do
  let m ← start
  let r ← body
  match r.1 with
  | .complete k => do let cm ← complete m k; pure (some cm, r.2)
  | .abandon => do abandon m; pure (none, r.2)
  | .rollback => do rollback m; pure (none, r.2)

/-- `let m = p.start(); ...; m.complete(p, k)`. -/
def node (k : SyntaxKind) (body : P Unit) : P CM := do
  let m ← start
  body
  complete m k

/-- A node whose kind is the value of the block. -/
def nodeOf (body : P SyntaxKind) : P CM := do
  let m ← start
  let k ← body
  complete m k

/-- A block after which the marker is gone, with the value of the block. -/
def block (body : P (Outcome × α)) : P α := do
  let r ← marked body
  pure r.2

/-- `let m = cm.precede(p); ...; m.complete(p, k)`. -/
def preceded (cm : CM) (body : P (SyntaxKind × α)) : P (CM × α) := do
  let m ← precede cm
  let r ← body
  let c ← complete m r.1
  pure (c, r.2)

/-- `let m = p.start(); ...; lhs.extend_to(p, m)`, or `m.abandon(p)`. -/
def extended (body : P (Option (CM × α))) : P (Option (CM × α)) := do
  let m ← start
  let r ← body
  match r with
  | some (cm, a) => do let c ← extendTo cm m; pure (some (c, a))
  | none => do abandon m; pure none

/-! Recovery. -/

/-- `with_recovery` (542-553) and the like: the set the new one is made of is the outer one. -/
def withRec (f : RSet → RSet) (p : P α) : P α := fun I E s => p I { E with outer := f E.outer } s

/-- `with_recovery` (542-553). -/
def withRecovery (rs : RSet) (p : P α) : P α := withRec (·.join rs) p
/-- `reset_recovery` (555-562). -/
def resetRecovery (p : P α) : P α := withRec (fun _ => RSet.new) p
/-- `with_recovery_token_set` (564-574). -/
def withRecTs (ts : TSet) (p : P α) : P α := withRec (·.withTs ts) p
/-- `with_recovery_token` (595-601) for a kind: the resulting set is not empty. -/
def withRecTok (k : SyntaxKind) (p : P α) : P α := withRec (·.withTok k) p
/-- `with_recovery_token` (595-601) for a keyword. -/
def withRecKw (kw : String) (p : P α) : P α := withRec (·.withKw kw) p
/-- `with_stmt_kind` (50-59). -/
def withStmt (k : StmtKind) (p : P α) : P α := fun I E s => p I { E with stmt := k } s

/-- `error_and_bump` (450-455). -/
def errorAndBump : P Unit := do
  let _ ← node .ERROR do
    bumpAny
    error

/-- The loop of `error_and_recover` (444-447), for at most `n` tokens. -/
def bumpUntil (rs : RSet) : Nat → P Unit
  | 0 => fun _ _ _ => .stop
  | n + 1 => do
    let e ← at' .EOF
    let c ← containsCurrent rs
    if e || c then pure () else do
      bumpAny
      bumpUntil rs n

/-- `error_and_recover` (434-448). -/
def errorAndRecover (extra : RSet) : P Unit := do
  let o ← outerRec
  let rs := o.join extra
  let c ← containsCurrent rs
  if c then error else do
    errorAndBump
    let n ← remaining
    bumpUntil rs (n + 1)

/-- `wrap_with_error` (404-408). -/
def wrapWithError (cm : CM) : P Unit := do
  let _ ← preceded cm do
    error
    pure (SyntaxKind.ERROR, ())

/-! Loops. -/

/-- `iterate_to_EOF_rec` (92-121), at most `n` times. The block returns whether to continue, and the variables it changes. -/
def iterN (stop : TSet) (body : β → P (Bool × β)) : Nat → β → P β
  | 0, _ => fun _ _ _ => .stop
  | n + 1, b => do
    let e ← at' .EOF
    let k ← current
    if e || TokenSet.contains stop k then pure b else do
      let p ← getPos
      let r ← withRec (·.join (.ofTs stop)) (body b)
      if !r.1 then pure r.2 else do
        let o ← outerRec
        let k ← current
        if o.hasTok k then pure r.2 else do
          let p' ← getPos
          if p' = p then do
            let d ← debugBuild
            if d then crash .stuck else pure r.2
          else iterN stop body n r.2

/-- `iterate_to_EOF` (84-90). An iteration after which the loop goes on has used up a token. -/
def iterate (stop : TSet) (body : β → P (Bool × β)) (b : β) : P β := do
  let n ← remaining
  iterN stop body (n + 1) b

/-- `while ... { ... }` and `loop { ... }` whose block always uses up a token: it returns whether to go on. -/
def loopN (body : β → P (Bool × β)) : Nat → β → P β
  | 0, _ => fun _ _ _ => .stop
  | n + 1, b => do
    let r ← body b
    if r.1 then loopN body n r.2 else pure r.2

def loop (body : β → P (Bool × β)) (b : β) : P β := do
  let n ← remaining
  loopN body (n + 1) b

/-- `delimited_with_recovery` (grammar/utils.rs 12-87), at most `n` times. -/
def delimitedN (element : P Bool) (delimiter : SyntaxKind) (listEnd : Option SyntaxKind) : Nat → Bool → P Unit
  | 0, _ => fun _ _ _ => .stop
  | n + 1, isEmpty => do
    let endTs := match listEnd with
      | some k => TokenSet.new [k]
      | none => TokenSet.empty
    let outer ← outerRec
    let modified := (outer.withTs endTs).withoutTok delimiter
    let e ← at' .EOF
    let l ← atTs endTs
    if e || l then pure () else do
      let p ← getPos
      let recover := match listEnd with
        | some k => if k ≠ .PIPE then TokenSet.setOrKind (TokenSet.new [delimiter]) k else TokenSet.new [delimiter]
        | none => TokenSet.new [delimiter]
      let atElement ← withRecTs recover element
      let isEmpty := isEmpty && !atElement
      let l ← atTs endTs
      if !atElement && (outer.hasTok delimiter || (listEnd.isSome && isEmpty && l)) then pure () else do
        iff (!atElement) (errorAndRecover (.ofTs (TokenSet.new [delimiter])))
        let c ← containsCurrent modified
        if c then pure () else do
          let isDelim ← expect delimiter
          let c ← containsCurrent modified
          if isDelim && (delimiter == .COMMA && c) then pure () else do
            let p' ← getPos
            if p' = p then do
              let d ← debugBuild
              if d then crash .stuck else pure ()
            else delimitedN element delimiter listEnd n isEmpty

/-- `delimited_with_recovery` (grammar/utils.rs 12-87). -/
def delimited (element : P Bool) (delimiter : SyntaxKind) (listEnd : Option SyntaxKind) : P Unit := do
  let n ← remaining
  delimitedN element delimiter listEnd (n + 1) true

end Verif.Parser
