import Verif.Syntax.Kind

/-! Model of `crates/syntax/src/parse/event.rs`.

The events of a parse are a list. `process` drains it from the front; because forward parents are
distances to later events, the loop over the indices is a recursion on the list, and the replacement of
visited events by tombstones is done in the rest of the list. -/

namespace Verif.Parser
open Verif.Syntax (SyntaxKind)

/-- `Event` (event.rs 28-85). The text of an error message is left out. -/
inductive Event where
  | start (kind : SyntaxKind) (forwardParent : Option Nat)
  | finish
  | token (kind : SyntaxKind) (nRawTokens : Nat)
  | error
deriving DecidableEq, Repr

/-- `Event::tombstone` (88-93). -/
def Event.tombstone : Event := .start .TOMBSTONE none

/-- The calls `process` makes on the sink. -/
inductive Step where
  | start (kind : SyntaxKind)
  | finish
  | token (kind : SyntaxKind) (nRawTokens : Nat)
  | error
deriving DecidableEq, Repr

/-- The `while let Some(fwd) = fp` loop (111-122). `idx` is the index in `rest` of the event `fwd` steps after the
previous one; the result is the kinds in the order they are pushed and the events with the visited ones
replaced. `none` is `unreachable!` or an index out of bounds. Every step replaces a `Start` that has a
forward parent or ends the loop, so `fuel = rest.length + 1` steps are enough. -/
def follow : Nat → Nat → List Event → Option (List SyntaxKind × List Event)
  | 0, _, _ => none
  | fuel + 1, idx, rest =>
    match rest[idx]? with
    | some (.start k fp) =>
      let rest' := rest.set idx Event.tombstone
      match fp with
      | none => some ([k], rest')
      | some fwd => (follow fuel (idx + fwd) rest').map fun p => (k :: p.1, p.2)
    | _ => none

/-- The kinds pushed for the `Start` event at the front of a list and the rest of the events after that
(108-122). -/
def chain (k : SyntaxKind) (fp : Option Nat) (rest : List Event) : Option (List SyntaxKind × List Event) :=
  match fp with
  | none => some ([k], rest)
  | some 0 => some ([k, .TOMBSTONE], rest)
  | some (d + 1) => (follow (rest.length + 1) d rest).map fun p => (k :: p.1, p.2)

/-- `for kind in forward_parents.drain(..).rev()` (124-128). -/
def opened (ks : List SyntaxKind) : List Step :=
  (ks.reverse.filter fun k => decide (k ≠ .TOMBSTONE)).map .start

/-- `process` (97-137): the calls made on the sink, in order. The first argument is the number of events. -/
def processN : Nat → List Event → Option (List Step)
  | 0, _ => some []
  | _ + 1, [] => some []
  | n + 1, .start k fp :: rest => do
    let (ks, rest') ← chain k fp rest
    let steps ← processN n rest'
    pure (opened ks ++ steps)
  | n + 1, .finish :: rest => (processN n rest).map (.finish :: ·)
  | n + 1, .token k m :: rest => (processN n rest).map (.token k m :: ·)
  | n + 1, .error :: rest => (processN n rest).map (.error :: ·)

def process (events : List Event) : Option (List Step) := processN events.length events

end Verif.Parser
