import Verif.Parser.Grammar.Top
open Verif Verif.Parser Verif.Lexer
def esc (cs : List Char) : String := if blen cs < 25 then (String.ofList cs).quote else (String.ofList (cs.take 21 ++ " ...".toList)).quote
def kname (k : Syntax.SyntaxKind) : String := ((toString (repr k)).splitOn ".").getLast!
partial def render (ind : Nat) (o : Nat) (g : Green) : Nat × List String :=
  let pad := String.ofList (List.replicate (2*ind) ' ')
  match g with
  | .tok k t => (o + blen t, [s!"{pad}{kname k}@{o}..{o + blen t} {esc t}"])
  | .node k cs =>
    let (e, ls) := cs.foldl (fun (acc : Nat × List String) c => let (e, l) := render (ind+1) acc.1 c; (e, acc.2 ++ l)) (o, [])
    (e, s!"{pad}{kname k}@{o}..{e}" :: ls)
def go (text : String) (debug : Bool) : String :=
  let cs := text.toList
  match tokenize (fun _ => 1) (cs.length + 5) cs with
  | some (some raw) =>
    match pieces cs raw with
    | some ps =>
      let I : Input := ⟨source ps, debug⟩
      match parse I (2 * I.toks.length + 5) with
      | .ok _ s =>
        match buildTree ps s.events with
        | some (g, errs) => String.intercalate "\n" (render 0 0 g).2 ++ s!"\nERRORS {errs}"
        | none => "NOTREE"
      | .panic w => s!"PANIC {repr w}"
      | .stop => "STOP"
    | none => "NOPIECES"
  | _ => "NOTOK"
def main (args : List String) : IO Unit := do
  let out := (← IO.getEnv "GOLDEN_OUT").getD "/tmp"
  for f in args do
    let t ← IO.FS.readFile f
    IO.FS.writeFile (out ++ "/" ++ f.replace "/" "_" ++ ".out") (go t true)
