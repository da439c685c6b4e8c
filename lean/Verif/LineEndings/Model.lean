import Verif.Base.Bytes

/-! Model of `crates/stdext/src/line_endings.rs`. -/

namespace Verif.LineEndings
open Verif

/-- `enum LineEndings` (line_endings.rs 4-7). -/
inductive Endings where
  | unix
  | dos
deriving DecidableEq, Repr

/-- `memmem::Finder::new(b"\r\n").find` (line_endings.rs 22, 25): offset of the first CR LF. -/
def findCRLF : Text → Option Nat
  | [] => none
  | [_] => none
  | a :: b :: t => if a = 13 ∧ b = 10 then some 0 else (findCRLF (b :: t)).map (· + 1)

theorem findCRLF_lt {t : Text} {i : Nat} (h : findCRLF t = some i) : i + 2 ≤ t.length := by
  fun_induction findCRLF t generalizing i with
  | case1 => simp at h
  | case2 => simp at h
  | case3 a b t hab => simp at h; simp; omega
  | case4 a b t hab ih =>
    obtain ⟨j, hj, rfl⟩ := Option.map_eq_some_iff.1 h
    have := ih hj
    simp at this ⊢; omega

/-- Result of the compaction loop: `unchanged` is the early return of line 28, `compacted` the state at
`break` (the buffer and the gap), `panic` a slice index out of range. -/
inductive LoopResult where
  | unchanged
  | compacted (buf : Text) (gap : Nat)
  | panic
deriving DecidableEq, Repr

/-- The loop of `LineEndings::normalize` (line_endings.rs 24-40). The buffer is `done ++ tail`, where
`tail` is the mutable slice of the source. `tail.copy_within(gap..idx, 0)` followed by
`tail = &mut tail[idx - gap..]` moves the bytes `tail[gap..idx]` to the end of `done` and leaves the
bytes from `idx - gap` on as they were. -/
def loop (done tail : Text) (gap : Nat) (seen : Bool) : LoopResult :=
  if gap ≤ tail.length then
    match h : findCRLF (tail.drop gap) with
    | none =>
      if seen then
        -- idx = tail.len(): the new tail has length `gap`, so the loop breaks
        .compacted (done ++ (tail.take tail.length).drop gap ++ tail.drop (tail.length - gap)) gap
      else .unchanged
    | some i =>
      let idx := i + gap
      let done' := done ++ (tail.take idx).drop gap
      let tail' := tail.drop (idx - gap)
      if tail'.length = gap then .compacted (done' ++ tail') gap
      else loop done' tail' (gap + 1) true
  else .panic
termination_by tail.length - gap
decreasing_by
  have := findCRLF_lt h
  simp only [List.length_drop] at *
  omega

/-- `LineEndings::normalize` (line_endings.rs 11-50); `none` is a panic. `set_len` keeps the first
`buf.len() - gap_len` bytes. -/
def normalize (src : Text) : Option (Text × Endings) :=
  match loop [] src 0 false with
  | .unchanged => some (src, .unix)
  | .compacted buf gap => some (buf.take (buf.length - gap), .dos)
  | .panic => none

/-- `LineEndings::map` (line_endings.rs 52-57). -/
def Endings.map (e : Endings) (t : Text) : Text :=
  match e with
  | .unix => t
  | .dos => t.flatMap fun b => if b = 10 then [13, 10] else [b]

end Verif.LineEndings
