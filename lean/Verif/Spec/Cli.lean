import Verif.Model.Cli
import Verif.Spec.Json
/-!
# Lines of a text, and what the program does with one line
-/

namespace Sawmill
open Rfc

/-- The characters that count as space: Unicode's White_Space. -/
def spaces : List Char := ['\t', '\n', '\x0b', '\x0c', '\r', ' ', '\u0085', '\u00a0', '\u1680', '\u2000', '\u2001', '\u2002', '\u2003', '\u2004', '\u2005', '\u2006', '\u2007', '\u2008', '\u2009', '\u200a', '\u2028', '\u2029', '\u202f', '\u205f', '\u3000']

/-- Text of spaces only. -/
def Blank (s : Bytes) : Prop := ∃ cs : List Char, (∀ c ∈ cs, c ∈ spaces) ∧ s = cs.flatMap utf8

/-- `t` is `s` without the spaces around it. -/
def Trimmed (s t : Bytes) : Prop :=
  (∃ a b, Blank a ∧ Blank b ∧ s = a ++ t ++ b) ∧ ∀ c ∈ spaces, ¬ utf8 c <+: t ∧ ¬ utf8 c <:+ t

/-- The text consisting of these lines, each with a line feed at its end, and `last` without one. -/
def joinLines (ls : List Bytes) (last : Bytes) : Bytes := ls.flatMap (fun l => l ++ [10]) ++ last

/-- What happens to one line. -/
inductive LineOutcome where
  | blank
  | text (bs : Bytes)
  | failed (err : Err)
  | unencodable
  | panic
  | overflow

/-- What happens to the line with this number if the program is started (in the state `w`) and this is the first line that it handles. -/
def soloOutcome (env : JEnv) (n : Nat) (cv : Conv) (p : Pipeline Builtin (Option Err)) (w : PWorld Heap) (number : Nat) (line : Bytes) : LineOutcome :=
  let line := trimSpace line
  if line = [] then .blank
  else match handleLine cv p w number line with
    | .panic => .panic
    | .ok (_, r) =>
      match r.err with
      | some err => .failed err
      | none =>
        match marshalEvent env n r.heap r.event with
        | .ok bs => .text bs
        | .error => .unencodable
        | .fuel => .overflow

/-- The outcomes of lines, numbered from `start`. -/
def soloOutcomes (env : JEnv) (n : Nat) (cv : Conv) (p : Pipeline Builtin (Option Err)) (w : PWorld Heap) : Nat → List Bytes → List (Nat × LineOutcome)
  | _, [] => []
  | i, l :: ls => (i, soloOutcome env n cv p w i l) :: soloOutcomes env n cv p w (i + 1) ls

namespace LineOutcome

/-- The program does not survive it. -/
def crash : LineOutcome → Option CliEnd
  | .panic => some .panic
  | .overflow => some .overflow
  | _ => none

/-- What is written: the text of the event and a line feed. -/
def output : LineOutcome → Bytes
  | .text bs => bs ++ [10]
  | _ => []

/-- What is logged. -/
def logged (number : Nat) : LineOutcome → List CliLog
  | .failed err => [.process number err]
  | .unencodable => [.encode number]
  | _ => []

end LineOutcome

/-- The outcomes before the first crash. -/
def beforeCrash (os : List (Nat × LineOutcome)) : List (Nat × LineOutcome) := os.takeWhile fun o => o.2.crash.isNone

/-- The first crash. -/
def firstCrash (os : List (Nat × LineOutcome)) : Option CliEnd := os.findSome? fun o => o.2.crash

end Sawmill
