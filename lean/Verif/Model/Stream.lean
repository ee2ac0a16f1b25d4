import Verif.Model.Cli
/-!
# The command line program step by step

`processInput` (Model/Cli.lean) says what the program has done when it is over. Here its loop is taken apart at every call of `Read` and every line, in the order in which they happen: cmd/sawmill/sawmill.go:118-156 and `bufio.Scanner.Scan`.
-/

namespace Sawmill

/-- The program between two steps: the scanner (`s`), the variables of the loop and what has been written (`cli`), and the bytes that the reader has delivered so far (`got`: not a variable of the program). -/
structure Stream where
  scanner : Scanner
  cli : Cli
  got : Bytes := []

/-- The beginning: cmd/sawmill/sawmill.go:119-123. -/
def Stream.start (i : Input) (w : PWorld Heap) : Stream := ⟨{ chunks := i.chunks, fails := i.fails }, { world := w }, []⟩

/-- `Scan` looks for a line in its buffer: `bufio.Scanner.Scan`, the first part of its loop. -/
def Scanner.look (s : Scanner) : Option (Nat × Bytes) := if s.data ≠ [] ∨ s.stopped.isSome then scanLine s.data s.stopped.isSome else none

/-- One step: a line is found, and the body of the loop is run for it (cmd/sawmill/sawmill.go:125-151); or there is none and the reader has stopped, and `processInput` returns (152-156); or `Read` is called, unless the buffer is full (`bufio.Scanner.Scan`, the rest of its loop). `Read` calls that deliver nothing are part of the step. -/
def Stream.step (env : JEnv) (n : Nat) (cv : Conv) (p : Pipeline Builtin (Option Err)) (wr : Writer) (s : Stream) : Stream ⊕ (Cli × CliEnd) :=
  match s.scanner.look with
  | some (adv, tok) =>
    match s.cli.line env n cv p wr tok with
    | .error e => .inr (s.cli, e)
    | .ok c => .inl { s with scanner := { s.scanner with data := s.scanner.data.drop adv, start := s.scanner.start + adv }, cli := c }
  | none =>
    match s.scanner.stopped with
    | some (some e) => .inr (s.cli, .readFailed e)
    | some none => .inr (s.cli, .done)
    | none =>
      match s.scanner.makeRoom with
      | none => .inr (s.cli, .readFailed .tooLong)
      | some t => .inl { s with scanner := t.read, got := s.got ++ t.read.data.drop t.data.length }

/-- The next thing that the program does is to call `Read`: it has to wait for the reader. -/
def Stream.Waits (s : Stream) : Prop := s.scanner.look = none ∧ s.scanner.stopped = none ∧ s.scanner.makeRoom ≠ none

end Sawmill
