import Verif.Model.Json
import Verif.Model.Processors
import Verif.Spec.Reuse
/-!
# The command line program: cmd/sawmill/sawmill.go, `processInput`

With `bufio.Scanner` and `bufio.ScanLines`, `strings.TrimSpace` and `json.Encoder` of the standard library (Go 1.17).

Simplifications. The scanner runs through the whole input before the first line is processed; in Go reading and processing alternate, but neither depends on the other. A `Read` returns data or an error, not both, as `os.Stdin` does. The processors are those that the
program registers (`Builtin`). Flags, profiles, the metrics listener, and the YAML decoding of the pipeline file are not modelled. Log messages are reduced to line number and reason. `json.Encoder.SetEscapeHTML(false)` is not modelled: it does not reach the nested
`json.Marshal` calls of `MarshalJSON`, and `compact` then only leaves the text as it is.
-/

namespace Sawmill

/-! ## strings.TrimSpace (standard library) -/

/-- `unicode.IsSpace`. -/
def isSpaceRune (n : Nat) : Bool :=
  (9 ≤ n && n ≤ 13) || n = 32 || n = 0x85 || n = 0xA0 || n = 0x1680 || (0x2000 ≤ n && n ≤ 0x200A) || n = 0x2028 || n = 0x2029 || n = 0x202F || n = 0x205F || n = 0x3000

/-- `strings.TrimLeftFunc(s, unicode.IsSpace)`. -/
def trimLeft : Nat → Bytes → Bytes
  | 0, s => s
  | _ + 1, [] => []
  | n + 1, b :: r =>
    if b.toNat < 128 then (if isSpaceRune b.toNat then trimLeft n r else b :: r)
    else match multi (b :: r) with
      | none => b :: r
      | some (m, r') => if isSpaceRune (runeValue m) then trimLeft n r' else b :: r

/-- The suffix of length `k`. -/
def lastBytes (k : Nat) (s : Bytes) : Bytes := s.drop (s.length - k)

/-- How many bytes from the end the search of `utf8.DecodeLastRuneInString` for the start of a rune stops: at most four. -/
def lastStart (s : Bytes) : Nat :=
  if (lastBytes 2 s).head?.map isCont ≠ some true then 2
  else if (lastBytes 3 s).head?.map isCont ≠ some true then 3
  else 4

/-- `utf8.DecodeLastRuneInString` on text that does not end in an ASCII byte: the bytes of the last code point, or nothing if it is invalid. -/
def lastMulti (s : Bytes) : Option Bytes :=
  match multi (lastBytes (lastStart s) s) with
  | some (m, []) => some m
  | _ => none

/-- `strings.TrimRightFunc(s, unicode.IsSpace)`. -/
def trimRight : Nat → Bytes → Bytes
  | 0, s => s
  | n + 1, s =>
    match s.getLast? with
    | none => []
    | some b =>
      if b.toNat < 128 then (if isSpaceRune b.toNat then trimRight n s.dropLast else s)
      else match lastMulti s with
        | none => s
        | some m => if isSpaceRune (runeValue m) then trimRight n (s.take (s.length - m.length)) else s

/-- `strings.TrimSpace`. -/
def trimSpace (s : Bytes) : Bytes :=
  let t := trimLeft s.length s
  trimRight t.length t

/-! ## bufio.Scanner (standard library) -/

inductive ScanErr where
  | tooLong
  | noProgress
  | read
deriving DecidableEq, Repr

/-- What the reader will do: the data of each `Read` (as far as the buffer has room for it), and then EOF or an error. -/
structure Input where
  chunks : List Bytes
  fails : Bool := false

/-- `bufio.Scanner`: the part of the buffer that holds unscanned data, where it starts, the size of the buffer, what the reader has not delivered yet; `stopped`: an error has been returned by the reader (`none` inside: EOF). -/
structure Scanner where
  data : Bytes := []
  start : Nat := 0
  cap : Nat := 0
  chunks : List Bytes
  fails : Bool
  stopped : Option (Option ScanErr) := none

/-- `bufio.MaxScanTokenSize`. -/
def maxScanTokenSize : Nat := 65536

/-- `dropCR`. -/
def dropCR (s : Bytes) : Bytes := if s.getLast? = some 13 then s.dropLast else s

/-- `bufio.ScanLines`: how far to advance, and the token. -/
def scanLine (data : Bytes) (atEOF : Bool) : Option (Nat × Bytes) :=
  if atEOF && data.isEmpty then none
  else
    let l := data.takeWhile (· ≠ 10)
    if l.length < data.length then some (l.length + 1, dropCR l)
    else if atEOF then some (data.length, dropCR data)
    else none

/-- The loop that reads until there is data or an error. -/
def readLoop (room : Nat) (fails : Bool) : Nat → List Bytes → Bytes × List Bytes × Option (Option ScanErr)
  | _, [] => ([], [], some (if fails then some .read else none))
  | loop, [] :: cs => if loop + 1 > 100 then ([], cs, some (some .noProgress)) else readLoop room fails (loop + 1) cs
  | _, (b :: c) :: cs => if (b :: c).length ≤ room then (b :: c, cs, none) else ((b :: c).take room, (b :: c).drop room :: cs, none)

/-- Making room: shifting and growing the buffer; nothing if the buffer is full and as large as it may get. -/
def Scanner.makeRoom (s : Scanner) : Option Scanner :=
  let s := if 0 < s.start ∧ (s.start + s.data.length = s.cap ∨ s.cap / 2 < s.start) then { s with start := 0 } else s
  if s.start + s.data.length = s.cap then
    if maxScanTokenSize ≤ s.cap then none
    else
      let newSize := if s.cap * 2 = 0 then 4096 else s.cap * 2
      some { s with start := 0, cap := if maxScanTokenSize < newSize then maxScanTokenSize else newSize }
  else some s

/-- Reading into the buffer. -/
def Scanner.read (s : Scanner) : Scanner :=
  let (d, cs, e) := readLoop (s.cap - (s.start + s.data.length)) s.fails 0 s.chunks
  { s with data := s.data ++ d, chunks := cs, stopped := e }

/-- The tokens of all calls of `Scan` until it returns false, and `Err()`. Each round of the loop in `Scan` uses up one of `n`. -/
def Scanner.tokens : Nat → Scanner → List Bytes × Option ScanErr
  | 0, _ => ([], none)
  | n + 1, s =>
    match (if s.data ≠ [] ∨ s.stopped.isSome then scanLine s.data s.stopped.isSome else none) with
    | some (adv, tok) =>
      let (ts, e) := Scanner.tokens n { s with data := s.data.drop adv, start := s.start + adv }
      (tok :: ts, e)
    | none =>
      match s.stopped with
      | some e => ([], e)
      | none =>
        match s.makeRoom with
        | none => ([], some .tooLong)
        | some s => Scanner.tokens n s.read

/-- `bufio.NewScanner(in)` and all its tokens. -/
def scanAll (i : Input) : List Bytes × Option ScanErr :=
  Scanner.tokens (2 * i.chunks.flatten.length + 2) { chunks := i.chunks, fails := i.fails }

/-! ## processInput -/

/-- The event for a line: sawmill.go:135-137. The results of `Put` are ignored. -/
def lineEvent (h : Heap) (number : Nat) (line : Bytes) : Res (Heap × Event) :=
  let (h, a) := h.alloc (.cell (uintCell (BitVec.ofNat 64 number)))
  match apiPut h newEvent (lit "@metadata.line_number") (some a) with
  | .panic => .panic
  | .ok (h, e, _, _) =>
    let (h, a) := h.alloc (.cell (strCell line))
    match apiPut h e (lit "event.original") (some a) with
    | .panic => .panic
    | .ok (h, e, _, _) => .ok (h, e)

/-- A new event for the line is given to `Process`: sawmill.go:134-140. -/
def handleLine (cv : Conv) (p : Pipeline Builtin (Option Err)) (w : PWorld Heap) (number : Nat) (line : Bytes) : Res (PWorld Heap × Handled) :=
  match lineEvent w.world number line with
  | .panic => .panic
  | .ok we =>
    match p.process (builtinCall cv) () ⟨we, w.counts, w.log⟩ with
    | .panic => .panic
    | .ok (w', ret, err) => .ok (⟨w'.world.1, w'.counts, w'.log⟩, ⟨ret, err, w'.world.1, w'.world.2⟩)

/-- What is logged: an error of `Process`, or of `Encode`. -/
inductive CliLog where
  | process (number : Nat) (err : Err)
  | encode (number : Nat)

/-- How `processInput` ends: it returns nil or an error, a processor panics, or the stack is exhausted. -/
inductive CliEnd where
  | done
  | readFailed (e : ScanErr)
  | panic
  | overflow
deriving DecidableEq

/-- The state of the loop: sawmill.go:119-151. `out` is what has been written, `writes` how many `Write` calls there were, `broken` that one has failed (`Encoder.err`). -/
structure Cli where
  world : PWorld Heap
  number : Nat := 0
  out : Bytes := []
  writes : Nat := 0
  broken : Bool := false
  log : List CliLog := []

/-- The writer: whether the i-th `Write` fails, and after how many bytes. -/
abbrev Writer := Nat → Option Nat

/-- `json.Encoder.Encode`: sawmill.go:146-149. After a failed `Write` it only returns that error again. -/
def Cli.encode (env : JEnv) (n : Nat) (wr : Writer) (s : Cli) (r : Handled) : Except CliEnd Cli :=
  if s.broken then .ok { s with log := s.log ++ [.encode s.number] }
  else
    match (match r.returned with
      | none => .ok (lit "null")
      | some _ => marshalEvent env n r.heap r.event : JOut Bytes) with
    | .fuel => .error .overflow
    | .error => .ok { s with log := s.log ++ [.encode s.number] }
    | .ok bs =>
      match wr s.writes with
      | none => .ok { s with out := s.out ++ (bs ++ [10]), writes := s.writes + 1 }
      | some k => .ok { s with out := s.out ++ (bs ++ [10]).take k, writes := s.writes + 1, broken := true, log := s.log ++ [.encode s.number] }

/-- One round of the loop: sawmill.go:125-151. -/
def Cli.line (env : JEnv) (n : Nat) (cv : Conv) (p : Pipeline Builtin (Option Err)) (wr : Writer) (s : Cli) (token : Bytes) : Except CliEnd Cli :=
  let s := { s with number := s.number + 1 }
  let line := trimSpace token
  if line = [] then .ok s
  else
    match handleLine cv p s.world s.number line with
    | .panic => .error .panic
    | .ok (w, r) =>
      let s := { s with world := w }
      match r.err with
      | some err => .ok { s with log := s.log ++ [.process s.number err] }
      | none => s.encode env n wr r

/-- The loop: the state at the end (when the program crashes: before the line that did it), and the crash if there was one. -/
def Cli.lines (env : JEnv) (n : Nat) (cv : Conv) (p : Pipeline Builtin (Option Err)) (wr : Writer) : Cli → List Bytes → Cli × Option CliEnd
  | s, [] => (s, none)
  | s, t :: ts =>
    match s.line env n cv p wr t with
    | .error e => (s, some e)
    | .ok s => Cli.lines env n cv p wr s ts

/-- `processInput`: sawmill.go:118-156. -/
def processInput (env : JEnv) (n : Nat) (cv : Conv) (p : Pipeline Builtin (Option Err)) (wr : Writer) (i : Input) (w : PWorld Heap) : Cli × CliEnd :=
  let (tokens, err) := scanAll i
  match Cli.lines env n cv p wr { world := w } tokens with
  | (s, some e) => (s, e)
  | (s, none) => (s, match err with
    | some e => .readFailed e
    | none => .done)

end Sawmill
