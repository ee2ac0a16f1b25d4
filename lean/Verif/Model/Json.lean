import Verif.Model.Heap
import Verif.Model.Time
/-!
# JSON: encoding/json of the standard library, and events as JSON (pkg/event/value.go, event.go)

The standard library's encoder and decoder are modelled on bytes, after Go 1.17: strings with their escapes and UTF-8 decoding, the number syntax, and the limit of 10000 on the nesting depth.

Simplifications. Formatting and parsing of floats are parameters. Errors carry no text. The scanner is a recursive function and not a state machine with a stack; what it accepts is characterized in Props/Json.lean. The decoder is run on the parsed document:
in Go, `UnmarshalJSON` of an inner value is handed the bytes of that value and parses them again. `compact`, which encoding/json applies to the result of every `MarshalJSON`, is only modelled as the validity check that it contains: it would also
remove spaces and escape `<`, `>`, `&`, U+2028 and U+2029, none of which `json.Marshal` produces outside of escapes. Stack depth is not limited.
-/

namespace Sawmill

/-- A parsed document: a number is its literal, an object's entries are in the order of the text. -/
inductive Json where
  | null
  | bool (b : Bool)
  | num (lit : Bytes)
  | str (s : Bytes)
  | arr (items : List Json)
  | obj (entries : List (Bytes × Json))

/-! ## UTF-8 (standard library, unicode/utf8) -/

/-- A continuation byte. -/
def isCont (b : UInt8) : Bool := 128 ≤ b.toNat && b.toNat < 192

/-- `utf8.DecodeRune` on text that does not start with an ASCII byte: the bytes of the first code point and the rest, or nothing if there is no valid encoding (Go then reports one byte as invalid). -/
def multi : Bytes → Option (Bytes × Bytes)
  | a :: b :: r =>
    if 0xC2 ≤ a.toNat ∧ a.toNat ≤ 0xDF then
      if isCont b then some ([a, b], r) else none
    else
      match r with
      | [] => none
      | c :: r =>
        if 0xE0 ≤ a.toNat ∧ a.toNat ≤ 0xEF then
          if isCont b && isCont c && (a.toNat ≠ 0xE0 || 0xA0 ≤ b.toNat) && (a.toNat ≠ 0xED || b.toNat ≤ 0x9F) then some ([a, b, c], r) else none
        else
          match r with
          | [] => none
          | d :: r =>
            if 0xF0 ≤ a.toNat ∧ a.toNat ≤ 0xF4 then
              if isCont b && isCont c && isCont d && (a.toNat ≠ 0xF0 || 0x90 ≤ b.toNat) && (a.toNat ≠ 0xF4 || b.toNat ≤ 0x8F) then some ([a, b, c, d], r) else none
            else none
  | _ => none

/-- `utf8.EncodeRune`. -/
def encodeRune (n : Nat) : Bytes :=
  if n < 0x80 then [UInt8.ofNat n]
  else if n < 0x800 then [UInt8.ofNat (0xC0 + n / 64), UInt8.ofNat (0x80 + n % 64)]
  else if n < 0x10000 then [UInt8.ofNat (0xE0 + n / 4096), UInt8.ofNat (0x80 + n / 64 % 64), UInt8.ofNat (0x80 + n % 64)]
  else [UInt8.ofNat (0xF0 + n / 262144), UInt8.ofNat (0x80 + n / 4096 % 64), UInt8.ofNat (0x80 + n / 64 % 64), UInt8.ofNat (0x80 + n % 64)]

/-- The encoding of U+FFFD. -/
def replacement : Bytes := [0xEF, 0xBF, 0xBD]

/-! ## Strings -/

/-- A lower case hexadecimal digit. -/
def hexDigit (n : Nat) : UInt8 := if n < 10 then UInt8.ofNat (48 + n) else UInt8.ofNat (87 + n)

/-- The code point that the bytes of one rune stand for (standard library, unicode/utf8 `DecodeRune`). -/
def runeValue : Bytes → Nat
  | [a] => a.toNat
  | [a, b] => (a.toNat - 0xC0) * 64 + (b.toNat - 0x80)
  | [a, b, c] => (a.toNat - 0xE0) * 4096 + (b.toNat - 0x80) * 64 + (c.toNat - 0x80)
  | [a, b, c, d] => (a.toNat - 0xF0) * 262144 + (b.toNat - 0x80) * 4096 + (c.toNat - 0x80) * 64 + (d.toNat - 0x80)
  | _ => 0

/-- The loop of `encodeState.string` with `escapeHTML` (standard library, encoding/json/encode.go). -/
def encChars : Nat → Bytes → Bytes
  | 0, _ => []
  | _ + 1, [] => []
  | n + 1, b :: r =>
    if b.toNat < 128 then
      (if b = 34 ∨ b = 92 then [92, b]
      else if b = 10 then [92, 110]
      else if b = 13 then [92, 114]
      else if b = 9 then [92, 116]
      else if b.toNat < 32 ∨ b = 60 ∨ b = 62 ∨ b = 38 then [92, 117, 48, 48, hexDigit (b.toNat / 16), hexDigit (b.toNat % 16)]
      else [b]) ++ encChars n r
    else
      match multi (b :: r) with
      | none => [92, 117, 102, 102, 102, 100] ++ encChars n r
      | some (m, r') =>
        (if m = [0xE2, 0x80, 0xA8] then [92, 117, 50, 48, 50, 56]
        else if m = [0xE2, 0x80, 0xA9] then [92, 117, 50, 48, 50, 57]
        else m) ++ encChars n r'

def encStr (s : Bytes) : Bytes := 34 :: (encChars s.length s ++ [34])

/-- The value of a hexadecimal digit. -/
def hexVal (b : UInt8) : Option Nat :=
  if 48 ≤ b.toNat ∧ b.toNat ≤ 57 then some (b.toNat - 48)
  else if 97 ≤ b.toNat ∧ b.toNat ≤ 102 then some (b.toNat - 87)
  else if 65 ≤ b.toNat ∧ b.toNat ≤ 70 then some (b.toNat - 55)
  else none

/-- `getu4` (standard library, encoding/json/decode.go), after the `\u`. -/
def hex4 : Bytes → Option (Nat × Bytes)
  | a :: b :: c :: d :: r =>
    match hexVal a, hexVal b, hexVal c, hexVal d with
    | some a, some b, some c, some d => some (((a * 16 + b) * 16 + c) * 16 + d, r)
    | _, _, _, _ => none
  | _ => none

/-- The character of a two-character escape. -/
def simpleEscape (c : UInt8) : Option UInt8 :=
  if c = 34 ∨ c = 92 ∨ c = 47 then some c
  else if c = 98 then some 8
  else if c = 102 then some 12
  else if c = 110 then some 10
  else if c = 114 then some 13
  else if c = 116 then some 9
  else none

/-- A low surrogate escape. -/
def lowEscape : Bytes → Option (Nat × Bytes)
  | 92 :: 117 :: r =>
    match hex4 r with
    | some (n, r) => if 0xDC00 ≤ n ∧ n ≤ 0xDFFF then some (n, r) else none
    | none => none
  | _ => none

/-- Scanning and unquoting a string, from behind the opening quote: the scanner's string states and `unquote` (standard library, encoding/json/scanner.go and decode.go). The string and what follows the closing quote. -/
def unquote : Nat → Bytes → Option (Bytes × Bytes)
  | 0, _ => none
  | _ + 1, [] => none
  | n + 1, b :: r =>
    if b = 34 then some ([], r)
    else if b = 92 then
      match r with
      | [] => none
      | c :: r =>
        if c = 117 then
          match hex4 r with
          | none => none
          | some (u, r) =>
            if 0xD800 ≤ u ∧ u ≤ 0xDFFF then
              match (if u ≤ 0xDBFF then lowEscape r else none) with
              | some (u2, r') => (unquote n r').map fun x => (encodeRune (0x10000 + (u - 0xD800) * 1024 + (u2 - 0xDC00)) ++ x.1, x.2)
              | none => (unquote n r).map fun x => (replacement ++ x.1, x.2)
            else (unquote n r).map fun x => (encodeRune u ++ x.1, x.2)
        else
          match simpleEscape c with
          | none => none
          | some e => (unquote n r).map fun x => (e :: x.1, x.2)
    else if b.toNat < 32 then none
    else if b.toNat < 128 then (unquote n r).map fun x => (b :: x.1, x.2)
    else
      match multi (b :: r) with
      | some (m, r') => (unquote n r').map fun x => (m ++ x.1, x.2)
      | none => (unquote n r).map fun x => (replacement ++ x.1, x.2)

/-! ## Numbers -/

/-- The scanner's states inside a number (standard library, encoding/json/scanner.go). -/
inductive NState where
  | neg | one | zero | dot | dot0 | e | esign | e0

/-- The next state, or nothing if the byte does not continue the number. -/
def NState.step (s : NState) (b : UInt8) : Option NState :=
  match s with
  | .neg => if b = 48 then some .zero else if isDigit b then some .one else none
  | .one => if isDigit b then some .one else if b = 46 then some .dot else if b = 101 ∨ b = 69 then some .e else none
  | .zero => if b = 46 then some .dot else if b = 101 ∨ b = 69 then some .e else none
  | .dot => if isDigit b then some .dot0 else none
  | .dot0 => if isDigit b then some .dot0 else if b = 101 ∨ b = 69 then some .e else none
  | .e => if b = 43 ∨ b = 45 then some .esign else if isDigit b then some .e0 else none
  | .esign => if isDigit b then some .e0 else none
  | .e0 => if isDigit b then some .e0 else none

/-- The number may end here. -/
def NState.final : NState → Bool
  | .one | .zero | .dot0 | .e0 => true
  | _ => false

/-- The rest of a number and what follows it. -/
def scanNum : NState → Bytes → Option (Bytes × Bytes)
  | s, [] => if s.final then some ([], []) else none
  | s, b :: r =>
    match s.step b with
    | some s' => (scanNum s' r).map fun x => (b :: x.1, x.2)
    | none => if s.final then some ([], b :: r) else none

/-! ## Documents -/

def isWs (b : UInt8) : Bool := b = 32 || b = 9 || b = 10 || b = 13

/-- The items of an array from the first one, to behind the closing bracket. -/
def parseItems (value : Bytes → Option (Json × Bytes)) : Nat → Bytes → Option (List Json × Bytes)
  | 0, _ => none
  | n + 1, bs =>
    match value bs with
    | none => none
    | some (v, r) =>
      match r.dropWhile isWs with
      | 44 :: r => (parseItems value n r).map fun x => (v :: x.1, x.2)
      | 93 :: r => some ([v], r)
      | _ => none

/-- The entries of an object from the first name, to behind the closing brace. -/
def parseEntries (value : Bytes → Option (Json × Bytes)) : Nat → Bytes → Option (List (Bytes × Json) × Bytes)
  | 0, _ => none
  | n + 1, bs =>
    match bs.dropWhile isWs with
    | 34 :: r =>
      match unquote r.length r with
      | none => none
      | some (k, r) =>
        match r.dropWhile isWs with
        | 58 :: r =>
          match value r with
          | none => none
          | some (v, r) =>
            match r.dropWhile isWs with
            | 44 :: r => (parseEntries value n r).map fun x => ((k, v) :: x.1, x.2)
            | 125 :: r => some ([(k, v)], r)
            | _ => none
        | _ => none
    | _ => none

/-- A value, after spaces, and what follows it (standard library, encoding/json/scanner.go and decode.go). The number is the nesting depth that is still allowed. -/
def parseValue : Nat → Bytes → Option (Json × Bytes)
  | d, bs =>
    match bs.dropWhile isWs with
    | [] => none
    | b :: r =>
      if b = 34 then (unquote r.length r).map fun x => (.str x.1, x.2)
      else if b = 91 then
        match d with
        | 0 => none
        | d + 1 =>
          match r.dropWhile isWs with
          | 93 :: r => some (.arr [], r)
          | _ => (parseItems (parseValue d) r.length r).map fun x => (.arr x.1, x.2)
      else if b = 123 then
        match d with
        | 0 => none
        | d + 1 =>
          match r.dropWhile isWs with
          | 125 :: r => some (.obj [], r)
          | _ => (parseEntries (parseValue d) r.length r).map fun x => (.obj x.1, x.2)
      else if b = 116 then match r with
        | 114 :: 117 :: 101 :: r => some (.bool true, r)
        | _ => none
      else if b = 102 then match r with
        | 97 :: 108 :: 115 :: 101 :: r => some (.bool false, r)
        | _ => none
      else if b = 110 then match r with
        | 117 :: 108 :: 108 :: r => some (.null, r)
        | _ => none
      else if b = 45 then (scanNum .neg r).map fun x => (.num (b :: x.1), x.2)
      else if b = 48 then (scanNum .zero r).map fun x => (.num (b :: x.1), x.2)
      else if isDigit b then (scanNum .one r).map fun x => (.num (b :: x.1), x.2)
      else none

/-- `maxNestingDepth` (standard library, encoding/json/scanner.go). -/
def maxNestingDepth : Nat := 10000

/-- A whole text: `checkValid` and the scan of `Unmarshal` (standard library). -/
def parseDoc (bs : Bytes) : Option Json :=
  match parseValue maxNestingDepth bs with
  | some (v, r) => if r.dropWhile isWs = [] then some v else none
  | none => none

/-! ## Encoding events -/

/-- The parameters: a finite float64 as text (`floatEncoder`), and `strconv.ParseFloat(s, 64)`, which fails if the number is too large. -/
structure JEnv where
  ftoa : BitVec 64 → Bytes
  atof : Bytes → Option (BitVec 64)

/-- Not an infinity and not NaN: the exponent bits are not all set. -/
def finite (f : BitVec 64) : Bool := f.toNat / 2 ^ 52 % 2 ^ 11 ≠ 2047

/-- The outcome of encoding; `fuel`: the recursion is deeper than the bound (if for every bound: Go exhausts the stack). -/
inductive JOut (α : Type) where
  | ok (x : α)
  | error
  | fuel
deriving DecidableEq

/-- `strconv.AppendInt`. -/
def intText (i : Int) : Bytes := (if i < 0 then [45] else []) ++ itoa i.natAbs

/-- `compact` on the result of a `MarshalJSON` method. -/
def compact (bs : Bytes) : JOut Bytes := if (parseDoc bs).isSome then .ok bs else .error

def JOut.bind {α β : Type} (x : JOut α) (f : α → JOut β) : JOut β :=
  match x with
  | .ok x => f x
  | .error => .error
  | .fuel => .fuel

/-- A loop that encodes each element and puts commas in between (standard library, encoding/json: `arrayEncoder`, `mapEncoder`). -/
def joinText {α : Type} (f : α → JOut Bytes) : List α → JOut Bytes
  | [] => .ok []
  | [x] => f x
  | x :: xs => (f x).bind fun a => (joinText f xs).bind fun b => .ok (a ++ 44 :: b)

/-- `Value.MarshalJSON` with `Value.value`: pkg/event/value.go:76-99, 106-110, as called by encoding/json on a `*Value` (a nil one is `null`). `mapEncoder` sorts the keys, and the model's maps are listed in that order. -/
def marshalPtr (env : JEnv) (h : Heap) : Nat → Ptr → JOut Bytes
  | 0, _ => .fuel
  | n + 1, p =>
    match deref h p with
    | none => .ok (lit "null")
    | some c =>
      (match c.type with
      | .array =>
        match c.array with
        | none => .ok (lit "null")
        | some ps => (joinText (marshalPtr env h n) ps).bind fun t => .ok (91 :: (t ++ [93]))
      | .bool => .ok (if c.bool then lit "true" else lit "false")
      | .float => if finite c.float then .ok (env.ftoa c.float) else .error
      | .integer => .ok (intText c.integer.toInt)
      | .object =>
        match c.object with
        | none => .ok (lit "null")
        | some m => (joinText (fun e : Bytes × Ptr => (marshalPtr env h n e.2).bind fun t => .ok (encStr e.1 ++ 58 :: t)) (mapOf h (some m))).bind fun t => .ok (123 :: (t ++ [125]))
      | .string => .ok (encStr c.string)
      | .timestamp => compact (timeMarshalJSON c.timestamp.toInt)
      | .unsigned => .ok (itoa c.unsigned.toNat)
      | .null => .ok (lit "null")
      | .unknown => .ok (lit "null") : JOut Bytes).bind compact

/-- `json.Marshal` of a `*Event`, which calls `Event.MarshalJSON`: pkg/event/event.go:140-142. -/
def marshalEvent (env : JEnv) (n : Nat) (h : Heap) (e : Event) : JOut Bytes :=
  (match e with
  | none => .ok (lit "null")
  | some m => (joinText (fun e : Bytes × Ptr => (marshalPtr env h n e.2).bind fun t => .ok (encStr e.1 ++ 58 :: t)) (mapOf h (some m))).bind fun t => .ok (123 :: (t ++ [125])) : JOut Bytes).bind compact

/-! ## Decoding events -/

mutual
/-- Decoding into a new `*Value` (an element of a slice or map): `null` gives a nil pointer without calling `UnmarshalJSON`; otherwise `Value.UnmarshalJSON`: pkg/event/value.go:112-157. Nothing is the outcome if it fails. The case `int64` there never applies:
a number is a float64. -/
def decodePtr (env : JEnv) : Json → Heap → Option (Heap × Ptr)
  | .null, h => some (h, none)
  | .bool b, h => some (h ++ [.cell (boolCell b)], some h.length)
  | .num lit, h =>
    match env.atof lit with
    | none => none
    | some f => some (h ++ [.cell (floatCell f)], some h.length)
  | .str s, h => some (h ++ [.cell (strCell s)], some h.length)
  | .arr items, h =>
    match decodeItems env items h with
    | none => none
    | some (h, ps) => some (h ++ [.cell (arrCell (some ps))], some h.length)
  | .obj entries, h =>
    match decodeEntries env h.length entries (h ++ [.map []]) with
    | none => none
    | some h' => some (h' ++ [.cell (objCell (some h.length))], some h'.length)
/-- The elements of a new slice. -/
def decodeItems (env : JEnv) : List Json → Heap → Option (Heap × List Ptr)
  | [], h => some (h, [])
  | j :: js, h =>
    match decodePtr env j h with
    | none => none
    | some (h, p) =>
      match decodeItems env js h with
      | none => none
      | some (h, ps) => some (h, p :: ps)
/-- The entries of the map at `m`. -/
def decodeEntries (env : JEnv) (m : Nat) : List (Bytes × Json) → Heap → Option Heap
  | [], h => some h
  | (k, j) :: es, h =>
    match decodePtr env j h with
    | none => none
    | some (h, p) =>
      match mapWrite h (some m) k p with
      | .panic => none
      | .ok h => decodeEntries env m es h
end

/-- `json.Unmarshal` into an `*Event`, which calls `Event.UnmarshalJSON`: pkg/event/event.go:144-151. Nothing is the outcome if it returns an error (the event is then unchanged). -/
def unmarshalEvent (env : JEnv) (bs : Bytes) (h : Heap) : Option (Heap × Event) :=
  match parseDoc bs with
  | some .null => some (h, none)
  | some (.obj entries) => (decodeEntries env h.length entries (h ++ [.map []])).map fun h' => (h', some h.length)
  | _ => none

end Sawmill
