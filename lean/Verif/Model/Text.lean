import Verif.Model.Processors
import Verif.Model.Json
/-!
# What the string conversions do: `strings.ToLower`, `strings.ToUpper`

`lowercase` and `uppercase` call `strings.ToLower` and `strings.ToUpper` (pkg/processor/lowercase/process.go:41, pkg/processor/uppercase/process.go:41), which are modelled here on bytes, after Go 1.17 (strings/strings.go, unicode/letter.go).

Simplification: the Unicode tables are a parameter, which is consulted for characters that are not ASCII; they map code points to code points (`unicode.To` returns no surrogates and nothing above U+10FFFF for characters).
-/

namespace Sawmill

/-- What the Unicode tables say (`unicode.CaseRanges`). -/
structure CaseTable where
  lower : Char → Char
  upper : Char → Char

/-- `unicode.ToLower`. -/
def unicodeLower (t : CaseTable) (c : Char) : Char :=
  if c.toNat ≤ 0x7F then (if 65 ≤ c.toNat ∧ c.toNat ≤ 90 then Char.ofNat (c.toNat + 32) else c) else t.lower c

/-- `unicode.ToUpper`. -/
def unicodeUpper (t : CaseTable) (c : Char) : Char :=
  if c.toNat ≤ 0x7F then (if 97 ≤ c.toNat ∧ c.toNat ≤ 122 then Char.ofNat (c.toNat - 32) else c) else t.upper c

/-- `utf8.RuneError`. -/
def runeError : Char := Char.ofNat 0xFFFD

/-- `utf8.DecodeRuneInString` (and one step of `range` over a string), for a text that is not empty: the rune and its width. -/
def decodeRune : Bytes → Char × Nat
  | [] => (runeError, 0)
  | b :: r =>
    if b.toNat < 128 then (Char.ofNat b.toNat, 1)
    else match multi (b :: r) with
      | some (m, _) => (Char.ofNat (runeValue m), m.length)
      | none => (runeError, 1)

/-- The first loop of `strings.Map`, up to the first character that changes: what has been written, and the text that is left. Nothing if no character changes. `pre` is `s[:i]`; the first argument bounds the number of rounds. -/
def mapScan (f : Char → Char) : Nat → Bytes → Bytes → Option (Bytes × Bytes)
  | 0, _, _ => none
  | _ + 1, _, [] => none
  | n + 1, pre, b :: r =>
    let (c, w) := decodeRune (b :: r)
    if f c = c ∧ c ≠ runeError then mapScan f n (pre ++ (b :: r).take w) ((b :: r).drop w)
    else if c = runeError ∧ w ≠ 1 ∧ f c = c then mapScan f n (pre ++ (b :: r).take w) ((b :: r).drop w)
    else some (pre ++ encodeRune (f c).toNat, (b :: r).drop (if c = runeError then w else (encodeRune c.toNat).length))

/-- The second loop of `strings.Map`. -/
def mapRest (f : Char → Char) : Nat → Bytes → Bytes
  | 0, _ => []
  | _ + 1, [] => []
  | n + 1, b :: r =>
    let (c, w) := decodeRune (b :: r)
    (if (f c).toNat < 128 then [UInt8.ofNat (f c).toNat] else encodeRune (f c).toNat) ++ mapRest f n ((b :: r).drop w)

/-- `strings.Map`. -/
def mapString (f : Char → Char) (s : Bytes) : Bytes :=
  match mapScan f s.length [] s with
  | none => s
  | some (out, rest) => out ++ mapRest f rest.length rest

/-- `strings.ToLower`. -/
def toLower (t : CaseTable) (s : Bytes) : Bytes :=
  if s.all (fun c => c.toNat < 128) then
    if s.any (fun c => 65 ≤ c.toNat && c.toNat ≤ 90) then s.map fun c => if 65 ≤ c.toNat ∧ c.toNat ≤ 90 then c + 32 else c
    else s
  else mapString (unicodeLower t) s

/-- `strings.ToUpper`. -/
def toUpper (t : CaseTable) (s : Bytes) : Bytes :=
  if s.all (fun c => c.toNat < 128) then
    if s.any (fun c => 97 ≤ c.toNat && c.toNat ≤ 122) then s.map fun c => if 97 ≤ c.toNat ∧ c.toNat ≤ 122 then c - 32 else c
    else s
  else mapString (unicodeUpper t) s

/-- The conversions of the processors. -/
def goConv (t : CaseTable) : Conv := ⟨toLower t, toUpper t⟩

end Sawmill
