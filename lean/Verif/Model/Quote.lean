import Verif.Model.Json
/-!
# Quoted strings: `strconv.Quote`, which `%q` uses

Standard library (Go 1.17), strconv/quote.go. The code quotes names in pkg/processor/registry/registry.go:63 and :76. For code points from 128 on, the tables of printable characters (strconv/isprint.go) are a parameter.
-/

namespace Sawmill

/-- `strconv.IsPrint`. -/
def isPrintRune (pr : Nat → Bool) (n : Nat) : Bool := if n < 128 then 32 ≤ n && n ≤ 126 else pr n

/-- `appendEscapedRune` with quote `"`; `m` holds the bytes of the rune. -/
def escRune (pr : Nat → Bool) (n : Nat) (m : Bytes) : Bytes :=
  if n = 34 ∨ n = 92 then 92 :: m
  else if isPrintRune pr n then m
  else if n = 7 then lit "\\a"
  else if n = 8 then lit "\\b"
  else if n = 12 then lit "\\f"
  else if n = 10 then lit "\\n"
  else if n = 13 then lit "\\r"
  else if n = 9 then lit "\\t"
  else if n = 11 then lit "\\v"
  else if n < 32 ∨ n = 127 then lit "\\x" ++ [hexDigit (n / 16), hexDigit (n % 16)]
  else if n < 0x10000 then lit "\\u" ++ [hexDigit (n / 4096), hexDigit (n / 256 % 16), hexDigit (n / 16 % 16), hexDigit (n % 16)]
  else lit "\\U" ++ [hexDigit (n / 268435456), hexDigit (n / 16777216 % 16), hexDigit (n / 1048576 % 16), hexDigit (n / 65536 % 16),
    hexDigit (n / 4096 % 16), hexDigit (n / 256 % 16), hexDigit (n / 16 % 16), hexDigit (n % 16)]

/-- The loop of `appendQuotedWith`. -/
def quoteChars (pr : Nat → Bool) : Nat → Bytes → Bytes
  | 0, _ => []
  | _ + 1, [] => []
  | k + 1, b :: r =>
    if b.toNat < 128 then escRune pr b.toNat [b] ++ quoteChars pr k r
    else match multi (b :: r) with
      | none => lit "\\x" ++ [hexDigit (b.toNat / 16), hexDigit (b.toNat % 16)] ++ quoteChars pr k r
      | some (m, r') => escRune pr (runeValue m) m ++ quoteChars pr k r'

/-- `strconv.Quote`. -/
def goQuote (pr : Nat → Bool) (s : Bytes) : Bytes := 34 :: (quoteChars pr s.length s ++ [34])

end Sawmill
