import Verif.Spec.Json
/-!
# Interpreted string literals (The Go Programming Language Specification, "String literals")
-/

namespace Sawmill
open Rfc

/-- The escapes of one letter, and what they stand for. -/
def goEscapes : List (UInt8 × UInt8) := [(97, 7), (98, 8), (102, 12), (110, 10), (114, 13), (116, 9), (118, 11), (92, 92), (34, 34)]

/-- The text between the quotes of an interpreted string literal of Go, and the string that it denotes. (Octal escapes are left out: nothing here writes them.) -/
inductive GoLit : Bytes → Bytes → Prop where
  | nil : GoLit [] []
  | char (c : Char) (t s : Bytes) (h1 : c ≠ '"') (h2 : c ≠ '\\') (h3 : c ≠ '\n') (h : GoLit t s) : GoLit (utf8 c ++ t) (utf8 c ++ s)
  | escape (e v : UInt8) (t s : Bytes) (he : (e, v) ∈ goEscapes) (h : GoLit t s) : GoLit (92 :: e :: t) (v :: s)
  | byte (a b : UInt8) (x y : Nat) (t s : Bytes) (ha : HexDigit a x) (hb : HexDigit b y) (h : GoLit t s) : GoLit (92 :: 120 :: a :: b :: t) (UInt8.ofNat (x * 16 + y) :: s)
  | short (u : Bytes) (c : Char) (t s : Bytes) (hu : Hex4 u c.toNat) (h : GoLit t s) : GoLit (92 :: 117 :: (u ++ t)) (utf8 c ++ s)
  | long (u w : Bytes) (c : Char) (hi lo : Nat) (t s : Bytes) (hu : Hex4 u hi) (hw : Hex4 w lo) (hc : c.toNat = hi * 65536 + lo) (h : GoLit t s) : GoLit (92 :: 85 :: (u ++ (w ++ t))) (utf8 c ++ s)

end Sawmill
