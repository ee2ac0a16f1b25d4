import Verif.Model.Json
import Verif.Spec.Reads
import Verif.Spec.Time
/-!
# JSON texts (RFC 8259), and what an event says in JSON

UTF-8 is Lean's own definition (`String.utf8EncodeChar`).
-/

namespace Sawmill.Rfc

/-- The UTF-8 encoding of a character. -/
abbrev utf8 (c : Char) : Bytes := String.utf8EncodeChar c

/-- U+FFFD, which stands for a byte that is not part of valid UTF-8. -/
def repl : Char := '\uFFFD'

/-! ## Strings -/

/-- A hexadecimal digit and its value. -/
def HexDigit (b : UInt8) (v : Nat) : Prop :=
  (48 ≤ b.toNat ∧ b.toNat ≤ 57 ∧ v = b.toNat - 48) ∨ (97 ≤ b.toNat ∧ b.toNat ≤ 102 ∧ v = b.toNat - 97 + 10) ∨ (65 ≤ b.toNat ∧ b.toNat ≤ 70 ∧ v = b.toNat - 65 + 10)

/-- Four hexadecimal digits and their value. -/
def Hex4 (t : Bytes) (n : Nat) : Prop :=
  ∃ a b c d va vb vc vd, t = [a, b, c, d] ∧ HexDigit a va ∧ HexDigit b vb ∧ HexDigit c vc ∧ HexDigit d vd ∧ n = va * 4096 + vb * 256 + vc * 16 + vd

/-- The two-character escapes: the character behind the backslash, and what it stands for. -/
def escapes : List (UInt8 × UInt8) := [(34, 34), (92, 92), (47, 47), (98, 8), (102, 12), (110, 10), (114, 13), (116, 9)]

/-- The text between the quotes, and the string that it stands for. Bytes that are not valid UTF-8, and surrogates without partner, are accepted and stand for U+FFFD (which is what Go does; the RFC leaves it open). -/
inductive Chars : Bytes → Bytes → Prop where
  | nil : Chars [] []
  | ascii (b : UInt8) (t s : Bytes) (h1 : 32 ≤ b.toNat) (h2 : b.toNat < 128) (h3 : b ≠ 34) (h4 : b ≠ 92) (hc : Chars t s) : Chars (b :: t) (b :: s)
  | char (c : Char) (t s : Bytes) (h : 128 ≤ c.toNat) (hc : Chars t s) : Chars (utf8 c ++ t) (utf8 c ++ s)
  | invalid (b : UInt8) (t s : Bytes) (h1 : 128 ≤ b.toNat) (h2 : ∀ c r, b :: t ≠ utf8 c ++ r) (hc : Chars t s) : Chars (b :: t) (utf8 repl ++ s)
  | escape (c e : UInt8) (t s : Bytes) (h : (c, e) ∈ escapes) (hc : Chars t s) : Chars (92 :: c :: t) (e :: s)
  | unicode (u : Bytes) (c : Char) (t s : Bytes) (h : Hex4 u c.toNat) (hc : Chars t s) : Chars (92 :: 117 :: (u ++ t)) (utf8 c ++ s)
  | pair (u1 u2 : Bytes) (hi lo : Nat) (c : Char) (t s : Bytes) (h1 : Hex4 u1 hi) (h2 : Hex4 u2 lo) (h3 : 0xD800 ≤ hi ∧ hi ≤ 0xDBFF) (h4 : 0xDC00 ≤ lo ∧ lo ≤ 0xDFFF)
      (h5 : c.toNat = 0x10000 + (hi - 0xD800) * 1024 + (lo - 0xDC00)) (hc : Chars t s) : Chars (92 :: 117 :: (u1 ++ 92 :: 117 :: (u2 ++ t))) (utf8 c ++ s)
  | lone (u : Bytes) (n : Nat) (t s : Bytes) (h1 : Hex4 u n) (h2 : 0xD800 ≤ n ∧ n ≤ 0xDFFF) (h3 : ¬ (n ≤ 0xDBFF ∧ ∃ u2 lo r, t = 92 :: 117 :: (u2 ++ r) ∧ Hex4 u2 lo ∧ 0xDC00 ≤ lo ∧ lo ≤ 0xDFFF))
      (hc : Chars t s) : Chars (92 :: 117 :: (u ++ t)) (utf8 repl ++ s)

/-! ## Numbers -/

/-- One or more digits. -/
def Digits (t : Bytes) : Prop := t ≠ [] ∧ ∀ b ∈ t, 48 ≤ b.toNat ∧ b.toNat ≤ 57

/-- A number: an optional minus, the integer part without leading zeros, optionally a fraction, optionally an exponent. -/
def Number (t : Bytes) : Prop :=
  ∃ sign int frac exp, t = sign ++ int ++ frac ++ exp ∧ (sign = [] ∨ sign = [45]) ∧ (int = [48] ∨ Digits int ∧ int.head? ≠ some 48) ∧
    (frac = [] ∨ ∃ d, frac = 46 :: d ∧ Digits d) ∧ (exp = [] ∨ ∃ e s d, exp = e :: (s ++ d) ∧ (e = 101 ∨ e = 69) ∧ (s = [] ∨ s = [43] ∨ s = [45]) ∧ Digits d)

/-! ## Texts -/

/-- Space. -/
def Ws (t : Bytes) : Prop := ∀ b ∈ t, b = 32 ∨ b = 9 ∨ b = 10 ∨ b = 13

mutual
/-- The text (without space around it) of a document. -/
def Text : Json → Bytes → Prop
  | .null, t => t = lit "null"
  | .bool b, t => t = if b then lit "true" else lit "false"
  | .num n, t => t = n ∧ Number n
  | .str s, t => ∃ u, t = 34 :: (u ++ [34]) ∧ Chars u s
  | .arr [], t => ∃ w, t = 91 :: (w ++ [93]) ∧ Ws w
  | .arr (j :: js), t => ∃ w u w' r, t = 91 :: (w ++ u ++ w' ++ r ++ [93]) ∧ Ws w ∧ Ws w' ∧ Text j u ∧ TextItems js r
  | .obj [], t => ∃ w, t = 123 :: (w ++ [125]) ∧ Ws w
  | .obj ((k, j) :: es), t => ∃ w q w1 w2 u w3 r, t = 123 :: (w ++ 34 :: (q ++ 34 :: (w1 ++ 58 :: (w2 ++ u ++ w3 ++ r ++ [125])))) ∧ Ws w ∧ Ws w1 ∧ Ws w2 ∧ Ws w3 ∧ Chars q k ∧ Text j u ∧ TextEntries es r
/-- Further items, each after a comma. -/
def TextItems : List Json → Bytes → Prop
  | [], t => t = []
  | j :: js, t => ∃ w u w' r, t = 44 :: (w ++ u ++ w' ++ r) ∧ Ws w ∧ Ws w' ∧ Text j u ∧ TextItems js r
/-- Further entries, each after a comma. -/
def TextEntries : List (Bytes × Json) → Bytes → Prop
  | [], t => t = []
  | (k, j) :: es, t => ∃ w q w1 w2 u w3 r, t = 44 :: (w ++ 34 :: (q ++ 34 :: (w1 ++ 58 :: (w2 ++ u ++ w3 ++ r)))) ∧ Ws w ∧ Ws w1 ∧ Ws w2 ∧ Ws w3 ∧ Chars q k ∧ Text j u ∧ TextEntries es r
end

/-- A text with space around it. -/
def Document (j : Json) (t : Bytes) : Prop := ∃ w u w', t = w ++ u ++ w' ∧ Ws w ∧ Ws w' ∧ Text j u

mutual
/-- The nesting depth of arrays and objects. -/
def depth : Json → Nat
  | .arr js => depthL js + 1
  | .obj es => depthE es + 1
  | _ => 0
def depthL : List Json → Nat
  | [] => 0
  | j :: js => max (depth j) (depthL js)
def depthE : List (Bytes × Json) → Nat
  | [] => 0
  | (_, j) :: es => max (depth j) (depthE es)
end

end Sawmill.Rfc

namespace Sawmill
open Rfc

/-! ## Decoding -/

mutual
/-- The event value that a document stands for: numbers are floats, `null` is a nil pointer. -/
def jsonVal (env : JEnv) : Json → Val
  | .null => .nilp
  | .bool b => .scalar (.bool b)
  | .num t => .scalar (.float ((env.atof t).getD 0))
  | .str s => .scalar (.str s)
  | .arr js => .arr (jsonValL env js)
  | .obj es => .obj (AMap.ofEntries (jsonValE env es) [])
def jsonValL (env : JEnv) : List Json → List Val
  | [] => []
  | j :: js => jsonVal env j :: jsonValL env js
def jsonValE (env : JEnv) : List (Bytes × Json) → List (Bytes × Val)
  | [] => []
  | (k, j) :: es => (k, jsonVal env j) :: jsonValE env es
end

mutual
/-- No number is too large for a float64. -/
def InRange (env : JEnv) : Json → Prop
  | .num t => (env.atof t).isSome = true
  | .arr js => InRangeL env js
  | .obj es => InRangeE env es
  | _ => True
def InRangeL (env : JEnv) : List Json → Prop
  | [] => True
  | j :: js => InRange env j ∧ InRangeL env js
def InRangeE (env : JEnv) : List (Bytes × Json) → Prop
  | [] => True
  | (_, j) :: es => InRange env j ∧ InRangeE env es
end

mutual
/-- Only nil, booleans, floats, strings, arrays and objects, at every depth: no nulls, integers, unsigned integers or timestamps. -/
def Val.JsonOnly : Val → Prop
  | .nilp => True
  | .scalar (.bool _) => True
  | .scalar (.float _) => True
  | .scalar (.str _) => True
  | .scalar _ => False
  | .arrNil => False
  | .arr vs => Val.JsonOnlyL vs
  | .objNil => False
  | .obj es => Val.JsonOnlyE es
def Val.JsonOnlyL : List Val → Prop
  | [] => True
  | v :: vs => v.JsonOnly ∧ Val.JsonOnlyL vs
def Val.JsonOnlyE : List (Bytes × Val) → Prop
  | [] => True
  | (_, v) :: es => v.JsonOnly ∧ Val.JsonOnlyE es
end

/-! ## Encoding -/

/-- Replacing every byte that is not part of valid UTF-8 by U+FFFD. -/
inductive Repaired : Bytes → Bytes → Prop where
  | nil : Repaired [] []
  | char (c : Char) (t s : Bytes) (h : Repaired t s) : Repaired (utf8 c ++ t) (utf8 c ++ s)
  | invalid (b : UInt8) (t s : Bytes) (hb : ∀ c r, b :: t ≠ utf8 c ++ r) (h : Repaired t s) : Repaired (b :: t) (utf8 repl ++ s)

/-- Valid UTF-8. -/
def ValidUtf8 (s : Bytes) : Prop := ∃ cs : List Char, s = cs.flatMap utf8

/-- A JSON number that is an integer in decimal. -/
def IntLit (t : Bytes) (i : Int) : Prop := Number t ∧ ∃ d, t = (if i < 0 then [45] else []) ++ d ∧ Cal.number d = some i.natAbs

mutual
/-- What an event value says in JSON: `j` is a document for `v`. Nil pointers, nil slices and nil maps are null; timestamps are RFC 3339 strings; integers are decimal numbers; bytes that are not valid UTF-8 become U+FFFD; the fields of an object are in the order of
their names. -/
def Says (env : JEnv) : Val → Json → Prop
  | .nilp, j => j = .null
  | .scalar .null, j => j = .null
  | .scalar (.bool b), j => j = .bool b
  | .scalar (.int i), j => ∃ t, j = .num t ∧ IntLit t i.toInt
  | .scalar (.uint u), j => ∃ t, j = .num t ∧ IntLit t u.toNat
  | .scalar (.float f), j => j = .num (env.ftoa f)
  | .scalar (.str s), j => ∃ s', j = .str s' ∧ Repaired s s'
  | .scalar (.ts t), j => ∃ s, j = .str s ∧ Cal.parseRFC3339 s = some t.toInt
  | .arrNil, j => j = .null
  | .arr vs, j => ∃ js, j = .arr js ∧ SaysL env vs js
  | .objNil, j => j = .null
  | .obj es, j => ∃ js, j = .obj js ∧ SaysE env es js
def SaysL (env : JEnv) : List Val → List Json → Prop
  | [], js => js = []
  | v :: vs, js => ∃ j r, js = j :: r ∧ Says env v j ∧ SaysL env vs r
def SaysE (env : JEnv) : List (Bytes × Val) → List (Bytes × Json) → Prop
  | [], js => js = []
  | (k, v) :: es, js => ∃ k' j r, js = (k', j) :: r ∧ Repaired k k' ∧ Says env v j ∧ SaysE env es r
end

mutual
/-- No infinity and no NaN. -/
def Val.FiniteFloats : Val → Prop
  | .scalar (.float f) => finite f = true
  | .arr vs => Val.FiniteFloatsL vs
  | .obj es => Val.FiniteFloatsE es
  | _ => True
def Val.FiniteFloatsL : List Val → Prop
  | [] => True
  | v :: vs => v.FiniteFloats ∧ Val.FiniteFloatsL vs
def Val.FiniteFloatsE : List (Bytes × Val) → Prop
  | [] => True
  | (_, v) :: es => v.FiniteFloats ∧ Val.FiniteFloatsE es
end

mutual
/-- The nesting depth of arrays and objects. -/
def Val.nest : Val → Nat
  | .arr vs => Val.nestL vs + 1
  | .obj es => Val.nestE es + 1
  | _ => 0
def Val.nestL : List Val → Nat
  | [] => 0
  | v :: vs => max v.nest (Val.nestL vs)
def Val.nestE : List (Bytes × Val) → Nat
  | [] => 0
  | (_, v) :: es => max v.nest (Val.nestE es)
end

/-- What is assumed of float formatting and parsing: a finite float is printed as a JSON number, which is read back as the same float; what is read is finite; no integer of 64 bits is too large for a float64. -/
structure JEnv.Lawful (env : JEnv) : Prop where
  number : ∀ f, finite f = true → Number (env.ftoa f)
  exact : ∀ f, finite f = true → env.atof (env.ftoa f) = some f
  finite : ∀ t f, env.atof t = some f → finite f = true
  int : ∀ t i, IntLit t i → -2 ^ 63 ≤ i → i < 2 ^ 64 → (env.atof t).isSome = true

/-- Safe to put on one line and inside a script or HTML element: valid UTF-8 without control characters (no line break in particular), and without `<`, `>`, `&` and the line separators U+2028 and U+2029. -/
def Tidy (s : Bytes) : Prop := ∃ cs : List Char, s = cs.flatMap utf8 ∧ ∀ c ∈ cs, 32 ≤ c.toNat ∧ c ≠ '<' ∧ c ≠ '>' ∧ c ≠ '&' ∧ c ≠ '\u2028' ∧ c ≠ '\u2029'

/-! ## There and back -/

mutual
/-- What is read back from the JSON of an event value: integers come back as the float that their decimal text is read as, timestamps as their text, nulls and nil slices and nil maps as nil pointers; bytes that are not valid UTF-8 have become U+FFFD, in names too,
and if two names of an object have become the same then the last one counts. -/
def Back (env : JEnv) : Val → Val → Prop
  | .nilp, v => v = .nilp
  | .scalar .null, v => v = .nilp
  | .scalar (.bool b), v => v = .scalar (.bool b)
  | .scalar (.int i), v => ∃ t f, IntLit t i.toInt ∧ env.atof t = some f ∧ v = .scalar (.float f)
  | .scalar (.uint u), v => ∃ t f, IntLit t u.toNat ∧ env.atof t = some f ∧ v = .scalar (.float f)
  | .scalar (.float f), v => v = .scalar (.float f)
  | .scalar (.str s), v => ∃ s', v = .scalar (.str s') ∧ Repaired s s'
  | .scalar (.ts t), v => ∃ s, v = .scalar (.str s) ∧ Cal.parseRFC3339 s = some t.toInt
  | .arrNil, v => v = .nilp
  | .arr vs, v => ∃ vs', v = .arr vs' ∧ BackL env vs vs'
  | .objNil, v => v = .nilp
  | .obj es, v => ∃ es', v = .obj (AMap.ofEntries es' []) ∧ BackE env es es'
def BackL (env : JEnv) : List Val → List Val → Prop
  | [], vs => vs = []
  | v :: vs, ws => ∃ w r, ws = w :: r ∧ Back env v w ∧ BackL env vs r
def BackE (env : JEnv) : List (Bytes × Val) → List (Bytes × Val) → Prop
  | [], vs => vs = []
  | (k, v) :: es, ws => ∃ k' w r, ws = (k', w) :: r ∧ Repaired k k' ∧ Back env v w ∧ BackE env es r
end

mutual
/-- Every string and every name, at every depth, is valid UTF-8. -/
def Val.ValidText : Val → Prop
  | .scalar (.str s) => ValidUtf8 s
  | .arr vs => Val.ValidTextL vs
  | .obj es => Val.ValidTextE es
  | _ => True
def Val.ValidTextL : List Val → Prop
  | [] => True
  | v :: vs => v.ValidText ∧ Val.ValidTextL vs
def Val.ValidTextE : List (Bytes × Val) → Prop
  | [] => True
  | (k, v) :: es => ValidUtf8 k ∧ v.ValidText ∧ Val.ValidTextE es
end

end Sawmill
