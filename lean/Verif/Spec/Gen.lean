import Verif.Model.Gen
import Verif.Spec.Cli
/-!
# What a Go compiler reads in a source file: its tokens

A scanner after the Go specification, "Lexical elements": white space separates tokens, comments count as white space (a line comment as a newline), a newline after a token that may end a statement is a semicolon. Simplifications: identifiers, keywords and numbers are all `word`s,
and every operator is cut into single bytes.
-/

namespace Sawmill
namespace Gen

inductive Tok where
  /-- An identifier, a keyword or a number. -/
  | word (w : Bytes)
  /-- A string (in `"`) or a rune (in `'`), as written between the quotes. -/
  | str (quote : UInt8) (body : Bytes)
  /-- A string in back quotes. -/
  | raw (body : Bytes)
  /-- An operator, a bracket, or a comma or the like. -/
  | op (b : UInt8)
  /-- Something that is not Go. -/
  | bad
deriving DecidableEq, Repr

/-- The file of a processor: `set/set.go` for `set`. -/
def goFile (name : Bytes) : Bytes := name ++ 47 :: (name ++ lit ".go")

/-- The keywords of Go. -/
def keywords : List Bytes :=
  [lit "break", lit "default", lit "func", lit "interface", lit "select", lit "case", lit "defer", lit "go", lit "map", lit "struct", lit "chan", lit "else", lit "goto", lit "package", lit "switch", lit "const", lit "fallthrough", lit "if", lit "range", lit "type", lit "continue",
   lit "for", lit "import", lit "return", lit "var"]

/-- Letters, digits and `_`, and all bytes that are not ASCII. -/
def isWordByte (b : UInt8) : Bool := (97 ≤ b && b ≤ 122) || (65 ≤ b && b ≤ 90) || (48 ≤ b && b ≤ 57) || b = 95 || 128 ≤ b

/-- Whether a newline after this word is a semicolon. -/
def endsStmt (w : Bytes) : Bool := !keywords.contains w || [lit "break", lit "continue", lit "fallthrough", lit "return"].contains w

/-- Where the scanner is. `semi`: whether a newline would be a semicolon. -/
inductive Mode where
  | gap (semi : Bool)
  | word (w : Bytes)
  | slash (semi : Bool)
  | line (semi : Bool)
  | block (semi star : Bool)
  | str (quote : UInt8) (esc : Bool) (body : Bytes)
  | raw (body : Bytes)
deriving DecidableEq, Repr

/-- A byte between tokens. -/
def fresh (semi : Bool) (b : UInt8) : Mode × List Tok :=
  if b = 10 then (.gap false, if semi then [.op 59] else [])
  else if b = 32 || b = 9 || b = 13 then (.gap semi, [])
  else if isWordByte b then (.word [b], [])
  else if b = 47 then (.slash semi, [])
  else if b = 34 || b = 39 then (.str b false [], [])
  else if b = 96 then (.raw [], [])
  else (.gap (b = 41 || b = 93 || b = 125), [.op b])

/-- One byte. -/
def scan1 : Mode → UInt8 → Mode × List Tok
  | .gap semi, b => fresh semi b
  | .word w, b => if isWordByte b then (.word (w ++ [b]), []) else ((fresh (endsStmt w) b).1, .word w :: (fresh (endsStmt w) b).2)
  | .slash semi, b =>
    if b = 47 then (.line semi, [])
    else if b = 42 then (.block semi false, [])
    else ((fresh false b).1, .op 47 :: (fresh false b).2)
  | .line semi, b => if b = 10 then fresh semi b else (.line semi, [])
  | .block semi star, b =>
    if star && b = 47 then (.gap semi, [])
    else if b = 10 then (.block false false, if semi then [.op 59] else [])
    else (.block semi (b = 42), [])
  | .str q esc body, b =>
    if b = 10 then (.gap false, [.bad])
    else if esc then (.str q false (body ++ [b]), [])
    else if b = 92 then (.str q true (body ++ [b]), [])
    else if b = q then (.gap true, [.str q body])
    else (.str q false (body ++ [b]), [])
  | .raw body, b => if b = 96 then (.gap true, [.raw body]) else (.raw (body ++ [b]), [])

/-- A text. -/
def scan : Mode → Bytes → Mode × List Tok
  | m, [] => (m, [])
  | m, b :: r => ((scan (scan1 m b).1 r).1, (scan1 m b).2 ++ (scan (scan1 m b).1 r).2)

/-- The end of the file: a newline. -/
def finish : Mode → List Tok
  | .gap semi => if semi then [.op 59] else []
  | .word w => .word w :: (if endsStmt w then [.op 59] else [])
  | .slash _ => [.op 47]
  | .line semi => if semi then [.op 59] else []
  | .block _ _ => [.bad]
  | .str _ _ _ => [.bad]
  | .raw _ => [.bad]

/-- The tokens of a source file. -/
def tokens (src : Bytes) : List Tok := (scan (.gap false) src).2 ++ finish (scan (.gap false) src).1

/-- Where in a declaration (outside of all brackets) we are: at its start, behind the `func` with which it begins, or further on. -/
inductive Phase where
  | start | due | mid
deriving DecidableEq, Repr

/-- The functions and methods that a file declares: the first word outside of all brackets that follows a `func` at the start of a declaration. The state is how many brackets are open, and where in a declaration we are. -/
def funcs1 : Nat × Phase → Tok → (Nat × Phase) × List Bytes
  | (d, ph), .op b =>
    if b = 40 || b = 91 || b = 123 then ((d + 1, ph), [])
    else if b = 41 || b = 93 || b = 125 then ((d - 1, ph), [])
    else if d = 0 then ((0, if b = 59 then .start else if ph = .due then .due else .mid), [])
    else ((d, ph), [])
  | (0, .start), .word w => ((0, if w = lit "func" then .due else .mid), [])
  | (0, .due), .word w => ((0, .mid), [w])
  | (0, .mid), .word _ => ((0, .mid), [])
  | (0, _), _ => ((0, .mid), [])
  | (d + 1, ph), _ => ((d + 1, ph), [])

def funcsFrom : Nat × Phase → List Tok → (Nat × Phase) × List Bytes
  | s, [] => (s, [])
  | s, t :: ts => ((funcsFrom (funcs1 s t).1 ts).1, (funcs1 s t).2 ++ (funcsFrom (funcs1 s t).1 ts).2)

/-- The functions and methods that a file with these tokens declares. -/
def declaredFuncs (ts : List Tok) : List Bytes := (funcsFrom (0, .start) ts).2

/-! ## The declarations of a processor -/

/-- Tokens, written with a blank between any two. -/
def code (s : Bytes) : List Tok := (s.splitOn 32).map fun w =>
  match w with
  | [b] => if isWordByte b then .word w else .op b
  | _ => .word w

/-- A string literal. -/
def quoted (s : Bytes) : List Tok := [.str 34 s]

/-- The tag of an option. -/
def tagOf (o : Opt) : Bytes := lit "config:\"" ++ o.name ++ lit "\"" ++ (if o.required then lit " validate:\"required\"" else [])

/-- What the file declares, given the names of the package and of the type, the options (each with the name of its field and the tokens of its type), the defaults (each with the name of its field and its tokens), and the imports. -/
def declarations (package type name : Bytes) (imports : List Bytes) (opts : List (Bytes × List Tok × Opt)) (defaults : List (Bytes × List Tok)) (process : Bool) : List Tok :=
  code (lit "package") ++ [.word package] ++ code (lit ";") ++
  code (lit "import (") ++ imports.flatMap (fun i => quoted i ++ code (lit ";")) ++ quoted (lit "github.com/andrewkroh/go-sawmill/pkg/processor") ++ code (lit ";") ++ quoted (lit "github.com/andrewkroh/go-sawmill/pkg/processor/registry") ++ code (lit "; ) ;") ++
  code (lit "func init ( ) { registry . MustRegister ( processorName , New ) ; } ;") ++
  code (lit "const ( processorName =") ++ quoted name ++ code (lit "; ) ;") ++
  code (lit "type Config struct {") ++ opts.flatMap (fun o => .word o.1 :: o.2.1 ++ [.raw (tagOf o.2.2)] ++ code (lit ";")) ++ code (lit "} ;") ++
  code (lit "func ( c * Config ) InitDefaults ( ) {") ++ defaults.flatMap (fun d => code (lit "c .") ++ [.word d.1] ++ code (lit "=") ++ d.2 ++ code (lit ";")) ++ code (lit "} ;") ++
  code (lit "type") ++ [.word type] ++ code (lit "struct { config Config ; } ;") ++
  code (lit "func New ( config Config ) ( *") ++ [.word type] ++ code (lit ", error ) { return &") ++ [.word type] ++ code (lit "{ config : config } , nil ; } ;") ++
  code (lit "func ( p *") ++ [.word type] ++ code (lit ") Config ( ) Config { return p . config ; } ;") ++
  code (lit "func ( p *") ++ [.word type] ++ code (lit ") String ( ) string { return processor . ConfigString ( processorName , p . config ) ; } ;") ++
  (if process then code (lit "func ( p *") ++ [.word type] ++ code (lit ") Process ( event processor . Event ) error { return nil ; } ;") else [])

/-! ## Harmless texts -/

/-- An identifier: a word that is no keyword. -/
def Ident (w : Bytes) : Prop := w ≠ [] ∧ (∀ b ∈ w, isWordByte b = true) ∧ w ∉ keywords

/-- A text that can be written between quotes as it is. -/
def Quotable (s : Bytes) : Prop := ∀ b ∈ s, b ≠ 34 ∧ b ≠ 92 ∧ b ≠ 10

/-- `s` is the text of the tokens `ts`: the scanner reads them, wherever it begins, and is not in the middle of a comment or string then; and a newline behind it is a semicolon. -/
def Piece (s : Bytes) (ts : List Tok) : Prop :=
  ∀ semi, (scan (.gap semi) s = (.gap true, ts)) ∨ ∃ w ts', endsStmt w = true ∧ scan (.gap semi) s = (.word w, ts') ∧ ts = ts' ++ [.word w]

/-- The brackets in `ts` match. -/
def Matched (ts : List Tok) : Prop := ∀ d ph, funcsFrom (d + 1, ph) ts = ((d + 1, ph), [])

/-- What can stand between quotes: bytes that mean themselves, and a backslash with what it escapes. -/
inductive Escaped : Bytes → Prop
  | nil : Escaped []
  | plain {b : UInt8} {s : Bytes} : b ≠ 34 → b ≠ 92 → b ≠ 10 → Escaped s → Escaped (b :: s)
  | esc {b : UInt8} {s : Bytes} : b ≠ 10 → Escaped s → Escaped (92 :: b :: s)

/-- `t` is what follows the last `c` in `s`, or all of `s`. -/
def AfterLast (c : UInt8) (s t : Bytes) : Prop := (c ∉ s ∧ t = s) ∨ ∃ a, s = a ++ c :: t ∧ c ∉ t

/-- The package `i` that a type needs: what precedes its last dot. -/
def Needs (o : Opt) (i : Bytes) : Prop := ∃ t, o.type = i ++ 46 :: t ∧ (46 : UInt8) ∉ t

/-- Names, types, defaults and imports that do not spoil the file, with the tokens of the types (behind the last slash) and of the defaults (a string is quoted). Nothing is asked of descriptions. -/
structure Presentable (E : GenEnv) (name : Bytes) (opts : List Opt) (ty : Opt → List Tok) (df : Dflt → List Tok) : Prop where
  pkg : Ident (E.lower name)
  type : Ident (goTypeName E name)
  name : Quotable name
  field : ∀ o ∈ opts, Ident (goTypeName E o.name)
  tag : ∀ o ∈ opts, (96 : UInt8) ∉ o.name
  fieldType : ∀ o ∈ opts, ∀ t, AfterLast 47 o.type t → Piece t (ty o)
  default : ∀ o ∈ opts, ∀ t b, o.default = some (.other t b) → Piece t (df (.other t b))
  strDefault : ∀ o ∈ opts, ∀ s, o.default = some (.str s) → Escaped (E.quoteBody s) ∧ df (.str s) = quoted (E.quoteBody s)
  imports : ∀ o ∈ opts, ∀ i, Needs o i → Quotable i

/-! ## Comments -/

/-- `t` is `s` without the white space at its end. -/
def RightTrimmed (s t : Bytes) : Prop := (∃ a, Blank a ∧ s = t ++ a) ∧ ∀ c ∈ spaces, ¬ Rfc.utf8 c <:+ t

/-- The lines `ls` of a text without its first line if that is blank, and then without its last line if that is blank. -/
def Kept (ls kept : List Bytes) : Prop :=
  ∃ mid, ((∃ l, Blank l ∧ ls = l :: mid) ∨ (mid = ls ∧ ∀ l, ls.head? = some l → ¬ Blank l)) ∧
    ((∃ l, Blank l ∧ mid = kept ++ [l]) ∨ (kept = mid ∧ ∀ l, mid.getLast? = some l → ¬ Blank l))

/-- The lines of a comment: the first as it is, the others behind `pre`. -/
def prefixed (pre : Bytes) : List Bytes → List Bytes
  | [] => []
  | l :: ls => l :: ls.map (pre ++ ·)

/-- Two lists of the same length, related element by element. -/
inductive Rel2 {α β : Type} (R : α → β → Prop) : List α → List β → Prop
  | nil : Rel2 R [] []
  | cons {a : α} {b : β} {as : List α} {bs : List β} : R a b → Rel2 R as bs → Rel2 R (a :: as) (b :: bs)

end Gen
end Sawmill
