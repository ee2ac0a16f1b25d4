import Verif.Model.Text
import Verif.Spec.Json
/-!
# Changing the case of text

A text is a sequence of characters in UTF-8; a byte that is not part of a valid character counts as the character U+FFFD. Changing the case of a text means changing the case of each of its characters.
-/

namespace Sawmill
open Rfc

/-- The characters of a text; each byte that is not part of valid UTF-8 counts as U+FFFD. -/
def HasChars (s : Bytes) (cs : List Char) : Prop := Repaired s (cs.flatMap utf8)

/-- The text that consists of these characters. -/
def textOf (cs : List Char) : Bytes := cs.flatMap utf8

def capitalLetters : List Char := "ABCDEFGHIJKLMNOPQRSTUVWXYZ".toList
def smallLetters : List Char := "abcdefghijklmnopqrstuvwxyz".toList

/-- The lower case of a character: of an ASCII capital letter the small letter, of another ASCII character itself, of others what the Unicode tables say. -/
def lowerCase (t : CaseTable) (c : Char) : Char :=
  if c.toNat < 128 then ((capitalLetters.zip smallLetters).lookup c).getD c else t.lower c

/-- The upper case of a character. -/
def upperCase (t : CaseTable) (c : Char) : Char :=
  if c.toNat < 128 then ((smallLetters.zip capitalLetters).lookup c).getD c else t.upper c

/-- Only bytes below 128. -/
def AsciiOnly (s : Bytes) : Prop := ∀ b ∈ s, b.toNat < 128

end Sawmill
