import Verif.Base.Bytes
import Verif.Base.Decimal
/-!
# What the programs may say
-/

namespace Sawmill

/-- A complaint about a line of the input. -/
structure Complaint where
  number : Nat
  /-- processing it failed (or else writing the result) -/
  processing : Bool
  text : Bytes

/-- The line in the log. -/
def Complaint.line (c : Complaint) : Bytes :=
  if c.processing then lit "Error processing line " ++ itoa c.number ++ lit ": " ++ c.text
  else lit "Unexpected error marshaling event from line " ++ itoa c.number ++ lit " to JSON: " ++ c.text

end Sawmill
