import Verif.Model.Reflect
import Verif.Model.Quote
/-!
# What the errors of a conversion say (pkg/eventutil/reflect.go)

`%q` of a string is `strconv.Quote`; `pr` is the table of printable characters, as in `goQuote`. `Type.String` is part of the description of a value.
-/

namespace Sawmill

/-- The text of an error: `UnsupportedTypeError.Error`, pkg/eventutil/reflect.go:40-42, and the format of reflect.go:87. -/
def RErr.text (pr : Nat → Bool) : RErr → Bytes
  | .unsupportedType type => lit "eventutil: unsupported type: " ++ type
  | .onKey key cause => lit "failed on key " ++ goQuote pr key ++ lit ": " ++ cause.text pr

/-- What `errors.As` with an `*UnsupportedTypeError` finds: the innermost error. The wrapping (`%w`, reflect.go:87) keeps it reachable. -/
def RErr.as : RErr → Bytes
  | .unsupportedType type => type
  | .onKey _ cause => cause.as

end Sawmill
