import Verif.Base.Bytes
/-!
# Errors and `errors.Is`

Go error values as far as the repository inspects them: a chain (or, since Go 1.20, a tree) of wrapping layers around leaves.
-/

namespace Sawmill

/-- A Go error value. `other` is any error that neither is nor wraps an `ErrorKeyMissing`; `claims` is an error of a foreign type whose own `Is` method
answers true for `ErrorKeyMissing{}`; `wrap` is an error with `Unwrap() error` (`fmt.Errorf` with `%w`); `join` one with `Unwrap() []error`. `msg` is what `Error()` returns: for a `wrap` the whole text, that of the
wrapped error included. -/
inductive Err where
  /-- `processor.ErrorKeyMissing{Key: key}`, or a pointer to one: pkg/processor/error.go:25-27 -/
  | keyMissing (key : Bytes)
  | claims (msg : Bytes)
  | other (msg : Bytes)
  | wrap (msg : Bytes) (inner : Err)
  | join (msg : Bytes) (es : List Err)

mutual
/-- `errors.Is(err, processor.ErrorKeyMissing{})`: the standard library loop with the `Is` method of pkg/processor/error.go:33-36. The initial `err == target` comparison
only succeeds for `ErrorKeyMissing{}` itself, where the method also answers true. -/
def Err.isMissing : Err → Bool
  | .keyMissing _ => true
  | .claims _ => true
  | .other _ => false
  | .wrap _ e => e.isMissing
  | .join _ es => Err.anyMissing es
def Err.anyMissing : List Err → Bool
  | [] => false
  | e :: es => e.isMissing || Err.anyMissing es
end

/-- `err.Error()`; that of `ErrorKeyMissing` is pkg/processor/error.go:29-31. -/
def Err.text : Err → Bytes
  | .keyMissing key => lit "key <" ++ key ++ lit "> is missing from event"
  | .claims msg => msg
  | .other msg => msg
  | .wrap msg _ => msg
  | .join msg _ => msg

end Sawmill
