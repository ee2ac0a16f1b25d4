import Verif.Model.PipelineNew
/-!
# The texts of the errors of `New` (pkg/pipeline/pipeline.go, config.go, processor.go)
-/

namespace Sawmill

/-- `NewErr.Error()`; `text` is that of the error that the registry returned. pipeline.go:36, config.go:45, config.go:48, processor.go:123, processor.go:182, processor.go:186. -/
def NewErr.text (text : Err → Bytes) : NewErr → Bytes
  | .emptyId => lit "pipeline must have a non-empty id"
  | .noProcessor => lit "processor cannot be empty"
  | .manyProcessors => lit "only one processor must be specified"
  | .construct id err => lit "failed constructing processor with ID " ++ id ++ lit ": " ++ text err
  | .noConfigMethod => lit "error Config() method not found"
  | .configResults => lit "error Config() must return one value"

/-- `errors.Unwrap`: only the constructor's error is wrapped (`%w`, processor.go:123). -/
def NewErr.unwrap : NewErr → Option Err
  | .construct _ err => some err
  | _ => none

end Sawmill
