import Verif.Model.Programs
import Verif.Model.NewText
/-!
# The texts that the programs show: examples/c/cshared/main.go, examples/wasm/wasm.go, cmd/sawmill/sawmill.go

Simplifications. The texts of errors of encoding/json, of the reader and of `Encode` are parameters (`jsonError` and the like): whatever the standard library says. What Go prints about a panic, and what `Load` prints, is left out.
-/

namespace Sawmill

/-- The string that `Process` passes to `C.CString`: main.go:58, 63, 68, 71. -/
def Reply.string (jsonError : Bytes) : Reply → Bytes
  | .text bs => bs
  | .badInput => jsonError
  | .failed err => err.text
  | .unencodable => jsonError

/-- What the C caller finds behind the returned pointer: `C.CString` copies the whole string, but it reads as ended by its first zero byte. -/
def Reply.seen (jsonError : Bytes) (r : Reply) : Bytes := goString (r.string jsonError)

/-- The string that `process` returns, if it is one: wasm.go:37, 45, 50, 55, 60. -/
def WasmReply.string (jsonError : Bytes) : WasmReply → Option Bytes
  | .usage => some (lit "pipeline_execute requires two args")
  | .badConfig => some (lit "failed to unmarshal pipeline: " ++ jsonError)
  | .refused err => some (lit "failed to create new pipeline: " ++ err.text Err.text)
  | .badEvent => some (lit "failed to unmarshal event JSON: " ++ jsonError)
  | .failed err => some (lit "failed to process event: " ++ err.text)
  | .object _ => none

/-- `log.Printf` and `log.Fatal` without flags (sawmill.go:63): a line feed is added unless there is one. -/
def logOutput (s : Bytes) : Bytes := if s.getLast? = some 10 then s else s ++ [10]

/-- sawmill.go:142 and 147. `encodeError` is the text of the error of `Encode` for the line with this number. -/
def CliLog.printed (encodeError : Nat → Bytes) : CliLog → Bytes
  | .process number err => logOutput (lit "Error processing line " ++ itoa number ++ lit ": " ++ err.text)
  | .encode number => logOutput (lit "Unexpected error marshaling event from line " ++ itoa number ++ lit " to JSON: " ++ encodeError number)

/-- The errors of bufio.Scanner; `readError` is that of the reader. -/
def ScanErr.text (readError : Bytes) : ScanErr → Bytes
  | .tooLong => lit "bufio.Scanner: token too long"
  | .noProgress => lit "multiple Read calls return no data or error"
  | .read => readError

/-- What the loop and then `main` print to standard error: the log, and `log.Fatal("Error:", err)` (sawmill.go:98) with the error of sawmill.go:153. `fmt.Sprint` puts no space after a string. -/
def stderrText (encodeError : Nat → Bytes) (readError : Bytes) (r : Cli × CliEnd) : Bytes :=
  r.1.log.flatMap (·.printed encodeError) ++
  match r.2 with
  | .readFailed e => logOutput (lit "Error:" ++ (lit "failed reading from input: " ++ e.text readError))
  | _ => []

end Sawmill
