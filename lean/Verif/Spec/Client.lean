import Verif.Spec.Pure
import Verif.Spec.Programs
import Verif.Spec.Reflect
import Verif.Model.Client
/-!
# What a program that uses the library sees

The state is the contents of the events and nothing else: no memory, no sharing, no counters, no order of maps.
-/

namespace Sawmill
open Rfc Wire
namespace Client

/-- What a call says. -/
inductive Says where
  | done
  | skipped
  | value (v : Val) (err : Option Spec.Error)
  | processed (err : Option Spec.PErr)
  /-- the JSON of these contents -/
  | json (f : Fields)
  | refused
  | message (m : PWrapper)
  | goMap (m : Option (List (Bytes × GIface)))
  | nilEvent

/-- JSON can express it. -/
def Encodable : Fields → Prop
  | none => True
  | some es => Val.FiniteFloatsE es ∧ Val.nestE es < 10000

/-- This is the JSON text of these contents: it says them, and it is the text that encoding/json makes of the same contents in plain Go maps (`encI`). -/
def JsonOf (env : JEnv) : Fields → Bytes → Prop
  | none, bs => bs = lit "null"
  | some es, bs => ∃ js, Text (.obj js) bs ∧ SaysE env es js ∧ encI env (.obj es) = .ok bs

/-- What is returned is what should be said. -/
def Reply.Shows (env : JEnv) : Reply → Says → Prop
  | .done, .done => True
  | .skipped, .skipped => True
  | .value r, .value v err => r.Shows (v, err)
  | .processed evt err, .processed pe => procErrMatches err pe ∧ (evt = true ↔ pe = none)
  | .text bs, .json f => Encodable f ∧ JsonOf env f bs
  | .refused, .json f => ¬ Encodable f
  | .refused, .refused => True
  | .message m, .message m' => m = m'
  | .goMap m, .goMap m' => m = m'
  | .nilEvent, .nilEvent => True
  | _, _ => False

/-- A call on events with the contents `s`: the new contents and what is said, or a crash, or `shares` (Spec/Pure.lean). -/
inductive Does (env : Env) (qs : List Spec.Pipe) (s : List Fields) : Op → Spec.Run (List Fields × Says) → Prop where
  | new : Does env qs s .new (.done (s ++ [none], .done))
  | api {i c s' v err} (h : Spec.call s i c = .ok (s', v, err)) : Does env qs s (.api i c) (.done (s', .value v err))
  | apiCrash {i c} (h : Spec.call s i c = .panic) : Does env qs s (.api i c) .crash
  | process {k i q f f' err} (hk : qs[k]? = some q) (hi : s[i]? = some f) (h : q.apply env.conv f = .done (f', err)) : Does env qs s (.process k i) (.done (s.set i f', .processed err))
  | processCrash {k i q f} (hk : qs[k]? = some q) (hi : s[i]? = some f) (h : q.apply env.conv f = .crash) : Does env qs s (.process k i) .crash
  | processShares {k i q f} (hk : qs[k]? = some q) (hi : s[i]? = some f) (h : q.apply env.conv f = .shares) : Does env qs s (.process k i) .shares
  | noProcess {k i} (h : qs[k]? = none ∨ s[i]? = none) : Does env qs s (.process k i) (.done (s, .skipped))
  | toJson {i f} (hi : s[i]? = some f) : Does env qs s (.toJson i) (.done (s, .json f))
  | noToJson {i} (hi : s[i]? = none) : Does env qs s (.toJson i) (.done (s, .skipped))
  | fromJson {i f t F} (hi : s[i]? = some f) (h : EventText env.json t F) : Does env qs s (.fromJson i t) (.done (s.set i F, .done))
  | fromJsonRefused {i f t} (hi : s[i]? = some f) (h : ∀ F, ¬ EventText env.json t F) : Does env qs s (.fromJson i t) (.done (s, .refused))
  | noFromJson {i t} (hi : s[i]? = none) : Does env qs s (.fromJson i t) (.done (s, .skipped))
  | toMessage {i f} (hi : s[i]? = some f) : Does env qs s (.toMessage i) (.done (s, .message (messageOf f)))
  | noToMessage {i} (hi : s[i]? = none) : Does env qs s (.toMessage i) (.done (s, .skipped))
  | fromMessage {fields u u'} (h : HasKindE fields) : Does env qs s (.fromMessage (.mk (.mk fields u') u)) (.done (s ++ [logContents fields], .done))
  | fromMessageCrash {fields u u'} (h : ¬ HasKindE fields) : Does env qs s (.fromMessage (.mk (.mk fields u') u)) .crash
  | fromMessageNil {l} (h : l = .nil ∨ ∃ u, l = .mk .nil u) : Does env qs s (.fromMessage l) (.done (s, .nilEvent))
  | toMap {i f} (hi : s[i]? = some f) : Does env qs s (.toMap i) (.done (s, .goMap (if f.getD [] = [] then none else some (goOfE env.text (f.getD [])))))
  | noToMap {i} (hi : s[i]? = none) : Does env qs s (.toMap i) (.done (s, .skipped))
  /-- which of two names that differ only in backslashes wins is not determined -/
  | fromMap {m es} (h : ∀ x ∈ m, ∀ n, Inside (.iface x.2) n → ¬ Unsupported n ∧ ¬ Panicky n) (hp : es.Perm (m.map fun e => (e.1, valI env.reflect e.2))) :
      Does env qs s (.fromMap m) (.done (s ++ [putContents es], .done))
  /-- if there are both, which of them is met first is not determined -/
  | fromMapRefused {m x n} (hx : x ∈ m) (hi : Inside (.iface x.2) n) (hu : Unsupported n) : Does env qs s (.fromMap m) (.done (s, .refused))
  | fromMapCrash {m x n} (hx : x ∈ m) (hi : Inside (.iface x.2) n) (hu : Panicky n) : Does env qs s (.fromMap m) .crash

/-- How a program ends: with these contents, in a crash, or in a state of which the contents do not say enough. -/
inductive End where
  | contents (s : List Fields)
  | crash
  | shares

/-- The calls one after another. -/
inductive Runs (env : Env) (qs : List Spec.Pipe) : List Fields → List Op → List Says → End → Prop where
  | nil {s} : Runs env qs s [] [] (.contents s)
  | step {s op s' x ops xs e} (h : Does env qs s op (.done (s', x))) (hr : Runs env qs s' ops xs e) : Runs env qs s (op :: ops) (x :: xs) e
  | crash {s op ops} (h : Does env qs s op .crash) : Runs env qs s (op :: ops) [] .crash
  | shares {s op ops} (h : Does env qs s op .shares) : Runs env qs s (op :: ops) [] .shares

/-- All replies, one by one. -/
def AllShow (env : JEnv) : List Reply → List Says → Prop
  | [], [] => True
  | r :: rs, x :: xs => r.Shows env x ∧ AllShow env rs xs
  | _, _ => False

/-- The events have these contents. -/
def AllHold (h : Heap) : List Event → List Fields → Prop
  | [], [] => True
  | e :: es, f :: fs => Holds h e f ∧ AllHold h es fs
  | _, _ => False

/-- The program has shown this, and has ended like this. -/
def Matches (env : JEnv) (xs : List Says) (out : List Reply × Except CliEnd State) : End → Prop
  | .contents s => AllShow env out.1 xs ∧ ∃ c, out.2 = .ok c ∧ AllHold c.heap c.events s
  | .crash => AllShow env out.1 xs ∧ out.2 = .error .panic
  | .shares => ∃ rs rest, out.1 = rs ++ rest ∧ AllShow env rs xs

/-- Values are maps with distinct keys, listed in order. -/
def Op.Good : Op → Prop
  | .api _ c => c.Good Val.Canon
  | .fromMap m => (m.map (·.1)).Nodup
  | _ => True

/-- The event that a call is about. -/
def Op.target : Op → Option Nat
  | .new => none
  | .api i _ => some i
  | .process _ i => some i
  | .toJson i => some i
  | .fromJson i _ => some i
  | .toMessage i => some i
  | .fromMessage _ => none
  | .toMap i => some i
  | .fromMap _ => none

/-- The outcome of this call is determined by the contents: it is not `mapinterface.ToEvent`. -/
def Op.Determined : Op → Prop
  | .fromMap _ => False
  | _ => True

/-- The same program without the calls on event `j`. -/
def without (j : Nat) (ops : List Op) : List Op := ops.filter fun op => op.target ≠ some j

/-- What is left of the replies. -/
def repliesWithout (j : Nat) : List Op → List Says → List Says
  | op :: ops, x :: xs => if op.target = some j then repliesWithout j ops xs else x :: repliesWithout j ops xs
  | _, _ => []

/-- The same contents, except perhaps in event `j`. -/
def AgreeOff (j : Nat) (s s' : List Fields) : Prop := s.length = s'.length ∧ ∀ i, i ≠ j → s[i]? = s'[i]?

/-- The pipelines are configured like this. -/
def PipesAre (h : Heap) : List (Pipeline Builtin (Option Err)) → List Spec.Pipe → Prop
  | [], [] => True
  | p :: ps, q :: qs => PipeIs h p q ∧ PipesAre h ps qs
  | _, _ => False

end Client
end Sawmill
