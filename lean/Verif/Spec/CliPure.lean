import Verif.Spec.Pure
import Verif.Spec.Cli
import Verif.Spec.Convert
import Verif.Model.ConfigJson
/-!
# What the command line program does with a line, in terms of contents
-/

namespace Sawmill
open Rfc

/-- The contents of the event of a line. -/
def lineFields (i : Nat) (t : Bytes) : AMap Val :=
  [(lit "@metadata", .obj [(lit "line_number", .scalar (.uint (BitVec.ofNat 64 i)))]), (lit "event", .obj [(lit "original", .scalar (.str t))])]

/-- What the program does with line number `i`, given what the pipeline does to contents. -/
inductive LineDoes (env : JEnv) (n : Nat) (cv : Conv) (q : Spec.Pipe) (i : Nat) (l : Bytes) : LineOutcome → Prop where
  | blank (h : Blank l) : LineDoes env n cv q i l .blank
  | crash {t} (h : ¬ Blank l) (ht : Trimmed l t) (hq : q.apply cv (some (lineFields i t)) = .crash) : LineDoes env n cv q i l .panic
  | failed {t F pe err} (h : ¬ Blank l) (ht : Trimmed l t) (hq : q.apply cv (some (lineFields i t)) = .done (F, some pe)) (he : procErrMatches (some err) (some pe)) : LineDoes env n cv q i l (.failed err)
  | text {t gs out js} (h : ¬ Blank l) (ht : Trimmed l t) (hq : q.apply cv (some (lineFields i t)) = .done (some gs, none)) (he : encI env (.obj gs) = .ok out) (hx : Text (.obj js) out) (hs : SaysE env gs js) :
      LineDoes env n cv q i l (.text out)
  | unencodable {t gs} (h : ¬ Blank l) (ht : Trimmed l t) (hq : q.apply cv (some (lineFields i t)) = .done (some gs, none)) (he : ¬ (Val.FiniteFloatsE gs ∧ Val.nestE gs < 10000)) :
      LineDoes env n cv q i l .unencodable
  | overflow {t gs} (h : ¬ Blank l) (ht : Trimmed l t) (hq : q.apply cv (some (lineFields i t)) = .done (some gs, none)) (he : n < Val.depthE gs) : LineDoes env n cv q i l .overflow

end Sawmill
