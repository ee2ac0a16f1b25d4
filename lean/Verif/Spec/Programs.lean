import Verif.Spec.Plan
import Verif.Spec.Json
import Verif.Spec.Convert
import Verif.Model.Programs
/-!
# What the C library answers

A session with the library: the only state is what has been loaded. No memory, no counters, no registry.
-/

namespace Sawmill
open Rfc

/-- The text that a C string stands for: the bytes before the first zero byte. -/
def cBytes : Bytes → Bytes
  | [] => []
  | b :: bs => if b = 0 then [] else b :: cBytes bs

/-- The text is an event: `null`, or an object with these fields. -/
def EventText (env : JEnv) (t : Bytes) : Option (AMap Val) → Prop
  | none => Document .null t
  | some fs => ∃ es, Document (.obj es) t ∧ depthE es < 10000 ∧ InRangeE env es ∧ fs = AMap.ofEntries (jsonValE env es) []

/-- How `Process(t)` ends when `q` is loaded. The answer is the JSON text of what the pipeline makes of the fields. -/
inductive Answers (env : JEnv) (n : Nat) (cv : Conv) : Option Spec.Pipe → Bytes → Except CliEnd Reply → Prop where
  /-- not an event: this is said even if nothing is loaded -/
  | bad {q t} (h : ∀ F, ¬ EventText env t F) : Answers env n cv q t (.ok .badInput)
  /-- nothing is loaded -/
  | unloaded {t F} (h : EventText env t F) : Answers env n cv none t (.error .panic)
  | nullEmpty {q t} (h : EventText env t none) (hq : q.processors = []) : Answers env n cv (some q) t (.ok (.text (lit "null")))
  | nullCrash {q t} (h : EventText env t none) (hq : q.processors ≠ []) : Answers env n cv (some q) t (.error .panic)
  | crash {q t fs} (h : EventText env t (some fs)) (hq : q.apply cv (some fs) = .crash) : Answers env n cv (some q) t (.error .panic)
  | failed {q t fs F pe err} (h : EventText env t (some fs)) (hq : q.apply cv (some fs) = .done (F, some pe)) (he : procErrMatches (some err) (some pe)) : Answers env n cv (some q) t (.ok (.failed err))
  | text {q t fs gs out js} (h : EventText env t (some fs)) (hq : q.apply cv (some fs) = .done (some gs, none)) (hn : Val.nestE gs < 10000) (he : encI env (.obj gs) = .ok out)
      (ht : Text (.obj js) out) (hs : SaysE env gs js) : Answers env n cv (some q) t (.ok (.text out))
  | deep {q t fs gs} (h : EventText env t (some fs)) (hq : q.apply cv (some fs) = .done (some gs, none)) (hn : 10000 ≤ Val.nestE gs) : Answers env n cv (some q) t (.ok .unencodable)
  | overflow {q t fs gs} (h : EventText env t (some fs)) (hq : q.apply cv (some fs) = .done (some gs, none)) (hn : n < Val.depthE gs) : Answers env n cv (some q) t (.error .overflow)

/-- A sequence of calls, when `q` is loaded at first: the codes of the `Load`s and the answers, up to a crash. A text that is not a configuration leaves alone what is loaded; a configuration that is refused unloads it; `null` crashes. -/
inductive Session (env : JEnv) (n : Nat) (cv : Conv) (fill : ProcKind → JCfg → Except Err Opts) : Option Spec.Pipe → List CCall → List CReply × Option CliEnd → Prop where
  | nil {q} : Session env n cv fill q [] ([], none)
  | loadBad {q t cs rs e} (h : unmarshalConfig env (cBytes t) = none) (hs : Session env n cv fill q cs (rs, e)) : Session env n cv fill q (.load t :: cs) (.code 1 :: rs, e)
  | loadNull {q t cs} (h : unmarshalConfig env (cBytes t) = some none) : Session env n cv fill q (.load t :: cs) ([], some .panic)
  | loadRefused {q t c cs rs e} (h : unmarshalConfig env (cBytes t) = some (some c)) (hp : Spec.plan (Spec.optionsOf [] [.lowercase] fill) none c.config = none)
      (hs : Session env n cv fill none cs (rs, e)) : Session env n cv fill q (.load t :: cs) (.code 1 :: rs, e)
  | loaded {q q' t c cs rs e} (h : unmarshalConfig env (cBytes t) = some (some c)) (hp : Spec.plan (Spec.optionsOf [] [.lowercase] fill) none c.config = some q')
      (hs : Session env n cv fill (some q') cs (rs, e)) : Session env n cv fill q (.load t :: cs) (.code 0 :: rs, e)
  | process {q t r cs rs e} (h : Answers env n cv q (cBytes t) (.ok r)) (hs : Session env n cv fill q cs (rs, e)) : Session env n cv fill q (.process t :: cs) (.reply r :: rs, e)
  | crash {q t cs e} (h : Answers env n cv q (cBytes t) (.error e)) : Session env n cv fill q (.process t :: cs) ([], some e)

/-- Two outcomes that a caller sees as the same: the same text, or errors of the same kind that say the same. An event that is nested too deeply is not encoded; whether that is noticed or the stack overflows depends on the size of the stack. -/
inductive SameAnswer : Except CliEnd Reply → Except CliEnd Reply → Prop where
  | bad : SameAnswer (.ok .badInput) (.ok .badInput)
  | text (out) : SameAnswer (.ok (.text out)) (.ok (.text out))
  | failed {e1 e2} (ht : e1.text = e2.text) (hm : e1.isMissing = e2.isMissing) : SameAnswer (.ok (.failed e1)) (.ok (.failed e2))
  | crash : SameAnswer (.error .panic) (.error .panic)
  | deep {r1 r2} (h1 : r1 = .ok .unencodable ∨ r1 = .error .overflow) (h2 : r2 = .ok .unencodable ∨ r2 = .error .overflow) : SameAnswer r1 r2

/-- What the WebAssembly demo shows for the event `t` and the pipeline `q`: the errors of `Answers`; else the value of the JSON of the event. -/
inductive Shown (env : JEnv) (n : Nat) (cv : Conv) (q : Spec.Pipe) (t : Bytes) : Except CliEnd WasmReply → Prop where
  | badEvent (h : Answers env n cv (some q) t (.ok .badInput)) : Shown env n cv q t (.ok .badEvent)
  | failed {err} (h : Answers env n cv (some q) t (.ok (.failed err))) : Shown env n cv q t (.ok (.failed err))
  | crash {e} (h : Answers env n cv (some q) t (.error e)) : Shown env n cv q t (.error e)
  | unencodable (h : Answers env n cv (some q) t (.ok .unencodable)) : Shown env n cv q t (.error .panic)
  | null (h : EventText env t none) (hq : q.processors = []) : Shown env n cv q t (.ok (.object none))
  | object {fs gs ws} (h : EventText env t (some fs)) (hq : q.apply cv (some fs) = .done (some gs, none)) (hn : Val.nestE gs < 10000) (hb : BackE env gs ws) :
      Shown env n cv q t (.ok (.object (some (AMap.ofEntries ws []))))

/-- What the WebAssembly demo returns: the first thing that is wrong, in this order: the number of arguments, the text of the configuration, the configuration, the text of the event, the processing. -/
inductive WasmAnswers (env : JEnv) (n : Nat) (cv : Conv) (fill : ProcKind → JCfg → Except Err Opts) : List Bytes → Except CliEnd WasmReply → Prop where
  | usage {args} (h : args.length ≠ 2) : WasmAnswers env n cv fill args (.ok .usage)
  | badConfig {c t} (h : unmarshalConfig env c = none) : WasmAnswers env n cv fill [c, t] (.ok .badConfig)
  | nullConfig {c t} (h : unmarshalConfig env c = some none) : WasmAnswers env n cv fill [c, t] (.error .panic)
  | refused {c t cfg e} (h : unmarshalConfig env c = some (some cfg)) (hp : Spec.plan (Spec.optionsOf [] [.lowercase] fill) none cfg.config = none) : WasmAnswers env n cv fill [c, t] (.ok (.refused e))
  | processed {c t cfg q r} (h : unmarshalConfig env c = some (some cfg)) (hp : Spec.plan (Spec.optionsOf [] [.lowercase] fill) none cfg.config = some q) (hr : Shown env n cv q t r) :
      WasmAnswers env n cv fill [c, t] r

end Sawmill
