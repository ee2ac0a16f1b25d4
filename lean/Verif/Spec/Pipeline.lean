import Verif.Model.Pipeline
/-!
# Vocabulary for the pipeline properties

`AllOk`, `FirstFails`, `FirstPanics` describe running a list of steps one after another, for any kind of step; they do not mention the engine.
-/

namespace Sawmill

section
variable {N S E : Type} (step : N → S → Res (S × Option E))

/-- Every step of the list runs, in order, each from the state the previous one left, and none returns an error. -/
inductive AllOk : List N → S → S → Prop
  | nil (s : S) : AllOk [] s s
  | cons {n : N} {ns : List N} {s s1 s2 : S} : step n s = .ok (s1, none) → AllOk ns s1 s2 → AllOk (n :: ns) s s2

/-- Some step returns the error `e`, leaving `s'`; the steps before it run and succeed; the steps after it do not appear at all. -/
def FirstFails (ns : List N) (s s' : S) (e : E) : Prop :=
  ∃ pre n post s1, ns = pre ++ n :: post ∧ AllOk step pre s s1 ∧ step n s1 = .ok (s', some e)

/-- Some step panics after the steps before it ran and succeeded. -/
def FirstPanics (ns : List N) (s : S) : Prop :=
  ∃ pre n post s1, ns = pre ++ n :: post ∧ AllOk step pre s s1 ∧ step n s1 = .panic
end

/-- `e` is `x` or wraps it at some depth. -/
inductive Err.IsOrWraps (x : Err) : Err → Prop
  | self : IsOrWraps x x
  | wrap {msg : Bytes} {e : Err} : IsOrWraps x e → IsOrWraps x (.wrap msg e)
  | join {msg : Bytes} {e : Err} {es : List Err} : e ∈ es → IsOrWraps x e → IsOrWraps x (.join msg es)

/-- A missing-key error: `ErrorKeyMissing` itself or an error whose own `Is` method says it is one. -/
def Err.MissingLeaf : Err → Prop
  | .keyMissing _ => True
  | .claims _ => True
  | _ => False

/-- `n` is one of the processors of the list or of the on_failure processors below it. -/
inductive Below {A R : Type} (n : Node A R) : List (Node A R) → Prop
  | here {ns : List (Node A R)} : n ∈ ns → Below n ns
  | deeper {m : Node A R} {ns : List (Node A R)} : m ∈ ns → Below n m.onFailure → Below n ns

/-- How many entries of the log satisfy `q`. -/
def Times (log : List Invocation) (q : Invocation → Prop) [DecidablePred q] : Nat := (log.filter (fun i => decide (q i))).length

/-- An invocation that ended with on_failure processors recovering the error. -/
def Invocation.recovered (i : Invocation) : Bool := match i.handled with | some none => true | _ => false

/-! Programs and pipelines with the `Cancel` calls, the `Drop` calls or the `if` conditions changed. -/
section
variable {A R : Type}

/-- The same program without its `Drop` calls. -/
def Prog.withoutDrop : Prog A R → Prog A R
  | .done e => .done e
  | .cancel k => .cancel k.withoutDrop
  | .drop k => k.withoutDrop
  | .call a k => .call a (fun r => (k r).withoutDrop)

/-- The same program without its `Cancel` calls. -/
def Prog.withoutCancel : Prog A R → Prog A R
  | .done e => .done e
  | .cancel k => k.withoutCancel
  | .drop k => .drop k.withoutCancel
  | .call a k => .call a (fun r => (k r).withoutCancel)

mutual
/-- The same processor with every program (its own and those of its handlers at every depth) changed by `f` and every condition by `c`. -/
def Node.change (c : Bytes → Bytes) (f : Prog A R → Prog A R) : Node A R → Node A R
  | .mk i cond ignF ignM onF p => .mk i (c cond) ignF ignM (Node.changeAll c f onF) (f p)
def Node.changeAll (c : Bytes → Bytes) (f : Prog A R → Prog A R) : List (Node A R) → List (Node A R)
  | [] => []
  | n :: ns => n.change c f :: Node.changeAll c f ns
end

def Pipeline.change (c : Bytes → Bytes) (f : Prog A R → Prog A R) (p : Pipeline A R) : Pipeline A R :=
  ⟨p.id, Node.changeAll c f p.processors, Node.changeAll c f p.onFailure⟩
end

end Sawmill
