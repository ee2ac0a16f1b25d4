import Verif.Spec.Reads
/-!
# Histories of API calls

A client builds values with the constructors of pkg/event/value.go (`build`) and calls `Put`, `TryPut`, `Get`,
`Delete` on a number of events, in any order.
-/

namespace Sawmill

mutual
/-- Building a value with the constructors `Bool`, `Integer`, …, `Array`, `Object` (pkg/event/value.go:159-189): children first, then the
Go map or slice, then the struct.  Returns the new heap and the value with its addresses. -/
def build (h : Heap) : Val → Heap × ATree
  | .nilp => (h, .nilp)
  | .scalar s => let (h', a) := h.alloc (.cell (scalarCell s)); (h', .leaf a s)
  | .arrNil => let (h', a) := h.alloc (.cell (arrCell none)); (h', .arrNil a)
  | .arr vs =>
    let (h1, ts) := buildL h vs
    let (h2, a) := h1.alloc (.cell (arrCell (some (ts.map ATree.ptr))))
    (h2, .arr a ts)
  | .objNil => let (h', a) := h.alloc (.cell (objCell none)); (h', .objNil a)
  | .obj es =>
    let (h1, ts) := buildE h es
    let (h2, m) := h1.alloc (.map (ptrMap ts))
    let (h3, a) := h2.alloc (.cell (objCell (some m)))
    (h3, .obj a m ts)
def buildL (h : Heap) : List Val → Heap × List ATree
  | [] => (h, [])
  | v :: vs =>
    let (h1, t) := build h v
    let (h2, ts) := buildL h1 vs
    (h2, t :: ts)
def buildE (h : Heap) : List (Bytes × Val) → Heap × List (Bytes × ATree)
  | [] => (h, [])
  | (k, v) :: vs =>
    let (h1, t) := build h v
    let (h2, ts) := buildE h1 vs
    (h2, (k, t) :: ts)
end

mutual
/-- Every map in the tree is listed in key order without duplicate keys (each finite map has exactly one such listing). -/
def Val.Canon : Val → Prop
  | .arr vs => Val.CanonL vs
  | .obj es => AMap.Sorted es ∧ Val.CanonE es
  | _ => True
def Val.CanonL : List Val → Prop
  | [] => True
  | v :: vs => Val.Canon v ∧ Val.CanonL vs
def Val.CanonE : List (Bytes × Val) → Prop
  | [] => True
  | (_, v) :: es => Val.Canon v ∧ Val.CanonE es
end

/-- One API call on one event, with a freshly built value. -/
inductive Call where
  | put (key : Bytes) (v : Val)
  | tryPut (key : Bytes) (v : Val)
  | get (key : Bytes)
  | delete (key : Bytes)

/-- The program state: the heap and the events in it. -/
structure World where
  heap : Heap
  events : List Event

/-- What a call returns: the heap at that moment, the pointer and the error. -/
structure Ret where
  heap : Heap
  ptr : Ptr
  err : Option PutErr

/-- One call on event number `i`, on the model (calls on events that do not exist are not made). -/
def World.call (w : World) (i : Nat) (c : Call) : Res (World × Ret) :=
  match w.events[i]? with
  | none => .ok (w, ⟨w.heap, none, none⟩)
  | some e =>
    match c with
    | .put k v =>
      let (h, t) := build w.heap v
      (apiPut h e k t.ptr).map fun (h', e', old, err) => (⟨h', w.events.set i e'⟩, ⟨h', old, err⟩)
    | .tryPut k v =>
      let (h, t) := build w.heap v
      (apiTryPut h e k t.ptr).map fun (h', e', old, err) => (⟨h', w.events.set i e'⟩, ⟨h', old, err⟩)
    | .get k => (apiGet w.heap e k).map fun (h', p) => (⟨h', w.events⟩, ⟨h', p, none⟩)
    | .delete k => (apiDelete w.heap e k).map fun (h', p) => (⟨h', w.events⟩, ⟨h', p, none⟩)

/-- A history of calls. -/
def World.run (w : World) : List (Nat × Call) → Res (World × List Ret)
  | [] => .ok (w, [])
  | (i, c) :: cs => do
    let (w1, r) ← w.call i c
    let (w2, rs) ← w1.run cs
    .ok (w2, r :: rs)

namespace Spec

/-- The same call on the nested-map specification. -/
def call (s : List Fields) (i : Nat) (c : Call) : Res (List Fields × Val × Option Error) :=
  match s[i]? with
  | none => .ok (s, .nilp, none)
  | some f =>
    match c with
    | .put k v => (putFields f (keyToPath k) v true).map fun (f', old, err) => (s.set i f', old, err)
    | .tryPut k v => (putFields f (keyToPath k) v false).map fun (f', old, err) => (s.set i f', old, err)
    | .get k => (getFields f (keyToPath k)).map fun v => (s, v, none)
    | .delete k => (deleteFields f (keyToPath k)).map fun (f', v) => (s.set i f', v, none)

def run (s : List Fields) : List (Nat × Call) → Res (List Fields × List (Val × Option Error))
  | [] => .ok (s, [])
  | (i, c) :: cs => do
    let (s1, r) ← call s i c
    let (s2, rs) ← run s1 cs
    .ok (s2, r :: rs)

end Spec

/-- The model's error is the specification's error. -/
def errMatches : Option PutErr → Option Spec.Error → Prop
  | none, none => True
  | some .emptyKey, some .emptyKey => True
  | some (.keyExists _), some .keyExists => True
  | some (.notObject _), some .notObject => True
  | _, _ => False

/-- A model result shows the specified value and error. -/
def Ret.Shows (r : Ret) (s : Val × Option Spec.Error) : Prop := Reads r.heap r.ptr s.1 ∧ errMatches r.err s.2

/-- All results, one by one. -/
def AllShow : List Ret → List (Val × Option Spec.Error) → Prop
  | [], [] => True
  | r :: rs, s :: ss => r.Shows s ∧ AllShow rs ss
  | _, _ => False

/-- The value passed by a call. -/
def Call.Good (P : Val → Prop) : Call → Prop
  | .put _ v => P v
  | .tryPut _ v => P v
  | _ => True

end Sawmill
