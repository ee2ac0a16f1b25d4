import Verif.Model.Crash
/-!
# What a panic leaves behind: the words of C106
-/

namespace Sawmill

/-- What a call leaves, when it should do `r`: it returns what it should and has done what it should, or it panics and has done nothing: no object that was there is changed (there may be new ones, that nothing refers to), and no counter. -/
def EndsAs {α : Type} (t : Mem α) (h : Heap) (cs : Counters) : Res (Heap × α) → Prop
  | .panic => ∃ junk, t.alone h cs = (h ++ junk, cs, none)
  | .ok (g, x) => t.alone h cs = (g, cs, some x)

/-- A call is all or nothing. -/
def AllOrNothing {α : Type} (t : Mem α) (h : Heap) (r : Res (Heap × α)) : Prop := ∀ cs, EndsAs t h cs r

/-- From a processor of the list down to one that panics: each but the last returned an error, and the next is one of its on_failure processors. Their IDs. -/
inductive Opened {A R Ev W : Type} (call : Ev → W → A → Res (W × R)) : List (Node A R) → List Bytes → Prop
  | here {ns : List (Node A R)} {n : Node A R} {ev : PEvent Ev} {w : W} : n ∈ ns → n.proc.run call ev w = .panic → Opened call ns [n.id]
  | inside {ns : List (Node A R)} {n : Node A R} {path : List Bytes} {ev ev' : PEvent Ev} {w w' : W} {err : Err} :
    n ∈ ns → n.proc.run call ev w = .ok (ev', w', some err) → Opened call n.onFailure path → Opened call ns (n.id :: path)

/-- Between `cs` and `cs'` every invocation that began has ended, as sent or as an error, except those in `open_` (which have only been received). -/
def Ended (cs cs' : Counters) (open_ : List Bytes) : Prop :=
  ∀ id, ∃ sent errors, cs' id =
    ⟨(cs id).received + sent + errors + open_.count id, (cs id).sent + sent, (cs id).errors + errors, (cs id).discarded⟩

end Sawmill
