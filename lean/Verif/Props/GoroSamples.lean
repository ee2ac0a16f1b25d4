import Verif.Props.Goro
import Verif.Props.Json
/-!
# C73, C74: samples
-/

namespace Sawmill
namespace Goro

/-- A program without choices that returns all replies. -/
def script : List Cmd → List Reply → Prog (List Reply)
  | [], acc => .ret acc
  | c :: cs, acc => .call c fun r => script cs (acc ++ [r])

/-- A configured value, a shared event `{"x":["s"]}`, and an empty map. -/
def goHeap : Heap := [.cell (strCell (lit "m")), .map [(lit "x", some 2)], .cell (arrCell (some [some 3])), .cell (strCell (lit "s")), .map []]

def goEnv : Env := ⟨bitsEnv, noConv, 100, [markPipeline], [some 1]⟩

/-- The same array under two names, the pipeline, then reading back, and reading the shared event. -/
def goCmds : List Cmd :=
  [.new, .leaf (.str (lit "v")), .array [0, 0], .put true 0 (lit "a") 1, .put true 0 (lit "b") 1, .process 0 0, .get 0 (lit "a"), .get 0 (lit "b"), .same 4 5, .json 0, .sharedGet 0 (lit "x"), .sharedItem 0 0, .sharedLook 1, .sharedJson 0]

/-- Two goroutines, one without anything, one with an event of its own. -/
def goProgs : List (Locals × Prog (List Reply)) := [({}, script goCmds []), ({ events := [some 4] }, script goCmds [])]

def Reply.bytes : Reply → Option Bytes
  | .text bs => some bs
  | _ => none

def Reply.isSame : Reply → Option Bool
  | .same b => some b
  | _ => none

def goOut : Option (List (List Bytes × List Bool)) :=
  match aloneAll goEnv goHeap goProgs noCounts with
  | .panic => none
  | .ok (rs, _) => some (rs.map fun r => (r.2.2.filterMap Reply.bytes, r.2.2.filterMap Reply.isSame))

theorem reach_shared {a : Nat} (h : Reach goHeap (some 1) a) : a = 1 ∨ a = 2 ∨ a = 3 := by
  induction h with
  | root he => cases he; exact .inl rfl
  | entry _ hm hk ih =>
    rcases ih with rfl | rfl | rfl <;> simp [goHeap] at hm
    subst hm
    simp at hk
    simp [hk.2]
  | item _ hc ha hp ih =>
    rcases ih with rfl | rfl | rfl <;> simp [goHeap] at hc
    · subst hc
      simp [arrCell] at ha
      subst ha
      simp at hp
      simp [hp]
    · subst hc
      simp [strCell] at ha
  | object _ hc ho ih =>
    rcases ih with rfl | rfl | rfl <;> simp [goHeap] at hc
    · subst hc; simp [arrCell] at ho
    · subst hc; simp [strCell] at ho

theorem reach_own {a : Nat} (h : Reach goHeap (some 4) a) : a = 4 := by
  induction h with
  | root he => cases he; rfl
  | entry _ hm hk ih => subst ih; simp [goHeap] at hm; subst hm; simp at hk
  | item _ hc ha hp ih => subst ih; simp [goHeap] at hc
  | object _ hc ho ih => subst ih; simp [goHeap] at hc

theorem go_apart : Apart goEnv goHeap (goProgs.map Prod.fst) := by
  have none : ∀ a, ¬ Locals.Reaches goHeap {} a := by rintro a ⟨p, hp, _⟩; simp at hp
  have own : ∀ a, Locals.Reaches goHeap { events := [some 4] } a → a = 4 := by
    rintro a ⟨p, hp, hr⟩
    simp at hp
    subst hp
    exact reach_own hr
  have sh : ∀ a, goEnv.Reaches goHeap a → a = 1 ∨ a = 2 ∨ a = 3 := by
    rintro a ⟨e, he, hr⟩
    simp [goEnv] at he
    subst he
    exact reach_shared hr
  refine ⟨?_, ?_, ?_, ?_, ?_⟩
  · intro L hL a ha
    simp [goProgs] at hL
    rcases hL with rfl | rfl
    · exact absurd ha (none a)
    · rw [own a ha]; decide
  · intro i j L M a hij hi hj ha ha'
    rcases i with _ | _ | i <;> rcases j with _ | _ | j <;> simp [goProgs] at hi hj hij
    · subst hi; exact absurd ha (none a)
    · subst hj; exact absurd ha' (none a)
  · intro a ha
    rcases sh a ha with rfl | rfl | rfl <;> decide
  · intro L hL a ha ha'
    simp [goProgs] at hL
    rcases hL with rfl | rfl
    · exact absurd ha (none a)
    · rw [own a ha] at ha'
      rcases sh 4 ha' with h | h | h <;> cases h
  · intro L hL a ha
    simp [goProgs] at hL
    rcases hL with rfl | rfl <;> simp at ha

theorem go_pipes : ∀ p ∈ goEnv.pipes, p.Calls (Builtin.LeafConfig goHeap) := by
  intro p hp
  simp [goEnv] at hp
  subst hp
  exact ⟨⟨⟨⟨⟨Scalar.str (lit "m"), rfl⟩, fun _ => trivial⟩, trivial⟩, trivial⟩, trivial⟩

/-- What the two goroutines print and compare, alone. -/
theorem go_out : goOut = some [([lit "{\"@metadata\":\"m\",\"a\":[\"v\",\"v\"],\"b\":[\"v\",\"v\"]}", lit "{\"x\":[\"s\"]}"], [true]), ([lit "{\"@metadata\":\"m\",\"a\":[\"v\",\"v\"],\"b\":[\"v\",\"v\"]}", lit "{\"x\":[\"s\"]}"], [true])] := by
  decide +kernel

/-- The sample meets the hypotheses of `goroutines`. -/
theorem go_sample : ∃ rs cs' N, aloneAll goEnv goHeap goProgs noCounts = .ok (rs, cs') ∧ ∀ n s, Shared.Steps n (start goEnv goHeap noCounts goProgs) s → ¬ s.Crashing ∧ ¬ s.Racing ∧ (s.Finished ↔ n = N) := by
  have hr : (match aloneAll goEnv goHeap goProgs noCounts with | .panic => false | .ok _ => true) = true := by decide +kernel
  cases ha : aloneAll goEnv goHeap goProgs noCounts with
  | panic => simp [ha] at hr
  | ok q =>
    obtain ⟨rs, cs'⟩ := q
    obtain ⟨N, hN⟩ := goroutines go_apart go_pipes ha
    exact ⟨rs, cs', N, rfl, fun n s hs => ⟨(hN n s hs).1, (hN n s hs).2.1, (hN n s hs).2.2.2.1⟩⟩

/-- A goroutine that writes to a shared event races with one that reads it. -/
theorem shared_write_races : ∃ n s, Shared.Steps n (start goEnv goHeap noCounts [({ events := [some 1] }, script [.leaf .null, .put true 0 (lit "y") 0] []), ({}, script [.sharedGet 0 (lit "x")] [])]) s ∧ s.Racing := by
  have hk : ((start goEnv goHeap noCounts [({ events := [some 1] }, script [.leaf .null, .put true 0 (lit "y") 0] []), ({}, script [.sharedGet 0 (lit "x")] [])]).exec [0, 0, 0]).map Shared.accesses
      = some (some (1, true), some (1, false)) := by decide +kernel
  simp only [Option.map_eq_some_iff] at hk
  obtain ⟨s, hs, ha⟩ := hk
  obtain ⟨n, hn⟩ := exec_steps _ hs
  exact ⟨n, s, hn, racing_of_accesses ha⟩

/-! ## Sharing and cycles -/

/-- An event `{"a":…}` whose value `a` is the event itself, in two memories. -/
def loopHeap : Heap := [.map [(lit "a", some 1)], .cell (objCell (some 0))]
def loopHeap' : Heap := [.cell (objCell (some 2)), .cell nullCell, .map [(lit "a", some 0)]]

/-- The hypotheses of `addresses` for a value that contains itself. -/
theorem loop_same : SameUpTo (fun a b => (a = 0 ∧ b = 2) ∨ (a = 1 ∧ b = 0)) loopHeap { events := [some 0] } loopHeap' { events := [some 2] } := by
  refine ⟨⟨by omega, by omega, ?_⟩, ⟨.inl ⟨rfl, rfl⟩, trivial⟩, trivial⟩
  rintro a b (⟨rfl, rfl⟩ | ⟨rfl, rfl⟩)
  · exact ⟨_, _, rfl, rfl, rfl, .inr ⟨rfl, rfl⟩, trivial⟩
  · exact ⟨_, _, rfl, rfl, cellSim_obj (.inl ⟨rfl, rfl⟩)⟩

/-- Contents alone do not determine what a program sees: with the same object under two names, and with two equal objects, the same calls (`Put("a.c", …)`, then `json.Marshal`) give different texts. -/
theorem sharing_visible : ∃ (h h' : Heap) (e e' : Event) (F : Fields) (p : Prog (List Reply)), Holds h e F ∧ Holds h' e' F ∧
    ∃ s s' rs rs', p.run goEnv ⟨h, noCounts, { events := [e] }⟩ = .ok (s, rs) ∧ p.run goEnv ⟨h', noCounts, { events := [e'] }⟩ = .ok (s', rs') ∧
      rs.filterMap Reply.bytes = [lit "{\"a\":{\"c\":true},\"b\":{\"c\":true}}"] ∧ rs'.filterMap Reply.bytes = [lit "{\"a\":{\"c\":true},\"b\":{}}"] := by
  let h : Heap := [.map [(lit "a", some 2), (lit "b", some 2)], .map [], .cell (objCell (some 1))]
  let h' : Heap := [.map [(lit "a", some 2), (lit "b", some 4)], .map [], .cell (objCell (some 1)), .map [], .cell (objCell (some 3))]
  let p := script [.leaf (.bool true), .put true 0 (lit "a.c") 0, .json 0] []
  have r1 : (match p.run goEnv ⟨h, noCounts, { events := [some 0] }⟩ with | .panic => none | .ok (_, rs) => some (rs.filterMap Reply.bytes)) = some [lit "{\"a\":{\"c\":true},\"b\":{\"c\":true}}"] := by decide +kernel
  have r2 : (match p.run goEnv ⟨h', noCounts, { events := [some 0] }⟩ with | .panic => none | .ok (_, rs) => some (rs.filterMap Reply.bytes)) = some [lit "{\"a\":{\"c\":true},\"b\":{}}"] := by decide +kernel
  refine ⟨h, h', some 0, some 0, some [(lit "a", .obj []), (lit "b", .obj [])], p, ⟨0, _, rfl, rfl, rfl, ⟨1, _, rfl, rfl, trivial⟩, rfl, ⟨1, _, rfl, rfl, trivial⟩, trivial⟩,
    ⟨0, _, rfl, rfl, rfl, ⟨1, _, rfl, rfl, trivial⟩, rfl, ⟨3, _, rfl, rfl, trivial⟩, trivial⟩, ?_⟩
  cases h1 : p.run goEnv ⟨h, noCounts, { events := [some 0] }⟩ with
  | panic => rw [h1] at r1; cases r1
  | ok q => cases h2 : p.run goEnv ⟨h', noCounts, { events := [some 0] }⟩ with
    | panic => rw [h2] at r2; cases r2
    | ok q' =>
      obtain ⟨s, rs⟩ := q
      obtain ⟨s', rs'⟩ := q'
      rw [h1] at r1
      rw [h2] at r2
      exact ⟨s, s', rs, rs', rfl, rfl, Option.some.inj r1, Option.some.inj r2⟩

end Goro
end Sawmill
