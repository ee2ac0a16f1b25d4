import Verif.Props.Pool
import Verif.Props.GoroSamples
/-!
# C76: samples
-/

namespace Sawmill
namespace Goro

/-- First stage: a new event with the payload under `v`. -/
def makeStage : Stage Bytes := fun x => .call .new fun _ => .call (.leaf (.str x)) fun _ => .call (.put true 0 (lit "v") 0) fun _ => .ret x

/-- Second stage: run the pipeline, the new payload is the JSON text. -/
def processStage : Stage Bytes := fun x => .call (.process 0 0) fun _ => .call (.json 0) fun r => match r with
  | .text bs => .ret bs
  | _ => .ret x

/-- Two workers in the first stage, one in the second, room for one message between them. -/
def samplePlant : Plant Bytes := ⟨goEnv, [makeStage, processStage], [0, 0, 1], fun _ => 1⟩

def sampleMsgs : List (Locals × Bytes) := [({}, lit "x"), ({}, lit "y"), ({}, lit "z")]

def sampleOut : Option (List Bytes) :=
  match aloneAll goEnv goHeap (sampleMsgs.map fun m => (m.1, through samplePlant.stages m.2)) noCounts with
  | .panic => none
  | .ok (rs, _) => some (rs.map fun r => r.2.2)

/-- What a single worker gets. -/
theorem pool_out : sampleOut = some [lit "{\"@metadata\":\"m\",\"v\":\"x\"}", lit "{\"@metadata\":\"m\",\"v\":\"y\"}", lit "{\"@metadata\":\"m\",\"v\":\"z\"}"] := by
  decide +kernel

/-- The hypotheses of `workers` are met. -/
theorem pool_sample : ∃ N, ∀ n s, Pool.Steps samplePlant n (Pool.start goHeap noCounts sampleMsgs) s →
    ¬ s.Crashing ∧ ¬ s.Racing ∧ (s.Finished ↔ n = N) ∧ (¬ s.Finished → ∃ s', Pool.Step samplePlant s s') ∧ (∀ L x, s.msgs[1]? = some (.out L x) → x = lit "{\"@metadata\":\"m\",\"v\":\"y\"}") := by
  have hr := pool_out
  simp only [sampleOut] at hr
  cases ha : aloneAll goEnv goHeap (sampleMsgs.map fun m => (m.1, through samplePlant.stages m.2)) noCounts with
  | panic => simp [ha] at hr
  | ok q =>
    obtain ⟨rs, cs'⟩ := q
    rw [ha] at hr
    simp only [Option.some.injEq] at hr
    have hempty : ∀ L ∈ sampleMsgs.map Prod.fst, L = {} := by
      intro L hL
      simp only [sampleMsgs, List.map_cons, List.map_nil, List.mem_cons, List.not_mem_nil, or_false] at hL
      rcases hL with rfl | rfl | rfl <;> rfl
    have none : ∀ L ∈ sampleMsgs.map Prod.fst, ∀ a, ¬ Locals.Reaches goHeap L a := by
      rintro L hL a ⟨p, hp, _⟩
      rw [hempty L hL] at hp
      simp at hp
    have hap : Apart samplePlant.env goHeap (sampleMsgs.map Prod.fst) :=
      ⟨fun L hL a h => absurd h (none L hL a), fun i j L M a _ hi _ h => absurd h (none L (List.mem_of_getElem? hi) a), go_apart.sharedInside, fun L hL a h => absurd h (none L hL a), fun L hL a h => by rw [hempty L hL] at h; simp at h⟩
    obtain ⟨N, hN⟩ := workers (P := samplePlant) (by simp [samplePlant]) hap go_pipes ha
    refine ⟨N, fun n s hs => ?_⟩
    obtain ⟨h1, h2, _, h4, h5, h6, _⟩ := hN n s hs
    refine ⟨h1, h2, h4, fun hf => h5 hf ?_ (fun _ => Nat.one_pos), fun L x hx => ?_⟩
    · intro k hk
      have : k < 2 := hk
      rcases k with _ | _ | k
      · simp [samplePlant]
      · simp [samplePlant]
      · omega
    · obtain ⟨w, M, hw, _⟩ := h6 1 L x hx
      have := congrArg (·[1]?) hr
      simp [hw] at this
      exact this

/-- A worker that keeps the event it has sent on: then two messages hold the same event, and the workers race. -/
theorem kept_event_races : ∃ (P : Plant Unit) (n : Nat) (s : Pool Unit), Pool.Steps P n (Pool.start goHeap noCounts [({ events := [some 4] }, ()), ({ events := [some 4] }, ())]) s ∧ s.Racing := by
  let put : Stage Unit := fun _ => .call (.leaf .null) fun _ => .call (.put true 0 (lit "y") 0) fun _ => .ret ()
  refine ⟨⟨goEnv, [put], [0, 0], fun _ => 1⟩, 6, _, .step (.step (.step (.step (.step (.step .refl
    (.take (j := 0) (w := 0) rfl rfl rfl rfl)) (.take (j := 1) (w := 1) rfl rfl rfl rfl)) (.work (j := 0) rfl rfl)) (.work (j := 0) rfl rfl)) (.work (j := 1) rfl rfl)) (.work (j := 1) rfl rfl), ?_⟩
  exact ⟨0, 1, 0, 0, 1, 0, _, _, 4, true, by omega, rfl, rfl, rfl, rfl⟩

end Goro
end Sawmill
