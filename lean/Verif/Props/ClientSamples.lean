import Verif.Props.Client
import Verif.Props.ProgSamples
/-!
# C70: sample programs
-/

namespace Sawmill
open Rfc Wire
namespace Client

def demoEnv : Env := ⟨bitsEnv, ⟨some 0, id, fun _ => 0⟩, fun _ => [], id, asciiConv⟩

/-- Two pipelines: `lowercase` of `a`, and `set` of `b` to `"v"`. -/
def demoPipes : List (Pipeline Builtin (Option Err)) :=
  [⟨[1], [.mk [2] [] false false [] (Builtin.lowercase [97] [97]).prog], []⟩, ⟨[3], [.mk [4] [] false false [] (Builtin.set 1 [] [98]).prog], []⟩]

def demoPlan : List Spec.Pipe := [⟨[.mk (.lowercase [97] [97]) false false []], []⟩, ⟨[.mk (.set (.str [118]) [] [98]) false false []], []⟩]

def demoStart : State := ⟨[.cell nullCell, .cell (strCell [118])], [], fun _ => noCounts, fun _ => []⟩

theorem demo_pipes : PipesAre demoStart.heap demoPipes demoPlan :=
  ⟨⟨⟨_, [], rfl, ⟨_, _, _, rfl, rfl, rfl, rfl⟩, rfl⟩, rfl⟩, ⟨⟨_, [], rfl, ⟨_, _, _, rfl, ⟨.str [118], rfl, rfl⟩, rfl, rfl⟩, rfl⟩, rfl⟩, trivial⟩

theorem demo_null : IsNull demoStart.heap demoEnv.reflect.nul := rfl

/-- Two events; the first is lowercased, encoded and overwritten from a JSON text, the second gets a field and is converted to a message. At the end `a` is missing in the first. -/
def demoOps : List Op :=
  [.new, .new, .api 0 (.put [97] (.scalar (.str [88]))), .api 1 (.put [99] (.scalar (.int 7))), .process 0 0, .process 1 1, .toJson 0, .toMessage 1, .fromJson 0 [123, 34, 100, 34, 58, 91, 93, 125], .api 0 (.get [100]), .process 0 0]

theorem demo_good : ∀ op ∈ demoOps, op.Good := by
  intro op h
  simp only [demoOps, List.mem_cons, List.not_mem_nil, or_false] at h
  rcases h with rfl | rfl | rfl | rfl | rfl | rfl | rfl | rfl | rfl | rfl | rfl <;> simp [Op.Good, Call.Good, Val.Canon]

theorem demo_determined : ∀ op ∈ demoOps, op.Determined := by
  intro op h
  simp only [demoOps, List.mem_cons, List.not_mem_nil, or_false] at h
  rcases h with rfl | rfl | rfl | rfl | rfl | rfl | rfl | rfl | rfl | rfl | rfl <;> trivial

def demoSays : List Says :=
  [.done, .done, .value .nilp none, .value .nilp none, .processed none, .processed none, .json (some [([97], .scalar (.str [120]))]),
    .message ⟨some (.mk (.mk [([98], .mk (.string (some [118])) []), ([99], .mk (.integer 7) [])] []) []), []⟩, .done, .value (.arr []) none, .processed (some (.missing [97]))]

theorem demo_text : EventText bitsEnv [123, 34, 100, 34, 58, 91, 93, 125] (some [([100], .arr [])]) := by
  have hp : parseDoc [123, 34, 100, 34, 58, 91, 93, 125] = some (.obj [([100], .arr [])]) := by rfl
  refine ⟨_, (parseDoc_iff.1 hp).1, by simp [depthE, depth, depthL], ?_, rfl⟩
  simp [InRangeE, InRange, InRangeL]

theorem demo_runs : Runs demoEnv demoPlan [] demoOps demoSays (.contents [some [([100], .arr [])], some [([98], .scalar (.str [118])), ([99], .scalar (.int 7))]]) := by
  refine .step (s' := [none]) .new ?_
  refine .step (s' := [none, none]) .new ?_
  refine .step (s' := [some [([97], .scalar (.str [88]))], none]) (.api rfl) ?_
  refine .step (s' := [some [([97], .scalar (.str [88]))], some [([99], .scalar (.int 7))]]) (.api rfl) ?_
  refine .step (s' := [some [([97], .scalar (.str [120]))], some [([99], .scalar (.int 7))]]) (.process (f' := some [([97], .scalar (.str [120]))]) rfl rfl rfl) ?_
  refine .step (s' := [some [([97], .scalar (.str [120]))], some [([98], .scalar (.str [118])), ([99], .scalar (.int 7))]]) (.process (f' := some [([98], .scalar (.str [118])), ([99], .scalar (.int 7))]) rfl rfl rfl) ?_
  refine .step (.toJson rfl) (.step (.toMessage (f := some [([98], .scalar (.str [118])), ([99], .scalar (.int 7))]) rfl) ?_)
  refine .step (s' := [some [([100], .arr [])], some [([98], .scalar (.str [118])), ([99], .scalar (.int 7))]]) (.fromJson (F := some [([100], .arr [])]) rfl demo_text) ?_
  refine .step (.api rfl) ?_
  exact .step (s' := [some [([100], .arr [])], some [([98], .scalar (.str [118])), ([99], .scalar (.int 7))]]) (.process (f' := some [([100], .arr [])]) rfl rfl rfl) .nil

/-- C70 applied: on the model the sample program answers this. -/
theorem demo_program : ∃ N, ∀ n, N ≤ n → Matches bitsEnv demoSays (run demoEnv n demoPipes demoStart demoOps) (.contents [some [([100], .arr [])], some [([98], .scalar (.str [118])), ([99], .scalar (.int 7))]]) := by
  obtain ⟨N, xs, e, h1, h2⟩ := program_runs (env := demoEnv) bitsEnv_lawful (fun l => List.Perm.refl l) rfl demo_pipes demo_null demoOps demo_good
  obtain ⟨rfl, rfl⟩ := runs_unique demo_determined demo_runs h1
  exact ⟨N, h2⟩

/-- The sample meets the hypotheses of independence: without the calls on event 1 the replies of the calls on event 0 are the same. -/
theorem demo_independent : ∃ N s', AgreeOff 1 [some [([100], .arr [])], some [([98], .scalar (.str [118])), ([99], .scalar (.int 7))]] s' ∧
    ∀ n, N ≤ n → Matches bitsEnv [.done, .done, .value .nilp none, .processed none, .json (some [([97], .scalar (.str [120]))]), .done, .value (.arr []) none, .processed (some (.missing [97]))]
      (run demoEnv n demoPipes demoStart (without 1 demoOps)) (.contents s') := by
  obtain ⟨N, s', h1, h2⟩ := program_independent (env := demoEnv) bitsEnv_lawful (fun l => List.Perm.refl l) rfl demo_pipes demo_null demoOps demo_good demo_determined 1 demo_runs
  exact ⟨N, s', h1, fun n hn => (h2 n hn).2⟩

/-- A crash: a `null` in a JSON text becomes a nil pointer, on which `Get` of a nested key panics. -/
theorem demo_crash : Runs demoEnv demoPlan [] [.new, .fromJson 0 [123, 34, 97, 34, 58, 110, 117, 108, 108, 125], .api 0 (.get [97, 46, 98]), .new] [.done, .done] .crash := by
  have hp : parseDoc [123, 34, 97, 34, 58, 110, 117, 108, 108, 125] = some (.obj [([97], .null)]) := by rfl
  have ht : EventText bitsEnv [123, 34, 97, 34, 58, 110, 117, 108, 108, 125] (some [([97], .nilp)]) := ⟨_, (parseDoc_iff.1 hp).1, by simp [depthE, depth], by simp [InRangeE, InRange], rfl⟩
  exact .step .new (.step (.fromJson rfl ht) (.crash (.apiCrash rfl)))

/-- The pipelines of the sample copy nothing. -/
theorem demo_no_copy : ∀ q ∈ demoPlan, Spec.NoCopyAll q.processors ∧ Spec.NoCopyAll q.onFailure := by
  intro q hq
  simp only [demoPlan, List.mem_cons, List.not_mem_nil, or_false] at hq
  rcases hq with rfl | rfl <;> simp [Spec.NoCopyAll, Spec.Proc.NoCopy]

end Client
end Sawmill
