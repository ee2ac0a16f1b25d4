import Verif.Props.Pipeline
/-!
# C24, C25, C54: counters over any history, and what an error leaves behind
-/

namespace Sawmill
variable {A R Ev W : Type} {call : Ev → W → A → Res (W × R)}

/-- The counters that a list of finished invocations amounts to, for one processor. -/
def tally (log : List Invocation) (id : Bytes) : Counts where
  received := Times log (fun i => i.id = id)
  sent := Times log (fun i => i.id = id ∧ i.out.isSome = false ∧ i.recovered = false)
  errors := Times log (fun i => i.id = id ∧ (i.out.isSome = true ∨ i.recovered = true))
  discarded := 0

def Counts.add (a b : Counts) : Counts := ⟨a.received + b.received, a.sent + b.sent, a.errors + b.errors, a.discarded + b.discarded⟩

theorem times_append (l m : List Invocation) (q : Invocation → Prop) [DecidablePred q] : Times (l ++ m) q = Times l q + Times m q := by
  simp [Times]

theorem tally_append (l m : List Invocation) (id : Bytes) : tally (l ++ m) id = (tally l id).add (tally m id) := by
  simp [tally, Counts.add, times_append]

theorem Counts.add_assoc (a b c : Counts) : (a.add b).add c = a.add (b.add c) := by
  simp [Counts.add]; omega

@[simp] theorem Counts.add_zero (a : Counts) : a.add {} = a := by simp [Counts.add]
@[simp] theorem Counts.zero_add (a : Counts) : Counts.add {} a = a := by simp [Counts.add]

/-- The counters of `s'` are those of `s` plus what the new part of the log amounts to. -/
def CountedFrom (s s' : PState Ev W) : Prop :=
  ∃ l, s'.log = s.log ++ l ∧ ∀ id, s'.counts id = (s.counts id).add (tally l id)

theorem CountedFrom.trans {s t u : PState Ev W} (a : CountedFrom s t) (b : CountedFrom t u) : CountedFrom s u := by
  obtain ⟨l, h1, h2⟩ := a
  obtain ⟨m, h3, h4⟩ := b
  exact ⟨l ++ m, by rw [h3, h1, List.append_assoc], fun id => by rw [h4, h2, Counts.add_assoc, tally_append]⟩

theorem inc_inc_counts (cs : Counters) (i j : Bytes) (k : Kind) :
    ((cs.inc i .received).inc i k) j = if j = i then ((cs j).inc .received).inc k else cs j := by
  simp only [Counters.inc]; split <;> rfl

mutual
theorem process_counted {n : Node A R} {s s' : PState Ev W} {e : Option Err} (hd : s.ev.dropped = false)
    (h : n.process call s = .ok (s', e)) : CountedFrom s s' := by
  obtain ⟨id, c, ignF, ignM, onF, pr⟩ := n
  simp only [Node.process, PState.inc] at h
  cases hr : pr.run call s.ev s.world with
  | panic => simp [hr] at h
  | ok r =>
    obtain ⟨ev, w, err⟩ := r
    have hd' := (run_dropped hr).1
    rw [hd] at hd'
    cases err with
    | none =>
      simp only [hr, Res.ok.injEq, Prod.mk.injEq] at h
      obtain ⟨rfl, _⟩ := h
      refine ⟨[⟨id, none, none, none⟩], rfl, fun j => ?_⟩
      simp only [PState.note, inc_inc_counts]
      by_cases hj : j = id
      · subst hj; simp [Counts.inc, Counts.add, tally, Times, Invocation.recovered]
      · simp [hj, Ne.symm hj, Counts.add, tally, Times]
    | some err =>
      simp only [hr, hd', Bool.false_eq_true, if_false] at h
      split at h
      · simp only [Res.ok.injEq, Prod.mk.injEq] at h
        obtain ⟨rfl, _⟩ := h
        refine ⟨[⟨id, some err, none, none⟩], rfl, fun j => ?_⟩
        simp only [PState.note, inc_inc_counts]
        by_cases hj : j = id
        · subst hj; simp [Counts.inc, Counts.add, tally, Times, Invocation.recovered]
        · simp [hj, Ne.symm hj, Counts.add, tally, Times]
      split at h
      · cases h
      · rename_i s2 err' hl
        obtain ⟨l, q1, q2⟩ := processAll_counted (s := { s with ev := ev, counts := s.counts.inc id .received, world := w }) hd' hl
        simp only at q1 q2
        split at h
        · rename_i hif
          simp only [Res.ok.injEq, Prod.mk.injEq] at h
          obtain ⟨rfl, _⟩ := h
          refine ⟨l ++ [⟨id, some err, some err', none⟩], by simp [PState.note, q1], fun j => ?_⟩
          rw [tally_append, ← Counts.add_assoc]
          obtain ⟨er, rfl⟩ : ∃ er, err' = some er := by
            cases err' with
            | none => simp at hif
            | some er => exact ⟨er, rfl⟩
          simp only [PState.note, Counters.inc, q2]
          by_cases hj : j = id
          · subst hj; simp [Counts.inc, Counts.add, tally, Times, Invocation.recovered]; omega
          · simp [hj, Ne.symm hj, Counts.add, tally, Times]
        · rename_i hif
          simp only [Res.ok.injEq, Prod.mk.injEq] at h
          obtain ⟨rfl, _⟩ := h
          refine ⟨l ++ [⟨id, some err, some err', err'⟩], by simp [PState.note, q1], fun j => ?_⟩
          rw [tally_append, ← Counts.add_assoc]
          simp only [PState.note, Counters.inc, q2]
          by_cases hj : j = id
          · subst hj
            cases err' <;> (simp [Counts.inc, Counts.add, tally, Times, Invocation.recovered]; omega)
          · simp [hj, Ne.symm hj, Counts.add, tally, Times]
theorem processAll_counted {ns : List (Node A R)} {s s' : PState Ev W} {e0 e : Option Err} (hd : s.ev.dropped = false)
    (h : Node.processAll call ns s e0 = .ok (s', e)) : CountedFrom s s' := by
  match ns with
  | [] =>
    simp [Node.processAll] at h; obtain ⟨rfl, _⟩ := h
    exact ⟨[], by simp, fun j => by simp [tally, Times, Counts.add]⟩
  | n :: ns =>
    simp only [Node.processAll] at h
    split at h
    · cases h
    · rename_i s1 err h1
      simp only [Res.ok.injEq, Prod.mk.injEq] at h
      obtain ⟨rfl, _⟩ := h
      exact process_counted hd h1
    · rename_i s1 h1
      exact (process_counted hd h1).trans (processAll_counted (((process_ev h1).1).trans hd) h)
end

theorem run_counted {p : Pipeline A R} {s s' : PState Ev W} {e : Option Err} (hd : s.ev.dropped = false)
    (h : p.run call s = .ok (s', e)) : CountedFrom s s' := by
  unfold Pipeline.run at h
  split at h
  · cases h
  · rename_i s1 h1
    simp only [Res.ok.injEq, Prod.mk.injEq] at h
    obtain ⟨rfl, _⟩ := h
    exact processAll_counted hd h1
  · rename_i s1 err h1
    have a := processAll_counted hd h1
    split at h
    · exact a.trans (processAll_counted (((processAll_ev h1).1).trans hd) h)
    · simp only [Res.ok.injEq, Prod.mk.injEq] at h
      obtain ⟨rfl, _⟩ := h
      exact a

theorem processMany_counted {p : Pipeline A R} {es : List Ev} {w w' : PWorld W} {rs : List (Option Ev × Option Err)}
    (h : p.processMany call es w = .ok (w', rs)) :
    ∃ l, w'.log = w.log ++ l ∧ ∀ id, w'.counts id = (w.counts id).add (tally l id) := by
  induction es generalizing w rs with
  | nil => simp [Pipeline.processMany] at h; obtain ⟨rfl, _⟩ := h; exact ⟨[], by simp, fun id => by simp [tally, Times, Counts.add]⟩
  | cons e es ih =>
    simp only [Pipeline.processMany] at h
    split at h
    · cases h
    · rename_i w1 r h1
      split at h
      · cases h
      · rename_i w2 rs' h2
        simp only [Res.ok.injEq, Prod.mk.injEq] at h
        obtain ⟨rfl, _⟩ := h
        have a : ∃ l, w1.log = w.log ++ l ∧ ∀ id, w1.counts id = (w.counts id).add (tally l id) := by
          unfold Pipeline.process at h1
          split at h1
          · cases h1
          · rename_i s er hs
            simp only [Res.ok.injEq, Prod.mk.injEq] at h1
            obtain ⟨rfl, _⟩ := h1
            exact run_counted rfl hs
          · rename_i s hs
            split at h1 <;>
            · simp only [Res.ok.injEq, Prod.mk.injEq] at h1
              obtain ⟨rfl, _⟩ := h1
              exact run_counted rfl hs
        obtain ⟨l, a1, a2⟩ := a
        obtain ⟨m, b1, b2⟩ := ih h2
        exact ⟨l ++ m, by rw [b1, a1, List.append_assoc], fun id => by rw [b2, a2, Counts.add_assoc, tally_append]⟩

/-- Counters and log of a new pipeline. -/
def PWorld.fresh (w : W) : PWorld W := ⟨w, fun _ => {}, []⟩

theorem times_split (l : List Invocation) (q : Invocation → Prop) (b : Invocation → Bool) [DecidablePred q] :
    Times l q = Times l (fun i => q i ∧ b i = false) + Times l (fun i => q i ∧ b i = true) := by
  induction l with
  | nil => rfl
  | cons i l ih =>
    simp only [Times, List.filter_cons] at ih ⊢
    by_cases hq : q i <;> by_cases hb : b i = true <;> simp [hq, hb] at ih ⊢ <;> omega

/-- C24. After any history of events through a new pipeline, every processor has received = sent + errors + discarded, and received is the number of times it ran. -/
theorem counters_conserved {p : Pipeline A R} {es : List Ev} {w : W} {w' : PWorld W} {rs : List (Option Ev × Option Err)}
    (h : p.processMany call es (.fresh w) = .ok (w', rs)) (id : Bytes) :
    (w'.counts id).received = (w'.counts id).sent + (w'.counts id).errors + (w'.counts id).discarded ∧
    (w'.counts id).received = Times w'.log (fun i => i.id = id) := by
  obtain ⟨l, h1, h2⟩ := processMany_counted h
  simp only [PWorld.fresh, List.nil_append] at h1
  subst h1
  have h3 := h2 id
  simp only [PWorld.fresh, Counts.zero_add] at h3
  rw [h3]
  refine ⟨?_, rfl⟩
  simp only [tally]
  rw [times_split w'.log (fun i => i.id = id) (fun i => i.out.isSome || i.recovered)]
  simp only [Bool.or_eq_false_iff, Bool.or_eq_true, Nat.add_zero]

/-- C25. The errors counter counts the invocations that returned an error, and also those whose error the processor's own on_failure processors recovered (which the
comment at processor.go:43 says it does not); ignored errors are not counted; nothing is ever counted as discarded (C26). -/
theorem errors_counter {p : Pipeline A R} {es : List Ev} {w : W} {w' : PWorld W} {rs : List (Option Ev × Option Err)}
    (h : p.processMany call es (.fresh w) = .ok (w', rs)) (id : Bytes) :
    (w'.counts id).errors = Times w'.log (fun i => i.id = id ∧ (i.out.isSome = true ∨ i.recovered = true)) ∧
    (w'.counts id).sent = Times w'.log (fun i => i.id = id ∧ i.out.isSome = false ∧ i.recovered = false) ∧
    (w'.counts id).discarded = 0 := by
  obtain ⟨l, h1, h2⟩ := processMany_counted h
  simp only [PWorld.fresh, List.nil_append] at h1
  subst h1
  have h3 := h2 id
  simp only [PWorld.fresh, Counts.zero_add] at h3
  rw [h3]
  exact ⟨rfl, rfl, rfl⟩

/-! ## A concrete pipeline: the world is a list of numbers, a call appends one -/

/-- A processor that writes `k` and fails with a non-missing error. -/
def failing (k : Nat) : Prog Nat Unit := .call k fun _ => .done (some (.other (lit "boom")))
/-- A processor that writes `k` and succeeds. -/
def writing (k : Nat) : Prog Nat Unit := .call k fun _ => .done none
/-- The event interface of the examples. -/
def recordCall (_ : Unit) (w : List Nat) (k : Nat) : Res (List Nat × Unit) := .ok (w ++ [k], ())

/-- A pipeline: a processor that fails and is recovered by its handler, then one that calls Cancel and Drop, then one that fails, then one that must not run; and a global handler. -/
def samplePipeline : Pipeline Nat Unit :=
  ⟨lit "p", [.mk (lit "a") [] false false [.mk (lit "ah") [] false false [] (writing 2)] (failing 1),
    .mk (lit "b") [] false false [] (.cancel (.drop (writing 3))),
    .mk (lit "c") (lit "false") false false [] (failing 4), .mk (lit "d") [] false false [] (writing 5)],
   [.mk (lit "g") [] true false [] (failing 6)]⟩

/-- The run of that pipeline: recovered error counted (`a`), Cancel/Drop/if without effect, `d` not run, global handler recovers. -/
theorem samplePipeline_run : ∃ w', samplePipeline.processMany recordCall [()] (.fresh []) = .ok (w', [(some (), none)]) ∧
    w'.world = [1, 2, 3, 4, 6] ∧ w'.counts (lit "a") = ⟨1, 0, 1, 0⟩ ∧ w'.counts (lit "ah") = ⟨1, 1, 0, 0⟩ ∧ w'.counts (lit "b") = ⟨1, 1, 0, 0⟩ ∧
    w'.counts (lit "c") = ⟨1, 0, 1, 0⟩ ∧ w'.counts (lit "d") = {} ∧ w'.counts (lit "g") = ⟨1, 1, 0, 0⟩ :=
  ⟨_, rfl, rfl, by decide, by decide, by decide, by decide, by decide, by decide⟩

/-- C25 as the code comment has it is false: here an invocation recovered by its handler is counted as an error. -/
theorem errors_counter_includes_recovered : ∃ w', (Pipeline.mk (lit "p") [.mk (lit "a") [] false false [.mk (lit "ah") [] false false [] (writing 2)] (failing 1)] []).processMany
      recordCall [()] (.fresh []) = .ok (w', [(some (), none)]) ∧ (w'.counts (lit "a")).errors = 1 ∧ (w'.counts (lit "a")).sent = 0 :=
  ⟨_, rfl, by decide, by decide⟩

/-! ## C54 -/

/-- C54. When `Process` returns an error, everything the processors did up to and including the failure stays done: the state it leaves is the one the failing processor
left (with no pipeline-wide on_failure processors), or the one the failing on_failure processor left, which started from what the failing processor left. -/
theorem error_keeps_changes {p : Pipeline A R} {evt : Ev} {w w' : PWorld W} {r : Option Ev} {e : Err} (h : p.process call evt w = .ok (w', r, some e)) :
    ∃ s1 e1, FirstFails (Node.process call) p.processors ⟨{ data := evt }, w.world, w.counts, w.log⟩ s1 e1 ∧
      ((p.onFailure = [] ∧ e = e1 ∧ w' = ⟨s1.world, s1.counts, s1.log⟩) ∨
        ∃ s2, FirstFails (Node.process call) p.onFailure s1 s2 e ∧ w' = ⟨s2.world, s2.counts, s2.log⟩) := by
  have hrun : ∃ s, p.run call ⟨{ data := evt }, w.world, w.counts, w.log⟩ = .ok (s, some e) ∧ w' = ⟨s.world, s.counts, s.log⟩ := by
    unfold Pipeline.process at h
    split at h
    · cases h
    · rename_i s err hs
      simp only [Res.ok.injEq, Prod.mk.injEq, Option.some.injEq] at h
      exact ⟨s, by rw [hs, h.2.2], h.1.symm⟩
    · split at h <;> simp at h
  obtain ⟨s, hs, hw⟩ := hrun
  rcases pipeline_cases (call := call) p ⟨{ data := evt }, w.world, w.counts, w.log⟩ with ⟨s', h1⟩ | ⟨s1, e1, h1⟩ | ⟨_, h1⟩
  · rw [pipeline_all_succeed h1] at hs; simp at hs
  · refine ⟨s1, e1, h1, ?_⟩
    obtain ⟨f1, f2, f3, f4⟩ := pipeline_failure h1
    by_cases hn : p.onFailure = []
    · rw [f1 hn] at hs
      simp only [Res.ok.injEq, Prod.mk.injEq, Option.some.injEq] at hs
      obtain ⟨rfl, rfl⟩ := hs
      exact .inl ⟨hn, rfl, hw⟩
    · rcases runs_cases (Node.process call) p.onFailure s1 with ⟨s2, h2⟩ | ⟨s2, e2, h2⟩ | h2
      · rw [f2 s2 hn h2] at hs; simp at hs
      · rw [f3 s2 e2 h2] at hs
        simp only [Res.ok.injEq, Prod.mk.injEq, Option.some.injEq] at hs
        obtain ⟨rfl, rfl⟩ := hs
        exact .inr ⟨s2, h2, hw⟩
      · rw [f4 h2] at hs; cases hs
  · rw [h1] at hs; cases hs

/-- C54: so an event for which `Process` returned an error can have been changed. -/
theorem failed_process_changes_event : ∃ w', (Pipeline.mk (lit "p") [.mk (lit "a") [] false false [] (writing 1), .mk (lit "b") [] false false [] (failing 2)] []).process
      recordCall () (.fresh []) = .ok (w', none, some (.other (lit "boom"))) ∧ w'.world = [1, 2] :=
  ⟨_, rfl, rfl⟩

/-- The hypotheses of the step theorems are met: `FirstFails`, `AllOk` and a swallowed nested missing-key error. -/
example : (∃ s1 e, FirstFails (Node.process recordCall) samplePipeline.processors ⟨{ data := () }, [], fun _ => {}, []⟩ s1 e) ∧
    (∃ s', AllOk (Node.process recordCall) (samplePipeline.processors.take 2) ⟨{ data := () }, [], fun _ => {}, []⟩ s') ∧
    Err.IsOrWraps (.keyMissing (lit "k")) (.join [] [.other [], .wrap (lit "m") (.keyMissing (lit "k"))]) :=
  ⟨⟨_, _, samplePipeline.processors.take 2, _, _, _, rfl, .cons rfl (.cons rfl (.nil _)), rfl⟩, ⟨_, .cons rfl (.cons rfl (.nil _))⟩,
    .join (e := .wrap (lit "m") (.keyMissing (lit "k"))) (by simp) (.wrap .self)⟩

end Sawmill
