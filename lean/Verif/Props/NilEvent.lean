import Verif.Spec.NilEvent
import Verif.Props.Pure
import Verif.Model.Programs
/-!
# C67: a nil event
-/

namespace Sawmill

/-- The error says that a key is empty. -/
def EmptyKeyErr (e : Err) : Prop := e.isMissing = false ∧ e.text = lit "event put failed: key name is empty"

/-- `Process(nil)` of a processor. -/
def nilCall : Unit → Heap → Builtin → Res (Heap × Option Err) := fun _ h b => (b.nilStep h).map fun e => (h, e)

/-- What a step does with a nil event, and with an event without contents if it does not crash. -/
def StepNil (cv : Conv) (h : Heap) (b : Builtin) (s : Spec.Step) : Prop :=
  match s.onNil with
  | .crash => b.nilStep h = .panic
  | .ok => b.nilStep h = .ok none ∧ s.apply cv none = .done (none, none)
  | .fails => (∃ e, b.nilStep h = .ok (some e) ∧ EmptyKeyErr e) ∧ s.apply cv none = .done (none, some (.other (lit "event put failed: key name is empty")))

theorem step_nil (cv : Conv) {h : Heap} {b : Builtin} {s : Spec.Step} (hb : StepIs h b s) : StepNil cv h b s := by
  cases b with
  | lowercase f t => obtain rfl := hb; rfl
  | uppercase f t => obtain rfl := hb; rfl
  | append f v a => obtain rfl := hb; rfl
  | remove a => obtain rfl := hb; exact ⟨rfl, rfl⟩
  | communityId => obtain rfl := hb; exact ⟨rfl, rfl⟩
  | set v c t =>
    obtain ⟨x, rfl, hv⟩ := hb
    have hd : deref h (some v) = some (scalarCell x) := by simp [deref, hv]
    by_cases hx : x = .null
    · subst hx
      simp only [StepNil, Spec.Step.onNil, Builtin.nilStep, hd, Spec.Step.apply]
      have ht : (scalarCell .null).type = .null := rfl
      by_cases hc : c = []
      · by_cases hk : keyToPath t = []
        · simp only [hc, hk, ht, ne_eq, not_true_eq_false, if_false, if_true]
          exact ⟨⟨_, rfl, rfl, rfl⟩, by simp [Spec.putP, Spec.putFields, hk, Spec.Run.of, Spec.Error.says]⟩
        · simp only [hc, hk, ht, ne_eq, not_true_eq_false, if_false, if_true]
          exact ⟨trivial, by simp [Spec.putP, Spec.putFields, hk, Spec.Run.of, Val.isNil]⟩
      · simp [hc, ht]
    · have ht : (scalarCell x).type ≠ .null := by cases x <;> first | exact absurd rfl hx | exact VType.noConfusion
      have ho : (Spec.Step.set x c t).onNil = if keyToPath t = [] then .fails else .crash := by cases x <;> first | exact absurd rfl hx | rfl
      have ha : (Spec.Step.set x c t).apply cv none = .of (Spec.putP none t (.scalar x)) := by cases x <;> first | exact absurd rfl hx | rfl
      simp only [StepNil, ho, Builtin.nilStep, hd, ha]
      by_cases hk : keyToPath t = []
      · simp only [hk, if_true, ne_eq, ht, not_false_eq_true]
        exact ⟨⟨_, rfl, rfl, rfl⟩, by simp [Spec.putP, Spec.putFields, hk, Spec.Run.of, Spec.Error.says]⟩
      · simp [hk, ht]

/-- The state of the engine after something that was given a nil event. -/
def NilPost (s : PState Unit Heap) (run : Res (PState Unit Heap × Option Err)) (r : Spec.OnNil) (onEmpty : Spec.Run (Fields × Option Spec.PErr)) : Prop :=
  match r with
  | .crash => run = .panic
  | .ok => ∃ s', run = .ok (s', none) ∧ s'.world = s.world ∧ s'.ev.dropped = false ∧ onEmpty = .done (none, none)
  | .fails => ∃ s' e, run = .ok (s', some e) ∧ s'.world = s.world ∧ s'.ev.dropped = false ∧ EmptyKeyErr e ∧ onEmpty = .done (none, some (.other (lit "event put failed: key name is empty")))

mutual
theorem node_nil (cv : Conv) : ∀ (n : Node Builtin (Option Err)) (q : Spec.Proc) (s : PState Unit Heap), s.ev.dropped = false → ProcIs s.world n q →
    NilPost s (n.process nilCall s) q.onNil (q.apply cv none)
  | .mk id cond ignF ignM onF proc, q, s, hd, hq => by
    simp only [ProcIs] at hq
    obtain ⟨b, step, qs, rfl, hb, rfl, hqs⟩ := hq
    have hs := step_nil cv hb
    simp only [StepNil] at hs
    simp only [Node.process, Spec.Proc.onNil, Spec.Proc.apply, Builtin.prog, Prog.run, PState.inc, nilCall]
    cases hr : step.onNil with
    | crash => simp only [hr] at hs; simp [hs, NilPost]
    | ok =>
      simp only [hr] at hs
      simp only [hs.1, hs.2, Res.map_ok]
      exact ⟨_, rfl, rfl, hd, rfl⟩
    | fails =>
      simp only [hr] at hs
      obtain ⟨⟨e, e1, e2⟩, e3⟩ := hs
      simp only [e1, e3, Res.map_ok, hd, e2.1, Spec.PErr.isMissing, Bool.and_false, Bool.false_eq_true, if_false]
      cases onF with
      | nil =>
        obtain rfl : qs = [] := by simpa only [ProcsAre] using hqs
        simp only [Node.processAll, List.isEmpty_nil, if_true, Option.isSome_some, Bool.and_true]
        cases ignF
        · exact ⟨_, _, rfl, rfl, hd, e2, rfl⟩
        · exact ⟨_, rfl, rfl, hd, rfl⟩
      | cons n ns =>
        have hne : qs.isEmpty = false := by
          simp only [ProcsAre] at hqs
          obtain ⟨q, r, rfl, _⟩ := hqs
          rfl
        have ih := nodes_nil cv (n :: ns) qs { s with ev := s.ev, world := s.world, counts := s.counts.inc id .received } hd hqs (some e) (by simp)
        simp only [hne, Bool.false_eq_true, if_false]
        cases hr2 : Spec.allOnNil qs with
        | crash => simp only [hr2, NilPost] at ih; simp [ih, NilPost, Spec.OnNil.ignored]
        | ok =>
          simp only [hr2, NilPost] at ih
          obtain ⟨s2, e4, w2, d2, e5⟩ := ih
          simp only [e4, e5, Spec.OnNil.ignored, Option.isSome_none, Bool.and_false, Bool.false_eq_true, if_false]
          exact ⟨_, rfl, w2, d2, by simp⟩
        | fails =>
          simp only [hr2, NilPost] at ih
          obtain ⟨s2, e', e4, w2, d2, m2, e5⟩ := ih
          simp only [e4, e5, Spec.OnNil.ignored, Option.isSome_some, Bool.and_true]
          cases ignF
          · exact ⟨_, _, rfl, w2, d2, m2, rfl⟩
          · exact ⟨_, rfl, w2, d2, rfl⟩
theorem nodes_nil (cv : Conv) : ∀ (ns : List (Node Builtin (Option Err))) (qs : List Spec.Proc) (s : PState Unit Heap), s.ev.dropped = false → ProcsAre s.world ns qs → ∀ e0 : Option Err, (e0 = none ∨ ns ≠ []) →
    NilPost s (Node.processAll nilCall ns s e0) (Spec.allOnNil qs) (Spec.applyAll cv qs none)
  | [], qs, s, hd, hq, e0, he => by
    obtain rfl : qs = [] := by simpa only [ProcsAre] using hq
    obtain rfl : e0 = none := by simpa using he
    exact ⟨s, rfl, rfl, hd, rfl⟩
  | n :: ns, qs, s, hd, hq, e0, he => by
    simp only [ProcsAre] at hq
    obtain ⟨q, r, rfl, hq1, hq2⟩ := hq
    have ih1 := node_nil cv n q s hd hq1
    simp only [Node.processAll, Spec.allOnNil, Spec.applyAll]
    cases hr : q.onNil with
    | crash => simp only [hr, NilPost] at ih1; simp [ih1, NilPost]
    | fails =>
      simp only [hr, NilPost] at ih1
      obtain ⟨s1, e, e1, w1, d1, m1, e2⟩ := ih1
      simp only [e1, e2]
      exact ⟨_, _, rfl, w1, d1, m1, rfl⟩
    | ok =>
      simp only [hr, NilPost] at ih1
      obtain ⟨s1, e1, w1, d1, e2⟩ := ih1
      simp only [e1, e2]
      have ih2 := nodes_nil cv ns r s1 d1 (by rw [w1]; exact hq2) none (.inl rfl)
      cases hr2 : Spec.allOnNil r with
      | crash => simpa only [hr2, NilPost] using ih2
      | ok =>
        simp only [hr2, NilPost, w1] at ih2
        exact ih2
      | fails =>
        simp only [hr2, NilPost, w1] at ih2
        exact ih2
end

/-- **C67.** What `Process(nil)` does: it crashes as soon as a processor wants to look at the event (`Spec.Pipe.onNil`). If it does not crash, it returns what it returns for an event without contents - which is then left without contents - and changes nothing. -/
theorem nil_event (cv : Conv) {p : Pipeline Builtin (Option Err)} {q : Spec.Pipe} (w : PWorld Heap) (hq : PipeIs w.world p q) :
    match q.onNil with
    | .crash => p.processNil w = .panic
    | .ok => ∃ w', p.processNil w = .ok (w', some (), none) ∧ w'.world = w.world ∧ q.apply cv none = .done (none, none)
    | .fails => ∃ w' err, p.processNil w = .ok (w', none, some err) ∧ w'.world = w.world ∧ EmptyKeyErr err ∧ q.apply cv none = .done (none, some (.other (lit "event put failed: key name is empty"))) := by
  have h1 := nodes_nil cv p.processors q.processors ⟨{ data := () }, w.world, w.counts, w.log⟩ rfl hq.1 none (.inl rfl)
  rw [show p.processNil w = p.process nilCall () w from rfl]
  simp only [Pipeline.process, Pipeline.run, Spec.Pipe.onNil, Spec.Pipe.apply]
  cases hr : Spec.allOnNil q.processors with
  | crash => simp only [hr, NilPost] at h1; simp [h1]
  | ok =>
    simp only [hr, NilPost] at h1
    obtain ⟨s1, e1, w1, d1, e2⟩ := h1
    simp only [e1, e2, d1, Bool.false_eq_true, if_false]
    exact ⟨_, rfl, w1, trivial⟩
  | fails =>
    simp only [hr, NilPost] at h1
    obtain ⟨s1, e, e1, w1, d1, m1, e2⟩ := h1
    simp only [e1, e2]
    cases hon : p.onFailure with
    | nil =>
      have : q.onFailure = [] := by simpa only [hon, ProcsAre] using hq.2
      simp only [this, List.isEmpty_nil, if_true, List.length_nil, gt_iff_lt, Nat.lt_irrefl, if_false]
      exact ⟨_, _, rfl, w1, m1, trivial⟩
    | cons n ns =>
      have hq2 := hq.2
      rw [hon] at hq2
      have hne : q.onFailure.isEmpty = false := by
        simp only [ProcsAre] at hq2
        obtain ⟨q', r, e, _⟩ := hq2
        rw [e]; rfl
      have h2 := nodes_nil cv (n :: ns) q.onFailure s1 d1 (by rw [w1]; exact hq2) (some e) (by simp)
      simp only [hne, Bool.false_eq_true, if_false, List.length_cons, gt_iff_lt, Nat.zero_lt_succ, if_true]
      cases hr2 : Spec.allOnNil q.onFailure with
      | crash => simp only [hr2, NilPost] at h2; simp [h2]
      | ok =>
        simp only [hr2, NilPost] at h2
        obtain ⟨s2, e3, w2, d2, e4⟩ := h2
        simp only [e3, d2, Bool.false_eq_true, if_false]
        exact ⟨_, rfl, w2.trans w1, e4⟩
      | fails =>
        simp only [hr2, NilPost] at h2
        obtain ⟨s2, e', e3, w2, d2, m2, e4⟩ := h2
        simp only [e3]
        exact ⟨_, _, rfl, w2.trans w1, m2, e4⟩

/-- C67, three pipelines: the first processor that looks at the event decides, on_failure processors too. -/
theorem nil_event_sample :
    Spec.Pipe.onNil ⟨[.mk .remove false false [], .mk (.set .null [] (lit "a")) false false [], .mk .communityId true false []], []⟩ = .ok ∧
    Spec.Pipe.onNil ⟨[.mk .remove false false [], .mk (.set (.int 1) [] (lit ".")) false false [.mk .remove false false []], .mk (.lowercase (lit "a") []) true true []], []⟩ = .crash ∧
    Spec.Pipe.onNil ⟨[.mk (.set (.int 1) [] (lit ".")) false false [], .mk (.lowercase (lit "a") []) true true []], []⟩ = .fails ∧
    Spec.Pipe.onNil ⟨[.mk (.set (.int 1) [] (lit ".")) false false []], [.mk (.append (lit "a") (lit "b")) true true []]⟩ = .crash := by
  decide +kernel

end Sawmill
