import Verif.Spec.Metrics
import Verif.Props.PipelineNew
/-!
# The exported metrics (C63)
-/

namespace Sawmill

/-- Whose counter with this name the registry has. -/
def MetricsReg.owner (r : MetricsReg) (k : MetricKey) : Option Nat := (r.find? fun e => e.1 = k).map (·.2)

theorem owner_none_iff {r : MetricsReg} {k : MetricKey} : r.owner k = none ↔ r.has k = false := by
  simp [MetricsReg.owner, MetricsReg.has]

theorem owner_add (valid : Bytes → Bool) (o : Nat) (r : MetricsReg) (k j : MetricKey) :
    (r.add valid o k).owner j = match r.owner j with
      | some o' => some o'
      | none => if j = k ∧ valid j.1 = true then some o else none := by
  unfold MetricsReg.add
  cases ho : r.owner j with
  | some o' =>
    simp only
    split
    · simp only [MetricsReg.owner, List.find?_append, Option.map_eq_some_iff] at ho ⊢
      obtain ⟨e, he, rfl⟩ := ho
      exact ⟨e, by simp [he], rfl⟩
    · exact ho
  | none =>
    simp only
    have hj := owner_none_iff.1 ho
    split
    · next h =>
      simp only [Bool.and_eq_true, Bool.not_eq_true'] at h
      have hf : r.find? (fun e => e.1 = j) = none := by simpa [MetricsReg.owner] using ho
      by_cases hk : j = k
      · subst hk
        simp [MetricsReg.owner, List.find?_append, hf, h.1]
      · have : ¬ k = j := fun h => hk h.symm
        simp [MetricsReg.owner, List.find?_append, hf, hk, this]
    · next h =>
      rw [ho]
      split
      · next hx =>
        obtain ⟨rfl, hv⟩ := hx
        simp [hv, hj] at h
      · rfl

theorem owner_addAll (valid : Bytes → Bool) (o : Nat) (ks : List MetricKey) (r : MetricsReg) (j : MetricKey) :
    (ks.foldl (MetricsReg.add valid o) r).owner j = match r.owner j with
      | some o' => some o'
      | none => if j ∈ ks ∧ valid j.1 = true then some o else none := by
  induction ks generalizing r with
  | nil => simp; cases r.owner j <;> rfl
  | cons k ks ih =>
    simp only [List.foldl_cons, ih, owner_add]
    cases hr : r.owner j with
    | some o' => simp
    | none =>
      by_cases h1 : j = k ∧ valid j.1 = true
      · have : j ∈ k :: ks ∧ valid j.1 = true := ⟨by simp [h1.1], h1.2⟩
        simp only [if_pos h1, if_pos this]
      · simp only [if_neg h1]
        by_cases h2 : j ∈ ks ∧ valid j.1 = true
        · have : j ∈ k :: ks ∧ valid j.1 = true := ⟨by simp [h2.1], h2.2⟩
          simp only [if_pos h2, if_pos this]
        · have : ¬ (j ∈ k :: ks ∧ valid j.1 = true) := by
            rintro ⟨h3, h4⟩
            rcases List.mem_cons.1 h3 with h3 | h3
            · exact h1 ⟨h3, h4⟩
            · exact h2 ⟨h3, h4⟩
          simp only [if_neg h2, if_neg this]

theorem owner_remove (r : MetricsReg) (k j : MetricKey) : (r.remove k).owner j = if j = k then none else r.owner j := by
  unfold MetricsReg.remove MetricsReg.owner
  split
  · next h =>
    subst h
    simp
  · next h =>
    rw [List.find?_filter]
    congr 1
    congr 1
    funext e
    by_cases he : e.1 = j
    · simp [he, h]
    · simp [he]

theorem owner_removeAll (ks : List MetricKey) (r : MetricsReg) (j : MetricKey) : (ks.foldl MetricsReg.remove r).owner j = if j ∈ ks then none else r.owner j := by
  induction ks generalizing r with
  | nil => simp
  | cons k ks ih =>
    simp only [List.foldl_cons, ih, owner_remove]
    by_cases h1 : j ∈ ks
    · simp [h1]
    · by_cases h2 : j = k
      · simp [h2]
      · simp [h1, h2]

/-- **C63.** After any sequence of calls of `Register` and `Unregister`, whose counter is shown under a name is what `Spec.shownBy` says. -/
theorem metrics_history {A R : Type} (valid : Bytes → Bool) (cs : List (MetricsCall A R)) (k : MetricKey) : (MetricsReg.calls valid [] cs).owner k = Spec.shownBy valid k cs.reverse := by
  have key : ∀ (cs : List (MetricsCall A R)), (MetricsReg.calls valid [] cs.reverse).owner k = Spec.shownBy valid k cs := by
    intro cs
    induction cs with
    | nil => rfl
    | cons c cs ih =>
      simp only [MetricsReg.calls, List.reverse_cons, List.foldl_append, List.foldl_cons, List.foldl_nil] at ih ⊢
      cases c with
      | register o p => simp only [MetricsReg.call, MetricsReg.register, owner_addAll, ih, Spec.shownBy]; cases Spec.shownBy valid k cs <;> rfl
      | unregister p => simp only [MetricsReg.call, MetricsReg.unregister, owner_removeAll, ih, Spec.shownBy]
  have := key cs.reverse
  rwa [List.reverse_reverse] at this

/-! ## A scrape -/

theorem nodup_add {valid : Bytes → Bool} {o : Nat} {r : MetricsReg} (h : (r.map (·.1)).Nodup) (k : MetricKey) : ((r.add valid o k).map (·.1)).Nodup := by
  unfold MetricsReg.add
  split
  · next hx =>
    simp only [Bool.and_eq_true, Bool.not_eq_true'] at hx
    rw [List.map_append, List.nodup_append]
    refine ⟨h, by simp, ?_⟩
    intro a ha b hb hab
    simp only [List.map_cons, List.map_nil, List.mem_singleton] at hb
    subst hab; subst hb
    obtain ⟨e, he, he2⟩ := List.mem_map.1 ha
    have : r.has a = true := by simp only [MetricsReg.has, List.any_eq_true]; exact ⟨e, he, by simp [he2]⟩
    rw [hx.2] at this; cases this
  · exact h

theorem nodup_calls {A R : Type} (valid : Bytes → Bool) (cs : List (MetricsCall A R)) (r : MetricsReg) (h : (r.map (·.1)).Nodup) : ((MetricsReg.calls valid r cs).map (·.1)).Nodup := by
  induction cs generalizing r with
  | nil => exact h
  | cons c cs ih =>
    refine ih _ ?_
    cases c with
    | register o p =>
      simp only [MetricsReg.call, MetricsReg.register]
      generalize p.metrics = ks
      induction ks generalizing r with
      | nil => exact h
      | cons k ks ih2 => exact ih2 _ (nodup_add h k)
    | unregister p =>
      simp only [MetricsReg.call, MetricsReg.unregister]
      generalize p.metrics = ks
      induction ks generalizing r with
      | nil => exact h
      | cons k ks ih2 =>
        refine ih2 _ ?_
        exact List.Nodup.sublist ((List.filter_sublist).map _) h

theorem shows_iff (c : Counts) (k : Kind) (n : Nat) : Spec.Shows c k n ↔ n = c.get k := by
  constructor
  · intro h; cases h <;> rfl
  · rintro rfl; cases k <;> constructor

/-- **C63.** A scrape shows each name at most once, with the current value of the counter of the pipeline object whose turn it is, and nothing else. -/
theorem scrape_spec {A R : Type} (valid : Bytes → Bool) (cs : List (MetricsCall A R)) (counters : Nat → Counters) :
    (((MetricsReg.calls valid [] cs).scrape counters).map (·.1)).Nodup ∧
    ∀ k n, (k, n) ∈ (MetricsReg.calls valid [] cs).scrape counters ↔ ∃ o, Spec.shownBy valid k cs.reverse = some o ∧ Spec.Shows (counters o k.1) k.2 n := by
  have hn := nodup_calls valid cs [] (by simp)
  constructor
  · simpa [MetricsReg.scrape, List.map_map, Function.comp_def] using hn
  · intro k n
    rw [← metrics_history]
    simp only [shows_iff]
    generalize MetricsReg.calls valid [] cs = r at hn
    simp only [MetricsReg.scrape, List.mem_map, Prod.mk.injEq, MetricsReg.owner, Option.map_eq_some_iff]
    constructor
    · rintro ⟨e, he, rfl, rfl⟩
      cases hf : r.find? fun e' => e'.1 = e.1 with
      | none =>
        rw [List.find?_eq_none] at hf
        exact absurd (by simp) (hf e he)
      | some e' =>
        have h1 := List.mem_of_find?_eq_some hf
        have h2 : e'.1 = e.1 := by simpa using List.find?_some hf
        have : e' = e := by
          clear hf
          induction r with
          | nil => cases he
          | cons x xs ih =>
            simp only [List.map_cons, List.nodup_cons] at hn
            rcases List.mem_cons.1 he with he' | he'
            · rcases List.mem_cons.1 h1 with h1' | h1'
              · rw [he', h1']
              · exact absurd (List.mem_map.2 ⟨e', h1', h2.trans (by rw [he'])⟩) hn.1
            · rcases List.mem_cons.1 h1 with h1' | h1'
              · exact absurd (List.mem_map.2 ⟨e, he', h2.symm.trans (by rw [h1'])⟩) hn.1
              · exact ih hn.2 he' h1'
        subst this
        exact ⟨e'.2, ⟨e', rfl, rfl⟩, rfl⟩
    · rintro ⟨o, ⟨e, he, rfl⟩, rfl⟩
      have h2 : e.1 = k := by simpa using List.find?_some he
      exact ⟨e, List.mem_of_find?_eq_some he, h2, by rw [h2]⟩

/-! ## One pipeline, and two with the same ID -/

section
variable {A R C : Type} {F : Factory A R C}

/-- C63: a pipeline on its own, as in the command line program: every processor below `processors` is shown with its four counters (if its ID is valid UTF-8). -/
theorem scrape_one (valid : Bytes → Bool) {c : Config C} {p : Pipeline A R} (h : Pipeline.new F c = .ok (.ok p)) (o : Nat) (counters : Nat → Counters) (id : Bytes) (kind : Kind) (n : Nat) :
    ((id, kind), n) ∈ (MetricsReg.calls valid [] [.register o p]).scrape counters ↔ (∃ m, Below m p.processors ∧ m.id = id) ∧ valid id = true ∧ Spec.Shows (counters o id) kind n := by
  rw [(scrape_spec valid [.register o p] counters).2]
  simp only [List.reverse_cons, List.reverse_nil, List.nil_append, Spec.shownBy]
  rw [← (metrics_exact h).2 id kind]
  constructor
  · rintro ⟨o', h1, h2⟩
    split at h1
    · next h3 => simp only [Option.some.injEq] at h1; subst h1; exact ⟨h3.1, h3.2, h2⟩
    · cases h1
  · rintro ⟨h1, h2, h3⟩
    exact ⟨o, by rw [if_pos ⟨h1, h2⟩], h3⟩

/-- C63: of two pipelines with the same components the second is not shown; and when the second is unregistered the first is not shown any more either. -/
theorem second_not_shown (valid : Bytes → Bool) {p p' : Pipeline A R} (hm : p.metrics = p'.metrics) (hv : ∀ k ∈ p.metrics, valid k.1 = true) :
    MetricsReg.calls valid [] [.register 0 p, .register 1 p'] = MetricsReg.calls valid [] [.register 0 p] ∧
    (∀ k, (MetricsReg.calls valid [] [.register 0 p, .register 1 p', .unregister p']).owner k = none) := by
  constructor
  · have key : ∀ (ks : List MetricKey) (r : MetricsReg), (∀ k ∈ ks, r.has k = true) → ks.foldl (MetricsReg.add valid 1) r = r := by
      intro ks
      induction ks with
      | nil => intro r _; rfl
      | cons k ks ih =>
        intro r hr
        have h1 : r.add valid 1 k = r := by simp [MetricsReg.add, hr k (by simp)]
        rw [List.foldl_cons, h1]
        exact ih r fun k hk => hr k (by simp [hk])
    show p'.metrics.foldl (MetricsReg.add valid 1) (MetricsReg.calls valid [] [.register 0 p]) = _
    refine key _ _ fun k hk => ?_
    rw [← hm] at hk
    have ho : (MetricsReg.calls valid [] [.register 0 p]).owner k = some 0 := by
      rw [metrics_history]
      simp [Spec.shownBy, hk, hv k hk]
    cases hh : (MetricsReg.calls valid [] [.register 0 p]).has k with
    | true => rfl
    | false => rw [owner_none_iff.2 hh] at ho; cases ho
  · intro k
    rw [metrics_history]
    simp only [List.reverse_cons, List.reverse_nil, List.nil_append, List.cons_append, Spec.shownBy, hm]
    split
    · rfl
    · next h => simp [h]
end

/-- C63, a case: the two pipelines of `sampleConfig`. -/
theorem second_not_shown_sample : ∃ p, Pipeline.new anyFactory sampleConfig = .ok (.ok p) ∧ p.metrics ≠ [] ∧
    ∀ k ∈ p.metrics, (MetricsReg.calls (fun _ => true) [] [.register 0 p]).owner k = some 0 ∧ (MetricsReg.calls (fun _ => true) [] [.register 0 p, .register 1 p, .unregister p]).owner k = none := by
  obtain ⟨p, h, _, _⟩ := sampleConfig_new
  refine ⟨p, h, ?_, fun k hk => ⟨?_, ?_⟩⟩
  · have hp := (new_iff.1 h).2.2.1
    intro he
    generalize hon : p.processors = on at hp
    cases hp with
    | @cons _ _ _ _ n ns hp _ =>
      cases n with
      | mk a b c d e f => simp [Pipeline.metrics, Pipeline.visitProcessors, hon, Node.visitAll, Node.visit] at he
  · rw [metrics_history]; simp [Spec.shownBy, hk]
  · exact (second_not_shown _ rfl fun _ _ => rfl).2 k

end Sawmill
