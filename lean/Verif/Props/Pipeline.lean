import Verif.Spec.Pipeline
/-!
# C18–C27, C53, C54: the pipeline engine

Everything here holds for every world, every event interface and every processor behaviour.
-/

namespace Sawmill
variable {A R Ev W : Type} {call : Ev → W → A → Res (W × R)}

/-! ## Lists of processors -/

theorem processAll_allOk {ns : List (Node A R)} {s s' : PState Ev W} {e : Option Err} (hne : ns ≠ [])
    (h : AllOk (Node.process call) ns s s') : Node.processAll call ns s e = .ok (s', none) := by
  induction h generalizing e with
  | nil => exact absurd rfl hne
  | @cons n ns s s1 s2 h1 h2 ih =>
    simp only [Node.processAll, h1]
    cases ns with
    | nil => cases h2; simp [Node.processAll]
    | cons m ms => exact ih (by simp)

theorem processAll_append {pre post : List (Node A R)} {n : Node A R} {s s1 : PState Ev W} {e : Option Err}
    (h : AllOk (Node.process call) pre s s1) :
    Node.processAll call (pre ++ n :: post) s e = Node.processAll call (n :: post) s1 none := by
  induction h generalizing e with
  | nil s => simp only [List.nil_append, Node.processAll]
  | cons h1 h2 ih => simp only [List.cons_append, Node.processAll, h1]; exact ih

theorem processAll_firstFails {ns : List (Node A R)} {s s' : PState Ev W} {e : Err} {e0 : Option Err}
    (h : FirstFails (Node.process call) ns s s' e) : Node.processAll call ns s e0 = .ok (s', some e) := by
  obtain ⟨pre, n, post, s1, rfl, h1, h2⟩ := h
  rw [processAll_append h1]
  simp only [Node.processAll, h2]

theorem processAll_firstPanics {ns : List (Node A R)} {s : PState Ev W} {e0 : Option Err}
    (h : FirstPanics (Node.process call) ns s) : Node.processAll call ns s e0 = .panic := by
  obtain ⟨pre, n, post, s1, rfl, h1, h2⟩ := h
  rw [processAll_append h1]
  simp only [Node.processAll, h2]

/-- Running steps one after another: all succeed, or one is the first to fail, or one panics. -/
theorem runs_cases {N S E : Type} (step : N → S → Res (S × Option E)) (ns : List N) (s : S) :
    (∃ s', AllOk step ns s s') ∨ (∃ s' e, FirstFails step ns s s' e) ∨ FirstPanics step ns s := by
  induction ns generalizing s with
  | nil => exact .inl ⟨s, .nil s⟩
  | cons n ns ih =>
    cases h : step n s with
    | panic => exact .inr (.inr ⟨[], n, ns, s, rfl, .nil s, h⟩)
    | ok r =>
      obtain ⟨s1, e⟩ := r
      cases e with
      | some e => exact .inr (.inl ⟨s1, e, [], n, ns, s, rfl, .nil s, h⟩)
      | none =>
        rcases ih s1 with ⟨s', h1⟩ | ⟨s', e, pre, m, post, s2, rfl, h1, h2⟩ | ⟨pre, m, post, s2, rfl, h1, h2⟩
        · exact .inl ⟨s', .cons h h1⟩
        · exact .inr (.inl ⟨s', e, n :: pre, m, post, s2, rfl, .cons h h1, h2⟩)
        · exact .inr (.inr ⟨n :: pre, m, post, s2, rfl, .cons h h1, h2⟩)

/-! ## C18, C20 -/

/-- C18, C20. The processors run in order on the same event; if none fails the pipeline succeeds and its on_failure processors do not run. -/
theorem pipeline_all_succeed {p : Pipeline A R} {s s' : PState Ev W} (h : AllOk (Node.process call) p.processors s s') :
    p.run call s = .ok (s', none) := by
  unfold Pipeline.run
  by_cases hn : p.processors = []
  · rw [hn] at h ⊢; cases h; simp [Node.processAll]
  · rw [processAll_allOk hn h]

/-- C18, C20. When a processor fails, what happens next is decided by the on_failure processors alone, from the state the failing processor left: without any, that
error is the result; if they all succeed the pipeline succeeds; if one fails, its error is the result. -/
theorem pipeline_failure {p : Pipeline A R} {s s1 : PState Ev W} {e : Err} (h : FirstFails (Node.process call) p.processors s s1 e) :
    (p.onFailure = [] → p.run call s = .ok (s1, some e)) ∧
    (∀ s2, p.onFailure ≠ [] → AllOk (Node.process call) p.onFailure s1 s2 → p.run call s = .ok (s2, none)) ∧
    (∀ s2 e', FirstFails (Node.process call) p.onFailure s1 s2 e' → p.run call s = .ok (s2, some e')) ∧
    (FirstPanics (Node.process call) p.onFailure s1 → p.run call s = .panic) := by
  unfold Pipeline.run
  rw [processAll_firstFails h]
  refine ⟨?_, ?_, ?_, ?_⟩
  · intro hn; simp [hn]
  · intro s2 hn h2
    have : p.onFailure.length > 0 := by cases hh : p.onFailure <;> simp_all
    simp only [this, if_true]
    exact processAll_allOk hn h2
  · intro s2 e' h2
    have : p.onFailure.length > 0 := by obtain ⟨_, _, _, _, h, _⟩ := h2; rw [h]; simp; omega
    simp only [this, if_true]
    exact processAll_firstFails h2
  · intro h2
    have : p.onFailure.length > 0 := by obtain ⟨_, _, _, _, h, _⟩ := h2; rw [h]; simp; omega
    simp only [this, if_true]
    exact processAll_firstPanics h2

/-- C18. After the first failure none of the later processors runs: replacing or removing them changes nothing at all. -/
theorem later_processors_do_not_run {id : Bytes} {pre post post' onF : List (Node A R)} {n : Node A R} {s s1 s2 : PState Ev W} {e : Err}
    (h1 : AllOk (Node.process call) pre s s1) (h2 : Node.process call n s1 = .ok (s2, some e)) :
    Pipeline.run call ⟨id, pre ++ n :: post, onF⟩ s = Pipeline.run call ⟨id, pre ++ n :: post', onF⟩ s := by
  simp only [Pipeline.run]
  rw [processAll_append h1, processAll_append h1]
  simp only [Node.processAll, h2]

/-- C18, C20: the three theorems above cover every run. -/
theorem pipeline_cases (p : Pipeline A R) (s : PState Ev W) :
    (∃ s', AllOk (Node.process call) p.processors s s') ∨ (∃ s' e, FirstFails (Node.process call) p.processors s s' e) ∨
      (FirstPanics (Node.process call) p.processors s ∧ p.run call s = .panic) := by
  rcases runs_cases (Node.process call) p.processors s with h | h | h
  · exact .inl h
  · exact .inr (.inl h)
  · exact .inr (.inr ⟨h, by unfold Pipeline.run; rw [processAll_firstPanics h]⟩)

/-- C20: the on_failure processors have no influence unless a processor failed. -/
theorem onFailure_only_after_failure {id : Bytes} {ps onF onF' : List (Node A R)} {s s' : PState Ev W}
    (h : AllOk (Node.process call) ps s s') : Pipeline.run call ⟨id, ps, onF⟩ s = Pipeline.run call ⟨id, ps, onF'⟩ s := by
  rw [pipeline_all_succeed (p := ⟨id, ps, onF⟩) h, pipeline_all_succeed (p := ⟨id, ps, onF'⟩) h]

/-! ## C21, C22, C23: one processor -/

/-- `errors.Is` finds a missing-key error exactly when one is there, at any depth. -/
theorem isMissing_iff (e : Err) : e.isMissing = true ↔ ∃ x, Err.IsOrWraps x e ∧ x.MissingLeaf :=
  Err.rec (motive_1 := fun e => e.isMissing = true ↔ ∃ x, Err.IsOrWraps x e ∧ x.MissingLeaf)
    (motive_2 := fun es => Err.anyMissing es = true ↔ ∃ e ∈ es, ∃ x, Err.IsOrWraps x e ∧ x.MissingLeaf)
    (fun k => by simp only [Err.isMissing, true_iff]; exact ⟨_, .self, trivial⟩)
    (fun k => by simp only [Err.isMissing, true_iff]; exact ⟨_, .self, trivial⟩)
    (fun m => by
      simp only [Err.isMissing, Bool.false_eq_true, false_iff]
      rintro ⟨x, hx, hm⟩; cases hx; exact hm)
    (fun m e ih => by
      simp only [Err.isMissing, ih]
      constructor
      · rintro ⟨x, hx, hm⟩; exact ⟨x, .wrap hx, hm⟩
      · rintro ⟨x, hx, hm⟩
        cases hx with
        | self => exact hm.elim
        | wrap h => exact ⟨x, h, hm⟩)
    (fun m es ih => by
      simp only [Err.isMissing, ih]
      constructor
      · rintro ⟨e, he, x, hx, hm⟩; exact ⟨x, .join he hx, hm⟩
      · rintro ⟨x, hx, hm⟩
        cases hx with
        | self => exact hm.elim
        | join he h => exact ⟨_, he, x, h, hm⟩)
    (by simp [Err.anyMissing])
    (fun e es ih1 ih2 => by simp [Err.anyMissing, ih1, ih2])
    e

/-- The event record never becomes dropped while a processor runs, whatever it calls. -/
theorem run_dropped {p : Prog A R} {ev ev' : PEvent Ev} {w w' : W} {e : Option Err}
    (h : p.run call ev w = .ok (ev', w', e)) : ev'.dropped = ev.dropped ∧ ev'.data = ev.data := by
  induction p generalizing ev w with
  | done e0 => simp [Prog.run] at h; obtain ⟨rfl, _⟩ := h; simp
  | cancel k ih => simp only [Prog.run] at h; have := ih h; simpa [PEvent.cancel] using this
  | drop k ih => simp only [Prog.run] at h; have := ih h; simpa [PEvent.drop] using this
  | call a k ih =>
    simp only [Prog.run] at h
    split at h
    · cases h
    · exact ih _ h

mutual
theorem process_ev {n : Node A R} {s s' : PState Ev W} {e : Option Err} (h : n.process call s = .ok (s', e)) :
    s'.ev.dropped = s.ev.dropped ∧ s'.ev.data = s.ev.data := by
  obtain ⟨id, c, ignF, ignM, onF, pr⟩ := n
  simp only [Node.process] at h
  cases hr : pr.run call (s.inc id .received).ev (s.inc id .received).world with
  | panic => simp [hr] at h
  | ok r =>
    obtain ⟨ev, w, err⟩ := r
    have hd := run_dropped hr
    simp only [PState.inc] at hd
    cases err with
    | none =>
      simp only [hr, Res.ok.injEq, Prod.mk.injEq] at h
      obtain ⟨rfl, _⟩ := h
      simpa [PState.inc, PState.note] using hd
    | some err =>
      simp only [hr] at h
      split at h
      · simp only [Res.ok.injEq, Prod.mk.injEq] at h
        obtain ⟨rfl, _⟩ := h
        simpa [PState.inc, PState.note] using hd
      split at h
      · simp only [Res.ok.injEq, Prod.mk.injEq] at h
        obtain ⟨rfl, _⟩ := h
        simpa [PState.inc, PState.note] using hd
      split at h
      · cases h
      · rename_i s2 err' hl
        have := processAll_ev hl
        simp only [PState.inc] at this
        split at h <;>
        · simp only [Res.ok.injEq, Prod.mk.injEq] at h
          obtain ⟨rfl, _⟩ := h
          simp [PState.inc, PState.note, this, hd]
theorem processAll_ev {ns : List (Node A R)} {s s' : PState Ev W} {e0 e : Option Err} (h : Node.processAll call ns s e0 = .ok (s', e)) :
    s'.ev.dropped = s.ev.dropped ∧ s'.ev.data = s.ev.data := by
  match ns with
  | [] => simp [Node.processAll] at h; obtain ⟨rfl, _⟩ := h; simp
  | n :: ns =>
    simp only [Node.processAll] at h
    split at h
    · cases h
    · rename_i s1 err h1
      have := process_ev h1
      simp only [Res.ok.injEq, Prod.mk.injEq] at h
      obtain ⟨rfl, _⟩ := h
      exact this
    · rename_i s1 h1
      have a := process_ev h1
      have b := processAll_ev h
      exact ⟨b.1.trans a.1, b.2.trans a.2⟩
end

theorem run_ev {p : Pipeline A R} {s s' : PState Ev W} {e : Option Err} (h : p.run call s = .ok (s', e)) :
    s'.ev.dropped = s.ev.dropped ∧ s'.ev.data = s.ev.data := by
  unfold Pipeline.run at h
  split at h
  · cases h
  · rename_i s1 h1
    simp only [Res.ok.injEq, Prod.mk.injEq] at h
    obtain ⟨rfl, _⟩ := h
    exact processAll_ev h1
  · rename_i s1 err h1
    have a := processAll_ev h1
    split at h
    · have b := processAll_ev h
      exact ⟨b.1.trans a.1, b.2.trans a.2⟩
    · simp only [Res.ok.injEq, Prod.mk.injEq] at h
      obtain ⟨rfl, _⟩ := h
      exact a

/-- C21. A processor with `ignore_failure` never returns an error. -/
theorem ignore_failure_never_fails {n : Node A R} {s s' : PState Ev W} {e : Option Err} (hf : n.ignoreFailure = true)
    (h : n.process call s = .ok (s', e)) : e = none := by
  obtain ⟨id, c, ignF, ignM, onF, pr⟩ := n
  simp only [Node.ignoreFailure] at hf
  subst hf
  simp only [Node.process] at h
  split at h
  · cases h
  · simp at h; exact h.2.symm
  · split at h
    · simp at h; exact h.2.symm
    split at h
    · simp at h; exact h.2.symm
    split at h
    · cases h
    · rename_i s2 err' hl
      split at h
      · simp at h; exact h.2.symm
      · rename_i hn
        simp only [Res.ok.injEq, Prod.mk.injEq] at h
        obtain ⟨_, rfl⟩ := h
        cases err' <;> simp_all

/-- C21 at pipeline level: a pipeline all of whose processors have `ignore_failure` never fails. -/
theorem pipeline_ignore_failure {p : Pipeline A R} {s s' : PState Ev W} {e : Option Err}
    (hf : ∀ n ∈ p.processors, n.ignoreFailure = true) (h : p.run call s = .ok (s', e)) : e = none := by
  rcases pipeline_cases (call := call) p s with ⟨s2, h1⟩ | ⟨s2, e2, pre, n, post, s1, h1, h2, h3⟩ | ⟨_, h1⟩
  · rw [pipeline_all_succeed h1] at h; simp at h; exact h.2.symm
  · have := ignore_failure_never_fails (hf n (by rw [h1]; simp)) h3
    simp at this
  · rw [h1] at h; cases h

/-- C22. With `ignore_missing`, an error that is or wraps a missing-key error is swallowed: the step succeeds right after the processor's own run, without running any handler
(the state is the processor's own, plus counters). -/
theorem ignore_missing_swallows {n : Node A R} {s : PState Ev W} {ev : PEvent Ev} {w : W} {err x : Err} (hd : s.ev.dropped = false)
    (hm : n.ignoreMissing = true) (hrun : n.proc.run call s.ev s.world = .ok (ev, w, some err))
    (hx : Err.IsOrWraps x err) (hl : x.MissingLeaf) :
    ∃ s', n.process call s = .ok (s', none) ∧ s'.ev = ev ∧ s'.world = w ∧
      s'.log = s.log ++ [⟨n.id, some err, none, none⟩] ∧ s'.counts = (s.counts.inc n.id .received).inc n.id .sent := by
  obtain ⟨id, c, ignF, ignM, onF, pr⟩ := n
  simp only [Node.ignoreMissing] at hm
  subst hm
  simp only [Node.proc] at hrun
  have hd' := (run_dropped hrun).1
  rw [hd] at hd'
  have : err.isMissing = true := (isMissing_iff err).2 ⟨x, hx, hl⟩
  refine ⟨_, by simp [Node.process, PState.inc, hrun, hd', this]; rfl, rfl, rfl, rfl, rfl⟩

/-- C22. With `ignore_missing` any other error is treated as if the option were off. -/
theorem ignore_missing_other_errors {id c : Bytes} {ignF : Bool} {onF : List (Node A R)} {pr : Prog A R} {s : PState Ev W}
    (h : ∀ ev w err x, pr.run call s.ev s.world = .ok (ev, w, some err) → Err.IsOrWraps x err → ¬ x.MissingLeaf) :
    Node.process call (.mk id c ignF true onF pr) s = Node.process call (.mk id c ignF false onF pr) s := by
  simp only [Node.process, PState.inc]
  cases hr : pr.run call s.ev s.world with
  | panic => rfl
  | ok r =>
    obtain ⟨ev, w, err⟩ := r
    cases err with
    | none => rfl
    | some err =>
      have : err.isMissing = false := by
        cases hm : err.isMissing with
        | false => rfl
        | true =>
          obtain ⟨x, hx, hl⟩ := (isMissing_iff err).1 hm
          exact absurd hl (h ev w err x hr hx)
      simp [this]

/-- The state in which the handlers of a failed processor start. -/
def afterOwn (n : Node A R) (s : PState Ev W) (ev : PEvent Ev) (w : W) : PState Ev W :=
  { s with ev := ev, world := w, counts := s.counts.inc n.id .received }

/-- C23. A failing processor whose error is not swallowed by `ignore_missing`: with no handlers it yields its own error (unless `ignore_failure`); otherwise the handlers run in
order on the same event from where the processor left it: all succeed → the step succeeds; one fails → the step yields that error (unless `ignore_failure`) and the later
ones do not run. -/
theorem local_on_failure {n : Node A R} {s : PState Ev W} {ev : PEvent Ev} {w : W} {err : Err} (hd : s.ev.dropped = false)
    (hrun : n.proc.run call s.ev s.world = .ok (ev, w, some err)) (hm : n.ignoreMissing = true → err.isMissing = false) :
    (n.onFailure = [] → ∃ s', n.process call s = .ok (s', if n.ignoreFailure then none else some err) ∧ s'.world = w ∧ s'.ev = ev) ∧
    (∀ s2, n.onFailure ≠ [] → AllOk (Node.process call) n.onFailure (afterOwn n s ev w) s2 →
      ∃ s', n.process call s = .ok (s', none) ∧ s'.world = s2.world ∧ s'.ev = s2.ev) ∧
    (∀ s2 e, FirstFails (Node.process call) n.onFailure (afterOwn n s ev w) s2 e →
      ∃ s', n.process call s = .ok (s', if n.ignoreFailure then none else some e) ∧ s'.world = s2.world ∧ s'.ev = s2.ev) ∧
    (FirstPanics (Node.process call) n.onFailure (afterOwn n s ev w) → n.process call s = .panic) := by
  obtain ⟨id, c, ignF, ignM, onF, pr⟩ := n
  simp only [Node.proc, Node.ignoreMissing, Node.onFailure, Node.ignoreFailure] at *
  have hd' := (run_dropped hrun).1
  rw [hd] at hd'
  have hsw : (ignM && err.isMissing) = false := by cases ignM <;> simp_all
  have key : Node.process call (.mk id c ignF ignM onF pr) s =
      (match Node.processAll call onF (afterOwn (.mk id c ignF ignM onF pr) s ev w) (some err) with
        | .panic => .panic
        | .ok (s, err') =>
          if ignF && err'.isSome then
            .ok ((s.inc id .sent).note ⟨id, some err, some err', none⟩, none)
          else
            .ok ((s.inc id .errors).note ⟨id, some err, some err', err'⟩, err')) := by
    simp only [Node.process, PState.inc, hrun, hd', Bool.false_eq_true, if_false, hsw, afterOwn, Node.id]
    rfl
  rw [key]
  refine ⟨?_, ?_, ?_, ?_⟩
  · intro hn
    subst hn
    simp only [Node.processAll]
    cases ignF <;> simp [PState.inc, PState.note, afterOwn]
  · intro s2 hne h
    rw [processAll_allOk hne h]
    simp [PState.inc, PState.note]
  · intro s2 e h
    rw [processAll_firstFails h]
    cases ignF <;> simp [PState.inc, PState.note]
  · intro h
    rw [processAll_firstPanics h]

/-! ## C19, C26 -/

/-- C19, C26. `Process` returns the very event it was given and no error, or no event and an error. In particular it never reports a dropped event (no event, no error),
whatever the processors call. -/
theorem process_returns {p : Pipeline A R} {evt : Ev} {w w' : PWorld W} {r : Option Ev} {e : Option Err}
    (h : p.process call evt w = .ok (w', r, e)) : (r = some evt ∧ e = none) ∨ (r = none ∧ ∃ err, e = some err) := by
  unfold Pipeline.process at h
  split at h
  · cases h
  · simp only [Res.ok.injEq, Prod.mk.injEq] at h; exact .inr ⟨h.2.1.symm, _, h.2.2.symm⟩
  · rename_i s hs
    have hd := run_ev hs
    simp only at hd
    simp only [hd.1, Bool.false_eq_true, if_false, Res.ok.injEq, Prod.mk.injEq] at h
    exact .inl ⟨by rw [← h.2.1, hd.2], h.2.2.symm⟩

/-- C19: the error of `Process` is nil exactly when the pipeline run returned none. -/
theorem process_error_iff {p : Pipeline A R} {evt : Ev} {w : PWorld W} (err : Option Err) :
    (∃ w' r, p.process call evt w = .ok (w', r, err)) ↔ ∃ s', p.run call ⟨{ data := evt }, w.world, w.counts, w.log⟩ = .ok (s', err) := by
  unfold Pipeline.process
  constructor
  · rintro ⟨w', r, h⟩
    split at h
    · cases h
    · rename_i s e hs; simp only [Res.ok.injEq, Prod.mk.injEq] at h; exact ⟨s, by rw [hs, h.2.2]⟩
    · rename_i s hs
      split at h <;> (simp only [Res.ok.injEq, Prod.mk.injEq] at h; exact ⟨s, by rw [hs, h.2.2]⟩)
  · rintro ⟨s', h⟩
    rw [h]
    cases err with
    | some e => exact ⟨_, _, rfl⟩
    | none => simp only; split <;> exact ⟨_, _, rfl⟩

/-! ## C26, C27, C53: Drop, Cancel and `if` make no difference -/

/-- Two states that differ at most in the cancelled flag. -/
def SameButCancel (s t : PState Ev W) : Prop :=
  s.ev.data = t.ev.data ∧ s.ev.dropped = t.ev.dropped ∧ s.world = t.world ∧ s.counts = t.counts ∧ s.log = t.log

/-- Outcomes that differ at most in the cancelled flag. -/
def SameOut : Res (PState Ev W × Option Err) → Res (PState Ev W × Option Err) → Prop
  | .panic, .panic => True
  | .ok (s, e), .ok (t, f) => SameButCancel s t ∧ e = f
  | _, _ => False

def SameRun : Res (PEvent Ev × W × Option Err) → Res (PEvent Ev × W × Option Err) → Prop
  | .panic, .panic => True
  | .ok (a, w, e), .ok (b, v, f) => a.data = b.data ∧ a.dropped = b.dropped ∧ w = v ∧ e = f
  | _, _ => False

theorem run_same (f : Prog A R → Prog A R) (hf : f = id ∨ f = Prog.withoutDrop ∨ f = Prog.withoutCancel) (p : Prog A R) (a b : PEvent Ev) (w : W)
    (h1 : a.data = b.data) (h2 : a.dropped = b.dropped) : SameRun (p.run call a w) ((f p).run call b w) := by
  induction p generalizing a b w with
  | done e => rcases hf with rfl | rfl | rfl <;> simp [Prog.run, Prog.withoutDrop, Prog.withoutCancel, SameRun, h1, h2]
  | cancel k ih =>
    rcases hf with rfl | rfl | rfl
    · simp only [Prog.run, id]; exact ih _ _ _ (by simpa [PEvent.cancel]) (by simpa [PEvent.cancel])
    · simp only [Prog.run, Prog.withoutDrop]; exact ih _ _ _ (by simpa [PEvent.cancel]) (by simpa [PEvent.cancel])
    · simp only [Prog.run, Prog.withoutCancel]; exact ih _ _ _ (by simpa [PEvent.cancel]) (by simpa [PEvent.cancel])
  | drop k ih =>
    rcases hf with rfl | rfl | rfl
    · simp only [Prog.run, id]; exact ih _ _ _ (by simpa [PEvent.drop]) (by simpa [PEvent.drop])
    · simp only [Prog.run, Prog.withoutDrop]; exact ih _ _ _ (by simpa [PEvent.drop]) (by simpa [PEvent.drop])
    · simp only [Prog.run, Prog.withoutCancel]; exact ih _ _ _ (by simpa [PEvent.drop]) (by simpa [PEvent.drop])
  | call c k ih =>
    have hfc : f (.call c k) = .call c (fun r => f (k r)) := by
      rcases hf with rfl | rfl | rfl <;> simp [Prog.withoutDrop, Prog.withoutCancel]
    rw [hfc]
    simp only [Prog.run, h1]
    cases call b.data w c with
    | panic => trivial
    | ok r => exact ih _ _ _ _ h1 h2

mutual
theorem process_same (c : Bytes → Bytes) (f : Prog A R → Prog A R) (hf : f = id ∨ f = Prog.withoutDrop ∨ f = Prog.withoutCancel) (n : Node A R)
    (s t : PState Ev W) (h : SameButCancel s t) : SameOut (n.process call s) ((n.change c f).process call t) := by
  obtain ⟨i, cond, ignF, ignM, onF, pr⟩ := n
  obtain ⟨h1, h2, h3, h4, h5⟩ := h
  simp only [Node.change, Node.process, PState.inc]
  have hr := run_same (call := call) f hf pr s.ev t.ev s.world h1 h2
  rw [← h3]
  cases ha : pr.run call s.ev s.world with
  | panic =>
    cases hb : (f pr).run call t.ev s.world with
    | panic => trivial
    | ok r => simp [ha, hb, SameRun] at hr
  | ok r =>
    obtain ⟨ev, w, e⟩ := r
    cases hb : (f pr).run call t.ev s.world with
    | panic => simp [ha, hb, SameRun] at hr
    | ok r =>
      obtain ⟨ev', w', e'⟩ := r
      simp only [ha, hb, SameRun] at hr
      obtain ⟨r1, r2, rfl, rfl⟩ := hr
      cases e with
      | none => simp [SameOut, SameButCancel, PState.note, r1, r2, h4, h5]
      | some e =>
        simp only [r2]
        by_cases hdrop : ev'.dropped = true
        · simp [hdrop, SameOut, SameButCancel, PState.note, r1, r2, h4, h5]
        by_cases hmiss : (ignM && e.isMissing) = true
        · simp [hdrop, hmiss, SameOut, SameButCancel, PState.note, r1, r2, h4, h5]
        simp only [hdrop, hmiss, if_false, Bool.false_eq_true]
        have hs := processAll_same c f hf onF
          { s with ev := ev, counts := s.counts.inc i .received, world := w }
          { t with ev := ev', counts := t.counts.inc i .received, world := w } (some e)
          ⟨r1, r2, rfl, by rw [h4], h5⟩
        revert hs
        generalize Node.processAll call onF _ _ = ra
        generalize Node.processAll call (Node.changeAll c f onF) _ _ = rb
        intro hs
        cases ra with
        | panic => cases rb with
          | panic => trivial
          | ok _ => simp [SameOut] at hs
        | ok ra =>
          cases rb with
          | panic => simp [SameOut] at hs
          | ok rb =>
            obtain ⟨sa, ea⟩ := ra
            obtain ⟨sb, eb⟩ := rb
            simp only [SameOut] at hs
            obtain ⟨⟨q1, q2, q3, q4, q5⟩, rfl⟩ := hs
            cases hc : (ignF && ea.isSome) <;> simp [hc, SameOut, SameButCancel, PState.note, q1, q2, q3, q4, q5]
theorem processAll_same (c : Bytes → Bytes) (f : Prog A R → Prog A R) (hf : f = id ∨ f = Prog.withoutDrop ∨ f = Prog.withoutCancel) (ns : List (Node A R))
    (s t : PState Ev W) (e : Option Err) (h : SameButCancel s t) :
    SameOut (Node.processAll call ns s e) (Node.processAll call (Node.changeAll c f ns) t e) := by
  match ns with
  | [] => simpa [Node.processAll, Node.changeAll, SameOut] using h
  | n :: ns =>
    simp only [Node.processAll, Node.changeAll]
    have hs := process_same c f hf n s t h
    revert hs
    generalize Node.process call n s = ra
    generalize Node.process call (n.change c f) t = rb
    intro hs
    cases ra with
    | panic => cases rb with
      | panic => trivial
      | ok _ => simp [SameOut] at hs
    | ok ra =>
      cases rb with
      | panic => simp [SameOut] at hs
      | ok rb =>
        obtain ⟨sa, ea⟩ := ra
        obtain ⟨sb, eb⟩ := rb
        simp only [SameOut] at hs
        obtain ⟨hq, rfl⟩ := hs
        cases ea with
        | some e => exact ⟨hq, rfl⟩
        | none => exact processAll_same c f hf ns sa sb none hq
end

theorem changeAll_length (c : Bytes → Bytes) (f : Prog A R → Prog A R) (ns : List (Node A R)) : (Node.changeAll c f ns).length = ns.length := by
  induction ns with
  | nil => rfl
  | cons n ns ih => simp [Node.changeAll, ih]

theorem change_irrelevant (c : Bytes → Bytes) (f : Prog A R → Prog A R) (hf : f = id ∨ f = Prog.withoutDrop ∨ f = Prog.withoutCancel)
    (p : Pipeline A R) (evt : Ev) (w : PWorld W) : (p.change c f).process call evt w = p.process call evt w := by
  have hs := processAll_same (call := call) c f hf p.processors ⟨{ data := evt }, w.world, w.counts, w.log⟩ _ none ⟨rfl, rfl, rfl, rfl, rfl⟩
  unfold Pipeline.process Pipeline.run
  simp only [Pipeline.change, changeAll_length]
  revert hs
  generalize Node.processAll call p.processors _ _ = ra
  generalize Node.processAll call (Node.changeAll c f p.processors) _ _ = rb
  intro hs
  cases ra with
  | panic => cases rb with
    | panic => rfl
    | ok _ => simp [SameOut] at hs
  | ok ra =>
    cases rb with
    | panic => simp [SameOut] at hs
    | ok rb =>
      obtain ⟨sa, ea⟩ := ra
      obtain ⟨sb, eb⟩ := rb
      simp only [SameOut] at hs
      obtain ⟨⟨q1, q2, q3, q4, q5⟩, rfl⟩ := hs
      cases ea with
      | none => simp [q1, q2, q3, q4, q5]
      | some e =>
        simp only
        by_cases hl : p.onFailure.length > 0
        · simp only [hl, if_true]
          have hs := processAll_same (call := call) c f hf p.onFailure sa sb (some e) ⟨q1, q2, q3, q4, q5⟩
          revert hs
          generalize Node.processAll call p.onFailure _ _ = ra
          generalize Node.processAll call (Node.changeAll c f p.onFailure) _ _ = rb
          intro hs
          cases ra with
          | panic => cases rb with
            | panic => rfl
            | ok _ => simp [SameOut] at hs
          | ok ra =>
            cases rb with
            | panic => simp [SameOut] at hs
            | ok rb =>
              obtain ⟨sa, ea⟩ := ra
              obtain ⟨sb, eb⟩ := rb
              simp only [SameOut] at hs
              obtain ⟨⟨q1, q2, q3, q4, q5⟩, rfl⟩ := hs
              cases ea <;> simp [q1, q2, q3, q4, q5]
        · simp only [hl, if_false]
          simp [q3, q4, q5]

/-- C26. `Drop` does nothing: removing every `Drop` call from every processor leaves the result, the world and all counters the same. -/
theorem drop_has_no_effect (p : Pipeline A R) (evt : Ev) (w : PWorld W) :
    (p.change id Prog.withoutDrop).process call evt w = p.process call evt w := change_irrelevant _ _ (.inr (.inl rfl)) p evt w

/-- C27. `Cancel` does nothing: removing every `Cancel` call from every processor leaves the result, the world and all counters the same. -/
theorem cancel_has_no_effect (p : Pipeline A R) (evt : Ev) (w : PWorld W) :
    (p.change id Prog.withoutCancel).process call evt w = p.process call evt w := change_irrelevant _ _ (.inr (.inr rfl)) p evt w

/-- C53. Conditions (`if`) are never looked at: changing all of them changes nothing. -/
theorem conditions_have_no_effect (c : Bytes → Bytes) (p : Pipeline A R) (evt : Ev) (w : PWorld W) :
    (p.change c id).process call evt w = p.process call evt w := change_irrelevant _ _ (.inl rfl) p evt w

end Sawmill
