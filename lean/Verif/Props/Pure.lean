import Verif.Spec.Pure
import Verif.Props.ProcLaws
/-!
# A pipeline computes a function of the contents of the event (C58)
-/

namespace Sawmill
open ATree

/-- After the step: the outcome is the specified one, the event still owns its contents, and nothing outside the event was touched. -/
def RunPost (h : Heap) (f : AFields) (run : Res (Heap × Event × Option Err)) (r : Spec.Run (Fields × Option Spec.PErr)) : Prop :=
  match r with
  | .crash => run = .panic
  | .shares => True
  | .done (F', pe) => ∃ h' f' err, run = .ok (h', AFields.event f', err) ∧ Owns h' f' ∧ f'.erase = F' ∧ procErrMatches err pe ∧ Frame f.fp h h' ∧ (∀ a ∈ f'.fp, a ∈ f.fp ∨ h.length ≤ a)

theorem runPost_of {h : Heap} {f : AFields} {run : Res (Heap × Event × Option Err)} {r : Res (Fields × Option Spec.PErr)} (hp : ProcPost h f run r) : RunPost h f run (.of r) := by
  cases r with
  | panic => exact hp
  | ok r => exact hp

theorem step_pure (cv : Conv) {h : Heap} {f : AFields} (o : Owns h f) {b : Builtin} {s : Spec.Step} (hb : StepIs h b s) : RunPost h f (b.step cv h f.event) (s.apply cv f.erase) := by
  cases b with
  | lowercase x t => obtain rfl := hb; exact runPost_of (convert_spec o _ _ _ _)
  | uppercase x t => obtain rfl := hb; exact runPost_of (convert_spec o _ _ _ _)
  | append x v d => obtain rfl := hb; exact runPost_of (append_spec o _ _ d)
  | remove xs => obtain rfl := hb; exact ProcPost.unchanged (err := none) (pe := none) o (Frame.refl h) trivial
  | communityId => obtain rfl := hb; exact ProcPost.unchanged (err := none) (pe := none) o (Frame.refl h) trivial
  | set v c t =>
    obtain ⟨x, rfl, hv⟩ := hb
    by_cases hx : x = .null
    · subst hx
      by_cases hc : c = []
      · subst hc
        have := runPost_of (set_nothing_spec o hv t)
        simpa only [Spec.Step.apply, Spec.set, if_true, Builtin.step] using this
      · simp only [Spec.Step.apply, hc, if_false, Builtin.step]
        have hg := apiGet_spec o c
        cases hs : Spec.getFields f.erase (keyToPath c) with
        | panic => simp only [hs] at hg; rw [setProcess_copy hv hc, hg]; rfl
        | ok w =>
          cases w with
          | nilp =>
            simp only [hs] at hg
            obtain ⟨h', w, e1, e2, e3, e4, e5, _⟩ := hg
            have hw : w.ptr = none := by cases w <;> simp [ATree.erase] at e3 <;> rfl
            rw [setProcess_copy hv hc, e1, hw]
            exact ProcPost.unchanged o e4 rfl
          | scalar s => exact runPost_of (set_copy_scalar o hv hc t hs)
          | _ => trivial
    · have e : (Spec.Step.set x c t).apply cv f.erase = .of (Spec.putP f.erase t (.scalar x)) := by
        cases x <;> first | exact absurd rfl hx | rfl
      rw [e]
      have := runPost_of (set_scalar_spec o hv hx c t)
      rwa [set_notnull (by simpa using hx)] at this

theorem stepIs_mono {h h' : Heap} (hk : ∀ (v : Nat) (s : Scalar), h[v]? = some (.cell (scalarCell s)) → h'[v]? = some (.cell (scalarCell s))) {b : Builtin} {s : Spec.Step} (hb : StepIs h b s) : StepIs h' b s := by
  cases b with
  | set v c t => obtain ⟨x, rfl, hv⟩ := hb; exact ⟨x, rfl, hk _ _ hv⟩
  | _ => exact hb

mutual
theorem procIs_mono {h h' : Heap} (hk : ∀ (v : Nat) (s : Scalar), h[v]? = some (.cell (scalarCell s)) → h'[v]? = some (.cell (scalarCell s))) : ∀ (n : Node Builtin (Option Err)) (q : Spec.Proc), ProcIs h n q → ProcIs h' n q
  | .mk _ _ _ _ onF _, q, hq => by
    simp only [ProcIs] at hq ⊢
    obtain ⟨b, step, qs, e1, e2, e3, e4⟩ := hq
    exact ⟨b, step, qs, e1, stepIs_mono hk e2, e3, procsAre_mono hk onF qs e4⟩
theorem procsAre_mono {h h' : Heap} (hk : ∀ (v : Nat) (s : Scalar), h[v]? = some (.cell (scalarCell s)) → h'[v]? = some (.cell (scalarCell s))) : ∀ (ns : List (Node Builtin (Option Err))) (qs : List Spec.Proc), ProcsAre h ns qs → ProcsAre h' ns qs
  | [], qs, hq => by simpa only [ProcsAre] using hq
  | n :: ns, qs, hq => by
    simp only [ProcsAre] at hq ⊢
    obtain ⟨q, r, e1, e2, e3⟩ := hq
    exact ⟨q, r, e1, procIs_mono hk n q e2, procsAre_mono hk ns r e3⟩
end

theorem frame_scalars {S : List Nat} {h h' : Heap} (fr : Frame S h h') (v : Nat) (s : Scalar) (hv : h[v]? = some (.cell (scalarCell s))) : h'[v]? = some (.cell (scalarCell s)) :=
  fr.getFrozen hv (scalarCell_type s)

/-- The engine's state holds the event `f`. -/
def PureAt (s : PState Unit (Heap × Event)) (h : Heap) (f : AFields) : Prop := s.world = (h, f.event) ∧ Owns h f ∧ s.ev.dropped = false

def NodePost (h : Heap) (f : AFields) (run : Res (PState Unit (Heap × Event) × Option Err)) (r : Spec.Run (Fields × Option Spec.PErr)) : Prop :=
  match r with
  | .crash => run = .panic
  | .shares => True
  | .done (F', pe) => ∃ s' h' f' err, run = .ok (s', err) ∧ PureAt s' h' f' ∧ f'.erase = F' ∧ procErrMatches err pe ∧ Frame f.fp h h' ∧ (∀ a ∈ f'.fp, a ∈ f.fp ∨ h.length ≤ a)

theorem procErrMatches_none {e : Option Err} (h : procErrMatches e none) : e = none := by
  cases e <;> simp [procErrMatches] at h ⊢

theorem procErrMatches_text {e : Err} {pe : Spec.PErr} (h : procErrMatches (some e) (some pe)) : e.text = pe.text := by
  cases pe with
  | missing k => simp only [procErrMatches] at h; subst h; rfl
  | other t => exact h.2

theorem procErrMatches_some {e : Option Err} {pe : Spec.PErr} (h : procErrMatches e (some pe)) : ∃ x, e = some x ∧ x.isMissing = pe.isMissing := by
  cases e with
  | none => cases pe <;> simp [procErrMatches] at h
  | some x =>
    refine ⟨x, rfl, ?_⟩
    cases pe with
    | missing k => simp only [procErrMatches] at h; subst h; rfl
    | other t => exact h.1

theorem pure_trans {h h1 h2 : Heap} {f f1 f2 : AFields} (fr1 : Frame f.fp h h1) (hf1 : ∀ a ∈ f1.fp, a ∈ f.fp ∨ h.length ≤ a) (fr2 : Frame f1.fp h1 h2) (hf2 : ∀ a ∈ f2.fp, a ∈ f1.fp ∨ h1.length ≤ a) :
    Frame f.fp h h2 ∧ ∀ a ∈ f2.fp, a ∈ f.fp ∨ h.length ≤ a := by
  refine ⟨fr1.trans fr2 hf1, fun a ha => ?_⟩
  rcases hf2 a ha with h' | h'
  · exact hf1 a h'
  · right; have := fr1.len; omega

mutual
theorem node_pure (cv : Conv) : ∀ (n : Node Builtin (Option Err)) (q : Spec.Proc) (s : PState Unit (Heap × Event)) (h : Heap) (f : AFields), PureAt s h f → ProcIs h n q →
    NodePost h f (n.process (builtinCall cv) s) (q.apply cv f.erase)
  | .mk id cond ignF ignM onF proc, q, s, h, f, hs, hq => by
    simp only [ProcIs] at hq
    obtain ⟨b, step, qs, rfl, hb, rfl, hqs⟩ := hq
    obtain ⟨hw, o, hd⟩ := hs
    have hp := step_pure cv o hb
    simp only [Node.process, Spec.Proc.apply, Builtin.prog, Prog.run, builtinCall, PState.inc, hw]
    cases hr : step.apply cv f.erase with
    | crash => simp only [hr, RunPost] at hp; simp [hp, NodePost]
    | shares => trivial
    | done x =>
      obtain ⟨F', pe⟩ := x
      simp only [hr, RunPost] at hp
      obtain ⟨h1, f1, err, e1, o1, rfl, em, fr1, hf1⟩ := hp
      simp only [e1, Res.map_ok]
      cases pe with
      | none =>
        obtain rfl := procErrMatches_none em
        exact ⟨_, h1, f1, none, rfl, ⟨rfl, o1, hd⟩, rfl, trivial, fr1, hf1⟩
      | some pe =>
        obtain ⟨x, rfl, hx⟩ := procErrMatches_some em
        simp only [hd, hx, Bool.false_eq_true, if_false]
        by_cases hm : (ignM && pe.isMissing) = true
        · simp only [hm, if_true]
          exact ⟨_, h1, f1, none, rfl, ⟨rfl, o1, hd⟩, rfl, trivial, fr1, hf1⟩
        · simp only [hm, Bool.false_eq_true, if_false]
          cases onF with
          | nil =>
            obtain rfl : qs = [] := by simpa only [ProcsAre] using hqs
            simp only [Node.processAll, List.isEmpty_nil, if_true, Option.isSome_some, Bool.and_true]
            cases ignF
            · exact ⟨_, h1, f1, some x, rfl, ⟨rfl, o1, hd⟩, rfl, em, fr1, hf1⟩
            · exact ⟨_, h1, f1, none, rfl, ⟨rfl, o1, hd⟩, rfl, trivial, fr1, hf1⟩
          | cons n ns =>
            have hne : qs.isEmpty = false := by
              simp only [ProcsAre] at hqs
              obtain ⟨q, r, rfl, _⟩ := hqs
              rfl
            have ih := nodes_pure cv (n :: ns) qs { s with ev := s.ev, world := (h1, f1.event), counts := s.counts.inc id .received } h1 f1 ⟨rfl, o1, hd⟩ (procsAre_mono (frame_scalars fr1) (n :: ns) qs hqs) (some x) (by simp)
            simp only [hne, Bool.false_eq_true, if_false]
            cases hr2 : Spec.applyAll cv qs f1.erase with
            | crash => simp only [hr2, NodePost] at ih; simp [ih, NodePost]
            | shares => trivial
            | done y =>
              obtain ⟨F2, pe2⟩ := y
              simp only [hr2, NodePost] at ih
              obtain ⟨s2, h2, f2, err2, e2, ⟨w2, o2, d2⟩, rfl, em2, fr2, hf2⟩ := ih
              simp only [e2]
              obtain ⟨k1, k2⟩ := pure_trans fr1 hf1 fr2 hf2
              cases ignF
              · simp only [Bool.false_and, Bool.false_eq_true, if_false]
                exact ⟨_, h2, f2, err2, rfl, ⟨w2, o2, d2⟩, rfl, em2, k1, k2⟩
              · cases err2 with
                | none => exact ⟨_, h2, f2, none, rfl, ⟨w2, o2, d2⟩, rfl, trivial, k1, k2⟩
                | some e => exact ⟨_, h2, f2, none, rfl, ⟨w2, o2, d2⟩, rfl, trivial, k1, k2⟩
theorem nodes_pure (cv : Conv) : ∀ (ns : List (Node Builtin (Option Err))) (qs : List Spec.Proc) (s : PState Unit (Heap × Event)) (h : Heap) (f : AFields), PureAt s h f → ProcsAre h ns qs → ∀ e0 : Option Err, (e0 = none ∨ ns ≠ []) →
    NodePost h f (Node.processAll (builtinCall cv) ns s e0) (Spec.applyAll cv qs f.erase)
  | [], qs, s, h, f, hs, hq, e0, he => by
    obtain rfl : qs = [] := by simpa only [ProcsAre] using hq
    obtain rfl : e0 = none := by simpa using he
    simp only [Node.processAll, Spec.applyAll]
    exact ⟨s, h, f, none, rfl, hs, rfl, trivial, (Frame.refl h).mono (by simp) hs.2.1.thaw, fun a ha => .inl ha⟩
  | n :: ns, qs, s, h, f, hs, hq, e0, he => by
    simp only [ProcsAre] at hq
    obtain ⟨q, r, rfl, hq1, hq2⟩ := hq
    have ih1 := node_pure cv n q s h f hs hq1
    simp only [Node.processAll, Spec.applyAll]
    cases hr : q.apply cv f.erase with
    | crash => simp only [hr, NodePost] at ih1; simp [ih1, NodePost]
    | shares => trivial
    | done y =>
      obtain ⟨F1, pe1⟩ := y
      simp only [hr, NodePost] at ih1
      obtain ⟨s1, h1, f1, err1, e1, p1, rfl, em1, fr1, hf1⟩ := ih1
      cases pe1 with
      | some pe =>
        obtain ⟨x, rfl, hx⟩ := procErrMatches_some em1
        simp only [e1]
        exact ⟨s1, h1, f1, some x, rfl, p1, rfl, em1, fr1, hf1⟩
      | none =>
        obtain rfl := procErrMatches_none em1
        simp only [e1]
        have ih2 := nodes_pure cv ns r s1 h1 f1 p1 (procsAre_mono (frame_scalars fr1) ns r hq2) none (.inl rfl)
        cases hr2 : Spec.applyAll cv r f1.erase with
        | crash => simpa only [hr2, NodePost] using ih2
        | shares => trivial
        | done y =>
          obtain ⟨F2, pe2⟩ := y
          simp only [hr2, NodePost] at ih2
          obtain ⟨s2, h2, f2, err2, e2, p2, rfl, em2, fr2, hf2⟩ := ih2
          obtain ⟨k1, k2⟩ := pure_trans fr1 hf1 fr2 hf2
          exact ⟨s2, h2, f2, err2, e2, p2, rfl, em2, k1, k2⟩
end

/-- What the caller of `Process` sees, given what the pipeline does to the contents. Without error the event is returned, with the new contents. With an error no event is returned; the event that was passed in has the contents that the processors have left behind.
Nothing that the event did not own is changed. -/
def PurePost (h : Heap) (f : AFields) (run : Res (PWorld (Heap × Event) × Option Unit × Option Err)) (r : Spec.Run (Fields × Option Spec.PErr)) : Prop :=
  match r with
  | .crash => run = .panic
  | .shares => True
  | .done (F', none) => ∃ w' f', run = .ok (w', some (), none) ∧ w'.world.2 = f'.event ∧ Owns w'.world.1 f' ∧ f'.erase = F' ∧ Frame f.fp h w'.world.1 ∧ (∀ a ∈ f'.fp, a ∈ f.fp ∨ h.length ≤ a)
  | .done (F', some pe) => ∃ w' f' err, run = .ok (w', none, some err) ∧ w'.world.2 = f'.event ∧ Owns w'.world.1 f' ∧ f'.erase = F' ∧ procErrMatches (some err) (some pe) ∧ Frame f.fp h w'.world.1 ∧
      (∀ a ∈ f'.fp, a ∈ f.fp ∨ h.length ≤ a)

/-- **C58.** A pipeline of the repository's processors computes a function of the contents of the event (`Spec.Pipe.apply`), as long as no `copy_from` meets an array or an object: outcome and new contents depend on nothing else. -/
theorem pipeline_pure (cv : Conv) {p : Pipeline Builtin (Option Err)} {q : Spec.Pipe} {h : Heap} {f : AFields} (o : Owns h f) (hq : PipeIs h p q) (counts : Counters) (log : List Invocation) :
    PurePost h f (p.process (builtinCall cv) () ⟨(h, f.event), counts, log⟩) (q.apply cv f.erase) := by
  have h1 := nodes_pure cv p.processors q.processors ⟨{ data := () }, (h, f.event), counts, log⟩ h f ⟨rfl, o, rfl⟩ hq.1 none (.inl rfl)
  simp only [Pipeline.process, Pipeline.run, Spec.Pipe.apply]
  cases hr : Spec.applyAll cv q.processors f.erase with
  | crash => simp only [hr, NodePost] at h1; simp [h1, PurePost]
  | shares => trivial
  | done y =>
    obtain ⟨F1, pe1⟩ := y
    simp only [hr, NodePost] at h1
    obtain ⟨s1, g1, f1, err1, e1, ⟨w1, o1, d1⟩, rfl, em1, fr1, hf1⟩ := h1
    cases pe1 with
    | none =>
      obtain rfl := procErrMatches_none em1
      simp only [e1, d1, Bool.false_eq_true, if_false]
      exact ⟨_, f1, rfl, by rw [w1], by rw [w1]; exact o1, rfl, by rw [w1]; exact fr1, hf1⟩
    | some pe =>
      obtain ⟨x, rfl, hx⟩ := procErrMatches_some em1
      simp only [e1]
      cases hon : p.onFailure with
      | nil =>
        have : q.onFailure = [] := by simpa only [hon, ProcsAre] using hq.2
        simp only [this, List.isEmpty_nil, if_true, List.length_nil, gt_iff_lt, Nat.lt_irrefl, if_false]
        exact ⟨_, f1, x, rfl, by rw [w1], by rw [w1]; exact o1, rfl, em1, by rw [w1]; exact fr1, hf1⟩
      | cons n ns =>
        have hq2 := hq.2
        rw [hon] at hq2
        have hne : q.onFailure.isEmpty = false := by
          simp only [ProcsAre] at hq2
          obtain ⟨q', r, e, _⟩ := hq2
          rw [e]; rfl
        have h2 := nodes_pure cv (n :: ns) q.onFailure s1 g1 f1 ⟨w1, o1, d1⟩ (procsAre_mono (frame_scalars fr1) (n :: ns) _ hq2) (some x) (by simp)
        simp only [hne, Bool.false_eq_true, if_false, List.length_cons, gt_iff_lt, Nat.zero_lt_succ, if_true]
        cases hr2 : Spec.applyAll cv q.onFailure f1.erase with
        | crash => simp only [hr2, NodePost] at h2; simp [h2, PurePost]
        | shares => trivial
        | done y =>
          obtain ⟨F2, pe2⟩ := y
          simp only [hr2, NodePost] at h2
          obtain ⟨s2, g2, f2, err2, e2, ⟨w2, o2, d2⟩, rfl, em2, fr2, hf2⟩ := h2
          obtain ⟨k1, k2⟩ := pure_trans fr1 hf1 fr2 hf2
          cases pe2 with
          | none =>
            obtain rfl := procErrMatches_none em2
            simp only [e2, d2, Bool.false_eq_true, if_false]
            exact ⟨_, f2, rfl, by rw [w2], by rw [w2]; exact o2, rfl, by rw [w2]; exact k1, k2⟩
          | some pe =>
            obtain ⟨y, rfl, hy⟩ := procErrMatches_some em2
            simp only [e2]
            exact ⟨_, f2, y, rfl, by rw [w2], by rw [w2]; exact o2, rfl, em2, by rw [w2]; exact k1, k2⟩

end Sawmill
