import Verif.Spec.Beside
import Verif.Props.Twice
/-!
# C99: what a pipeline does not name
-/

namespace Sawmill
open Spec

/-! ## On contents -/

/-- Calls one after another. -/
def ops : Fields → List Call → Res (Fields × List (Val × Option Spec.Error))
  | F, [] => .ok (F, [])
  | F, c :: cs => match Spec.op F c with
    | .panic => .panic
    | .ok (F, r) => match ops F cs with
      | .panic => .panic
      | .ok (F, rs) => .ok (F, r :: rs)

/-- The calls of `a` are elsewhere than `c`. -/
def BesideAll (c : Call) (R W : List (List Bytes)) : Prop := ∀ d : Call, ((d.isGet = true ∧ d.area ∈ R) ∨ d.area ∈ W) → (c.isGet = true ∧ d.isGet = true) ∨ ¬ Related c.area d.area

theorem run_op {R W : List (List Bytes)} {c : Call} (hc : BesideAll c R W) :
    ∀ {a : Act}, a.In R W → ∀ {F G F2 : Fields} {r : Val × Option Spec.Error} {e : Option PErr}, F.Sorted → a.run F = .done (G, e) → Spec.op G c = .ok (F2, r) →
      ∃ F1, Spec.op F c = .ok (F1, r) ∧ a.run F1 = .done (F2, e) := by
  intro a
  induction a with
  | ret e =>
    intro _ F G F2 r e' _ h1 h2
    simp only [Act.run, Run.done.injEq, Prod.mk.injEq] at h1
    obtain ⟨rfl, rfl⟩ := h1
    exact ⟨F2, h2, rfl⟩
  | crash => intro _ F F1 F2 r e' _ h1 h2; cases h1
  | shares => intro _ F F1 F2 r e' _ h1 h2; cases h1
  | call d k ih =>
    intro hin F G F2 r e hF h1 h2
    simp only [Act.run] at h1
    cases hd : Spec.op F d with
    | panic => rw [hd] at h1; cases h1
    | ok x =>
      obtain ⟨F', rd⟩ := x
      rw [hd] at h1
      obtain ⟨F3, a1, a2⟩ := ih rd (hin.2 rd) (op_sorted hF hd) h1 h2
      obtain ⟨w1, _, w3⟩ := swap_calls hF (hc d hin.1)
      cases hcF : Spec.op F c with
      | panic => have := w3 F' rd hd hcF; rw [a1] at this; cases this
      | ok y =>
        obtain ⟨F1, r'⟩ := y
        obtain ⟨F4, b1, b2⟩ := w1 F1 r' F' rd hcF hd
        rw [b2] at a1
        simp only [Res.ok.injEq, Prod.mk.injEq] at a1
        obtain ⟨rfl, rfl⟩ := a1
        exact ⟨F1, rfl, by simp only [Act.run, b1]; exact a2⟩

theorem op_shares {R W : List (List Bytes)} {c : Call} (hc : BesideAll c R W) :
    ∀ {a : Act}, a.In R W → ∀ {F F1 : Fields} {r : Val × Option Spec.Error}, F.Sorted → Spec.op F c = .ok (F1, r) → a.run F1 = .shares → a.run F = .shares := by
  intro a
  induction a with
  | ret e => intro _ F F1 r _ _ h2; cases h2
  | crash => intro _ F F1 r _ _ h2; cases h2
  | shares => intros; rfl
  | call d k ih =>
    intro hin F F1 r hF h1 h2
    simp only [Act.run] at h2 ⊢
    obtain ⟨w1, w2, _⟩ := swap_calls hF (hc d hin.1)
    cases hd : Spec.op F d with
    | panic => rw [w2 F1 r h1 hd] at h2; cases h2
    | ok x =>
      obtain ⟨F', rd⟩ := x
      obtain ⟨F3, a1, a2⟩ := w1 F1 r F' rd h1 hd
      rw [a1] at h2
      exact ih rd (hin.2 rd) (op_sorted hF hd) a2 h2

section
variable {R W : List (List Bytes)} {a : Act} (ha : a.In R W)
include ha

theorem ops_run : ∀ {cs : List Call} (_ : ∀ c ∈ cs, BesideAll c R W) {F F1 F2 : Fields} {rs : List (Val × Option Spec.Error)} {e : Option PErr}, F.Sorted → ops F cs = .ok (F1, rs) → a.run F1 = .done (F2, e) →
    ∃ G, a.run F = .done (G, e) ∧ ops G cs = .ok (F2, rs) := by
  intro cs
  induction cs with
  | nil => intro _ F F1 F2 rs e _ h1 h2; simp only [ops, Res.ok.injEq, Prod.mk.injEq] at h1; obtain ⟨rfl, rfl⟩ := h1; exact ⟨F2, h2, rfl⟩
  | cons c cs ih =>
    intro hc F F1 F2 rs e hF h1 h2
    simp only [ops] at h1
    cases ho : Spec.op F c with
    | panic => rw [ho] at h1; cases h1
    | ok x =>
      obtain ⟨F', r⟩ := x
      simp only [ho] at h1
      cases hr : ops F' cs with
      | panic => rw [hr] at h1; cases h1
      | ok y =>
        obtain ⟨F3, rs'⟩ := y
        simp only [hr, Res.ok.injEq, Prod.mk.injEq] at h1
        obtain ⟨rfl, rfl⟩ := h1
        obtain ⟨G, g1, g2⟩ := ih (fun c hx => hc c (by simp [hx])) (op_sorted hF ho) hr h2
        obtain ⟨G', k1, k2⟩ := op_run (hc c (by simp)) ha hF ho g1
        exact ⟨G', k1, by simp only [ops, k2, g2]⟩

theorem run_ops : ∀ {cs : List Call} (_ : ∀ c ∈ cs, BesideAll c R W) {F G F2 : Fields} {rs : List (Val × Option Spec.Error)} {e : Option PErr}, F.Sorted → a.run F = .done (G, e) → ops G cs = .ok (F2, rs) →
    ∃ F1, ops F cs = .ok (F1, rs) ∧ a.run F1 = .done (F2, e) := by
  intro cs
  induction cs with
  | nil => intro _ F F1 F2 rs e _ h1 h2; simp only [ops, Res.ok.injEq, Prod.mk.injEq] at h2; obtain ⟨rfl, rfl⟩ := h2; exact ⟨F, rfl, h1⟩
  | cons c cs ih =>
    intro hc F G F2 rs e hF h1 h2
    simp only [ops] at h2
    cases ho : Spec.op G c with
    | panic => rw [ho] at h2; cases h2
    | ok x =>
      obtain ⟨G', r⟩ := x
      simp only [ho] at h2
      cases hr : ops G' cs with
      | panic => rw [hr] at h2; cases h2
      | ok y =>
        obtain ⟨F3, rs'⟩ := y
        simp only [hr, Res.ok.injEq, Prod.mk.injEq] at h2
        obtain ⟨rfl, rfl⟩ := h2
        obtain ⟨F1, k1, k2⟩ := run_op (hc c (by simp)) ha hF h1 ho
        obtain ⟨F4, g1, g2⟩ := ih (fun c hx => hc c (by simp [hx])) (op_sorted hF k1) k2 hr
        exact ⟨F4, by simp only [ops, k1, g1], g2⟩

theorem ops_shares : ∀ {cs : List Call} (_ : ∀ c ∈ cs, BesideAll c R W) {F F1 : Fields} {rs : List (Val × Option Spec.Error)}, F.Sorted → ops F cs = .ok (F1, rs) → a.run F1 = .shares → a.run F = .shares := by
  intro cs
  induction cs with
  | nil => intro _ F F1 rs _ h1 h2; simp only [ops, Res.ok.injEq, Prod.mk.injEq] at h1; obtain ⟨rfl, rfl⟩ := h1; exact h2
  | cons c cs ih =>
    intro hc F F1 rs hF h1 h2
    simp only [ops] at h1
    cases ho : Spec.op F c with
    | panic => rw [ho] at h1; cases h1
    | ok x =>
      obtain ⟨F', r⟩ := x
      simp only [ho] at h1
      cases hr : ops F' cs with
      | panic => rw [hr] at h1; cases h1
      | ok y =>
        obtain ⟨F3, rs'⟩ := y
        simp only [hr, Res.ok.injEq, Prod.mk.injEq] at h1
        obtain ⟨rfl, rfl⟩ := h1
        exact op_shares (hc c (by simp)) ha hF ho (ih (fun c hx => hc c (by simp [hx])) (op_sorted hF ho) hr h2)

end

theorem readsAll_append (ps qs : List Spec.Proc) : Spec.readsAll (ps ++ qs) = Spec.readsAll ps ++ Spec.readsAll qs := by
  induction ps with
  | nil => simp [Spec.readsAll]
  | cons p ps ih => simp [Spec.readsAll, ih]

theorem writesAll_append (ps qs : List Spec.Proc) : Spec.writesAll (ps ++ qs) = Spec.writesAll ps ++ Spec.writesAll qs := by
  induction ps with
  | nil => simp [Spec.writesAll]
  | cons p ps ih => simp [Spec.writesAll, ih]

theorem pipe_act (cv : Conv) (q : Spec.Pipe) : ∃ a : Act, a.In (Spec.readsAll (q.processors ++ q.onFailure)) (Spec.writesAll (q.processors ++ q.onFailure)) ∧ ∀ F, a.run F = q.apply cv F := by
  obtain ⟨a, ha, ha'⟩ := procs_act cv q.processors
  obtain ⟨b, hb, hb'⟩ := procs_act cv q.onFailure
  rw [readsAll_append, writesAll_append]
  refine ⟨a.andThen fun e => match e with | none => .ret none | some err => if q.onFailure.isEmpty then .ret (some err) else b, ?_, fun F => ?_⟩
  · refine Act.In.andThen (fun e => ?_) (ha.mono (fun _ h => List.mem_append_left _ h) (fun _ h => List.mem_append_left _ h))
    cases e with
    | none => trivial
    | some err =>
      simp only
      split
      · trivial
      · exact hb.mono (fun _ h => List.mem_append_right _ h) (fun _ h => List.mem_append_right _ h)
  · rw [Act.run_andThen, ha']
    simp only [Spec.Pipe.apply]
    cases Spec.applyAll cv q.processors F with
    | crash => rfl
    | shares => rfl
    | done x =>
      obtain ⟨G, e⟩ := x
      cases e with
      | none => rfl
      | some err =>
        simp only
        split
        · rfl
        · exact hb' G

theorem beside_apart {c : Call} {q : Spec.Pipe} (h : c.Beside q) : BesideAll c (Spec.readsAll (q.processors ++ q.onFailure)) (Spec.writesAll (q.processors ++ q.onFailure)) := by
  intro d hd
  cases hc : c.isGet with
  | true =>
    rcases hd with ⟨dg, _⟩ | dw
    · exact .inl ⟨rfl, dg⟩
    · exact .inr (h.1 _ dw)
  | false =>
    rcases hd with ⟨_, dr⟩ | dw
    · exact .inr (h.2 hc _ dr)
    · exact .inr (h.1 _ dw)

/-! ## On the heap -/

theorem run_one : ∀ (cs : List Call) (_ : ∀ c ∈ cs, c.Good Val.Canon) {w : World} {f : AFields} (_ : WorldOk w [f]),
    match ops f.erase cs with
    | .panic => w.run (cs.map fun c => (0, c)) = .panic
    | .ok (F, rs) => ∃ w' rets f', w.run (cs.map fun c => (0, c)) = .ok (w', rets) ∧ WorldOk w' [f'] ∧ f'.erase = F ∧ AllShow rets rs ∧
        (∀ (v : Nat) (s : Scalar), w.heap[v]? = some (.cell (scalarCell s)) → w'.heap[v]? = some (.cell (scalarCell s))) := by
  intro cs
  induction cs with
  | nil => intro _ w f hw; exact ⟨w, [], f, rfl, hw, rfl, trivial, fun _ _ h => h⟩
  | cons c cs ih =>
    intro hc w f hw
    have hcall := call_spec hw 0 c (hc c (by simp))
    rw [call_eq_op] at hcall
    simp only [List.map_cons, List.map_nil, List.getElem?_cons_zero] at hcall
    simp only [ops, List.map_cons, World.run]
    cases ho : Spec.op f.erase c with
    | panic => simp only [ho, Res.map_panic] at hcall; simp only [hcall]; rfl
    | ok x =>
      obtain ⟨F', r⟩ := x
      simp only [ho, Res.map_ok, List.set_cons_zero] at hcall
      obtain ⟨w', ret, fs', k1, k2, k3, k4, k5, S, fr⟩ := hcall
      obtain ⟨f', rfl⟩ : ∃ f', fs' = [f'] := by
        cases fs' with
        | nil => simp at k3
        | cons g gs => cases gs with
          | nil => exact ⟨g, rfl⟩
          | cons _ _ => simp at k3
      simp only [List.map_cons, List.map_nil, List.cons.injEq, and_true] at k3
      have := ih (fun c hx => hc c (by simp [hx])) k2
      rw [k3] at this
      simp only [k1]
      cases hr : ops F' cs with
      | panic => simp only [hr] at this; show Res.bind _ _ = _; simp only [Res.bind, this]; rfl
      | ok y =>
        obtain ⟨F2, rs⟩ := y
        simp only [hr] at this
        obtain ⟨w2, rets, f2, j1, j2, j3, j4, j5⟩ := this
        refine ⟨w2, ret :: rets, f2, ?_, j2, j3, ⟨k4, j4⟩, fun v s hv => j5 v s (frame_scalars fr v s hv)⟩
        show Res.bind _ _ = _
        simp only [Res.bind, j1]; rfl

theorem processed (cv : Conv) {p : Pipeline Builtin (Option Err)} {q : Spec.Pipe} {h : Heap} {f : AFields} (o : Owns h f) (hq : PipeIs h p q) (c : Counters) (l : List Invocation) {F : Fields} {e : Option PErr} (ha : q.apply cv f.erase = .done (F, e)) :
    ∃ w' f' ret err, p.process (builtinCall cv) () ⟨(h, f.event), c, l⟩ = .ok (w', ret, err) ∧ w'.world.2 = f'.event ∧ Owns w'.world.1 f' ∧ f'.erase = F ∧ ret = (if e.isNone then some () else none) ∧
      err.map Err.text = e.map PErr.text ∧ err.map Err.isMissing = e.map PErr.isMissing := by
  have k1 := pipeline_pure cv o hq c l
  cases e with
  | none =>
    simp only [ha, PurePost] at k1
    obtain ⟨w1, f1, a1, a2, a3, a4, _⟩ := k1
    exact ⟨w1, f1, some (), none, a1, a2, a3, a4, rfl, rfl, rfl⟩
  | some e =>
    simp only [ha, PurePost] at k1
    obtain ⟨w1, f1, er, a1, a2, a3, a4, m, _⟩ := k1
    obtain ⟨x, hx, x1⟩ := procErrMatches_some m
    cases hx
    exact ⟨w1, f1, none, some er, a1, a2, a3, a4, rfl, by simp only [Option.map_some, procErrMatches_text m], by simp only [Option.map_some, x1]⟩

theorem worldOk_one {h : Heap} {f : AFields} (o : Owns h f) : WorldOk ⟨h, [f.event]⟩ [f] := by
  refine ⟨rfl, fun g hg => ?_, fun i j g k hg hk hij => ?_⟩
  · simp only [List.mem_singleton] at hg; subst hg; exact o
  · have hi := lt_of_getElem? hg
    have hj := lt_of_getElem? hk
    simp only [List.length_singleton] at hi hj
    omega

/-- **C99.** Calls beside the fields that the pipeline names may be made before `Process` or after it: the calls answer the same, `Process` returns the same, and the event has the same contents in the end; and if one of them panics in one order, so it does in the other. (As
long as no `copy_from` meets an array or an object.) -/
theorem process_beside (cv : Conv) {p : Pipeline Builtin (Option Err)} {q : Spec.Pipe} {h : Heap} {f : AFields} (o : Owns h f) (hq : PipeIs h p q) {cs : List Call} (hg : ∀ c ∈ cs, c.Good Val.Canon) (hb : ∀ c ∈ cs, c.Beside q)
    (hs : q.apply cv f.erase ≠ .shares) (c c' : Counters) (l l' : List Invocation) : BothAlike (callsFirst cv p cs h f.event c l) (processFirst cv p cs h f.event c' l') := by
  obtain ⟨a, ha, har⟩ := pipe_act cv q
  have hap : ∀ c ∈ cs, BesideAll c (Spec.readsAll (q.processors ++ q.onFailure)) (Spec.writesAll (q.processors ++ q.onFailure)) := fun c hc => beside_apart (hb c hc)
  have hsort := owns_erase_sorted o
  have first := run_one cs hg (worldOk_one o)
  -- what the second order does
  have second : ∀ G e, q.apply cv f.erase = .done (G, e) → match ops G cs with
      | .panic => processFirst cv p cs h f.event c' l' = .panic
      | .ok (F2, rs) => ∃ s, processFirst cv p cs h f.event c' l' = .ok s ∧ Holds s.heap s.event F2 ∧ AllShow s.answers rs ∧ s.returned = (if e.isNone then some () else none) ∧ s.error.map Err.text = e.map PErr.text ∧
          s.error.map Err.isMissing = e.map PErr.isMissing := by
    intro G e hG
    obtain ⟨w', f', ret, err, k1, k2, k3, k4, k5, k6, k7⟩ := processed cv o hq c' l' hG
    have hr := run_one cs hg (worldOk_one k3)
    rw [k4, ← k2] at hr
    cases hG2 : ops G cs with
    | panic => simp only [hG2] at hr; simp only [processFirst, k1, hr]
    | ok x =>
      obtain ⟨F2, rs⟩ := x
      simp only [hG2] at hr
      obtain ⟨w2, rets, f2, j1, j2, j3, j4, _⟩ := hr
      refine ⟨⟨w2.heap, (w2.events[0]?).getD none, rets, ret, err⟩, by simp only [processFirst, k1, j1], ?_, j4, k5, k6, k7⟩
      have he := j2.events
      have ho := (j2.owns f2 (by simp)).holds
      simp only [he, List.map_cons, List.getElem?_cons_zero, Option.getD_some, ← j3]
      exact ho
  have crashed : q.apply cv f.erase = .crash → processFirst cv p cs h f.event c' l' = .panic := by
    intro hcr
    have k := pipeline_pure cv o hq c' l'
    simp only [hcr, PurePost] at k
    simp only [processFirst, k]
  cases ho : ops f.erase cs with
  | panic =>
    simp only [ho] at first
    have h1 : callsFirst cv p cs h f.event c l = .panic := by simp only [callsFirst, first]
    rw [h1]
    cases hA : q.apply cv f.erase with
    | crash => rw [crashed hA]; trivial
    | shares => exact absurd hA hs
    | done x =>
      obtain ⟨G, e⟩ := x
      have k := second G e hA
      cases hG : ops G cs with
      | panic => simp only [hG] at k; rw [k]; trivial
      | ok y =>
        obtain ⟨F2, rs⟩ := y
        obtain ⟨F1, b1, _⟩ := run_ops ha hap hsort (by rw [har]; exact hA) hG
        rw [ho] at b1; cases b1
  | ok y =>
    obtain ⟨F1, rs⟩ := y
    simp only [ho] at first
    obtain ⟨w1, rets, f1, j1, j2, j3, j4, j5⟩ := first
    have he : (w1.events[0]?).getD none = f1.event := by rw [j2.events]; rfl
    have o1 := j2.owns f1 (by simp)
    have hq1 : PipeIs w1.heap p q := ⟨procsAre_mono j5 _ _ hq.1, procsAre_mono j5 _ _ hq.2⟩
    cases hA1 : q.apply cv F1 with
    | crash =>
      have k := pipeline_pure cv o1 hq1 c l
      rw [j3] at k
      simp only [hA1, PurePost] at k
      have h1 : callsFirst cv p cs h f.event c l = .panic := by simp only [callsFirst, j1, he, k]
      rw [h1]
      cases hA : q.apply cv f.erase with
      | crash => rw [crashed hA]; trivial
      | shares => exact absurd hA hs
      | done x =>
        obtain ⟨G, e⟩ := x
        have k := second G e hA
        cases hG : ops G cs with
        | panic => simp only [hG] at k; rw [k]; trivial
        | ok y =>
          obtain ⟨F2, rs'⟩ := y
          obtain ⟨F1', b1, b2⟩ := run_ops ha hap hsort (by rw [har]; exact hA) hG
          rw [ho] at b1; cases b1
          rw [har, hA1] at b2; cases b2
    | shares => exact absurd (by rw [← har] at hA1; rw [← har]; exact ops_shares ha hap hsort ho hA1) hs
    | done x =>
      obtain ⟨F2, e⟩ := x
      obtain ⟨G, g1, g2⟩ := ops_run ha hap hsort ho (by rw [har]; exact hA1)
      rw [har] at g1
      have k := second G e g1
      simp only [g2] at k
      obtain ⟨s, s1, s2, s3, s4, s5, s6⟩ := k
      obtain ⟨w2, f2, ret, err, p1, p2, p3, p4, p5, p6, p7⟩ := processed cv o1 hq1 c l (by rw [j3]; exact hA1)
      have h1 : callsFirst cv p cs h f.event c l = .ok ⟨w2.world.1, w2.world.2, rets, ret, err⟩ := by simp only [callsFirst, j1, he, p1]
      rw [h1, s1]
      exact ⟨⟨F2, by rw [p2, ← p4]; exact p3.holds, s2⟩, ⟨rs, j4, s3⟩, by rw [p5, s4], by rw [p6, s5], by rw [p7, s6]⟩

/-- **C99.** In particular `Process`, whether it fails or not, leaves the fields that it does not assign as they are: `Get` reads the same as before, and where there was no such field there is none. -/
theorem untouched (cv : Conv) {p : Pipeline Builtin (Option Err)} {q : Spec.Pipe} {h : Heap} {f : AFields} (o : Owns h f) (hq : PipeIs h p q) {key : Bytes}
    (hk : ∀ b ∈ Spec.writesAll (q.processors ++ q.onFailure), Spec.Elsewhere (keyToPath key) b) (hs : q.apply cv f.erase ≠ .shares) (c : Counters) (l : List Invocation)
    {w : PWorld (Heap × Event)} {ret : Option Unit} {err : Option Err} (hp : p.process (builtinCall cv) () ⟨(h, f.event), c, l⟩ = .ok (w, ret, err))
    {h1 : Heap} {p1 : Ptr} (hget : apiGet h f.event key = .ok (h1, p1)) : ∃ h2 p2 v, apiGet w.world.1 w.world.2 key = .ok (h2, p2) ∧ Reads h1 p1 v ∧ Reads h2 p2 v := by
  obtain ⟨a, ha, har⟩ := pipe_act cv q
  have hap : BesideAll (.get key) (Spec.readsAll (q.processors ++ q.onFailure)) (Spec.writesAll (q.processors ++ q.onFailure)) := beside_apart (c := .get key) ⟨hk, fun h => by cases h⟩
  cases hA : q.apply cv f.erase with
  | crash => have k := pipeline_pure cv o hq c l; simp only [hA, PurePost] at k; rw [hp] at k; cases k
  | shares => exact absurd hA hs
  | done x =>
    obtain ⟨G, e⟩ := x
    obtain ⟨w', f', ret', err', k1, k2, k3, k4, _⟩ := processed cv o hq c l hA
    rw [hp] at k1
    simp only [Res.ok.injEq, Prod.mk.injEq] at k1
    obtain ⟨rfl, rfl, rfl⟩ := k1
    have g1 := get_spec o (keyToPath key)
    simp only [apiGet] at hget
    cases hv : Spec.getFields f.erase (keyToPath key) with
    | panic => simp only [hv] at g1; rw [g1] at hget; cases hget
    | ok v =>
      simp only [hv] at g1
      obtain ⟨h', t, a1, a2, a3, _⟩ := g1
      rw [hget] at a1
      simp only [Res.ok.injEq, Prod.mk.injEq] at a1
      obtain ⟨rfl, rfl⟩ := a1
      have hop : Spec.op f.erase (.get key) = .ok (f.erase, v, none) := by simp only [Spec.op, hv, Res.map_ok]
      obtain ⟨G', b1, b2⟩ := op_run hap ha (owns_erase_sorted o) hop (by rw [har]; exact hA)
      rw [har, hA] at b1
      simp only [Run.done.injEq, Prod.mk.injEq] at b1
      obtain ⟨rfl, -⟩ := b1
      have hv2 : Spec.getFields G (keyToPath key) = .ok v := by
        simp only [Spec.op] at b2
        cases hx : Spec.getFields G (keyToPath key) with
        | panic => rw [hx] at b2; cases b2
        | ok v' => rw [hx] at b2; simp only [Res.map_ok, Res.ok.injEq, Prod.mk.injEq] at b2; rw [b2.2.1]
      have g2 := get_spec k3 (keyToPath key)
      rw [k4] at g2
      simp only [hv2] at g2
      obtain ⟨h2, t2, c1, c2, c3, _⟩ := g2
      refine ⟨h2, t2.ptr, v, by simp only [apiGet]; rw [k2]; exact c1, ?_, ?_⟩
      · have := rep_reads t a2; rwa [a3] at this
      · have := rep_reads t2 c2; rwa [c3] at this

/-! ## Cases -/

/-- Calls beside `lowercase` of `a.b` with an on_failure processor that sets `error`: below the same object, a `Delete` of another entry, a `Get`. -/
def besideCalls : List Call := [.put (lit "a.c") (.scalar (.int 7)), .tryPut (lit "d") (.arr [.nilp]), .get (lit "x"), .delete (lit "x.y")]

def besidePipe : Spec.Pipe := ⟨[.mk (.lowercase (lit "a.b") []) false false [.mk (.set (.str (lit "no")) [] (lit "error")) false false []]], []⟩

set_option linter.unusedSimpArgs false in
theorem beside_sample : (∀ c ∈ besideCalls, c.Beside besidePipe ∧ c.Good Val.Canon) ∧ ¬ (Call.delete (lit "a.c")).Beside besidePipe := by
  have h1 : keyToPath (lit "a.b") = [lit "a", lit "b"] := by decide +kernel
  have h2 : keyToPath (lit "a.c") = [lit "a", lit "c"] := by decide +kernel
  have h3 : keyToPath (lit "d") = [lit "d"] := by decide +kernel
  have h4 : keyToPath (lit "x") = [lit "x"] := by decide +kernel
  have h5 : keyToPath (lit "x.y") = [lit "x", lit "y"] := by decide +kernel
  have h6 : keyToPath (lit "error") = [lit "error"] := by decide +kernel
  have e : [lit "a", lit "b", lit "c", lit "d", lit "x", lit "y", lit "error"].Nodup := by decide +kernel
  simp only [List.nodup_cons, List.mem_cons, List.not_mem_nil, or_false, not_or] at e
  obtain ⟨⟨a1, a2, a3, a4, a5, a6⟩, ⟨b1, b2, b3, b4, b5⟩, ⟨c1, c2, c3, c4⟩, ⟨d1, d2, d3⟩, ⟨g1, g2⟩, g3, _⟩ := e
  simp [besideCalls, besidePipe, Call.Beside, Call.Good, Call.area, Call.isGet, Val.Canon, Val.CanonL, Spec.Proc.reads, Spec.Proc.writes, Spec.readsAll, Spec.writesAll, Spec.Step.reads, Spec.Step.writes, Spec.Elsewhere, h1, h2, h3, h4, h5, h6,
    a1, a2, a3, a4, a5, a6, b1, b2, b3, b4, b5, c1, c2, c3, c4, d1, d2, d3, g1, g2, g3, Ne.symm a1, Ne.symm a2, Ne.symm a3, Ne.symm a4, Ne.symm a5, Ne.symm a6, Ne.symm b1, Ne.symm b2, Ne.symm b3, Ne.symm b4, Ne.symm b5, Ne.symm c1, Ne.symm c2, Ne.symm c3, Ne.symm c4,
    Ne.symm d1, Ne.symm d2, Ne.symm d3, Ne.symm g1, Ne.symm g2, Ne.symm g3]

/-- The pipeline of the program that is configured like this; `v` is where the value of `set` is. -/
def besideProgram (v : Nat) : Pipeline Builtin (Option Err) := ⟨lit "p", [.mk (lit "1") [] false false [.mk (lit "2") [] false false [] (Builtin.set v [] (lit "error")).prog] (Builtin.lowercase (lit "a.b") []).prog], []⟩

example : PipeIs [.cell (strCell (lit "no"))] (besideProgram 0) besidePipe := by
  refine ⟨⟨_, _, rfl, ⟨.lowercase (lit "a.b") [], _, _, rfl, rfl, rfl, ⟨_, _, rfl, ⟨.set 0 [] (lit "error"), _, _, rfl, ⟨.str (lit "no"), rfl, rfl⟩, rfl, rfl⟩, rfl⟩⟩, rfl⟩, rfl⟩

/-- **C99.** A call around a field that the pipeline names makes a difference: here a `Put` of `a` before or after `lowercase` of `a.b`. -/
theorem around_matters (cv : Conv) : ∃ F1 r, Spec.op (some [(lit "a", .obj [(lit "b", .scalar (.str (lit "X")))])]) (.put (lit "a") (.scalar (.int 7))) = .ok (F1, r) ∧
    besidePipe.apply cv F1 = .done (some [(lit "a", .scalar (.int 7)), (lit "error", .scalar (.str (lit "no")))], none) ∧
    ∃ G r', besidePipe.apply cv (some [(lit "a", .obj [(lit "b", .scalar (.str (lit "X")))])]) = .done (G, none) ∧ Spec.op G (.put (lit "a") (.scalar (.int 7))) = .ok (some [(lit "a", .scalar (.int 7))], r') :=
  ⟨_, _, rfl, rfl, _, _, rfl, rfl⟩

end Sawmill
