import Verif.Spec.Commute
import Verif.Props.Reorder
import Verif.Props.PureLaws
/-!
# C75: the order of independent processors does not matter
-/

namespace Sawmill
open Spec

/-! ## A processor as a sequence of calls -/

/-- What a processor does, call by call. -/
inductive Act where
  | ret (e : Option PErr)
  | crash
  | shares
  | call (c : Call) (k : Val × Option Spec.Error → Act)

def Act.run : Act → Fields → Run (Fields × Option PErr)
  | .ret e, F => .done (F, e)
  | .crash, _ => .crash
  | .shares, _ => .shares
  | .call c k, F => match Spec.op F c with
    | .panic => .crash
    | .ok (F1, r) => (k r).run F1

def Act.andThen : Act → (Option PErr → Act) → Act
  | .ret e, f => f e
  | .crash, _ => .crash
  | .shares, _ => .shares
  | .call c k, f => .call c fun r => (k r).andThen f

theorem Act.run_andThen (a : Act) (f : Option PErr → Act) : ∀ F, (a.andThen f).run F = match a.run F with
    | .crash => .crash
    | .shares => .shares
    | .done (G, e) => (f e).run G := by
  induction a with
  | ret e => intro F; rfl
  | crash => intro F; rfl
  | shares => intro F; rfl
  | call c k ih =>
    intro F
    simp only [Act.andThen, Act.run]
    cases Spec.op F c with
    | panic => rfl
    | ok x => obtain ⟨F1, r⟩ := x; exact ih r F1

/-- All calls are gets of these fields and puts to those. -/
def Act.In (R W : List (List Bytes)) : Act → Prop
  | .call c k => ((c.isGet = true ∧ c.area ∈ R) ∨ c.area ∈ W) ∧ ∀ r, (k r).In R W
  | _ => True

theorem Act.In.mono {R W R' W' : List (List Bytes)} (h1 : ∀ x ∈ R, x ∈ R') (h2 : ∀ x ∈ W, x ∈ W') : ∀ {a : Act}, a.In R W → a.In R' W'
  | .ret _, _ => trivial
  | .crash, _ => trivial
  | .shares, _ => trivial
  | .call _ k, h => ⟨h.1.imp (fun h => ⟨h.1, h1 _ h.2⟩) (h2 _), fun r => (h.2 r).mono h1 h2⟩

theorem Act.In.andThen {R W : List (List Bytes)} {f : Option PErr → Act} (hf : ∀ e, (f e).In R W) : ∀ {a : Act}, a.In R W → (a.andThen f).In R W
  | .ret _, _ => hf _
  | .crash, _ => trivial
  | .shares, _ => trivial
  | .call _ _, h => ⟨h.1, fun r => (h.2 r).andThen hf⟩

/-- A call, and then something elsewhere: the other way round is the same. -/
theorem op_run {R W : List (List Bytes)} {c : Call} (hc : ∀ d : Call, ((d.isGet = true ∧ d.area ∈ R) ∨ d.area ∈ W) → (c.isGet = true ∧ d.isGet = true) ∨ ¬ Related c.area d.area) :
    ∀ {a : Act}, a.In R W → ∀ {F F1 F2 : Fields} {r : Val × Option Spec.Error} {e : Option PErr}, F.Sorted → Spec.op F c = .ok (F1, r) → a.run F1 = .done (F2, e) →
      ∃ G, a.run F = .done (G, e) ∧ Spec.op G c = .ok (F2, r) := by
  intro a
  induction a with
  | ret e =>
    intro _ F F1 F2 r e' _ h1 h2
    simp only [Act.run, Run.done.injEq, Prod.mk.injEq] at h2
    obtain ⟨rfl, rfl⟩ := h2
    exact ⟨F, rfl, h1⟩
  | crash => intro _ F F1 F2 r e' _ h1 h2; cases h2
  | shares => intro _ F F1 F2 r e' _ h1 h2; cases h2
  | call d k ih =>
    intro hin F F1 F2 r e hF h1 h2
    simp only [Act.run] at h2 ⊢
    obtain ⟨w1, w2, _⟩ := swap_calls hF (hc d hin.1)
    cases hd : Spec.op F d with
    | panic => rw [w2 F1 r h1 hd] at h2; cases h2
    | ok x =>
      obtain ⟨F', rd⟩ := x
      obtain ⟨F3, a1, a2⟩ := w1 F1 r F' rd h1 hd
      rw [a1] at h2
      exact ih rd (hin.2 rd) (op_sorted hF hd) a2 h2

/-- Two sequences of calls in different places. -/
theorem run_run {R W R' W' : List (List Bytes)} (h1 : ∀ a ∈ W, ∀ b ∈ R' ++ W', Elsewhere a b) (h2 : ∀ a ∈ W', ∀ b ∈ R ++ W, Elsewhere a b) :
    ∀ {a : Act}, a.In R W → ∀ {b : Act}, b.In R' W' → ∀ {F F1 F2 : Fields} {e e' : Option PErr}, F.Sorted → a.run F = .done (F1, e) → b.run F1 = .done (F2, e') →
      ∃ G, b.run F = .done (G, e') ∧ a.run G = .done (F2, e) := by
  intro a
  induction a with
  | ret e =>
    intro _ b _ F F1 F2 e1 e' _ ha hb
    simp only [Act.run, Run.done.injEq, Prod.mk.injEq] at ha
    obtain ⟨rfl, rfl⟩ := ha
    exact ⟨F2, hb, rfl⟩
  | crash => intro _ b _ F F1 F2 e1 e' _ ha; cases ha
  | shares => intro _ b _ F F1 F2 e1 e' _ ha; cases ha
  | call c k ih =>
    intro hin b hb F F1 F2 e e' hF ha hb'
    simp only [Act.run] at ha
    cases hc : Spec.op F c with
    | panic => rw [hc] at ha; cases ha
    | ok x =>
      obtain ⟨F0, r⟩ := x
      rw [hc] at ha
      obtain ⟨G, g1, g2⟩ := ih r (hin.2 r) hb (op_sorted hF hc) ha hb'
      have hind : ∀ d : Call, ((d.isGet = true ∧ d.area ∈ R') ∨ d.area ∈ W') → (c.isGet = true ∧ d.isGet = true) ∨ ¬ Related c.area d.area := by
        intro d hd
        rcases hin.1 with ⟨hg, hr⟩ | hw
        · rcases hd with ⟨dg, _⟩ | dw
          · exact .inl ⟨hg, dg⟩
          · exact .inr fun h => h2 _ dw _ (List.mem_append_left _ hr) h.symm
        · rcases hd with ⟨_, dr⟩ | dw
          · exact .inr (h1 _ hw _ (List.mem_append_left _ dr))
          · exact .inr (h1 _ hw _ (List.mem_append_right _ dw))
      obtain ⟨G', k1, k2⟩ := op_run hind hb hF hc g1
      exact ⟨G', k1, by simp only [Act.run, k2]; exact g2⟩

/-! ## The processors as such sequences -/

/-- A put. -/
def Act.put (key : Bytes) (v : Val) : Act := .call (.put key v) fun r => .ret (r.2.map fun er => .other (er.says key))

/-- A put whose error is not looked at. -/
def Act.putQuiet (key : Bytes) (v : Val) : Act := .call (.put key v) fun _ => .ret none

def Act.convert (conv : Bytes → Bytes) (msg field target : Bytes) : Act := .call (.get field) fun r => match r.1 with
  | .nilp => .ret (some (.missing field))
  | .scalar (.str s) => .put (if target = [] then field else target) (Spec.str (conv s))
  | _ => .ret (some (.other msg))

def Act.append (field value : Bytes) : Act := .call (.get field) fun r => match r.1 with
  | .nilp => .putQuiet field (.arr [Spec.str value])
  | .arrNil => .putQuiet field (.arr [Spec.str value])
  | .arr vs => .putQuiet field (.arr (vs ++ [Spec.str value]))
  | .scalar (.str _) => .ret none
  | _ => .ret (some (.other (lit "value to append to is not array")))

def Act.copy (copyFrom target : Bytes) : Act := .call (.get copyFrom) fun r => match r.1 with
  | .nilp => .ret (some (.missing copyFrom))
  | .scalar s => .put target (.scalar s)
  | _ => .shares

def Spec.Step.act (cv : Conv) : Spec.Step → Act
  | .lowercase field target => .convert cv.lower (lit "value to lowercase is not a string") field target
  | .uppercase field target => .convert cv.upper (lit "value to uppercase is not a string") field target
  | .append field value => .append field value
  | .remove => .ret none
  | .communityId => .ret none
  | .set .null copyFrom target => if copyFrom = [] then .put target .nilp else .copy copyFrom target
  | .set s _ target => .put target (.scalar s)

theorem act_put_run (key : Bytes) (v : Val) (F : Fields) : (Act.put key v).run F = Run.of (Spec.putP F key v) := by
  simp only [Act.put, Act.run, Spec.op, Spec.putP]
  cases Spec.putFields F (keyToPath key) v true with
  | panic => rfl
  | ok x => obtain ⟨G, old, err⟩ := x; rfl

theorem act_putQuiet_run (key : Bytes) (v : Val) (F : Fields) : (Act.putQuiet key v).run F = Run.of ((Spec.putP F key v).map fun (f', _) => (f', (none : Option PErr))) := by
  simp only [Act.putQuiet, Act.run, Spec.op, Spec.putP]
  cases Spec.putFields F (keyToPath key) v true with
  | panic => rfl
  | ok x => obtain ⟨G, old, err⟩ := x; rfl

theorem act_convert_run (conv : Bytes → Bytes) (msg field target : Bytes) (F : Fields) : (Act.convert conv msg field target).run F = Run.of (Spec.convert conv msg field target F) := by
  simp only [Act.convert, Act.run, Spec.op, Spec.convert]
  cases Spec.getFields F (keyToPath field) with
  | panic => rfl
  | ok v =>
    cases v with
    | scalar s => cases s <;> first | rfl | exact act_put_run _ _ _
    | _ => rfl

theorem act_append_run (field value : Bytes) (F : Fields) : (Act.append field value).run F = Run.of (Spec.append field value F) := by
  simp only [Act.append, Act.run, Spec.op, Spec.append]
  cases Spec.getFields F (keyToPath field) with
  | panic => rfl
  | ok v =>
    cases v with
    | scalar s => cases s <;> rfl
    | nilp => exact act_putQuiet_run _ _ _
    | arrNil => exact act_putQuiet_run _ _ _
    | arr vs => exact act_putQuiet_run _ _ _
    | _ => rfl

theorem step_act_run (cv : Conv) (s : Spec.Step) (F : Fields) : (s.act cv).run F = s.apply cv F := by
  cases s with
  | lowercase f t => exact act_convert_run _ _ _ _ _
  | uppercase f t => exact act_convert_run _ _ _ _ _
  | append f v => exact act_append_run _ _ _
  | remove => rfl
  | communityId => rfl
  | set x c t =>
    cases x with
    | null =>
      simp only [Spec.Step.act, Spec.Step.apply]
      split
      · exact act_put_run _ _ _
      · simp only [Act.copy, Act.run, Spec.op]
        cases Spec.getFields F (keyToPath c) with
        | panic => rfl
        | ok v => cases v with
          | scalar s => exact act_put_run _ _ _
          | _ => rfl
    | _ => exact act_put_run _ _ _

theorem act_put_in {R W : List (List Bytes)} {key : Bytes} {v : Val} (h : keyToPath key ∈ W) : (Act.put key v).In R W := ⟨.inr h, fun _ => trivial⟩
theorem act_putQuiet_in {R W : List (List Bytes)} {key : Bytes} {v : Val} (h : keyToPath key ∈ W) : (Act.putQuiet key v).In R W := ⟨.inr h, fun _ => trivial⟩

theorem act_convert_in (conv : Bytes → Bytes) (msg field target : Bytes) : (Act.convert conv msg field target).In [keyToPath field] [keyToPath (if target = [] then field else target)] := by
  unfold Act.convert
  generalize (if target = [] then field else target) = key
  refine ⟨.inl ⟨rfl, by simp [Call.area]⟩, fun r => ?_⟩
  dsimp only
  split
  · trivial
  · exact act_put_in (by simp)
  · trivial

theorem act_append_in (field value : Bytes) : (Act.append field value).In [keyToPath field] [keyToPath field] := by
  refine ⟨.inl ⟨rfl, by simp [Call.area]⟩, fun r => ?_⟩
  dsimp only
  split
  · exact act_putQuiet_in (by simp)
  · exact act_putQuiet_in (by simp)
  · exact act_putQuiet_in (by simp)
  · trivial
  · trivial

theorem step_act_in (cv : Conv) (s : Spec.Step) : (s.act cv).In s.reads s.writes := by
  cases s with
  | lowercase f t => exact act_convert_in _ _ _ _
  | uppercase f t => exact act_convert_in _ _ _ _
  | append f v => exact act_append_in _ _
  | remove => trivial
  | communityId => trivial
  | set x c t =>
    cases x with
    | null =>
      simp only [Spec.Step.act, Spec.Step.reads, Spec.Step.writes]
      split
      · exact act_put_in (by simp)
      · refine ⟨.inl ⟨rfl, by simp [Call.area]⟩, fun r => ?_⟩
        dsimp only
        split
        · trivial
        · exact act_put_in (by simp)
        · trivial
    | _ => exact act_put_in (by simp [Spec.Step.writes])

mutual
theorem proc_act (cv : Conv) : ∀ p : Spec.Proc, ∃ a : Act, a.In p.reads p.writes ∧ ∀ F, a.run F = p.apply cv F
  | .mk step ignF ignM onF => by
    obtain ⟨b, hb, hb'⟩ := procs_act cv onF
    have hb1 : b.In (step.reads ++ Spec.readsAll onF) (step.writes ++ Spec.writesAll onF) := hb.mono (fun x hx => List.mem_append_right _ hx) fun x hx => List.mem_append_right _ hx
    have hs : (step.act cv).In (step.reads ++ Spec.readsAll onF) (step.writes ++ Spec.writesAll onF) :=
      (step_act_in cv step).mono (fun x hx => List.mem_append_left _ hx) fun x hx => List.mem_append_left _ hx
    refine ⟨(step.act cv).andThen fun e => match e with
      | none => .ret none
      | some err => if ignM && err.isMissing then .ret none
        else if onF.isEmpty then .ret (if ignF then none else some err)
        else b.andThen fun e => .ret (if ignF then none else e), ?_, fun F => ?_⟩
    · refine hs.andThen fun e => ?_
      split
      · trivial
      · split
        · trivial
        · split
          · trivial
          · exact hb1.andThen (f := fun e => .ret (if ignF then none else e)) fun _ => trivial
    · rw [Act.run_andThen, step_act_run]
      simp only [Spec.Proc.apply]
      cases step.apply cv F with
      | crash => rfl
      | shares => rfl
      | done x =>
        obtain ⟨G, e⟩ := x
        cases e with
        | none => rfl
        | some err =>
          simp only
          split
          · rfl
          · split
            · rfl
            · rw [Act.run_andThen, hb']
              cases Spec.applyAll cv onF G with
              | crash => rfl
              | shares => rfl
              | done y => rfl
theorem procs_act (cv : Conv) : ∀ ps : List Spec.Proc, ∃ a : Act, a.In (Spec.readsAll ps) (Spec.writesAll ps) ∧ ∀ F, a.run F = Spec.applyAll cv ps F
  | [] => ⟨.ret none, trivial, fun _ => rfl⟩
  | p :: ps => by
    obtain ⟨a, ha, ha'⟩ := proc_act cv p
    obtain ⟨b, hb, hb'⟩ := procs_act cv ps
    refine ⟨a.andThen fun e => match e with
      | some err => .ret (some err)
      | none => b, (ha.mono (fun x hx => List.mem_append_left _ hx) fun x hx => List.mem_append_left _ hx).andThen fun e => ?_, fun F => ?_⟩
    · cases e with
      | some err => trivial
      | none => exact hb.mono (fun x hx => List.mem_append_right _ hx) fun x hx => List.mem_append_right _ hx
    · rw [Act.run_andThen, ha']
      simp only [Spec.applyAll]
      cases p.apply cv F with
      | crash => rfl
      | shares => rfl
      | done x =>
        obtain ⟨G, e⟩ := x
        cases e with
        | some err => rfl
        | none => exact hb' G
end

theorem act_sorted : ∀ {a : Act} {F G : Fields} {e : Option PErr}, F.Sorted → a.run F = .done (G, e) → G.Sorted := by
  intro a
  induction a with
  | ret e => intro F G e' hF h; simp only [Act.run, Run.done.injEq, Prod.mk.injEq] at h; exact h.1 ▸ hF
  | crash => intro F G e' hF h; cases h
  | shares => intro F G e' hF h; cases h
  | call c k ih =>
    intro F G e' hF h
    simp only [Act.run] at h
    cases hc : Spec.op F c with
    | panic => rw [hc] at h; cases h
    | ok x => obtain ⟨F1, r⟩ := x; rw [hc] at h; exact ih r (op_sorted hF hc) h

/-- Two independent processors, each with its on_failure processors: whatever they do and whichever error they end with, in the other order they do the same. -/
theorem independent_commute (cv : Conv) {p q : Spec.Proc} (hi : p.Independent q) {F F1 F2 : Fields} (hF : F.Sorted) {e e' : Option PErr} (h1 : p.apply cv F = .done (F1, e)) (h2 : q.apply cv F1 = .done (F2, e')) :
    ∃ G, q.apply cv F = .done (G, e') ∧ p.apply cv G = .done (F2, e) := by
  obtain ⟨a, ha, ha'⟩ := proc_act cv p
  obtain ⟨b, hb, hb'⟩ := proc_act cv q
  rw [← ha'] at h1; rw [← hb'] at h2
  obtain ⟨G, g1, g2⟩ := run_run hi.1 hi.2 ha hb hF h1 h2
  exact ⟨G, by rw [← hb']; exact g1, by rw [← ha']; exact g2⟩

/-- Reordering a list of processors that all succeed. -/
theorem applyAll_reorder (cv : Conv) {ps qs : List Spec.Proc} (hr : Reorder Spec.Proc.Independent ps qs) : ∀ {F G : Fields}, F.Sorted → Spec.applyAll cv ps F = .done (G, none) → Spec.applyAll cv qs F = .done (G, none) := by
  have first : ∀ {x : Spec.Proc} {l : List Spec.Proc} {F G : Fields}, Spec.applyAll cv (x :: l) F = .done (G, none) → ∃ F1, x.apply cv F = .done (F1, none) ∧ Spec.applyAll cv l F1 = .done (G, none) := by
    intro x l F G h
    simp only [Spec.applyAll] at h
    cases hx : x.apply cv F with
    | crash => simp [hx] at h
    | shares => simp [hx] at h
    | done y =>
      obtain ⟨F1, e⟩ := y
      cases e with
      | some e => simp [hx] at h
      | none => simp only [hx] at h; exact ⟨F1, rfl, h⟩
  have build : ∀ {x : Spec.Proc} {l : List Spec.Proc} {F F1 G : Fields}, x.apply cv F = .done (F1, none) → Spec.applyAll cv l F1 = .done (G, none) → Spec.applyAll cv (x :: l) F = .done (G, none) := by
    intro x l F F1 G h1 h2
    simp only [Spec.applyAll, h1, h2]
  induction hr with
  | nil => intro F G _ h; exact h
  | cons x _ ih =>
    intro F G hF h
    obtain ⟨F1, h1, h2⟩ := first h
    have hF1 : F1.Sorted := by
      obtain ⟨a, _, ha⟩ := proc_act cv x
      exact act_sorted hF ((ha F).trans h1)
    exact build h1 (ih hF1 h2)
  | swap x y l hi =>
    intro F G hF h
    obtain ⟨F1, h1, h⟩ := first h
    obtain ⟨F2, h2, h⟩ := first h
    obtain ⟨K, k1, k2⟩ := independent_commute cv hi hF h1 h2
    exact build k1 (build k2 h)
  | trans _ _ ih1 ih2 => intro F G hF h; exact ih2 hF (ih1 hF h)

theorem owns_erase_sorted {h : Heap} {f : AFields} (o : Owns h f) : f.erase.Sorted := by
  intro es he
  cases f with
  | none => cases he
  | some x =>
    obtain ⟨m, ts⟩ := x
    simp only [AFields.erase, Option.some.injEq] at he
    subst he
    rw [ATree.eraseE_eq]
    exact AMap.sorted_mapVals o.2.1

/-- **C75.** Two pipelines without global on_failure processors that differ only in the order of independent processors: if `Process` succeeds with one of them, it succeeds with the other, and the event has the same contents afterwards. (As long as no `copy_from` meets an
array or an object.) -/
theorem processors_reorder (cv : Conv) {p p' : Pipeline Builtin (Option Err)} {q q' : Spec.Pipe} {h : Heap} {f : AFields} (o : Owns h f) (hq : PipeIs h p q) (hq' : PipeIs h p' q')
    (hn : q.onFailure = []) (hr : Reorder Spec.Proc.Independent q.processors q'.processors) (hs : q.apply cv f.erase ≠ .shares) (c c' : Counters) (l l' : List Invocation)
    {w : PWorld (Heap × Event)} {ret : Option Unit} (hp : p.process (builtinCall cv) () ⟨(h, f.event), c, l⟩ = .ok (w, ret, none)) :
    ∃ w' F, p'.process (builtinCall cv) () ⟨(h, f.event), c', l'⟩ = .ok (w', some (), none) ∧ ret = some () ∧ Holds w.world.1 w.world.2 F ∧ Holds w'.world.1 w'.world.2 F := by
  have k1 := pipeline_pure cv o hq c l
  have k2 := pipeline_pure cv o hq' c' l'
  have key : ∃ F, Spec.applyAll cv q.processors f.erase = .done (F, none) := by
    cases ha : Spec.applyAll cv q.processors f.erase with
    | crash => simp only [Spec.Pipe.apply, ha, PurePost] at k1; rw [hp] at k1; cases k1
    | shares => exact absurd (by simp only [Spec.Pipe.apply, ha]) hs
    | done x =>
      obtain ⟨F, e⟩ := x
      cases e with
      | none => exact ⟨F, rfl⟩
      | some e =>
        simp only [Spec.Pipe.apply, ha, hn, List.isEmpty_nil, if_true, PurePost] at k1
        obtain ⟨_, _, _, k, _⟩ := k1
        rw [hp] at k; cases k
  obtain ⟨F, hF⟩ := key
  have hF' := applyAll_reorder cv hr (owns_erase_sorted o) hF
  simp only [Spec.Pipe.apply, hF, PurePost] at k1
  simp only [Spec.Pipe.apply, hF', PurePost] at k2
  obtain ⟨w1, f1, a1, a2, a3, a4, _⟩ := k1
  obtain ⟨w2, f2, b1, b2, b3, b4, _⟩ := k2
  rw [hp] at a1
  simp only [Res.ok.injEq, Prod.mk.injEq] at a1
  obtain ⟨rfl, rfl, _⟩ := a1
  exact ⟨w2, F, b1, rfl, by rw [a2, ← a4]; exact a3.holds, by rw [b2, ← b4]; exact b3.holds⟩

theorem proc_independent_symm {p q : Spec.Proc} (h : p.Independent q) : q.Independent p := ⟨h.2, h.1⟩

theorem reorder_symm {α : Type} {ind : α → α → Prop} (hs : ∀ a b, ind a b → ind b a) {l m : List α} (h : Reorder ind l m) : Reorder ind m l := by
  induction h with
  | nil => exact .nil
  | cons x _ ih => exact .cons x ih
  | swap x y l hi => exact .swap y x l (hs _ _ hi)
  | trans _ _ h1 h2 => exact .trans h2 h1

theorem noCopyAll_mem {ps : List Spec.Proc} : Spec.NoCopyAll ps ↔ ∀ p ∈ ps, p.NoCopy := by
  induction ps with
  | nil => simp [Spec.NoCopyAll]
  | cons p ps ih => simp [Spec.NoCopyAll, ih]

/-- **C75.** Pairwise independent processors, none of which copies a field: the order in which they are configured decides neither whether `Process` succeeds nor the contents of the event after success. -/
theorem processors_any_order (cv : Conv) {p p' : Pipeline Builtin (Option Err)} {q q' : Spec.Pipe} {h : Heap} {f : AFields} (o : Owns h f) (hq : PipeIs h p q) (hq' : PipeIs h p' q')
    (hn : q.onFailure = []) (hn' : q'.onFailure = []) (hp : q.processors.Perm q'.processors) (hi : q.processors.Pairwise Spec.Proc.Independent) (hc : Spec.NoCopyAll q.processors)
    (c c' : Counters) (l l' : List Invocation) (F : Fields) :
    (∃ w, p.process (builtinCall cv) () ⟨(h, f.event), c, l⟩ = .ok (w, some (), none) ∧ Holds w.world.1 w.world.2 F) ↔
    (∃ w, p'.process (builtinCall cv) () ⟨(h, f.event), c', l'⟩ = .ok (w, some (), none) ∧ Holds w.world.1 w.world.2 F) := by
  have hr := reorder_of_perm hp (fun _ _ => proc_independent_symm) hi
  have hc' : Spec.NoCopyAll q'.processors := noCopyAll_mem.mpr fun x hx => noCopyAll_mem.mp hc x (hp.mem_iff.mpr hx)
  have s1 := no_copy_no_shares cv hc (by rw [hn]; trivial) f.erase
  have s2 := no_copy_no_shares cv hc' (by rw [hn']; trivial) f.erase
  constructor
  · rintro ⟨w, h1, h2⟩
    obtain ⟨w', G, a, _, b, d⟩ := processors_reorder cv o hq hq' hn hr s1 c c' l l' h1
    rw [h2.unique b]
    exact ⟨w', a, d⟩
  · rintro ⟨w, h1, h2⟩
    obtain ⟨w', G, a, _, b, d⟩ := processors_reorder cv o hq' hq hn' (reorder_symm (fun _ _ => proc_independent_symm) hr) s2 c' c l' l h1
    rw [h2.unique b]
    exact ⟨w', a, d⟩

/-! ## Cases -/

/-- Three processors that touch different fields, two of them below the same object, the last with an on_failure processor. -/
def apartProcs : List Spec.Proc := [.mk (.set (.int 1) [] (lit "a.b")) false false [], .mk (.lowercase (lit "a.c") (lit "d")) false true [],
  .mk (.append (lit "tags") (lit "x")) false false [.mk (.set (.str (lit "no")) [] (lit "error")) false false []]]

theorem apartProcs_independent : apartProcs.Pairwise Spec.Proc.Independent := by
  have h1 : keyToPath (lit "a.b") = [lit "a", lit "b"] := by decide +kernel
  have h2 : keyToPath (lit "a.c") = [lit "a", lit "c"] := by decide +kernel
  have h3 : keyToPath (lit "d") = [lit "d"] := by decide +kernel
  have h4 : keyToPath (lit "tags") = [lit "tags"] := by decide +kernel
  have h5 : keyToPath (lit "error") = [lit "error"] := by decide +kernel
  have e0 : lit "d" ≠ [] := by decide +kernel
  have e1 : lit "a" ≠ lit "d" := by decide +kernel
  have e2 : lit "a" ≠ lit "tags" := by decide +kernel
  have e3 : lit "a" ≠ lit "error" := by decide +kernel
  have e4 : lit "d" ≠ lit "tags" := by decide +kernel
  have e5 : lit "d" ≠ lit "error" := by decide +kernel
  have e6 : lit "b" ≠ lit "c" := by decide +kernel
  simp [apartProcs, Spec.Proc.Independent, Spec.Proc.reads, Spec.Proc.writes, Spec.readsAll, Spec.writesAll, Spec.Step.reads, Spec.Step.writes, Spec.Elsewhere, h1, h2, h3, h4, h5, e0,
    e1, e2, e3, e4, e5, e6, e1.symm, e2.symm, e3.symm, e4.symm, e5.symm, e6.symm]

/-- They do something in every order, here to an event with `a.c` a string and `tags` a number. -/
theorem apartProcs_run (cv : Conv) : Spec.Pipe.apply cv ⟨apartProcs, []⟩ (some [(lit "a", .obj [(lit "c", .scalar (.str (lit "X")))]), (lit "tags", .scalar (.int 7))]) =
    .done (some [(lit "a", .obj [(lit "b", .scalar (.int 1)), (lit "c", .scalar (.str (lit "X")))]), (lit "d", .scalar (.str (cv.lower (lit "X")))), (lit "error", .scalar (.str (lit "no"))), (lit "tags", .scalar (.int 7))], none) := by
  rfl

/-- The order of processors that are not independent matters: one writes what the other reads. -/
theorem dependent_order_matters (cv : Conv) (hx : cv.lower (lit "X") = lit "x") :
    Spec.applyAll cv [.mk (.set (.str (lit "X")) [] (lit "a")) false false [], .mk (.lowercase (lit "a") []) false true []] (some []) = .done (some [(lit "a", .scalar (.str (lit "x")))], none) ∧
    Spec.applyAll cv [.mk (.lowercase (lit "a") []) false true [], .mk (.set (.str (lit "X")) [] (lit "a")) false false []] (some []) = .done (some [(lit "a", .scalar (.str (lit "X")))], none) := by
  constructor
  · rw [← hx]; rfl
  · rfl

/-- Success is needed: if a processor fails, those after it do not run, and the order shows in what is left behind. -/
theorem failing_order_matters (cv : Conv) :
    Spec.applyAll cv [.mk (.set (.int 1) [] (lit "a")) false false [], .mk (.lowercase (lit "b") []) false false []] (some []) = .done (some [(lit "a", .scalar (.int 1))], some (.missing (lit "b"))) ∧
    Spec.applyAll cv [.mk (.lowercase (lit "b") []) false false [], .mk (.set (.int 1) [] (lit "a")) false false []] (some []) = .done (some [], some (.missing (lit "b"))) := by
  constructor <;> rfl

end Sawmill
