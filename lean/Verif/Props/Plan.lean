import Verif.Spec.Plan
import Verif.Props.Registry
import Verif.Props.Pure
import Verif.Props.PipelineNew
/-!
# From a configuration to what the pipeline does (C59)
-/

namespace Sawmill
variable {pr : Nat → Bool}

theorem kindName_eq (k : ProcKind) : Spec.kindName k = k.name := by cases k <;> rfl

theorem kind_name_inj {a b : ProcKind} (h : a.name = b.name) : a = b := by
  cases a <;> cases b <;> first | rfl | exact absurd h (by decide)

theorem validate_kind (k : ProcKind) : validateConfig (some k.new) = .ok (.ok ⟨k.new, .iface⟩) := by
  cases k <;> rfl

theorem registerKinds_spec (ks : List ProcKind) (r : Registry Opts (Built Builtin (Option Err))) (hn : ks.Nodup) (hr : ∀ k ∈ ks, AMap.lookup r k.name = none) :
    ∃ r', registerKinds r ks = .ok r' ∧ ∀ name, AMap.lookup r' name = match ks.find? fun k => k.name = name with
      | some k => some ⟨k.new, .iface⟩
      | none => AMap.lookup r name := by
  induction ks generalizing r with
  | nil => exact ⟨r, rfl, fun name => rfl⟩
  | cons k ks ih =>
    obtain ⟨hk, hn⟩ := List.nodup_cons.1 hn
    have h1 : Registry.mustRegister r k.name (some k.new) = .ok (AMap.insert r k.name ⟨k.new, .iface⟩) := by
      simp [Registry.mustRegister, Registry.register, hr k (by simp), validate_kind]
    obtain ⟨r', e1, e2⟩ := ih (AMap.insert r k.name ⟨k.new, .iface⟩) hn (fun k' hk' => by
      rw [AMap.lookup_insert_of_ne _ _ (fun h => hk (by rw [← kind_name_inj h] at hk'; exact hk'))]
      exact hr k' (by simp [hk']))
    refine ⟨r', by simp [registerKinds, h1, e1], fun name => ?_⟩
    rw [e2, List.find?_cons]
    by_cases hx : k.name = name
    · subst hx
      have : ks.find? (fun k' => decide (k'.name = k.name)) = none := by
        rw [List.find?_eq_none]
        intro k' hk' h
        simp only [decide_eq_true_eq] at h
        rw [kind_name_inj h] at hk'
        exact hk hk'
      simp [this, AMap.lookup_insert_self]
    · simp only [hx, decide_false]
      cases ks.find? fun k => decide (k.name = name) with
      | some k' => rfl
      | none => exact AMap.lookup_insert_of_ne _ _ hx

theorem leafAt_some {h : Heap} {a : Nat} {s : Scalar} : Spec.leafAt h a = some s ↔ h[a]? = some (.cell (scalarCell s)) := by
  constructor
  · intro hl
    unfold Spec.leafAt at hl
    split at hl
    · next c hc =>
      split at hl
      · next hx => simp only [Option.some.injEq] at hl; rw [hc, hx, hl]
      · cases hl
    · cases hl
  · intro hl
    have : Spec.leafValue (scalarCell s) = s := by cases s <;> rfl
    simp [Spec.leafAt, hl, this]

theorem stepOf_is {h : Heap} {o : Opts} {x : Spec.Step × Bool × Bool} (hs : Spec.stepOf h o = some x) :
    ∃ b ignM ignF, o.built.proc = b.prog ∧ StepIs h b x.1 ∧ ignores o.built = .ok (.ok (ignM, ignF)) ∧ ignF.getD false = x.2.1 ∧ ignM.getD false = x.2.2 := by
  cases o with
  | set v c t i m =>
    simp only [Spec.stepOf, Option.map_eq_some_iff] at hs
    obtain ⟨s, h1, rfl⟩ := hs
    refine ⟨_, _, _, rfl, ⟨s, rfl, ?_⟩, rfl, rfl, rfl⟩
    exact leafAt_some.1 h1
  | _ =>
    simp only [Spec.stepOf, Option.some.injEq] at hs
    subst hs
    exact ⟨_, _, _, rfl, rfl, rfl, rfl, rfl⟩

section
variable {C : Type} {kinds : List ProcKind} {fill : ProcKind → C → Except Err Opts} {nilConfig : C} {h : Heap}

/-- What go-ucfg is assumed to do: it fills in the struct that it is given; and the value of a `set` is a leaf. -/
structure FillOk (h : Heap) (kinds : List ProcKind) (fill : ProcKind → C → Except Err Opts) : Prop where
  typed : ∀ k ∈ kinds, ∀ c o, fill k c = .ok o → o.kind = k
  leaf : ∀ k ∈ kinds, ∀ c o, fill k c = .ok o → ∀ v x t i m, o = .set v x t i m → ∃ s, h[v]? = some (.cell (scalarCell s))

theorem FillOk.step (hf : FillOk h kinds fill) {k : ProcKind} (hm : k ∈ kinds) {c : C} {o : Opts} (hk : fill k c = .ok o) : ∃ x, Spec.stepOf h o = some x := by
  cases o with
  | set v x t i m =>
    obtain ⟨s, hs⟩ := hf.leaf k hm c _ hk v x t i m rfl
    exact ⟨_, by simp [Spec.stepOf, leafAt_some.2 hs]; rfl⟩
  | _ => exact ⟨_, rfl⟩

/-- The registry of a program. -/
def Registered (kinds : List ProcKind) (r : Registry Opts (Built Builtin (Option Err))) : Prop := registerKinds [] kinds = .ok r

theorem factory_spec {r : Registry Opts (Built Builtin (Option Err))} (hn : kinds.Nodup) (hr : Registered kinds r) (hf : FillOk h kinds fill) (name : Bytes) (config : C) :
    match Spec.optionsOf h kinds fill name config with
    | none => ∃ e, (registryFactory pr fill nilConfig r).newProcessor name config = .ok (.error e)
    | some x => ∃ o, (registryFactory pr fill nilConfig r).newProcessor name config = .ok (.ok (Opts.built o)) ∧ Spec.stepOf h o = some x := by
  obtain ⟨r', e1, e2⟩ := registerKinds_spec kinds [] hn (fun k _ => rfl)
  rw [show registerKinds [] kinds = .ok r from hr] at e1
  obtain rfl : r = r' := by simpa using e1
  simp only [Spec.optionsOf, kindName_eq, registryFactory, Registry.newProcessor, e2]
  cases hk : kinds.find? fun k => k.name = name with
  | none => exact ⟨_, rfl⟩
  | some k =>
    simp only
    have hz : k.new.zero.kind = k := by cases k <;> rfl
    rw [hz]
    cases hx : fill k config with
    | error e => exact ⟨e, rfl⟩
    | ok o =>
      obtain ⟨x, hs⟩ := hf.step (List.mem_of_find?_eq_some hk) hx
      simp only [hs]
      refine ⟨o, ?_, hs⟩
      simp [Ctor.newProc, ProcKind.new, hf.typed k (List.mem_of_find?_eq_some hk) config o hx, RKind.nillable]

theorem newProcessor_plan {r : Registry Opts (Built Builtin (Option Err))} (hn : kinds.Nodup) (hr : Registered kinds r) (hf : FillOk h kinds fill) (base : Bytes) (i : Nat) (name cond : Bytes) (config : C)
    (handlers : Bytes → Res (Except NewErr (List (Node Builtin (Option Err))))) :
    match Spec.optionsOf h kinds fill name config with
    | none => ∃ e, newProcessor (registryFactory pr fill nilConfig r) base i name cond config handlers = .ok (.error e)
    | some x => ∃ b, StepIs h b x.1 ∧ newProcessor (registryFactory pr fill nilConfig r) base i name cond config handlers =
        match handlers (componentId base i name ++ lit ".on_failure") with
        | .panic => .panic
        | .ok (.error e) => .ok (.error e)
        | .ok (.ok hs) => .ok (.ok (.mk (componentId base i name) cond x.2.1 x.2.2 hs b.prog)) := by
  have := factory_spec (pr := pr) (nilConfig := nilConfig) hn hr hf name config
  cases ho : Spec.optionsOf h kinds fill name config with
  | none =>
    simp only [ho] at this ⊢
    obtain ⟨e, he⟩ := this
    exact ⟨.construct (componentId base i name) e, by simp only [newProcessor, he]⟩
  | some x =>
    simp only [ho] at this ⊢
    obtain ⟨o, he, hs⟩ := this
    obtain ⟨b, ignM, ignF, k1, k2, k3, k4, k5⟩ := stepOf_is hs
    refine ⟨b, k2, ?_⟩
    simp only [newProcessor, he, k3, k1, k4, k5]
    rcases handlers (componentId base i name ++ lit ".on_failure") with (_ | _) | _ <;> rfl

/-- `New` on a list of processors does what the plan says. -/
def PlanPost (h : Heap) (run : Res (Except NewErr (List (Node Builtin (Option Err))))) (q : Option (List Spec.Proc)) : Prop :=
  match q with
  | none => ∃ e, run = .ok (.error e)
  | some qs => ∃ ns, run = .ok (.ok ns) ∧ ProcsAre h ns qs

def PlanPost1 (h : Heap) (run : Res (Except NewErr (Node Builtin (Option Err)))) (q : Option Spec.Proc) : Prop :=
  match q with
  | none => ∃ e, run = .ok (.error e)
  | some q => ∃ n, run = .ok (.ok n) ∧ ProcIs h n q

variable {r : Registry Opts (Built Builtin (Option Err))} (hn : kinds.Nodup) (hr : Registered kinds r) (hf : FillOk h kinds fill)
include hn hr hf

mutual
theorem newProcessors_plan : ∀ (cs : List (ProcCfg C)) (base : Bytes) (i : Nat), PlanPost h (newProcessors (registryFactory pr fill nilConfig r) base cs i) (Spec.planAll (Spec.optionsOf h kinds fill) nilConfig cs)
  | [], base, i => ⟨[], by simp [newProcessors], by simp [ProcsAre]⟩
  | c :: cs, base, i => by
    have h1 := newFrom_plan c base i
    have h2 := newProcessors_plan cs base (i + 1)
    simp only [newProcessors, Spec.planAll]
    cases hc : Spec.planOne (Spec.optionsOf h kinds fill) nilConfig c with
    | none =>
      simp only [hc, PlanPost1] at h1
      obtain ⟨e, h1⟩ := h1
      exact ⟨e, by simp [h1]⟩
    | some q =>
      simp only [hc, PlanPost1] at h1
      obtain ⟨n, h1, hq⟩ := h1
      cases hcs : Spec.planAll (Spec.optionsOf h kinds fill) nilConfig cs with
      | none =>
        simp only [hcs, PlanPost] at h2
        obtain ⟨e, h2⟩ := h2
        exact ⟨e, by simp [h1, h2]⟩
      | some qs =>
        simp only [hcs, PlanPost] at h2
        obtain ⟨ns, h2, hqs⟩ := h2
        exact ⟨n :: ns, by simp [h1, h2], by simp only [ProcsAre]; exact ⟨q, qs, rfl, hq, hqs⟩⟩
theorem newFrom_plan : ∀ (c : ProcCfg C) (base : Bytes) (i : Nat), PlanPost1 h (newFrom (registryFactory pr fill nilConfig r) base i c) (Spec.planOne (Spec.optionsOf h kinds fill) nilConfig c)
  | [], base, i => ⟨.noProcessor, by simp only [newFrom]⟩
  | [e], base, i => by
    have := newEntry_plan e base i
    simpa only [newFrom, Spec.planOne] using this
  | _ :: _ :: _, base, i => ⟨.manyProcessors, by simp only [newFrom]⟩
theorem newEntry_plan : ∀ (e : Bytes × Option (OptCfg C)) (base : Bytes) (i : Nat), PlanPost1 h (newEntry (registryFactory pr fill nilConfig r) base i e) (Spec.planEntry (Spec.optionsOf h kinds fill) nilConfig e)
  | (name, o), base, i => by
    have := newOptions_plan o base i name
    simpa only [newEntry, Spec.planEntry] using this
theorem newOptions_plan : ∀ (o : Option (OptCfg C)) (base : Bytes) (i : Nat) (name : Bytes), PlanPost1 h (newOptions (registryFactory pr fill nilConfig r) base i name o) (Spec.planOpts (Spec.optionsOf h kinds fill) nilConfig name o)
  | none, base, i, name => by
    have hp := newProcessor_plan (pr := pr) (nilConfig := nilConfig) hn hr hf base i name [] nilConfig (fun _ => .ok (.ok []))
    simp only [newOptions, Spec.planOpts]
    cases ho : Spec.optionsOf h kinds fill name nilConfig with
    | none => simp only [ho] at hp; exact hp
    | some x =>
      simp only [ho] at hp
      obtain ⟨b, hb, hp⟩ := hp
      refine ⟨_, hp, ?_⟩
      simp only [ProcIs]
      exact ⟨b, x.1, [], rfl, hb, rfl, by simp [ProcsAre]⟩
  | some o, base, i, name => by
    have := newOption_plan o base i name
    simpa only [newOptions, Spec.planOpts] using this
theorem newOption_plan : ∀ (o : OptCfg C) (base : Bytes) (i : Nat) (name : Bytes), PlanPost1 h (newOption (registryFactory pr fill nilConfig r) base i name o) (Spec.planOpt (Spec.optionsOf h kinds fill) nilConfig name o)
  | .mk _ cond onF config, base, i, name => by
    have hp := newProcessor_plan (pr := pr) (nilConfig := nilConfig) hn hr hf base i name cond config (fun b => newProcessors (registryFactory pr fill nilConfig r) b onF 0)
    have hq := newProcessors_plan onF (componentId base i name ++ lit ".on_failure") 0
    simp only [newOption, Spec.planOpt]
    cases ho : Spec.optionsOf h kinds fill name config with
    | none => simp only [ho] at hp; exact hp
    | some x =>
      simp only [ho] at hp
      obtain ⟨b, hb, hp⟩ := hp
      cases hs : Spec.planAll (Spec.optionsOf h kinds fill) nilConfig onF with
      | none =>
        simp only [hs, PlanPost] at hq
        obtain ⟨e, hq⟩ := hq
        exact ⟨e, by rw [hp, hq]⟩
      | some qs =>
        simp only [hs, PlanPost] at hq
        obtain ⟨ns, hq, hqs⟩ := hq
        refine ⟨_, by rw [hp, hq], ?_⟩
        simp only [ProcIs]
        exact ⟨b, x.1, qs, rfl, hb, rfl, hqs⟩
end

/-- **C59.** With the registry of a program, `New` accepts a configuration exactly if it asks for something (`Spec.plan`), and the pipeline it returns is the one that is asked for; it never panics. -/
theorem new_plan (c : Config C) :
    match Spec.plan (Spec.optionsOf h kinds fill) nilConfig c with
    | none => ∃ e, Pipeline.new (registryFactory pr fill nilConfig r) c = .ok (.error e)
    | some q => ∃ p, Pipeline.new (registryFactory pr fill nilConfig r) c = .ok (.ok p) ∧ PipeIs h p q := by
  unfold Spec.plan Pipeline.new
  by_cases hid : c.id = []
  · simp only [hid, if_true]; exact ⟨_, rfl⟩
  · simp only [hid, if_false]
    have h1 := newProcessors_plan (pr := pr) (nilConfig := nilConfig) hn hr hf c.processors (c.id ++ lit ".processors") 0
    have h2 := newProcessors_plan (pr := pr) (nilConfig := nilConfig) hn hr hf c.onFailure (c.id ++ lit ".on_failure") 0
    cases e1 : Spec.planAll (Spec.optionsOf h kinds fill) nilConfig c.processors with
    | none =>
      simp only [e1, PlanPost] at h1
      obtain ⟨e, h1⟩ := h1
      exact ⟨e, by simp [h1]⟩
    | some ps =>
      simp only [e1, PlanPost] at h1
      obtain ⟨ns, h1, hps⟩ := h1
      cases e2 : Spec.planAll (Spec.optionsOf h kinds fill) nilConfig c.onFailure with
      | none =>
        simp only [e2, PlanPost] at h2
        obtain ⟨e, h2⟩ := h2
        exact ⟨e, by simp [h1, h2]⟩
      | some fs =>
        simp only [e2, PlanPost] at h2
        obtain ⟨ms, h2, hfs⟩ := h2
        exact ⟨_, by simp [h1, h2]; rfl, hps, hfs⟩

end

end Sawmill
