import Verif.Spec.Programs
import Verif.Lemmas.JsonFun
import Verif.Props.Plan
import Verif.Props.Json
import Verif.Lemmas.ConfigDec
/-!
# The examples: the C library (C60) and the WebAssembly demo (C61)
-/

namespace Sawmill
variable {pr : Nat → Bool}
open Rfc

/-! ## What `lowercase` keeps -/

theorem finiteE_insert {m : AMap Val} {k : Bytes} {v : Val} (hm : Val.FiniteFloatsE m) (hv : v.FiniteFloats) : Val.FiniteFloatsE (AMap.insert m k v) := by
  induction m with
  | nil => exact ⟨hv, trivial⟩
  | cons e m ih =>
    obtain ⟨k', w⟩ := e
    obtain ⟨h1, h2⟩ := hm
    simp only [AMap.insert]
    split
    · exact ⟨hv, h2⟩
    · split
      · exact ⟨hv, h1, h2⟩
      · exact ⟨h1, ih h2⟩

theorem finiteE_lookup {m : AMap Val} {k : Bytes} {v : Val} (hm : Val.FiniteFloatsE m) (hl : AMap.lookup m k = some v) : v.FiniteFloats := by
  induction m with
  | nil => simp [AMap.lookup] at hl
  | cons e m ih =>
    obtain ⟨k', w⟩ := e
    obtain ⟨h1, h2⟩ := hm
    simp only [AMap.lookup] at hl
    split at hl
    · simp only [Option.some.injEq] at hl; subst hl; exact h1
    · exact ih h2 hl

theorem finite_store (path : List Bytes) {m m' : AMap Val} {v : Val} (hm : Val.FiniteFloatsE m) (hv : v.FiniteFloats) (hs : Spec.store m path v = .ok (some m')) : Val.FiniteFloatsE m' := by
  induction path generalizing m m' with
  | nil => simp only [Spec.store, Res.ok.injEq, Option.some.injEq] at hs; subst hs; exact hm
  | cons k ks ih =>
    cases ks with
    | nil => simp only [Spec.store, Res.ok.injEq, Option.some.injEq] at hs; subst hs; exact finiteE_insert hm hv
    | cons k2 ks =>
      have key : ∀ es : AMap Val, Val.FiniteFloatsE es → (Spec.store es (k2 :: ks) v).map (·.map fun es' => AMap.insert m k (.obj es')) = .ok (some m') → Val.FiniteFloatsE m' := by
        intro es hes he
        cases hx : Spec.store es (k2 :: ks) v with
        | panic => simp [hx] at he
        | ok o =>
          cases o with
          | none => simp [hx] at he
          | some es' =>
            simp only [hx, Res.map_ok, Res.ok.injEq, Option.map_some, Option.some.injEq] at he
            subst he
            exact finiteE_insert hm (ih hes hx)
      simp only [Spec.store] at hs
      split at hs
      · exact key [] trivial hs
      · next es hl => exact key es (finiteE_lookup hm hl) hs
      · cases hs
      · cases hs
      · simp at hs

theorem finite_putP {m : AMap Val} {key : Bytes} {v : Val} {F : Fields} {pe : Option Spec.PErr} (hm : Val.FiniteFloatsE m) (hv : v.FiniteFloats) (hp : Spec.putP (some m) key v = .ok (F, pe)) :
    ∃ m', F = some m' ∧ Val.FiniteFloatsE m' := by
  simp only [Spec.putP, Spec.putFields] at hp
  split at hp
  · simp only [Res.map_ok, Res.ok.injEq, Prod.mk.injEq] at hp; exact ⟨m, hp.1.symm, hm⟩
  · split at hp
    · simp only [Res.map_ok, Res.ok.injEq, Prod.mk.injEq] at hp; exact ⟨m, hp.1.symm, hm⟩
    · cases hg : Spec.getFields (some m) (keyToPath key) with
      | panic => simp [hg] at hp
      | ok old =>
        simp only [hg, Res.bind_ok, Option.getD_some, Bool.not_true, Bool.and_false, Bool.false_eq_true, if_false] at hp
        cases hs : Spec.store m (keyToPath key) v with
        | panic => simp [hs] at hp
        | ok o =>
          cases o with
          | none => simp only [hs, Res.bind_ok, Res.map_ok, Res.ok.injEq, Prod.mk.injEq] at hp; exact ⟨m, hp.1.symm, hm⟩
          | some m' => simp only [hs, Res.bind_ok, Res.map_ok, Res.ok.injEq, Prod.mk.injEq] at hp; exact ⟨m', hp.1.symm, finite_store _ hm hv hs⟩

theorem finite_convert {conv : Bytes → Bytes} {msg field target : Bytes} {m : AMap Val} {F : Fields} {pe : Option Spec.PErr} (hm : Val.FiniteFloatsE m) (hp : Spec.convert conv msg field target (some m) = .ok (F, pe)) :
    ∃ m', F = some m' ∧ Val.FiniteFloatsE m' := by
  simp only [Spec.convert] at hp
  cases hg : Spec.getFields (some m) (keyToPath field) with
  | panic => simp [hg] at hp
  | ok v =>
    simp only [hg, Res.bind_ok] at hp
    split at hp
    · simp only [Res.ok.injEq, Prod.mk.injEq] at hp; exact ⟨m, hp.1.symm, hm⟩
    · exact finite_putP hm (by simp [Spec.str, Val.FiniteFloats]) hp
    · simp only [Res.ok.injEq, Prod.mk.injEq] at hp; exact ⟨m, hp.1.symm, hm⟩

mutual
/-- Only `lowercase`, also among the on_failure processors. -/
def Spec.Proc.Lower : Spec.Proc → Prop
  | .mk step _ _ onF => (∃ f t, step = .lowercase f t) ∧ Spec.LowerAll onF
def Spec.LowerAll : List Spec.Proc → Prop
  | [] => True
  | p :: ps => Spec.Proc.Lower p ∧ Spec.LowerAll ps
end

/-- It crashes, or it ends with fields without infinities. -/
def Tame (r : Spec.Run (Fields × Option Spec.PErr)) : Prop := r = .crash ∨ ∃ m pe, r = .done (some m, pe) ∧ Val.FiniteFloatsE m

mutual
theorem lower_tame (cv : Conv) : ∀ (q : Spec.Proc), q.Lower → ∀ (m : AMap Val), Val.FiniteFloatsE m → Tame (q.apply cv (some m))
  | .mk step ignF ignM onF, hq, m, hm => by
    simp only [Spec.Proc.Lower] at hq
    obtain ⟨⟨f, t, rfl⟩, hq⟩ := hq
    simp only [Spec.Proc.apply, Spec.Step.apply]
    cases hc : Spec.convert cv.lower (lit "value to lowercase is not a string") f t (some m) with
    | panic => exact .inl rfl
    | ok r =>
      obtain ⟨F, pe⟩ := r
      obtain ⟨m', rfl, hm'⟩ := finite_convert hm hc
      simp only [Spec.Run.of]
      cases pe with
      | none => exact .inr ⟨m', none, rfl, hm'⟩
      | some e =>
        simp only
        split
        · exact .inr ⟨m', none, rfl, hm'⟩
        · split
          · exact .inr ⟨m', _, rfl, hm'⟩
          · rcases lowers_tame cv onF hq m' hm' with h | ⟨m2, pe, h, h2⟩
            · rw [h]; exact .inl rfl
            · rw [h]; exact .inr ⟨m2, _, rfl, h2⟩
theorem lowers_tame (cv : Conv) : ∀ (qs : List Spec.Proc), Spec.LowerAll qs → ∀ (m : AMap Val), Val.FiniteFloatsE m → Tame (Spec.applyAll cv qs (some m))
  | [], _, m, hm => .inr ⟨m, none, by simp [Spec.applyAll], hm⟩
  | q :: qs, hq, m, hm => by
    simp only [Spec.LowerAll] at hq
    simp only [Spec.applyAll]
    rcases lower_tame cv q hq.1 m hm with h | ⟨m2, pe, h, h2⟩
    · rw [h]; exact .inl rfl
    · rw [h]
      cases pe with
      | some e => exact .inr ⟨m2, _, rfl, h2⟩
      | none => exact lowers_tame cv qs hq.2 m2 h2
end

theorem pipe_tame (cv : Conv) {q : Spec.Pipe} (h1 : Spec.LowerAll q.processors) (h2 : Spec.LowerAll q.onFailure) {m : AMap Val} (hm : Val.FiniteFloatsE m) : Tame (q.apply cv (some m)) := by
  simp only [Spec.Pipe.apply]
  rcases lowers_tame cv _ h1 m hm with h | ⟨m2, pe, h, hm2⟩
  · rw [h]; exact .inl rfl
  · rw [h]
    cases pe with
    | none => exact .inr ⟨m2, none, rfl, hm2⟩
    | some e =>
      simp only
      split
      · exact .inr ⟨m2, _, rfl, hm2⟩
      · exact lowers_tame cv _ h2 m2 hm2

/-! ## Configurations of the examples -/

section
variable {C : Type} {fill : ProcKind → C → Except Err Opts}

theorem options_lower {h : Heap} (hf : FillOk h exampleKinds fill) {name : Bytes} {config : C} {x : Spec.Step × Bool × Bool} (hx : Spec.optionsOf h exampleKinds fill name config = some x) :
    ∃ f t, x.1 = .lowercase f t := by
  simp only [Spec.optionsOf] at hx
  split at hx
  · cases hx
  · next k hk =>
    have hm := List.mem_of_find?_eq_some hk
    have hk2 : k = .lowercase := by simpa [exampleKinds] using hm
    subst hk2
    split at hx
    · cases hx
    · next o ho =>
      have := hf.typed _ hm _ _ ho
      cases o <;> simp [Opts.kind] at this
      simp only [Spec.stepOf, Option.some.injEq] at hx
      subst hx
      exact ⟨_, _, rfl⟩

variable {h : Heap} (hf : FillOk h exampleKinds fill) {nilConfig : C}
include hf

mutual
theorem planAll_lower : ∀ (cs : List (ProcCfg C)) (qs : List Spec.Proc), Spec.planAll (Spec.optionsOf h exampleKinds fill) nilConfig cs = some qs → Spec.LowerAll qs
  | [], qs, hq => by
    simp only [Spec.planAll, Option.some.injEq] at hq; subst hq; simp [Spec.LowerAll]
  | c :: cs, qs, hq => by
    simp only [Spec.planAll] at hq
    split at hq
    · next p ps h1 h2 =>
      simp only [Option.some.injEq] at hq; subst hq
      simp only [Spec.LowerAll]
      exact ⟨planOne_lower c p h1, planAll_lower cs ps h2⟩
    · cases hq
theorem planOne_lower : ∀ (c : ProcCfg C) (q : Spec.Proc), Spec.planOne (Spec.optionsOf h exampleKinds fill) nilConfig c = some q → q.Lower
  | [], q, hq => by simp [Spec.planOne] at hq
  | [e], q, hq => by simp only [Spec.planOne] at hq; exact planEntry_lower e q hq
  | _ :: _ :: _, q, hq => by simp [Spec.planOne] at hq
theorem planEntry_lower : ∀ (e : Bytes × Option (OptCfg C)) (q : Spec.Proc), Spec.planEntry (Spec.optionsOf h exampleKinds fill) nilConfig e = some q → q.Lower
  | (name, o), q, hq => by simp only [Spec.planEntry] at hq; exact planOpts_lower o name q hq
theorem planOpts_lower : ∀ (o : Option (OptCfg C)) (name : Bytes) (q : Spec.Proc), Spec.planOpts (Spec.optionsOf h exampleKinds fill) nilConfig name o = some q → q.Lower
  | none, name, q, hq => by
    simp only [Spec.planOpts, Option.map_eq_some_iff] at hq
    obtain ⟨x, hx, rfl⟩ := hq
    simp only [Spec.Proc.Lower, Spec.LowerAll]
    exact ⟨options_lower hf hx, trivial⟩
  | some o, name, q, hq => by simp only [Spec.planOpts] at hq; exact planOpt_lower o name q hq
theorem planOpt_lower : ∀ (o : OptCfg C) (name : Bytes) (q : Spec.Proc), Spec.planOpt (Spec.optionsOf h exampleKinds fill) nilConfig name o = some q → q.Lower
  | .mk _ _ onF config, name, q, hq => by
    simp only [Spec.planOpt] at hq
    split at hq
    · next x ps hx hps =>
      simp only [Option.some.injEq] at hq; subst hq
      simp only [Spec.Proc.Lower]
      exact ⟨options_lower hf hx, planAll_lower onF ps hps⟩
    · cases hq
end

theorem plan_lower {c : Config C} {q : Spec.Pipe} (hq : Spec.plan (Spec.optionsOf h exampleKinds fill) nilConfig c = some q) : Spec.LowerAll q.processors ∧ Spec.LowerAll q.onFailure := by
  simp only [Spec.plan] at hq
  split at hq
  · cases hq
  · split at hq
    · next ps fs h1 h2 =>
      simp only [Option.some.injEq] at hq; subst hq
      exact ⟨planAll_lower hf _ _ h1, planAll_lower hf _ _ h2⟩
    · cases hq
end

/-! ## A nil event -/

theorem processNil_empty {p : Pipeline Builtin (Option Err)} (hp : p.processors = []) (w : PWorld Heap) : p.processNil w = .ok (w, some (), none) := by
  simp [Pipeline.processNil, Pipeline.process, Pipeline.run, hp, Node.processAll]

theorem processNil_lower {p : Pipeline Builtin (Option Err)} {q : Spec.Proc} {qs : List Spec.Proc} {h : Heap} (hp : ProcsAre h p.processors (q :: qs)) (hq : q.Lower) (w : PWorld Heap) : p.processNil w = .panic := by
  cases hps : p.processors with
  | nil => simp [hps, ProcsAre] at hp
  | cons n ns =>
    simp only [hps, ProcsAre, List.cons.injEq] at hp
    obtain ⟨q', r, ⟨rfl, rfl⟩, hn, _⟩ := hp
    cases n with
    | mk id cond ignF ignM onF proc =>
      simp only [ProcIs] at hn
      obtain ⟨b, step, qs', rfl, hb, rfl, _⟩ := hn
      simp only [Spec.Proc.Lower] at hq
      obtain ⟨⟨f, t, rfl⟩, _⟩ := hq
      cases b <;> simp [StepIs] at hb
      simp [Pipeline.processNil, Pipeline.process, Pipeline.run, hps, Node.processAll, Node.process, Builtin.prog, Prog.run, Builtin.nilStep, PState.inc]

/-! ## Process -/

/-- What is loaded. -/
def Loaded : Option (Pipeline Builtin (Option Err)) → Option Spec.Pipe → Prop
  | none, q => q = none
  | some p, q => ∃ q', q = some q' ∧ PipeIs [] p q' ∧ Spec.LowerAll q'.processors ∧ Spec.LowerAll q'.onFailure

theorem pipeIs_any {p : Pipeline Builtin (Option Err)} {q : Spec.Pipe} (hq : PipeIs [] p q) (h : Heap) : PipeIs h p q :=
  ⟨procsAre_mono (fun v s hv => by simp at hv) _ _ hq.1, procsAre_mono (fun v s hv => by simp at hv) _ _ hq.2⟩

theorem processText_answers {env : JEnv} (hl : env.Lawful) (n : Nat) (cv : Conv) {pipe : Option (Pipeline Builtin (Option Err))} {q : Option Spec.Pipe} (hq : Loaded pipe q) (w : PWorld Heap) (t : Bytes) :
    Answers env n cv q t ((processText env n cv pipe w t).map (·.2)) := by
  unfold processText
  cases hu : unmarshalEvent env t w.world with
  | none =>
    refine .bad fun F hF => ?_
    have : ∃ r, unmarshalEvent env t w.world = some r := by
      refine (unmarshalEvent_accepts_iff env t w.world).2 ?_
      cases F with
      | none => exact .inl hF
      | some fs => obtain ⟨es, h1, h2, h3, _⟩ := hF; exact .inr ⟨es, h1, h2, h3⟩
    rw [hu] at this
    obtain ⟨r, hr⟩ := this
    cases hr
  | some r =>
    rcases (unmarshalEvent_accepts_iff env t w.world).1 ⟨r, hu⟩ with hd | ⟨es, hd, hn, hr⟩
    · -- null
      rw [unmarshalEvent_null env hd] at hu
      simp only [Option.some.injEq] at hu; subst hu
      cases pipe with
      | none => obtain rfl := hq; exact .unloaded (F := none) hd
      | some p =>
        obtain ⟨q, rfl, hp, l1, _⟩ := hq
        cases hps : q.processors with
        | nil =>
          have : p.processors = [] := by
            have := hp.1
            rw [hps] at this
            cases hx : p.processors with
            | nil => rfl
            | cons => simp [hx, ProcsAre] at this
          simp only [processNil_empty this]
          exact .nullEmpty hd hps
        | cons q1 qs =>
          have h1 := hp.1
          rw [hps] at h1 l1
          simp only [Spec.LowerAll] at l1
          simp only [processNil_lower h1 l1.1]
          exact .nullCrash hd (by simp [hps])
    · obtain ⟨h', f, he, o, hc, _⟩ := unmarshalEvent_object env hd hn hr w.world
      rw [hu] at he
      simp only [Option.some.injEq] at he; subst he
      have hF : EventText env t (some (AMap.ofEntries (jsonValE env es) [])) := ⟨es, hd, hn, hr, rfl⟩
      cases pipe with
      | none => obtain rfl := hq; exact .unloaded hF
      | some p =>
        obtain ⟨q, rfl, hp, l1, l2⟩ := hq
        obtain ⟨fs0, hh0, hk0⟩ := unmarshalEvent_kinds hl hu
        have hfin : Val.FiniteFloatsE (AMap.ofEntries (jsonValE env es) []) := by
          have := Holds.unique hh0 (hc ▸ o.holds)
          exact (hk0 _ this).2.2.1
        have key := pipeline_pure cv o (pipeIs_any hp h') w.counts w.log
        rw [hc] at key
        have ht := pipe_tame cv l1 l2 hfin
        cases f with
        | none => simp [AFields.erase] at hc
        | some mts =>
        simp only [AFields.event] at key ⊢
        rcases ht with ht | ⟨m, pe, ht, hm⟩
        · rw [ht] at key
          simp only [PurePost] at key
          simp only [key]
          exact .crash hF ht
        · rw [ht] at key
          cases pe with
          | some pe =>
            simp only [PurePost] at key
            obtain ⟨w', f', err, e1, e2, o', e3, em, _⟩ := key
            simp only [e1]
            exact .failed hF ht em
          | none =>
            simp only [PurePost] at key
            obtain ⟨w', f', e1, e2, o', e3, _⟩ := key
            simp only [e1]
            have hh : Holds w'.world.1 w'.world.2 (some m) := by rw [e2, ← e3]; exact o'.holds
            rcases marshalEvent_finite hl hh hm n with ⟨hx, hd⟩ | ⟨hx, hd⟩ | ⟨out, js, hx, hd, h1, h2, h3⟩
            · simp only [hx]; exact .overflow hF ht hd
            · simp only [hx]; exact .deep hF ht hd
            · simp only [hx]; exact .text hF ht hd h1 h2 h3

/-! ## C60: the C library -/

section
variable {env : JEnv} (hl : env.Lawful) (n : Nat) (cv : Conv) {fill : ProcKind → JCfg → Except Err Opts} {r : Registry Opts (Built Builtin (Option Err))}
  (hr : Registered exampleKinds r) (hf : FillOk [] exampleKinds fill)
include hl hr hf

omit hl hr hf in
theorem goString_eq (t : Bytes) : goString t = cBytes t := by
  induction t with
  | nil => rfl
  | cons b bs ih =>
    simp only [goString, List.takeWhile, cBytes] at ih ⊢
    by_cases hb : b = 0
    · simp [hb]
    · simpa [hb] using ih

theorem calls_session (cs : List CCall) (s : CLib) (q : Option Spec.Pipe) (hq : Loaded s.pipe q) : Session env n cv fill q cs (CLib.calls env n cv (registryFactory pr fill none r) s cs) := by
  induction cs generalizing s q with
  | nil => exact .nil
  | cons c cs ih =>
    cases c with
    | load t =>
      simp only [CLib.calls, CLib.call, CLib.load, goString_eq]
      cases hu : unmarshalConfig env (cBytes t) with
      | none => exact .loadBad hu (ih s q hq)
      | some c =>
        cases c with
        | none => exact .loadNull hu
        | some c =>
          simp only [Pipeline.newFromPtr]
          have hp := new_plan (pr := pr) (nilConfig := (none : JCfg)) (by decide) hr hf c.config
          cases hpl : Spec.plan (Spec.optionsOf [] exampleKinds fill) none c.config with
          | none =>
            simp only [hpl] at hp
            obtain ⟨e, he⟩ := hp
            simp only [he]
            exact .loadRefused hu hpl (ih _ none rfl)
          | some q' =>
            simp only [hpl] at hp
            obtain ⟨p, he, hi⟩ := hp
            simp only [he]
            exact .loaded hu hpl (ih _ (some q') ⟨q', rfl, hi, plan_lower hf hpl⟩)
    | process t =>
      have ha := processText_answers hl n cv hq s.world (cBytes t)
      simp only [CLib.calls, CLib.call, CLib.process, goString_eq]
      cases hx : processText env n cv s.pipe s.world (cBytes t) with
      | error e => rw [hx] at ha; exact .crash ha
      | ok x => rw [hx] at ha; exact .process ha (ih _ q hq)

/-- **C60.** Every sequence of calls of the C library has the replies of `Session`: they depend on the texts that were passed, and on nothing else. -/
theorem c_session (cs : List CCall) (w : PWorld Heap) : Session env n cv fill none cs (CLib.calls env n cv (registryFactory pr fill none r) ⟨none, w⟩ cs) :=
  calls_session hl n cv hr hf cs ⟨none, w⟩ none rfl
end

/-! ### The answers are determined -/

mutual
theorem depth_le_nest : ∀ (v : Val), v.depth ≤ v.nest + 1
  | .nilp => by simp [Val.depth]
  | .scalar _ => by simp [Val.depth]
  | .arrNil => by simp [Val.depth]
  | .objNil => by simp [Val.depth]
  | .arr vs => by simp only [Val.depth, Val.nest]; have := depthL_le_nest vs; omega
  | .obj es => by simp only [Val.depth, Val.nest]; have := depthE_le_nest es; omega
theorem depthL_le_nest : ∀ (vs : List Val), Val.depthL vs ≤ Val.nestL vs + 1
  | [] => by simp [Val.depthL]
  | v :: vs => by simp only [Val.depthL, Val.nestL]; have := depth_le_nest v; have := depthL_le_nest vs; omega
theorem depthE_le_nest : ∀ (es : List (Bytes × Val)), Val.depthE es ≤ Val.nestE es + 1
  | [] => by simp [Val.depthE]
  | (_, v) :: es => by simp only [Val.depthE, Val.nestE]; have := depth_le_nest v; have := depthE_le_nest es; omega
end

theorem eventText_unique {env : JEnv} {t : Bytes} {F G : Option (AMap Val)} (h1 : EventText env t F) (h2 : EventText env t G) : F = G := by
  cases F with
  | none =>
    cases G with
    | none => rfl
    | some gs => obtain ⟨es, hd, _⟩ := h2; cases document_unique h1 hd
  | some fs =>
    obtain ⟨es, hd, _, _, rfl⟩ := h1
    cases G with
    | none => cases document_unique hd h2
    | some gs =>
      obtain ⟨es', hd', _, _, rfl⟩ := h2
      cases document_unique hd hd'
      rfl

/-- `Answers`, as a function of the contents. -/
def AnswerFor (env : JEnv) (n : Nat) (cv : Conv) : Option Spec.Pipe → Option (AMap Val) → Except CliEnd Reply → Prop
  | none, _, r => r = .error .panic
  | some q, none, r => (q.processors = [] ∧ r = .ok (.text (lit "null"))) ∨ (q.processors ≠ [] ∧ r = .error .panic)
  | some q, some fs, r =>
    match q.apply cv (some fs) with
    | .crash => r = .error .panic
    | .shares => False
    | .done (_, some pe) => ∃ err, r = .ok (.failed err) ∧ procErrMatches (some err) (some pe)
    | .done (none, none) => False
    | .done (some gs, none) => (Val.nestE gs < 10000 ∧ ∃ out, encI env (.obj gs) = .ok out ∧ r = .ok (.text out)) ∨ (10000 ≤ Val.nestE gs ∧ r = .ok .unencodable) ∨ (n < Val.depthE gs ∧ r = .error .overflow)

theorem Answers.for {env : JEnv} {n : Nat} {cv : Conv} {q : Option Spec.Pipe} {t : Bytes} {r : Except CliEnd Reply} (h : Answers env n cv q t r) :
    ((∀ F, ¬ EventText env t F) ∧ r = .ok .badInput) ∨ ∃ F, EventText env t F ∧ AnswerFor env n cv q F r := by
  cases h with
  | bad h => exact .inl ⟨h, rfl⟩
  | unloaded h => exact .inr ⟨_, h, rfl⟩
  | nullEmpty h hq => exact .inr ⟨_, h, .inl ⟨hq, rfl⟩⟩
  | nullCrash h hq => exact .inr ⟨_, h, .inr ⟨hq, rfl⟩⟩
  | crash h hq => exact .inr ⟨_, h, by simp only [AnswerFor, hq]⟩
  | failed h hq he => exact .inr ⟨_, h, by simp only [AnswerFor, hq]; exact ⟨_, rfl, he⟩⟩
  | text h hq hn he => exact .inr ⟨_, h, by simp only [AnswerFor, hq]; exact .inl ⟨hn, _, he, rfl⟩⟩
  | deep h hq hn => exact .inr ⟨_, h, by simp only [AnswerFor, hq]; exact .inr (.inl ⟨hn, by simp⟩)⟩
  | overflow h hq hn => exact .inr ⟨_, h, by simp only [AnswerFor, hq]; exact .inr (.inr ⟨hn, by simp⟩)⟩

/-- **C60.** Answers are determined by the text and by what is loaded, if the stack has room for the 10000 levels that encoding/json permits. -/
theorem answer_unique {env : JEnv} {n : Nat} (hn : 10000 ≤ n) {cv : Conv} {q : Option Spec.Pipe} {t : Bytes} {r1 r2 : Except CliEnd Reply} (h1 : Answers env n cv q t r1) (h2 : Answers env n cv q t r2) :
    SameAnswer r1 r2 := by
  have shallow : ∀ {gs : AMap Val}, n < Val.depthE gs → 10000 ≤ Val.nestE gs := by
    intro gs b
    have := depthE_le_nest gs
    omega
  rcases h1.for with ⟨a1, rfl⟩ | ⟨F, a1, b1⟩ <;> rcases h2.for with ⟨a2, rfl⟩ | ⟨G, a2, b2⟩
  · exact .bad
  · exact absurd a2 (a1 _)
  · exact absurd a1 (a2 _)
  · obtain rfl := eventText_unique a1 a2
    cases q with
    | none => obtain rfl := b1; obtain rfl := b2; exact .crash
    | some q =>
      cases F with
      | none =>
        rcases b1 with ⟨c1, rfl⟩ | ⟨c1, rfl⟩ <;> rcases b2 with ⟨c2, rfl⟩ | ⟨c2, rfl⟩
        · exact .text _
        · exact absurd c1 c2
        · exact absurd c2 c1
        · exact .crash
      | some fs =>
        simp only [AnswerFor] at b1 b2
        cases ha : q.apply cv (some fs) with
        | crash => simp only [ha] at b1 b2; subst b1; subst b2; exact .crash
        | shares => simp only [ha] at b1
        | done x =>
          obtain ⟨H, pe⟩ := x
          cases pe with
          | some pe =>
            simp only [ha] at b1 b2
            obtain ⟨e1, rfl, m1⟩ := b1
            obtain ⟨e2, rfl, m2⟩ := b2
            refine .failed ((procErrMatches_text m1).trans (procErrMatches_text m2).symm) ?_
            obtain ⟨x1, y1, z1⟩ := procErrMatches_some m1
            obtain ⟨x2, y2, z2⟩ := procErrMatches_some m2
            rw [Option.some.inj y1, Option.some.inj y2, z1, z2]
          | none =>
            cases H with
            | none => simp only [ha] at b1
            | some gs =>
              simp only [ha] at b1 b2
              have deep : ∀ {r : Except CliEnd Reply}, (Val.nestE gs < 10000 ∧ ∃ out, encI env (.obj gs) = .ok out ∧ r = .ok (.text out)) ∨ (10000 ≤ Val.nestE gs ∧ r = .ok .unencodable) ∨ (n < Val.depthE gs ∧ r = .error .overflow) →
                  (Val.nestE gs < 10000 ∧ ∃ out, encI env (.obj gs) = .ok out ∧ r = .ok (.text out)) ∨ (10000 ≤ Val.nestE gs ∧ (r = .ok .unencodable ∨ r = .error .overflow)) := by
                rintro r (h | ⟨h, rfl⟩ | ⟨h, rfl⟩)
                · exact .inl h
                · exact .inr ⟨h, .inl rfl⟩
                · exact .inr ⟨shallow h, .inr rfl⟩
              rcases deep b1 with ⟨c1, o1, d1, rfl⟩ | ⟨c1, d1⟩ <;> rcases deep b2 with ⟨c2, o2, d2, rfl⟩ | ⟨c2, d2⟩
              · rw [d1] at d2
                simp only [JOut.ok.injEq] at d2; subst d2
                exact .text _
              · omega
              · omega
              · exact .deep d1 d2

/-! ### What a user of the C library should know -/

section
variable {env : JEnv} (hl : env.Lawful) (n : Nat) (cv : Conv) {fill : ProcKind → JCfg → Except Err Opts} {r : Registry Opts (Built Builtin (Option Err))}
  (hr : Registered exampleKinds r) (hf : FillOk [] exampleKinds fill)
include hl hr hf

/-- C60: after a configuration that was refused, nothing is loaded, whatever was loaded before, and the next event crashes the program. -/
theorem refused_load_unloads (s : CLib) {q : Option Spec.Pipe} (hq : Loaded s.pipe q) {c t : Bytes} {cfg : JConfig} (hc : unmarshalConfig env (cBytes c) = some (some cfg))
    (hp : Spec.plan (Spec.optionsOf [] exampleKinds fill) none cfg.config = none) {F : Option (AMap Val)} (ht : EventText env (cBytes t) F) (rest : List CCall) :
    CLib.calls env n cv (registryFactory pr fill none r) s (.load c :: .process t :: rest) = ([.code 1], some .panic) := by
  have := calls_session (pr := pr) hl n cv hr hf (.load c :: .process t :: rest) s q hq
  revert this
  generalize CLib.calls env n cv (registryFactory pr fill none r) s (.load c :: .process t :: rest) = x
  intro hs
  have h1 : ∀ {rs e}, Session env n cv fill none (.process t :: rest) (rs, e) → rs = [] ∧ e = some .panic := by
    intro rs e h
    have key : ∀ {x}, Answers env n cv none (cBytes t) x → x = .error .panic := by
      intro x hx
      rcases hx.for with ⟨a, _⟩ | ⟨G, _, b⟩
      · exact absurd ht (a F)
      · exact b
    cases h with
    | process h => cases key h
    | crash h => have := key h; simp only [Except.error.injEq] at this; subst this; exact ⟨rfl, rfl⟩
  cases hs with
  | loadBad h => rw [hc] at h; cases h
  | loadNull h => rw [hc] at h; cases h
  | loadRefused h _ hs => obtain ⟨rfl, rfl⟩ := h1 hs; rfl
  | loaded h hp' => 
    rw [hc] at h
    simp only [Option.some.injEq] at h; subst h
    rw [show Spec.plan (Spec.optionsOf [] exampleKinds fill) none cfg.config = _ from hp'] at hp; cases hp

omit hl hr hf in
/-- C60: a text that is not a configuration is refused too, but leaves the pipeline alone. -/
theorem bad_load_keeps (s : CLib) {c : Bytes} (hc : unmarshalConfig env (cBytes c) = none) (rest : List CCall) :
    CLib.calls env n cv (registryFactory pr fill none r) s (.load c :: rest) =
      ((CReply.code 1 :: (CLib.calls env n cv (registryFactory pr fill none r) s rest).1), (CLib.calls env n cv (registryFactory pr fill none r) s rest).2) := by
  simp only [CLib.calls, CLib.call, CLib.load, goString_eq, hc]

end

/-- C60: an event in an answer has no zero byte (and no other byte below 32), so that the C caller sees all of it. -/
theorem answer_c_string {env : JEnv} (hl : env.Lawful) (n : Nat) (cv : Conv) (F : Factory Builtin (Option Err) JCfg) (cs : List CCall) (s : CLib) {out : Bytes}
    (ho : CReply.reply (.text out) ∈ (CLib.calls env n cv F s cs).1) : ∀ b ∈ out, 32 ≤ b.toNat := by
  induction cs generalizing s with
  | nil => simp [CLib.calls] at ho
  | cons c cs ih =>
    have hnull : ∀ b ∈ lit "null", 32 ≤ b.toNat := by decide
    have hp : ∀ {pipe w t w'}, processText env n cv pipe w t = .ok (w', .text out) → ∀ b ∈ out, 32 ≤ b.toNat := by
      intro pipe w t w' h
      unfold processText at h
      split at h
      · simp at h
      · split at h
        · cases h
        · split at h
          · split at h
            · cases h
            · simp at h
            · simp only [Except.ok.injEq, Prod.mk.injEq, Reply.text.injEq] at h
              rw [← h.2]; exact hnull
          · split at h
            · cases h
            · simp at h
            · simp only [Except.ok.injEq, Prod.mk.injEq, Reply.text.injEq] at h
              rw [← h.2]; exact hnull
            · split at h
              · cases h
              · simp at h
              · next bs hm =>
                simp only [Except.ok.injEq, Prod.mk.injEq, Reply.text.injEq] at h
                obtain ⟨_, rfl⟩ := h
                exact fun b hb => (marshalEvent_one_line hl hm b hb).1
    simp only [CLib.calls] at ho
    cases hc : CLib.call env n cv F s c with
    | error e => simp [hc] at ho
    | ok x =>
      obtain ⟨s', rep⟩ := x
      simp only [hc, List.mem_cons] at ho
      rcases ho with ho | ho
      · subst ho
        cases c with
        | load t =>
          simp only [CLib.call] at hc
          split at hc
          · cases hc
          · simp at hc
        | process t =>
          simp only [CLib.call] at hc
          split at hc
          · cases hc
          · next s2 r2 hx =>
            simp only [Except.ok.injEq, Prod.mk.injEq, CReply.reply.injEq] at hc
            obtain ⟨_, rfl⟩ := hc
            simp only [CLib.process] at hx
            split at hx
            · cases hx
            · next w2 r3 hy =>
              simp only [Except.ok.injEq, Prod.mk.injEq] at hx
              obtain ⟨_, rfl⟩ := hx
              exact hp hy
      · exact ih s' ho

/-! ## C61: the WebAssembly demo -/

theorem toObject_text {env : JEnv} (hl : env.Lawful) {gs : AMap Val} {js : List (Bytes × Json)} {out : Bytes} (hf : Val.FiniteFloatsE gs) (hn : Val.nestE gs < 10000) (ht : Text (.obj js) out) (hs : SaysE env gs js) :
    ∃ ws, BackE env gs ws ∧ toObject env (.ok out) = .ok (some (AMap.ofEntries ws [])) := by
  obtain ⟨hr, hb⟩ := says_backE hl gs js hf hs
  refine ⟨_, hb, ?_⟩
  have hp : parseDoc out = some (.obj js) := parseDoc_iff.2 ⟨document_text ht, by simp only [depth]; rw [says_depthE gs js hs]; omega⟩
  simp only [toObject, hp, (decIE_eq js []).2 hr]

theorem toObject_null (env : JEnv) : toObject env (.ok (lit "null")) = .ok none := by
  simp only [toObject, parseDoc_iff.2 ⟨document_text text_null, by simp [depth]⟩]

/-- The part of `process` after the pipeline was made. -/
def wasmRest (env : JEnv) (n : Nat) (cv : Conv) (p : Pipeline Builtin (Option Err)) (w : PWorld Heap) (eventJSON : Bytes) : Except CliEnd (PWorld Heap × WasmReply) :=
        match unmarshalEvent env eventJSON w.world with
        | none => .ok (w, .badEvent)
        | some (h, none) =>
          match p.processNil ⟨h, w.counts, w.log⟩ with
          | .panic => .error .panic
          | .ok (w, _, some err) => .ok (w, .failed err)
          | .ok (w, _, none) => (toObject env (.ok (lit "null"))).map fun m => (w, .object m)
        | some (h, some m) =>
          match p.process (builtinCall cv) () ⟨(h, some m), w.counts, w.log⟩ with
          | .panic => .error .panic
          | .ok (w, _, some err) => .ok (⟨w.world.1, w.counts, w.log⟩, .failed err)
          | .ok (w, none, none) => (toObject env (.ok (lit "null"))).map fun m => (⟨w.world.1, w.counts, w.log⟩, .object m)
          | .ok (w, some _, none) => (toObject env (marshalEvent env n w.world.1 w.world.2)).map fun m => (⟨w.world.1, w.counts, w.log⟩, .object m)

section
variable {env : JEnv} (hl : env.Lawful) (n : Nat) (cv : Conv)
include hl

theorem wasmRest_shown {p : Pipeline Builtin (Option Err)} {q : Spec.Pipe} (hp : PipeIs [] p q) (l1 : Spec.LowerAll q.processors) (l2 : Spec.LowerAll q.onFailure) (w : PWorld Heap) (t : Bytes) :
    Shown env n cv q t ((wasmRest env n cv p w t).map (·.2)) := by
  have ha := processText_answers hl n cv (pipe := some p) (q := some q) ⟨q, rfl, hp, l1, l2⟩ w t
  unfold wasmRest
  unfold processText at ha
  cases hu : unmarshalEvent env t w.world with
  | none => simp only [hu] at ha; exact .badEvent ha
  | some r =>
    rcases (unmarshalEvent_accepts_iff env t w.world).1 ⟨r, hu⟩ with hd | ⟨es, hd, hn, hr⟩
    · rw [unmarshalEvent_null env hd] at hu
      simp only [Option.some.injEq] at hu; subst hu
      simp only [unmarshalEvent_null env hd] at ha
      simp only
      cases hps : q.processors with
      | nil =>
        have : p.processors = [] := by
          have := hp.1
          rw [hps] at this
          cases hx : p.processors with
          | nil => rfl
          | cons => simp [hx, ProcsAre] at this
        simp only [processNil_empty this, toObject_null]
        exact .null hd hps
      | cons q1 qs =>
        have h1 := hp.1
        rw [hps] at h1 l1
        simp only [Spec.LowerAll] at l1
        simp only [processNil_lower h1 l1.1] at ha ⊢
        exact .crash ha
    · obtain ⟨h', f, he, o, hc, _⟩ := unmarshalEvent_object env hd hn hr w.world
      have he' := he
      rw [hu] at he'
      simp only [Option.some.injEq] at he'; subst he'
      have hF : EventText env t (some (AMap.ofEntries (jsonValE env es) [])) := ⟨es, hd, hn, hr, rfl⟩
      obtain ⟨fs0, hh0, hk0⟩ := unmarshalEvent_kinds hl hu
      have hfin : Val.FiniteFloatsE (AMap.ofEntries (jsonValE env es) []) := by
        have := Holds.unique hh0 (hc ▸ o.holds)
        exact (hk0 _ this).2.2.1
      have key := pipeline_pure cv o (pipeIs_any hp h') w.counts w.log
      rw [hc] at key
      have ht := pipe_tame cv l1 l2 hfin
      cases f with
      | none => simp [AFields.erase] at hc
      | some mts =>
      simp only [AFields.event] at key ha he ⊢
      simp only [he] at ha
      rcases ht with ht | ⟨m, pe, ht, hm⟩
      · rw [ht] at key
        simp only [PurePost] at key
        simp only [key] at ha ⊢
        exact .crash ha
      · rw [ht] at key
        cases pe with
        | some pe =>
          simp only [PurePost] at key
          obtain ⟨w', f', err, e1, e2, o', e3, em, _⟩ := key
          simp only [e1] at ha ⊢
          exact .failed ha
        | none =>
          simp only [PurePost] at key
          obtain ⟨w', f', e1, e2, o', e3, _⟩ := key
          simp only [e1] at ha ⊢
          have hh : Holds w'.world.1 w'.world.2 (some m) := by rw [e2, ← e3]; exact o'.holds
          rcases marshalEvent_finite hl hh hm n with ⟨hx, hd⟩ | ⟨hx, hd⟩ | ⟨out, js, hx, hd, h1, h2, h3⟩
          · simp only [hx] at ha ⊢; exact .crash ha
          · simp only [hx] at ha ⊢; exact .unencodable ha
          · obtain ⟨ws, hb, ho⟩ := toObject_text hl hm hd h2 h3
            simp only [hx, ho]
            exact .object hF ht hd hb

/-- **C61.** What the WebAssembly demo returns, for all arguments. -/
theorem wasm_answers {fill : ProcKind → JCfg → Except Err Opts} {r : Registry Opts (Built Builtin (Option Err))} (hr : Registered exampleKinds r) (hf : FillOk [] exampleKinds fill) (w : PWorld Heap) (args : List Bytes) :
    WasmAnswers env n cv fill args ((wasmProcess env n cv (registryFactory pr fill none r) w args).map (·.2)) := by
  match args with
  | [] => exact .usage (by simp)
  | [_] => exact .usage (by simp)
  | _ :: _ :: _ :: _ => exact .usage (by simp)
  | [c, t] =>
    simp only [wasmProcess]
    cases hu : unmarshalConfig env c with
    | none => exact .badConfig hu
    | some cfg =>
      cases cfg with
      | none => exact .nullConfig hu
      | some cfg =>
        simp only [Pipeline.newFromPtr]
        have hp := new_plan (pr := pr) (nilConfig := (none : JCfg)) (by decide) hr hf cfg.config
        cases hpl : Spec.plan (Spec.optionsOf [] exampleKinds fill) none cfg.config with
        | none =>
          simp only [hpl] at hp
          obtain ⟨e, he⟩ := hp
          simp only [he]
          exact .refused hu hpl
        | some q =>
          simp only [hpl] at hp
          obtain ⟨p, he, hi⟩ := hp
          simp only [he]
          obtain ⟨l1, l2⟩ := plan_lower hf hpl
          exact .processed hu hpl (wasmRest_shown hl n cv hi l1 l2 w t)
end

end Sawmill
