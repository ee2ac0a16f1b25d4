import Verif.Props.Quote
import Verif.Props.Registry
import Verif.Props.NewErrors
import Verif.Model.NewText
/-!
# C87: what the registry says
-/

namespace Sawmill
variable {V P C : Type}

/-- What is wrong with a value given to `Register`: the first requirement that it does not meet, in words. -/
inductive Objection (f : GoFunc V P) : Bytes → Prop
  | notFunc (h : f.type.kind ≠ .func) : Objection f (lit "value must be a function, but got " ++ f.type.kind.name)
  | args (h : f.type.kind = .func) (h1 : f.type.ins.length ≠ 1) : Objection f (lit "function must accept one arg")
  | argStruct {cfg : RType} (h : f.type.kind = .func) (h1 : f.type.ins = [cfg]) (h2 : cfg.kind ≠ .struct) : Objection f (lit "function must be config struct")
  | results {cfg : RType} (h : f.type.kind = .func) (h1 : f.type.ins = [cfg]) (h2 : cfg.kind = .struct) (h3 : f.type.outs.length ≠ 2) : Objection f (lit "function must return 2 values")
  | notPtr {cfg proc er : RType} (h : f.type.kind = .func) (h1 : f.type.ins = [cfg]) (h2 : cfg.kind = .struct) (h3 : f.type.outs = [proc, er]) (h4 : proc.kind ≠ .ptr) :
    Objection f (lit "function should return a pointer to a processor struct")
  | notProcessor {cfg proc er : RType} (h : f.type.kind = .func) (h1 : f.type.ins = [cfg]) (h2 : cfg.kind = .struct) (h3 : f.type.outs = [proc, er]) (h4 : proc.kind = .ptr) (h5 : proc.isProcessor = false) :
    Objection f (lit "processor must implement processor.Processor")
  | notError {cfg proc er : RType} (h : f.type.kind = .func) (h1 : f.type.ins = [cfg]) (h2 : cfg.kind = .struct) (h3 : f.type.outs = [proc, er]) (h4 : proc.kind = .ptr) (h5 : proc.isProcessor = true) (h6 : er.isError = false) :
    Objection f (lit "function should return an error")

theorem validate_says (pr : Nat → Bool) (f : GoFunc V P) (t : Bytes) : (∃ e, validateConfig (some f) = .ok (.error e) ∧ e.text pr = t) ↔ Objection f t := by
  constructor
  · rintro ⟨e, he, rfl⟩
    simp only [validateConfig] at he
    by_cases h : f.type.kind = .func
    case neg =>
      rw [if_pos h] at he; cases he
      exact .notFunc h
    rw [if_neg (by simpa using h)] at he
    cases h1 : f.type.ins with
    | nil => rw [h1] at he; cases he; exact .args h (by simp [h1])
    | cons cfg l =>
      cases l with
      | cons b l => rw [h1] at he; cases he; exact .args h (by simp [h1])
      | nil =>
        rw [h1] at he
        simp only at he
        by_cases h2 : cfg.kind = .struct
        case neg => rw [if_pos h2] at he; cases he; exact .argStruct h h1 h2
        rw [if_neg (by simpa using h2)] at he
        cases h3 : f.type.outs with
        | nil => rw [h3] at he; cases he; exact .results h h1 h2 (by simp [h3])
        | cons proc l =>
          cases l with
          | nil => rw [h3] at he; cases he; exact .results h h1 h2 (by simp [h3])
          | cons er l =>
            cases l with
            | cons x l => rw [h3] at he; cases he; exact .results h h1 h2 (by simp [h3])
            | nil =>
              rw [h3] at he
              simp only at he
              by_cases h4 : proc.kind = .ptr
              case neg =>
                rw [if_pos h4] at he; cases he
                exact .notPtr h h1 h2 h3 h4
              rw [if_neg (by simpa using h4)] at he
              cases h5 : proc.isProcessor with
              | false =>
                rw [if_pos h5] at he; cases he
                exact .notProcessor h h1 h2 h3 h4 h5
              | true =>
                rw [if_neg (by simp [h5])] at he
                cases h6 : er.isError with
                | false => rw [if_pos h6] at he; cases he; exact .notError h h1 h2 h3 h4 h5 h6
                | true =>
                  rw [if_neg (by simp [h6])] at he
                  cases hc : f.call f.zero <;> rw [hc] at he <;> cases he
  · intro h
    cases h with
    | notFunc h => exact ⟨.notFunc f.type.kind, by simp [validateConfig, h], rfl⟩
    | args h h1 =>
      refine ⟨.notOneArg, ?_, rfl⟩
      simp only [validateConfig, h]
      rcases hi : f.type.ins with _ | ⟨a, _ | ⟨b, l⟩⟩
      · simp
      · simp [hi] at h1
      · simp
    | argStruct h h1 h2 => exact ⟨.argNotStruct, by simp [validateConfig, h, h1, h2], rfl⟩
    | results h h1 h2 h3 =>
      refine ⟨.notTwoResults, ?_, rfl⟩
      simp only [validateConfig, h, h1, h2]
      rcases hi : f.type.outs with _ | ⟨a, _ | ⟨b, _ | ⟨c, l⟩⟩⟩
      · simp
      · simp
      · simp [hi] at h3
      · simp
    | notPtr h h1 h2 h3 h4 => exact ⟨.notPtr, by simp [validateConfig, h, h1, h2, h3, h4], rfl⟩
    | notProcessor h h1 h2 h3 h4 h5 => exact ⟨.notProcessor, by simp [validateConfig, h, h1, h2, h3, h4, h5], rfl⟩
    | notError h h1 h2 h3 h4 h5 h6 => exact ⟨.notError, by simp [validateConfig, h, h1, h2, h3, h4, h5, h6], rfl⟩

/-- **C87.** What `Register` says when it refuses: the name is taken (it is shown, quoted), or else the first requirement that the constructor does not meet. In both cases the registry is as before. -/
theorem register_says (pr : Nat → Bool) (r : Registry V P) (name : Bytes) (f : GoFunc V P) (t : Bytes) :
    (∃ r' e, r.register name (some f) = .ok (r', some e) ∧ e.text pr = t) ↔
      ((∃ c, AMap.lookup r name = some c) ∧ t = goQuote pr name ++ lit " processor is already registered") ∨ (AMap.lookup r name = none ∧ Objection f t) := by
  simp only [Registry.register]
  cases hl : AMap.lookup r name with
  | some c =>
    simp only [Res.ok.injEq, Prod.mk.injEq, Option.some.injEq, reduceCtorEq, false_and, or_false, exists_eq', true_and]
    constructor
    · rintro ⟨r', e, ⟨_, rfl⟩, rfl⟩; rfl
    · rintro rfl; exact ⟨r, _, ⟨rfl, rfl⟩, rfl⟩
  | none =>
    simp only [reduceCtorEq, exists_false, false_and, false_or, true_and]
    rw [← validate_says pr f t]
    cases hv : validateConfig (some f) with
    | panic => simp
    | ok x =>
      cases x with
      | ok c => simp
      | error e =>
        simp only [Res.ok.injEq, Prod.mk.injEq, Option.some.injEq, Except.error.injEq, exists_eq_left']
        exact ⟨fun ⟨_, _, ⟨_, h2⟩, h3⟩ => h2 ▸ h3, fun h => ⟨r, e, ⟨rfl, rfl⟩, h⟩⟩

/-- **C87.** `Register` panics exactly if the name is new and the value is a nil interface, or a constructor that meets all requirements and panics on the zero configuration: it is called once to try it. -/
theorem register_panics_iff (r : Registry V P) (name : Bytes) (f : Option (GoFunc V P)) :
    r.register name f = .panic ↔ AMap.lookup r name = none ∧ (f = none ∨ ∃ v, f = some v ∧ (∀ t, ¬ Objection v t) ∧ v.call v.zero = .panic) := by
  simp only [Registry.register]
  cases hl : AMap.lookup r name with
  | some c => simp
  | none =>
    simp only [true_and]
    cases f with
    | none => simp [validateConfig]
    | some v =>
      simp only [Option.some.injEq, reduceCtorEq, false_or, exists_eq_left']
      have key := validate_says (fun _ => true) v
      cases hv : validateConfig (some v) with
      | ok x =>
        cases x with
        | error e =>
          simp only [reduceCtorEq, false_iff, not_and]
          intro h; exact absurd ((key (e.text _)).1 ⟨e, hv, rfl⟩) (h _)
        | ok c =>
          simp only [reduceCtorEq, false_iff, not_and]
          intro _ hc
          exact (((validateConfig_accepts_iff (some v)).1 ⟨c, hv⟩).elim fun w ⟨_, _, _, e, _, _, _, _, _, _, _, hz⟩ => by cases e; exact hz hc)
      | panic =>
        simp only [true_iff]
        refine ⟨fun t ht => ?_, ?_⟩
        · obtain ⟨e, he, _⟩ := (key t).2 ht
          rw [hv] at he; cases he
        · simp only [validateConfig] at hv
          repeat' split at hv
          all_goals first | cases hv | skip
          assumption

/-- **C87.** `MustRegister` ends the program exactly where `Register` panics or refuses. -/
theorem mustRegister_panics_iff (r : Registry V P) (name : Bytes) (f : Option (GoFunc V P)) :
    r.mustRegister name f = .panic ↔ r.register name f = .panic ∨ ∃ r' e, r.register name f = .ok (r', some e) := by
  simp only [Registry.mustRegister]
  rcases r.register name f with ⟨r', _ | e⟩ | _ <;> simp

/-- **C87.** The error for a name that was never successfully registered shows the name, quoted, and nothing else that depends on the call. -/
theorem unknown_says (pr : Nat → Bool) (unpack : Ctor V P → C → Res (Except Err V)) {r : Registry V P} {cs : List (Bytes × Option (GoFunc V P))} {es : List (Option RegErr)}
    (h : Registry.registerAll [] cs = .ok (r, es)) (name : Bytes) (config : C) (hn : ∀ f, ¬ FirstGood cs name f) :
    ∃ e, r.newProcessor pr unpack name config = .ok (.error e) ∧ e.text = lit "processor type " ++ goQuote pr name ++ lit " not found" ∧ (∀ key, ¬ Err.IsOrWraps (.keyMissing key) e) := by
  refine ⟨_, (newProcessor_uses_registered pr unpack h name config).1 hn, rfl, fun key hk => ?_⟩
  cases hk

/-- **C87.** So two unknown names have two texts, whatever bytes they consist of. -/
theorem unknown_texts_differ (pr : Nat → Bool) {a b : Bytes} (h : lit "processor type " ++ goQuote pr a ++ lit " not found" = lit "processor type " ++ goQuote pr b ++ lit " not found") : a = b := by
  rw [List.append_assoc, List.append_assoc] at h
  exact (quote_delimits (List.append_cancel_left h)).1

/-- **C87.** What `New` says if the first entry with which something is wrong names a processor that was never registered: its component ID and its name, quoted. -/
theorem new_says_unknown {A R : Type} (pr : Nat → Bool) (unpack : Ctor V (Built A R) → C → Res (Except Err V)) (nilConfig : C) {r : Registry V (Built A R)} {cs : List (Bytes × Option (GoFunc V (Built A R)))} {es : List (Option RegErr)}
    (h : Registry.registerAll [] cs = .ok (r, es)) {c : Config C} (hid : c.id ≠ []) {before after : List (Bytes × ProcCfg C)} {place name : Bytes} {o : Option (OptCfg C)}
    (he : c.entries = before ++ (place, [(name, o)]) :: after) (hb : ∀ y ∈ before, EntryFine ⟨r.newProcessor pr unpack, nilConfig⟩ y) (hn : ∀ f, ¬ FirstGood cs name f) :
    ∃ e, (Pipeline.new ⟨r.newProcessor pr unpack, nilConfig⟩ c : Res (Except NewErr (Pipeline A R))) = .ok (.error e) ∧
      e.text Err.text = lit "failed constructing processor with ID " ++ (place ++ lit "." ++ name) ++ lit ": processor type " ++ goQuote pr name ++ lit " not found" := by
  have key : ∀ config, r.newProcessor pr unpack name config = .ok (.error (.other (lit "processor type " ++ goQuote pr name ++ lit " not found"))) :=
    fun config => (newProcessor_uses_registered pr unpack h name config).1 hn
  have hname : ∃ cond onF config, Names (⟨r.newProcessor pr unpack, nilConfig⟩ : Factory A R C) [(name, o)] name cond onF config := by
    cases o with
    | none => exact ⟨_, _, _, .nilOptions name⟩
    | some o => obtain ⟨id, cond, onF, config⟩ := o; exact ⟨_, _, _, .withOptions name id cond onF config⟩
  obtain ⟨cond, onF, config, hname⟩ := hname
  refine ⟨_, ((new_reports_first c hid).2.1 _).2 ⟨before, _, after, he, hb, .construct hname (key config)⟩, ?_⟩
  have e : lit ": processor type " = lit ": " ++ lit "processor type " := by decide
  simp only [NewErr.text, Err.text, e, List.append_assoc]

/-! ## Cases -/

/-- A constructor that meets all requirements. -/
def plainCtor : GoFunc Unit (Built Unit Unit) :=
  ⟨.mk .func [.mk .struct [] [] false false] [.mk .ptr [] [] true false, .mk .iface [] [] false true] false false, fun _ => .ok (⟨.done none, some {}⟩, none), ()⟩

/-- Its result is not a pointer; the text says so. -/
example : Objection (⟨.mk .func [.mk .struct [] [] false false] [.mk .struct [] [] true false, .mk .iface [] [] false true] false false, fun _ => .panic, ()⟩ : GoFunc Unit Unit)
    (lit "function should return a pointer to a processor struct") := .notPtr rfl rfl rfl rfl (by decide)

theorem plainCtor_good (x : Bytes) : FirstGood [(x, some plainCtor)] x (some plainCtor) :=
  ⟨[], [], rfl, ⟨plainCtor, _, _, _, rfl, rfl, rfl, rfl, rfl, rfl, rfl, rfl, by simp [plainCtor]⟩, by simp⟩

theorem plain_registry : Registry.registerAll [] [(lit "a", some plainCtor)] = .ok ([(lit "a", ⟨plainCtor, .iface⟩)], [none]) := rfl

/-- C87, a case: the first entry is fine, the second is called `b"` and a line feed. -/
theorem new_says_unknown_sample : ∃ e, (Pipeline.new ⟨Registry.newProcessor (fun _ => false) (fun _ _ => .ok (.ok ())) [(lit "a", ⟨plainCtor, .iface⟩)], ()⟩ ⟨lit "p", [[(lit "a", none)], [([98, 34, 10], none)]], []⟩ : Res (Except NewErr (Pipeline Unit Unit))) = .ok (.error e) ∧
    e.text Err.text = lit "failed constructing processor with ID p.processors[1].b\"\n: processor type \"b\\\"\\n\" not found" := by
  obtain ⟨e, h1, h2⟩ := new_says_unknown (C := Unit) (V := Unit) (fun _ => false) (fun _ _ => .ok (.ok ())) () plain_registry (c := ⟨lit "p", [[(lit "a", none)], [([98, 34, 10], none)]], []⟩) (by decide)
    (before := [(lit "p.processors[0]", [(lit "a", none)])]) (after := []) (place := lit "p.processors[1]") (name := [98, 34, 10]) (o := none)
    (by
      have e0 : lit "p" ++ lit ".processors" ++ lit "[" ++ itoa 0 ++ lit "]" = lit "p.processors[0]" := by decide +kernel
      have e1 : lit "p" ++ lit ".processors" ++ lit "[" ++ itoa (0 + 1) ++ lit "]" = lit "p.processors[1]" := by decide +kernel
      simp only [Config.entries, entriesAll, entriesOf, entriesIn, entriesOpt, e0, e1]
      rfl)
    (by
      intro y hy
      simp only [List.mem_singleton] at hy
      subst hy
      exact ⟨lit "a", [], [], (), _, _, _, .nilOptions _, ⟨{}, rfl, rfl, rfl, rfl, rfl, rfl⟩⟩)
    (by
      rintro f ⟨pre, post, hp, _⟩
      cases pre with
      | nil => simp only [List.nil_append, List.cons.injEq, Prod.mk.injEq] at hp; exact absurd hp.1.1 (by decide)
      | cons a l => simp at hp)
  refine ⟨e, h1, h2.trans ?_⟩
  decide +kernel

end Sawmill
