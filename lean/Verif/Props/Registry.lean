import Verif.Model.Registry
/-!
# C32, C33: the registry
-/

namespace Sawmill
variable {V P C : Type}

/-- The shape a constructor must have: a function of one struct returning a pointer that is a processor and something that is an error, and it does not panic on a zero configuration. -/
def WellShaped (f : Option (GoFunc V P)) : Prop :=
  ∃ v cfg proc er, f = some v ∧ v.type.kind = .func ∧ v.type.ins = [cfg] ∧ cfg.kind = .struct ∧ v.type.outs = [proc, er] ∧
    proc.kind = .ptr ∧ proc.isProcessor = true ∧ er.isError = true ∧ v.call v.zero ≠ .panic

/-- C33. `Register` of a new name accepts exactly the well-shaped constructors. -/
theorem validateConfig_accepts_iff (f : Option (GoFunc V P)) : (∃ c, validateConfig f = .ok (.ok c)) ↔ WellShaped f := by
  cases f with
  | none => simp [validateConfig, WellShaped]
  | some v =>
    simp only [validateConfig, WellShaped, Option.some.injEq, exists_and_left, exists_eq_left']
    constructor
    · rintro ⟨c, h⟩
      repeat' split at h
      all_goals first | cases h | skip
      rename_i h1 _ cfg h2 h3 _ proc er h4 h5 h6 h7 _ r h8
      refine ⟨by simpa using h1, cfg, h2, by simpa using h3, proc, er, h4, by simpa using h5, by simpa using h6, by simpa using h7, by rw [h8]; simp⟩
    · rintro ⟨h1, cfg, h2, h3, proc, er, h4, h5, h6, h7, h8⟩
      simp only [h1, h2, h3, h4, h5, h6, h7]
      cases hc : v.call v.zero with
      | panic => exact absurd hc h8
      | ok r => exact ⟨⟨v, er.kind⟩, by simp⟩

theorem validateConfig_ctor {f : Option (GoFunc V P)} {c : Ctor V P} (h : validateConfig f = .ok (.ok c)) :
    ∃ v er, f = some v ∧ c.func = v ∧ er ∈ v.type.outs ∧ c.errKind = er.kind ∧ er.isError = true := by
  cases f with
  | none => simp [validateConfig] at h
  | some v =>
    simp only [validateConfig] at h
    repeat' split at h
    all_goals first | cases h | skip
    rename_i h1 _ cfg h2 h3 _ proc er h4 h5 h6 h7 _ r h8
    exact ⟨v, er, rfl, rfl, by rw [h4]; simp, rfl, by simpa using h7⟩

/-- C33. With an accepted constructor whose second result has a nillable type (such as `error` itself), `NewProcessor` returns what the constructor returns, and panics only if the
constructor does. -/
theorem newProc_nillable {c : Ctor V P} (hk : c.errKind.nillable = true) (v : V) :
    c.newProc v = (match c.func.call v with
      | .panic => .panic
      | .ok (_, some e) => .ok (.error e)
      | .ok (p, none) => .ok (.ok p)) := by
  simp only [Ctor.newProc, hk]
  cases c.func.call v with
  | panic => rfl
  | ok r => obtain ⟨p, e⟩ := r; cases e <;> rfl

/-- C33. But a constructor whose second result is, say, a struct implementing `error` is accepted too, and then every `NewProcessor` panics. -/
theorem accepted_but_always_panics (call : Unit → Res (Unit × Option Err)) (hz : call () ≠ .panic) :
    ∃ f : GoFunc Unit Unit, WellShaped (some f) ∧ ∃ c, validateConfig (some f) = .ok (.ok c) ∧ ∀ v, c.newProc v = .panic := by
  refine ⟨⟨.mk .func [.mk .struct [] [] false false] [.mk .ptr [] [] true false, .mk .struct [] [] false true] false false, call, ()⟩,
    ⟨_, _, _, _, rfl, rfl, rfl, rfl, rfl, rfl, rfl, rfl, hz⟩, ?_⟩
  cases hc : call () with
  | panic => exact absurd hc hz
  | ok r =>
    refine ⟨⟨⟨.mk .func [.mk .struct [] [] false false] [.mk .ptr [] [] true false, .mk .struct [] [] false true] false false, call, ()⟩, .struct⟩, by simp [validateConfig, RType.kind, RType.ins, RType.outs, RType.isProcessor, RType.isError, hc], ?_⟩
    intro v
    simp only [Ctor.newProc, RKind.nillable]
    cases call v <;> simp

example : ∃ f : GoFunc Unit Unit, WellShaped (some f) ∧ ∃ c, validateConfig (some f) = .ok (.ok c) ∧ c.errKind.nillable = true :=
  ⟨⟨.mk .func [.mk .struct [] [] false false] [.mk .ptr [] [] true false, .mk .iface [] [] false true] false false, fun _ => .ok ((), none), ()⟩,
    ⟨_, _, _, _, rfl, rfl, rfl, rfl, rfl, rfl, rfl, rfl, by simp⟩, _, rfl, rfl⟩

/-- C32. One `Register` call: accepted exactly when the name is new and the constructor well-shaped; then it adds that name and changes no other; otherwise nothing changes. -/
theorem register_spec {r r' : Registry V P} {name : Bytes} {f : Option (GoFunc V P)} {e : Option RegErr} (h : r.register name f = .ok (r', e)) :
    (e = none ↔ AMap.lookup r name = none ∧ WellShaped f) ∧
    (e ≠ none → r' = r) ∧
    (e = none → ∃ c, validateConfig f = .ok (.ok c) ∧ AMap.lookup r' name = some c) ∧
    (∀ other, other ≠ name → AMap.lookup r' other = AMap.lookup r other) := by
  unfold Registry.register at h
  cases hl : AMap.lookup r name with
  | some c =>
    simp only [hl, Res.ok.injEq, Prod.mk.injEq] at h
    obtain ⟨rfl, rfl⟩ := h
    simp
  | none =>
    simp only [hl] at h
    rw [← validateConfig_accepts_iff]
    cases hv : validateConfig f with
    | panic => simp [hv] at h
    | ok x =>
      cases x with
      | error er =>
        simp only [hv, Res.ok.injEq, Prod.mk.injEq] at h
        obtain ⟨rfl, rfl⟩ := h
        simp
      | ok c =>
        simp only [hv, Res.ok.injEq, Prod.mk.injEq] at h
        obtain ⟨rfl, rfl⟩ := h
        simp only [true_iff, true_and, ne_eq, not_true_eq_false, false_implies, true_implies]
        refine ⟨⟨_, rfl⟩, ⟨c, rfl, by simp⟩, fun o ho => AMap.lookup_insert_of_ne _ _ (Ne.symm ho)⟩

/-- The first call in the history that registers `name` with a well-shaped constructor. -/
def FirstGood (cs : List (Bytes × Option (GoFunc V P))) (name : Bytes) (f : Option (GoFunc V P)) : Prop :=
  ∃ pre post, cs = pre ++ (name, f) :: post ∧ WellShaped f ∧ ∀ g, (name, g) ∈ pre → ¬ WellShaped g

theorem registerAll_spec {r r' : Registry V P} {cs : List (Bytes × Option (GoFunc V P))} {es : List (Option RegErr)}
    (h : r.registerAll cs = .ok (r', es)) (name : Bytes) (c : Ctor V P) :
    (AMap.lookup r name = some c → AMap.lookup r' name = some c) ∧
    (AMap.lookup r name = none → (AMap.lookup r' name = some c ↔ ∃ f, FirstGood cs name f ∧ validateConfig f = .ok (.ok c))) := by
  induction cs generalizing r es with
  | nil =>
    simp [Registry.registerAll] at h; obtain ⟨rfl, _⟩ := h
    refine ⟨id, fun hn => ?_⟩
    simp only [hn, reduceCtorEq, false_iff, not_exists, not_and]
    rintro f ⟨pre, post, he, _⟩ _
    simp at he
  | cons a cs ih =>
    obtain ⟨n, f⟩ := a
    simp only [Registry.registerAll] at h
    split at h
    · cases h
    · rename_i r1 e h1
      split at h
      · cases h
      · rename_i r2 es' h2
        simp only [Res.ok.injEq, Prod.mk.injEq] at h
        obtain ⟨rfl, _⟩ := h
        obtain ⟨s1, s2, s3, s4⟩ := register_spec h1
        have ih := ih h2
        by_cases hnn : name = n
        · subst hnn
          refine ⟨fun hl => ?_, fun hl => ?_⟩
          · have : e ≠ none := fun he => by have := (s1.1 he).1; rw [this] at hl; cases hl
            rw [s2 this] at ih
            exact ih.1 hl
          · by_cases he : e = none
            · obtain ⟨c', hv, hl'⟩ := s3 he
              have hw := (s1.1 he).2
              have hlast : AMap.lookup r2 name = some c' := by
                have key := registerAll_keeps h2 name c' hl'
                exact key
              rw [hlast]
              constructor
              · intro hc
                cases hc
                exact ⟨f, ⟨[], cs, rfl, hw, by simp⟩, hv⟩
              · rintro ⟨g, ⟨pre, post, hp, hg, hpre⟩, hvg⟩
                cases pre with
                | nil =>
                  simp at hp
                  obtain ⟨rfl, _⟩ := hp
                  rw [hv] at hvg; simp at hvg; rw [hvg]
                | cons p pre =>
                  simp at hp
                  obtain ⟨rfl, _⟩ := hp
                  exact absurd hw (hpre f (by simp))
            · rw [s2 he] at ih
              rw [ih.2 hl]
              have hnw : ¬ WellShaped f := fun hw => he (s1.2 ⟨hl, hw⟩)
              constructor
              · rintro ⟨g, ⟨pre, post, hp, hg, hpre⟩, hvg⟩
                refine ⟨g, ⟨(name, f) :: pre, post, by rw [hp]; rfl, hg, ?_⟩, hvg⟩
                intro g' hg'
                rcases List.mem_cons.1 hg' with h | h
                · cases h; exact hnw
                · exact hpre g' h
              · rintro ⟨g, ⟨pre, post, hp, hg, hpre⟩, hvg⟩
                cases pre with
                | nil => simp at hp; obtain ⟨rfl, _⟩ := hp; exact absurd hg hnw
                | cons p pre =>
                  simp at hp
                  obtain ⟨rfl, hp⟩ := hp
                  exact ⟨g, ⟨pre, post, hp, hg, fun g' hg' => hpre g' (by simp [hg'])⟩, hvg⟩
        · have hs := s4 name hnn
          rw [hs] at ih
          refine ⟨ih.1, fun hl => ?_⟩
          rw [ih.2 hl]
          constructor
          · rintro ⟨g, ⟨pre, post, hp, hg, hpre⟩, hvg⟩
            refine ⟨g, ⟨(n, f) :: pre, post, by rw [hp]; rfl, hg, ?_⟩, hvg⟩
            intro g' hg'
            rcases List.mem_cons.1 hg' with h | h
            · cases h; exact absurd rfl hnn
            · exact hpre g' h
          · rintro ⟨g, ⟨pre, post, hp, hg, hpre⟩, hvg⟩
            cases pre with
            | nil => simp at hp; exact absurd hp.1.1.symm hnn
            | cons p pre =>
              simp at hp
              obtain ⟨rfl, hp⟩ := hp
              exact ⟨g, ⟨pre, post, hp, hg, fun g' hg' => hpre g' (by simp [hg'])⟩, hvg⟩
where
  registerAll_keeps {r r' : Registry V P} {cs : List (Bytes × Option (GoFunc V P))} {es : List (Option RegErr)}
      (h : r.registerAll cs = .ok (r', es)) (name : Bytes) (c : Ctor V P) (hl : AMap.lookup r name = some c) : AMap.lookup r' name = some c := by
    induction cs generalizing r es with
    | nil => simp [Registry.registerAll] at h; obtain ⟨rfl, _⟩ := h; exact hl
    | cons a cs ih =>
      obtain ⟨n, f⟩ := a
      simp only [Registry.registerAll] at h
      split at h
      · cases h
      · rename_i r1 e h1
        split at h
        · cases h
        · rename_i r2 es' h2
          simp only [Res.ok.injEq, Prod.mk.injEq] at h
          obtain ⟨rfl, _⟩ := h
          obtain ⟨s1, s2, s3, s4⟩ := register_spec h1
          refine ih h2 ?_
          by_cases hnn : name = n
          · subst hnn
            rw [s2 (fun he => by have := (s1.1 he).1; rw [this] at hl; cases hl)]; exact hl
          · rw [s4 name hnn]; exact hl

/-- C32. After any history of `Register` calls on a new registry, the constructor found under a name is that of the first well-shaped registration of the name, for ever. -/
theorem registry_is_write_once {r' : Registry V P} {cs : List (Bytes × Option (GoFunc V P))} {es : List (Option RegErr)}
    (h : Registry.registerAll [] cs = .ok (r', es)) (name : Bytes) (c : Ctor V P) :
    AMap.lookup r' name = some c ↔ ∃ f, FirstGood cs name f ∧ validateConfig f = .ok (.ok c) :=
  (registerAll_spec h name c).2 (by simp)

/-- C32. `NewProcessor` reports an unknown name exactly for names never successfully registered, and otherwise uses the registered constructor. -/
theorem newProcessor_uses_registered (pr : Nat → Bool) (unpack : Ctor V P → C → Res (Except Err V)) {r' : Registry V P} {cs : List (Bytes × Option (GoFunc V P))}
    {es : List (Option RegErr)} (h : Registry.registerAll [] cs = .ok (r', es)) (name : Bytes) (config : C) :
    ((∀ f, ¬ FirstGood cs name f) → r'.newProcessor pr unpack name config = .ok (.error (.other (lit "processor type " ++ goQuote pr name ++ lit " not found")))) ∧
    (∀ f c, FirstGood cs name f → validateConfig f = .ok (.ok c) →
      r'.newProcessor pr unpack name config = (match unpack c config with
        | .panic => .panic
        | .ok (.error e) => .ok (.error e)
        | .ok (.ok v) => c.newProc v)) := by
  constructor
  · intro hn
    have : AMap.lookup r' name = none := by
      cases hl : AMap.lookup r' name with
      | none => rfl
      | some c =>
        obtain ⟨f, hf, _⟩ := (registry_is_write_once h name c).1 hl
        exact absurd hf (hn f)
    simp [Registry.newProcessor, this]
  · intro f c hf hv
    have := (registry_is_write_once h name c).2 ⟨f, hf, hv⟩
    simp only [Registry.newProcessor, this]
    cases unpack c config with
    | panic => rfl
    | ok x => cases x <;> rfl

/-- Two registrations of one name, the first badly shaped: the second is the one that stays. -/
example : let good : GoFunc Unit Unit := ⟨.mk .func [.mk .struct [] [] false false] [.mk .ptr [] [] true false, .mk .iface [] [] false true] false false, fun _ => .ok ((), none), ()⟩
    let bad : GoFunc Unit Unit := ⟨.mk .struct [] [] false false, fun _ => .panic, ()⟩
    ∃ r, Registry.registerAll [] [(lit "a", some bad), (lit "a", some good), (lit "a", some good)] = .ok (r, [some (.notFunc .struct), none, some (.alreadyRegistered (lit "a"))]) := by
  exact ⟨_, rfl⟩

end Sawmill
