import Verif.Spec.ConfigAny
import Verif.Props.ConfigJson
/-!
# C52: what any document stands for
-/

namespace Sawmill
open Rfc

/-- The places of a slice. -/
def placesOf (slots : List (ProcCfg JCfg)) : Places := fun n => slots.getD n []

theorem placesOf_nil : placesOf [] = .clear := by funext n; simp [placesOf, Places.clear]

theorem placesOf_set {slots : List (ProcCfg JCfg)} {i : Nat} (h : i < slots.length) (c : ProcCfg JCfg) : placesOf (slots.set i c) = (placesOf slots).put i c := by
  funext n
  simp only [placesOf, Places.put, List.getD_eq_getElem?_getD, List.getElem?_set]
  by_cases hn : i = n
  · subst hn; simp [h]
  · rw [if_neg hn, if_neg (Ne.symm hn)]

theorem first_placesOf {slots : List (ProcCfg JCfg)} {n : Nat} (h : n ≤ slots.length) : (placesOf slots).first n = slots.take n := by
  apply List.ext_getElem
  · simp [Places.first]; omega
  · intro i h1 h2
    simp only [Places.first, List.getElem_map, List.getElem_range, List.getElem_take, placesOf]
    simp only [List.length_map, List.length_range, Places.first] at h1
    rw [List.getD_eq_getElem?_getD, List.getElem?_eq_getElem (by omega)]
    rfl

theorem growSlots_any {i len : Nat} {slots : List (ProcCfg JCfg)} (h1 : i ≤ len) (h2 : len ≤ slots.length) :
    placesOf (growSlots i slots len) = placesOf slots ∧ i < (growSlots i slots len).length ∧ len ≤ (growSlots i slots len).length := by
  unfold growSlots
  by_cases h : slots.length ≤ i
  · rw [if_pos h]
    have he : len = slots.length := by omega
    subst he
    rw [List.take_length]
    refine ⟨?_, ?_, ?_⟩
    · funext n
      simp only [placesOf, List.getD_eq_getElem?_getD, List.getElem?_append, List.getElem?_replicate]
      by_cases hn : n < slots.length
      · simp [hn]
      · rw [if_neg hn, List.getElem?_eq_none (by omega)]
        (repeat' split) <;> rfl
    · simp only [List.length_append, List.length_replicate]
      split <;> omega
    · simp
  · rw [if_neg h]
    exact ⟨rfl, by omega, h2⟩

theorem textTo_iff {j : Json} {s t : Bytes} : decString j s = some t ↔ TextTo j s t := by
  cases j <;> simp only [decString]
  case null =>
    constructor
    · intro h; cases h; exact .null s
    · intro h; cases h; rfl
  case str =>
    constructor
    · intro h; cases h; exact .str _ _
    · intro h; cases h; rfl
  all_goals exact ⟨fun h => by simp at h, fun h => by cases h⟩

/-- The length stays within the capacity. -/
theorem decSlots_within (env : JEnv) : ∀ (js : List Json) (i : Nat) (slots : List (ProcCfg JCfg)) (len : Nat), i ≤ len → len ≤ slots.length → ∀ x, decSlots env js i slots len = some x →
    x.2 = i + js.length ∧ x.2 ≤ x.1.length
  | [], i, slots, len, h1, h2, x, h => by
    simp only [decSlots, Option.some.injEq] at h
    subst h
    exact ⟨rfl, by simp; omega⟩
  | j :: js, i, slots, len, h1, h2, x, h => by
    obtain ⟨_, hg2, hg3⟩ := growSlots_any h1 h2
    rw [decSlots] at h
    cases hc : decConf env j ((growSlots i slots len).getD i []) with
    | none => rw [hc] at h; simp at h
    | some c =>
      rw [hc] at h
      have := decSlots_within env js (i + 1) _ _ (by split <;> omega) (by rw [List.length_set]; split <;> omega) x h
      simp only [List.length_cons]
      omega

theorem decSlice_within (env : JEnv) {j : Json} {slots : List (ProcCfg JCfg)} {len : Nat} (h : len ≤ slots.length) {x : List (ProcCfg JCfg) × Nat} (hx : decSlice env j (slots, len) = some x) : x.2 ≤ x.1.length := by
  cases j with
  | null => cases hx; simp
  | arr js =>
    cases js with
    | nil => cases hx; simp
    | cons j js => exact (decSlots_within env (j :: js) 0 slots len (by omega) h x hx).2
  | _ => simp [decSlice] at hx

/-- The state of decoding, without the capacity. -/
def absOpt (a : OptAcc) : OptState := ⟨a.id, a.cond, placesOf a.slots, a.len⟩

theorem decField_within (env : JEnv) {j : Json} {f : Option OptField} {a a' : OptAcc} (h : a.len ≤ a.slots.length) (hx : decField env j f a = some a') : a'.len ≤ a'.slots.length := by
  cases f with
  | none => 
    have : decField env j none a = some a := by cases j <;> rfl
    rw [this] at hx; cases hx; exact h
  | some f =>
    rw [decField_eq] at hx
    cases f with
    | id => simp only [Option.map_eq_some_iff] at hx; obtain ⟨_, _, rfl⟩ := hx; exact h
    | cond => simp only [Option.map_eq_some_iff] at hx; obtain ⟨_, _, rfl⟩ := hx; exact h
    | onFailure => simp only [Option.map_eq_some_iff] at hx; obtain ⟨x, hx, rfl⟩ := hx; exact decSlice_within env h hx

theorem decFields_within (env : JEnv) : ∀ (es : List (Bytes × Json)) (a a' : OptAcc), a.len ≤ a.slots.length → decFields env es a = some a' → a'.len ≤ a'.slots.length
  | [], a, a', h, hx => by rw [decFields] at hx; cases hx; exact h
  | (k, j) :: es, a, a', h, hx => by
    rw [decFields] at hx
    cases hc : decField env j (optField k) a with
    | none => rw [hc] at hx; simp at hx
    | some b => rw [hc] at hx; exact decFields_within env es b a' (decField_within env h hc) hx

theorem optField_none {k : Bytes} : optField k = none ↔ ∀ n ∈ optNames, ¬ Folds n k := by
  constructor
  · intro h n hn hf
    simp only [optNames, List.mem_cons, List.not_mem_nil, or_false] at hn
    rcases hn with rfl | rfl | rfl
    · rw [(optField_iff k .id).2 hf] at h; cases h
    · rw [(optField_iff k .cond).2 hf] at h; cases h
    · rw [(optField_iff k .onFailure).2 hf] at h; cases h
  · intro h
    cases hf : optField k with
    | none => rfl
    | some f =>
      exfalso
      have := (optField_iff k f).1 hf
      refine h f.name ?_ this
      cases f <;> simp [OptField.name, optNames]

mutual
theorem decOpt_any {env : JEnv} : ∀ (j : Json) (o : OptCfg JCfg), decOpt env j = some o ↔ MeansOpt env j o
  | .null, o => by
    rw [decOpt]
    constructor
    · intro h; cases h; exact .null
    · intro h; cases h; rfl
  | .obj es, o => by
    have ih := decFields_any (env := env) es {} (by simp)
    have hE := decIE_eq (env := env) es []
    have hown := own_options env es
    have h0 : absOpt {} = {} := by simp only [absOpt, placesOf_nil]
    rw [h0] at ih
    simp only at hown
    rw [decOpt]
    constructor
    · intro h
      cases ha : decFields env es {} with
      | none => rw [ha] at h; simp at h
      | some a =>
        rw [ha] at h
        by_cases hr : InRangeE env es
        · rw [hE.2 hr] at h
          simp only [hown, Option.some.injEq] at h
          subst h
          have := MeansOpt.obj es _ ((ih (absOpt a)).1 ⟨a, ha, rfl⟩) hr
          simp only [absOpt] at this
          rw [first_placesOf (decFields_within env es _ a (by simp) ha)] at this
          exact this
        · rw [hE.1 hr] at h; simp at h
    · intro h
      cases h with
      | obj _ s h hr =>
        obtain ⟨a, ha, rfl⟩ := (ih s).2 h
        rw [ha, hE.2 hr]
        simp only [hown, absOpt]
        rw [first_placesOf (decFields_within env es _ a (by simp) ha)]
  | .bool _, o => ⟨fun h => by simp [decOpt] at h, fun h => by cases h⟩
  | .num _, o => ⟨fun h => by simp [decOpt] at h, fun h => by cases h⟩
  | .str _, o => ⟨fun h => by simp [decOpt] at h, fun h => by cases h⟩
  | .arr _, o => ⟨fun h => by simp [decOpt] at h, fun h => by cases h⟩
theorem decFields_any {env : JEnv} : ∀ (es : List (Bytes × Json)) (a : OptAcc), a.len ≤ a.slots.length → ∀ s, (∃ a', decFields env es a = some a' ∧ absOpt a' = s) ↔ OptTo env es (absOpt a) s
  | [], a, h, s => by
    constructor
    · rintro ⟨a', h1, rfl⟩
      rw [decFields] at h1; cases h1
      exact .done _
    · intro h; cases h; exact ⟨a, by rw [decFields], rfl⟩
  | (k, j) :: es, a, h, s => by
    have ihj := decSlice_any (env := env) j a.slots a.len h
    have ih := fun b hb => decFields_any (env := env) es b hb s
    rw [decFields]
    constructor
    · rintro ⟨a', h1, rfl⟩
      cases hk : optField k with
      | none =>
        rw [hk] at h1
        have : decField env j none a = some a := by cases j <;> rfl
        rw [this] at h1
        exact .other k j es _ _ (optField_none.1 hk) ((ih a h).1 ⟨a', h1, rfl⟩)
      | some f =>
        have hf := (optField_iff k f).1 hk
        rw [hk, decField_eq] at h1
        cases f with
        | id =>
          simp only at h1
          cases hd : decString j a.id with
          | none => rw [hd] at h1; simp at h1
          | some t =>
            rw [hd] at h1
            exact .id k j es _ _ t hf (textTo_iff.1 hd) ((ih { a with id := t } h).1 ⟨a', h1, rfl⟩)
        | cond =>
          simp only at h1
          cases hd : decString j a.cond with
          | none => rw [hd] at h1; simp at h1
          | some t =>
            rw [hd] at h1
            exact .cond k j es _ _ t hf (textTo_iff.1 hd) ((ih { a with cond := t } h).1 ⟨a', h1, rfl⟩)
        | onFailure =>
          simp only at h1
          cases hd : decSlice env j (a.slots, a.len) with
          | none => rw [hd] at h1; simp at h1
          | some x =>
            rw [hd] at h1
            exact .onFailure k j es _ _ (placesOf x.1) x.2 hf ((ihj _ _).1 ⟨x, hd, rfl, rfl⟩) ((ih { a with slots := x.1, len := x.2 } (decSlice_within env h hd)).1 ⟨a', h1, rfl⟩)
    · intro h1
      cases h1 with
      | other _ _ _ _ _ hk h1 =>
        have : decField env j none a = some a := by cases j <;> rfl
        rw [optField_none.2 hk, this]
        exact (ih a h).2 h1
      | id _ _ _ _ _ t hk ht h1 =>
        rw [(optField_iff k .id).2 hk, decField_eq]
        have ht : decString j a.id = some t := textTo_iff.2 ht
        simp only [ht, Option.map_some]
        exact (ih { a with id := t } h).2 h1
      | cond _ _ _ _ _ t hk ht h1 =>
        rw [(optField_iff k .cond).2 hk, decField_eq]
        have ht : decString j a.cond = some t := textTo_iff.2 ht
        simp only [ht, Option.map_some]
        exact (ih { a with cond := t } h).2 h1
      | onFailure _ _ _ _ _ p n hk hl h1 =>
        rw [(optField_iff k .onFailure).2 hk, decField_eq]
        obtain ⟨x, hx, rfl, rfl⟩ := (ihj p n).2 hl
        simp only [hx, Option.map_some]
        exact (ih { a with slots := x.1, len := x.2 } (decSlice_within env h hx)).2 h1
theorem decSlice_any {env : JEnv} : ∀ (j : Json) (slots : List (ProcCfg JCfg)) (len : Nat), len ≤ slots.length → ∀ p n,
    (∃ x, decSlice env j (slots, len) = some x ∧ placesOf x.1 = p ∧ x.2 = n) ↔ ListTo env j (placesOf slots) p n
  | .null, slots, len, h, p, n => by
    constructor
    · rintro ⟨x, h1, rfl, rfl⟩
      cases h1
      rw [placesOf_nil]
      exact .null _
    · intro h; cases h; exact ⟨_, rfl, placesOf_nil, rfl⟩
  | .arr [], slots, len, h, p, n => by
    constructor
    · rintro ⟨x, h1, rfl, rfl⟩
      cases h1
      rw [placesOf_nil]
      exact .empty _
    · intro h; cases h; exact ⟨_, rfl, placesOf_nil, rfl⟩
  | .arr (j :: js), slots, len, h, p, n => by
    have ih := decSlots_any (env := env) (j :: js) 0 slots len (by omega) h p
    constructor
    · rintro ⟨x, h1, h2, rfl⟩
      have h1 : decSlots env (j :: js) 0 slots len = some x := h1
      have hw := (decSlots_within env (j :: js) 0 slots len (by omega) h x h1).1
      simp only [List.length_cons, Nat.zero_add] at hw
      rw [hw]
      exact .arr j js _ _ (ih.1 ⟨x, h1, h2⟩)
    · intro hl
      cases hl with
      | arr _ _ _ _ hl =>
        obtain ⟨x, h1, h2⟩ := ih.2 hl
        have hw := (decSlots_within env (j :: js) 0 slots len (by omega) h x h1).1
        simp only [List.length_cons, Nat.zero_add] at hw
        exact ⟨x, h1, h2, hw⟩
  | .bool _, _, _, _, _, _ => ⟨fun ⟨_, h, _⟩ => by simp [decSlice] at h, fun h => by cases h⟩
  | .num _, _, _, _, _, _ => ⟨fun ⟨_, h, _⟩ => by simp [decSlice] at h, fun h => by cases h⟩
  | .str _, _, _, _, _, _ => ⟨fun ⟨_, h, _⟩ => by simp [decSlice] at h, fun h => by cases h⟩
  | .obj _, _, _, _, _, _ => ⟨fun ⟨_, h, _⟩ => by simp [decSlice] at h, fun h => by cases h⟩
theorem decSlots_any {env : JEnv} : ∀ (js : List Json) (i : Nat) (slots : List (ProcCfg JCfg)) (len : Nat), i ≤ len → len ≤ slots.length → ∀ p,
    (∃ x, decSlots env js i slots len = some x ∧ placesOf x.1 = p) ↔ ItemsTo env js i (placesOf slots) p
  | [], i, slots, len, h1, h2, p => by
    constructor
    · rintro ⟨x, h, rfl⟩
      rw [decSlots] at h; cases h
      exact .nil _ _
    · intro h; cases h; exact ⟨_, by rw [decSlots], rfl⟩
  | j :: js, i, slots, len, h1, h2, p => by
    obtain ⟨hg1, hg2, hg3⟩ := growSlots_any h1 h2
    have ihj := decConf_any (env := env) j ((growSlots i slots len).getD i [])
    have ih := fun c => decSlots_any (env := env) js (i + 1) ((growSlots i slots len).set i c) (if len ≤ i then i + 1 else len) (by split <;> omega) (by rw [List.length_set]; split <;> omega) p
    have hi : (growSlots i slots len).getD i [] = placesOf slots i := by rw [← hg1]; rfl
    rw [hi] at ihj
    rw [decSlots]
    simp only [hi]
    constructor
    · rintro ⟨x, h, hx⟩
      cases hc : decConf env j (placesOf slots i) with
      | none => rw [hc] at h; simp at h
      | some c =>
        rw [hc] at h
        have := (ih c).1 ⟨x, h, hx⟩
        rw [placesOf_set hg2, hg1] at this
        exact .cons j js i _ _ c ((ihj c).1 hc) this
    · intro h
      cases h with
      | cons _ _ _ _ _ c h3 h4 =>
        rw [(ihj c).2 h3]
        refine (ih c).2 ?_
        rw [placesOf_set hg2, hg1]
        exact h4
theorem decConf_any {env : JEnv} : ∀ (j : Json) (m c : ProcCfg JCfg), decConf env j m = some c ↔ ItemTo env j m c
  | .null, m, c => by
    rw [decConf]
    constructor
    · intro h; cases h; exact .null _
    · intro h; cases h; rfl
  | .obj es, m, c => by
    have ih := decPairs_any (env := env) es
    rw [decConf, decEntries_eq]
    constructor
    · intro h
      simp only [Option.map_eq_some_iff] at h
      obtain ⟨os, h, rfl⟩ := h
      exact .obj es os m ((ih os).1 h)
    · intro h
      cases h with
      | obj _ os _ h => rw [(ih os).2 h]; rfl
  | .bool _, _, _ => ⟨fun h => by simp [decConf] at h, fun h => by cases h⟩
  | .num _, _, _ => ⟨fun h => by simp [decConf] at h, fun h => by cases h⟩
  | .str _, _, _ => ⟨fun h => by simp [decConf] at h, fun h => by cases h⟩
  | .arr _, _, _ => ⟨fun h => by simp [decConf] at h, fun h => by cases h⟩
theorem decPairs_any {env : JEnv} : ∀ (es : List (Bytes × Json)) (os : List (Bytes × Option (OptCfg JCfg))), decPairs env es = some os ↔ MeansEntries env es os
  | [], os => by
    rw [decPairs]
    constructor
    · intro h; cases h; exact .nil
    · intro h; cases h; rfl
  | (k, j) :: es, os => by
    have ihj := decOpt_any (env := env) j
    have ih := decPairs_any (env := env) es
    rw [decPairs]
    constructor
    · intro h
      cases ho : decOpt env j with
      | none => rw [ho] at h; simp at h
      | some o =>
        rw [ho] at h
        simp only [Option.bind_some, Option.map_eq_some_iff] at h
        obtain ⟨os', h, rfl⟩ := h
        refine .cons k j _ es os' ?_ ((ih os').1 h)
        cases j with
        | null => exact .null
        | obj es' => exact .obj es' o ((ihj o).1 ho)
        | _ => simp [decOpt] at ho
    · intro h
      cases h with
      | cons _ _ o _ os' h1 h2 =>
        rw [(ih os').2 h2]
        cases h1 with
        | null => simp [decOpt]
        | obj es' o h1 => rw [(ihj o).2 h1]; simp
end

/-! ## Configurations -/

def absCfg (a : CfgAcc) : CfgState := ⟨a.id, a.description, placesOf a.procs.1, a.procs.2, placesOf a.fails.1, a.fails.2⟩

theorem cfgField_none {k : Bytes} : cfgField k = none ↔ ∀ n ∈ cfgNames, ¬ Folds n k := by
  constructor
  · intro h n hn hf
    simp only [cfgNames, List.mem_cons, List.not_mem_nil, or_false] at hn
    rcases hn with rfl | rfl | rfl | rfl
    · rw [(cfgField_iff k .id).2 hf] at h; cases h
    · rw [(cfgField_iff k .description).2 hf] at h; cases h
    · rw [(cfgField_iff k .processors).2 hf] at h; cases h
    · rw [(cfgField_iff k .onFailure).2 hf] at h; cases h
  · intro h
    cases hf : cfgField k with
    | none => rfl
    | some f =>
      exfalso
      have := (cfgField_iff k f).1 hf
      refine h f.name ?_ this
      cases f <;> simp [CfgField.name, cfgNames]

def CfgWithin (a : CfgAcc) : Prop := a.procs.2 ≤ a.procs.1.length ∧ a.fails.2 ≤ a.fails.1.length

theorem decCfgFields_any {env : JEnv} : ∀ (es : List (Bytes × Json)) (a : CfgAcc), CfgWithin a → ∀ s, (∃ a', decCfgFields env es a = some a' ∧ absCfg a' = s ∧ CfgWithin a') ↔ CfgTo env es (absCfg a) s
  | [], a, h, s => by
    constructor
    · rintro ⟨a', h1, rfl, _⟩
      rw [decCfgFields] at h1; cases h1
      exact .done _
    · intro h1; cases h1; exact ⟨a, by rw [decCfgFields], rfl, h⟩
  | (k, j) :: es, a, h, s => by
    have ihp := decSlice_any (env := env) j a.procs.1 a.procs.2 h.1
    have ihf := decSlice_any (env := env) j a.fails.1 a.fails.2 h.2
    have ih := fun b hb => decCfgFields_any (env := env) es b hb s
    rw [decCfgFields]
    constructor
    · rintro ⟨a', h1, rfl, hw⟩
      cases hk : cfgField k with
      | none =>
        rw [hk] at h1
        exact .other k j es _ _ (cfgField_none.1 hk) ((ih a h).1 ⟨a', h1, rfl, hw⟩)
      | some f =>
        have hf := (cfgField_iff k f).1 hk
        rw [hk] at h1
        cases f with
        | id =>
          simp only at h1
          cases hd : decString j a.id with
          | none => rw [hd] at h1; simp at h1
          | some t =>
            rw [hd] at h1
            exact .id k j es _ _ t hf (textTo_iff.1 hd) ((ih { a with id := t } h).1 ⟨a', h1, rfl, hw⟩)
        | description =>
          simp only at h1
          cases hd : decString j a.description with
          | none => rw [hd] at h1; simp at h1
          | some t =>
            rw [hd] at h1
            exact .description k j es _ _ t hf (textTo_iff.1 hd) ((ih { a with description := t } h).1 ⟨a', h1, rfl, hw⟩)
        | processors =>
          simp only at h1
          cases hd : decSlice env j a.procs with
          | none => rw [hd] at h1; simp at h1
          | some x =>
            rw [hd] at h1
            exact .processors k j es _ _ (placesOf x.1) x.2 hf ((ihp _ _).1 ⟨x, hd, rfl, rfl⟩) ((ih { a with procs := x } ⟨decSlice_within env h.1 hd, h.2⟩).1 ⟨a', h1, rfl, hw⟩)
        | onFailure =>
          simp only at h1
          cases hd : decSlice env j a.fails with
          | none => rw [hd] at h1; simp at h1
          | some x =>
            rw [hd] at h1
            exact .onFailure k j es _ _ (placesOf x.1) x.2 hf ((ihf _ _).1 ⟨x, hd, rfl, rfl⟩) ((ih { a with fails := x } ⟨h.1, decSlice_within env h.2 hd⟩).1 ⟨a', h1, rfl, hw⟩)
    · intro h1
      cases h1 with
      | other _ _ _ _ _ hk h1 =>
        rw [cfgField_none.2 hk]
        exact (ih a h).2 h1
      | id _ _ _ _ _ t hk ht h1 =>
        rw [(cfgField_iff k .id).2 hk]
        have ht : decString j a.id = some t := textTo_iff.2 ht
        simp only [ht, Option.map_some]
        exact (ih { a with id := t } h).2 h1
      | description _ _ _ _ _ t hk ht h1 =>
        rw [(cfgField_iff k .description).2 hk]
        have ht : decString j a.description = some t := textTo_iff.2 ht
        simp only [ht, Option.map_some]
        exact (ih { a with description := t } h).2 h1
      | processors _ _ _ _ _ p n hk hl h1 =>
        rw [(cfgField_iff k .processors).2 hk]
        obtain ⟨x, hx, rfl, rfl⟩ := (ihp p n).2 hl
        have hx : decSlice env j a.procs = some x := hx
        simp only [hx, Option.map_some]
        exact (ih { a with procs := x } ⟨decSlice_within env h.1 hx, h.2⟩).2 h1
      | onFailure _ _ _ _ _ p n hk hl h1 =>
        rw [(cfgField_iff k .onFailure).2 hk]
        obtain ⟨x, hx, rfl, rfl⟩ := (ihf p n).2 hl
        have hx : decSlice env j a.fails = some x := hx
        simp only [hx, Option.map_some]
        exact (ih { a with fails := x } ⟨h.1, decSlice_within env h.2 hx⟩).2 h1

/-! ## The theorems -/

/-- C52: what is decoded into the options of a processor, from any document. -/
theorem unmarshalOpt_any {env : JEnv} {bs : Bytes} {j : Json} (hd : Document j bs) (hn : depth j ≤ 10000) (o : OptCfg JCfg) : unmarshalOpt env bs = some o ↔ MeansOpt env j o := by
  unfold unmarshalOpt
  rw [parseDoc_iff.2 ⟨hd, hn⟩]
  exact decOpt_any j o

/-- C52: what is decoded into a configuration, from any document. -/
theorem unmarshalConfig_any {env : JEnv} {bs : Bytes} {j : Json} (hd : Document j bs) (hn : depth j ≤ 10000) (c : Option JConfig) : unmarshalConfig env bs = some c ↔ MeansConfig env j c := by
  unfold unmarshalConfig
  rw [parseDoc_iff.2 ⟨hd, hn⟩]
  cases j with
  | null =>
    constructor
    · intro h; cases h; exact .null
    · intro h; cases h; rfl
  | obj es =>
    have ih := decCfgFields_any (env := env) es {} ⟨by simp, by simp⟩
    have h0 : absCfg {} = {} := by simp only [absCfg, placesOf_nil]
    rw [h0] at ih
    simp only [Option.map_eq_some_iff]
    have key : ∀ a : CfgAcc, CfgWithin a → (⟨⟨a.id, a.procs.1.take a.procs.2, a.fails.1.take a.fails.2⟩, a.description⟩ : JConfig) =
        ⟨⟨(absCfg a).id, (absCfg a).procs.first (absCfg a).nprocs, (absCfg a).fails.first (absCfg a).nfails⟩, (absCfg a).description⟩ := by
      intro a ha
      simp only [absCfg, first_placesOf ha.1, first_placesOf ha.2]
    constructor
    · rintro ⟨a, h, rfl⟩
      have hw : CfgWithin a := by
        have : ∀ (es : List (Bytes × Json)) (b : CfgAcc), CfgWithin b → decCfgFields env es b = some a → CfgWithin a := by
          intro es
          induction es with
          | nil => intro b hb h; rw [decCfgFields] at h; cases h; exact hb
          | cons e es ih =>
            intro b hb h
            obtain ⟨k, j⟩ := e
            rw [decCfgFields] at h
            cases hk : cfgField k with
            | none => rw [hk] at h; exact ih b hb h
            | some f =>
              rw [hk] at h
              cases f with
              | id => cases hd : decString j b.id with
                | none => simp [hd] at h
                | some t => simp only [hd, Option.map_some] at h; exact ih { b with id := t } hb h
              | description => cases hd : decString j b.description with
                | none => simp [hd] at h
                | some t => simp only [hd, Option.map_some] at h; exact ih { b with description := t } hb h
              | processors => cases hd : decSlice env j b.procs with
                | none => simp [hd] at h
                | some x => simp only [hd, Option.map_some] at h; exact ih { b with procs := x } ⟨decSlice_within env hb.1 hd, hb.2⟩ h
              | onFailure => cases hd : decSlice env j b.fails with
                | none => simp [hd] at h
                | some x => simp only [hd, Option.map_some] at h; exact ih { b with fails := x } ⟨hb.1, decSlice_within env hb.2 hd⟩ h
        exact this es {} ⟨by simp, by simp⟩ h
      rw [key a hw]
      exact .obj es _ ((ih (absCfg a)).1 ⟨a, h, rfl, hw⟩)
    · intro h
      cases h with
      | obj _ s h =>
        obtain ⟨a, ha, rfl, hw⟩ := (ih s).2 h
        exact ⟨a, ha, by rw [key a hw]⟩
  | _ => exact ⟨fun h => by simp at h, fun h => by cases h⟩

/-- A place keeps what it has while a shorter list is there: from `{"on_failure":[{"a":null},{"b":null}],"On_Failure":[{"c":null}],"ON_FAILURE":[{"d":null},{"e":null}]}` come two handlers, the first with the names a, c and d, the second with the names b and e. -/
theorem opt_stale : (unmarshalOpt bitsEnv [123, 34, 111, 110, 95, 102, 97, 105, 108, 117, 114, 101, 34, 58, 91, 123, 34, 97, 34, 58, 110, 117, 108, 108, 125, 44, 123, 34, 98, 34, 58, 110, 117, 108, 108, 125, 93, 44, 34, 79, 110, 95, 70, 97, 105, 108, 117, 114, 101, 34, 58, 91, 123, 34, 99, 34, 58, 110, 117, 108, 108, 125, 93, 44, 34, 79, 78, 95, 70, 65, 73, 76, 85, 82, 69, 34, 58, 91, 123, 34, 100, 34, 58, 110, 117, 108, 108, 125, 44, 123, 34, 101, 34, 58, 110, 117, 108, 108, 125, 93, 125]).map (fun | .mk _ _ onF _ => onF.map fun c => c.map (·.1)) =
    some [[[97], [99], [100]], [[98], [101]]] := by rfl

set_option maxRecDepth 8000 in
/-- `null` clears the list but not the text: `{"processors":[{"a":null},{"b":null}],"id":"x","Processors":null,"ID":"y","PROCESSORS":[{"c":null},{"d":null}],"Id":null,"processorS":[{"e":null}]}` stands for the ID y and one processor with the names c and e. -/
theorem config_twice : (unmarshalConfig bitsEnv [123, 34, 112, 114, 111, 99, 101, 115, 115, 111, 114, 115, 34, 58, 91, 123, 34, 97, 34, 58, 110, 117, 108, 108, 125, 44, 123, 34, 98, 34, 58, 110, 117, 108, 108, 125, 93, 44, 34, 105, 100, 34, 58, 34, 120, 34, 44, 34, 80, 114, 111, 99, 101, 115, 115, 111, 114, 115, 34, 58, 110, 117, 108, 108, 44, 34, 73, 68, 34, 58, 34, 121, 34, 44, 34, 80, 82, 79, 67, 69, 83, 83, 79, 82, 83, 34, 58, 91, 123, 34, 99, 34, 58, 110, 117, 108, 108, 125, 44, 123, 34, 100, 34, 58, 110, 117, 108, 108, 125, 93, 44, 34, 73, 100, 34, 58, 110, 117, 108, 108, 44, 34, 112, 114, 111, 99, 101, 115, 115, 111, 114, 83, 34, 58, 91, 123, 34, 101, 34, 58, 110, 117, 108, 108, 125, 93, 125]).map (fun o => o.map fun c => (c.config.id, c.config.processors.map fun c => c.map (·.1))) =
    some (some ([121], [[[99], [101]]])) := by rfl

end Sawmill
