import Verif.Lemmas.ConfigDec
/-!
# A configuration as JSON and back
-/

namespace Sawmill
open Rfc

theorem saysE_keys {env : JEnv} : ∀ (es : List (Bytes × Val)) (js : List (Bytes × Json)), SaysE env es js → (∀ e ∈ es, ValidUtf8 e.1) → js.map (·.1) = es.map (·.1)
  | [], js, h, _ => by rw [show js = _ from h]; rfl
  | (k, v) :: es, js, h, hv => by
    obtain ⟨k', j, r, rfl, hk, h1, h2⟩ := h
    simp only [List.map_cons, saysE_keys es r h2 (fun e he => hv e (by simp [he])), hk.unique (.of_valid (hv (k, v) (by simp)))]

theorem saysE_lookup {env : JEnv} (n : Bytes) : ∀ (es : List (Bytes × Val)) (js : List (Bytes × Json)), SaysE env es js → (∀ e ∈ es, ValidUtf8 e.1) →
    (AMap.lookup es n = none → AMap.lookup js n = none) ∧ (∀ v, AMap.lookup es n = some v → ∃ j, AMap.lookup js n = some j ∧ Says env v j)
  | [], js, h, _ => by rw [show js = _ from h]; simp
  | (k, v) :: es, js, h, hv => by
    obtain ⟨k', j, r, rfl, hk, h1, h2⟩ := h
    have hkk : k' = k := hk.unique (.of_valid (hv (k, v) (by simp)))
    subst hkk
    have ih := saysE_lookup n es r h2 (fun e he => hv e (by simp [he]))
    rw [AMap.lookup_cons, AMap.lookup_cons]
    split
    · exact ⟨by simp, by rintro w ⟨⟩; exact ⟨j, rfl, h1⟩⟩
    · exact ih

theorem saysE_filter {env : JEnv} (p : Bytes → Bool) : ∀ (es : List (Bytes × Val)) (js : List (Bytes × Json)), SaysE env es js → (∀ e ∈ es, ValidUtf8 e.1) →
    SaysE env (es.filter fun e => p e.1) (js.filter fun e => p e.1)
  | [], js, h, _ => by rw [show js = _ from h]; rfl
  | (k, v) :: es, js, h, hv => by
    obtain ⟨k', j, r, rfl, hk, h1, h2⟩ := h
    have hkk : k' = k := hk.unique (.of_valid (hv (k, v) (by simp)))
    have ih := saysE_filter p es r h2 (fun e he => hv e (by simp [he]))
    subst hkk
    simp only [List.filter_cons]
    cases p k' with
    | true => exact ⟨k', j, _, rfl, hk, h1, ih⟩
    | false => exact ih

theorem fieldIs_lookup {n : Bytes} : ∀ {js : List (Bytes × Json)}, (js.map (·.1)).Nodup → (∀ e ∈ js, Folds n e.1 → e.1 = n) → FieldIs js n (AMap.lookup js n)
  | [], _, _ => by intro e he; simp at he
  | (k, j) :: js, hnd, hf => by
    simp only [List.map_cons, List.nodup_cons] at hnd
    have ih := fieldIs_lookup (n := n) hnd.2 (fun e he => hf e (by simp [he]))
    rw [AMap.lookup_cons]
    by_cases hk : k = n
    · subst hk
      simp only [if_true]
      refine ⟨[], k, js, rfl, folds_self k, by simp, fun e he hc => ?_⟩
      have := hf e (by simp [he]) hc
      exact hnd.1 (by rw [List.mem_map]; exact ⟨e, he, this⟩)
    · have hnf : ¬ Folds n k := fun h => hk (hf (k, j) (by simp) h)
      rw [if_neg hk]
      cases hl : AMap.lookup js n with
      | none =>
        rw [hl] at ih
        intro e he
        rcases List.mem_cons.1 he with rfl | he
        · exact hnf
        · exact ih e he
      | some x =>
        rw [hl] at ih
        obtain ⟨pre, k', post, rfl, h1, h2, h3⟩ := ih
        refine ⟨(k, j) :: pre, k', post, rfl, h1, ?_, h3⟩
        intro e he
        rcases List.mem_cons.1 he with rfl | he
        · exact hnf
        · exact h2 e he

theorem strIs_of {env : JEnv} {name s : Bytes} {es : List (Bytes × Val)} {js : List (Bytes × Json)} (hs : SaysE env es js) (hv : ∀ e ∈ es, ValidUtf8 e.1) (hu : ValidUtf8 s)
    (hl : AMap.lookup es name = if s = [] then none else some (.scalar (.str s))) : StrIs (AMap.lookup js name) s := by
  have := saysE_lookup name es js hs hv
  by_cases h : s = []
  · rw [if_pos h] at hl
    rw [this.1 hl, h]
    exact .absent
  · rw [if_neg h] at hl
    obtain ⟨j, h1, h2⟩ := this.2 _ hl
    rw [h1]
    obtain ⟨s', rfl, hr⟩ := h2
    rw [hr.unique (.of_valid hu)]
    exact .str s

theorem fieldNames : ∀ n ∈ optNames, FieldName n := by
  intro n hn
  simp only [optNames, List.mem_cons, List.not_mem_nil, or_false] at hn
  rcases hn with rfl | rfl | rfl
  exacts [optField_name .id, optField_name .cond, optField_name .onFailure]

theorem valid_optNames : ∀ n ∈ optNames, ValidUtf8 n := by
  intro n hn
  simp only [optNames, List.mem_cons, List.not_mem_nil, or_false] at hn
  rcases hn with rfl | rfl | rfl
  exacts [⟨['i', 'd'], by decide +kernel⟩, ⟨['i', 'f'], by decide +kernel⟩, ⟨['o', 'n', '_', 'f', 'a', 'i', 'l', 'u', 'r', 'e'], by decide +kernel⟩]

/-- What `optVal` starts from. -/
def optBase (id cond : Bytes) (onF : List (ProcCfg JCfg)) : AMap Val :=
  textField (lit "id") id ++ textField (lit "if") cond ++ (if onF.isEmpty then [] else [(lit "on_failure", .arr (confsVal onF))])

theorem optBase_mem {id cond : Bytes} {onF : List (ProcCfg JCfg)} {e : Bytes × Val} (h : e ∈ optBase id cond onF) : e.1 ∈ optNames := by
  unfold optBase textField at h
  simp only [List.mem_append] at h
  rcases h with (h | h) | h
  all_goals
    split at h
    · simp at h
    · simp only [List.mem_singleton] at h
      subst h
      simp [optNames]

theorem optBase_spec (id cond : Bytes) (onF : List (ProcCfg JCfg)) : AMap.Sorted (optBase id cond onF) ∧
    AMap.lookup (optBase id cond onF) (lit "id") = (if id = [] then none else some (.scalar (.str id))) ∧
    AMap.lookup (optBase id cond onF) (lit "if") = (if cond = [] then none else some (.scalar (.str cond))) ∧
    AMap.lookup (optBase id cond onF) (lit "on_failure") = (if onF.isEmpty then none else some (.arr (confsVal onF))) := by
  obtain ⟨l1, l2, l3⟩ := names_lt
  have n1 : lit "if" ≠ lit "id" := by decide +kernel
  have n2 : lit "on_failure" ≠ lit "id" := by decide +kernel
  have n3 : lit "on_failure" ≠ lit "if" := by decide +kernel
  unfold optBase textField
  by_cases h1 : id = [] <;> by_cases h2 : cond = [] <;> by_cases h3 : onF = [] <;>
    simp [h1, h2, h3, AMap.Sorted, AMap.lookup_cons, l1, l2, l3, n1, n2, n3, n1.symm, n2.symm, n3.symm]

theorem erase_filter {α : Type} (m : AMap α) (q : Bytes) : AMap.erase m q = m.filter fun e => e.1 ≠ q := by
  induction m with
  | nil => rfl
  | cons e m ih =>
    obtain ⟨k, v⟩ := e
    simp only [AMap.erase, List.filter_cons]
    by_cases h : k = q
    · simp [h, ih]
    · simp [h, ih]

theorem filter_opt {α : Type} (m : AMap α) : (m.filter fun e => e.1 ∉ optNames) = AMap.erase (AMap.erase (AMap.erase m (lit "id")) (lit "if")) (lit "on_failure") := by
  simp only [erase_filter, List.filter_filter]
  apply List.filter_congr
  intro e _
  simp only [optNames, List.mem_cons, List.not_mem_nil, or_false, not_or, ne_eq, Bool.decide_and, decide_not]
  cases decide (e.1 = lit "id") <;> cases decide (e.1 = lit "if") <;> cases decide (e.1 = lit "on_failure") <;> rfl

theorem filter_optVal {id cond : Bytes} {onF : List (ProcCfg JCfg)} {m : AMap Val} (hs : AMap.Sorted m) (hm : ∀ e ∈ m, e.1 ∉ optNames) :
    (AMap.ofEntries m (optBase id cond onF)).filter (fun e => e.1 ∉ optNames) = m := by
  have hb := (optBase_spec id cond onF).1
  rw [filter_opt, erase_ofEntries _ _ _ hb, erase_ofEntries _ _ _ (AMap.sorted_erase _ hb), erase_ofEntries _ _ _ (AMap.sorted_erase _ (AMap.sorted_erase _ hb)), ← filter_opt]
  have e1 : ∀ q ∈ optNames, (m.filter fun e => decide (e.1 ≠ q)) = m := by
    intro q hq
    rw [List.filter_eq_self]
    intro e he
    simp only [ne_eq, decide_eq_true_eq]
    rintro rfl
    exact hm e he hq
  rw [e1 _ (by simp [optNames]), e1 _ (by simp [optNames]), e1 _ (by simp [optNames])]
  have e2 : (optBase id cond onF).filter (fun e => e.1 ∉ optNames) = [] := by
    rw [List.filter_eq_nil_iff]
    intro e he
    simpa using optBase_mem he
  rw [e2, ofEntries_sorted hs]

theorem saysE_isEmpty {env : JEnv} {es : List (Bytes × Val)} {js : List (Bytes × Json)} (h : SaysE env es js) : js.isEmpty = es.isEmpty := by
  match es, h with
  | [], h => rw [show js = _ from h]; rfl
  | (k, v) :: es, h => obtain ⟨k', j, r, rfl, _⟩ := h; rfl

theorem finite_sub {es : AMap Val} {n : Bytes} {v : Val} (hf : Val.FiniteFloatsE es) (h : AMap.lookup es n = some v) : v.FiniteFloats :=
  finiteFloatsE_iff.1 hf (n, v) (AMap.mem_of_lookup h)

mutual
theorem plain_says {env : JEnv} (hl : env.Lawful) : ∀ (o : OptCfg JCfg) (j : Json), o.Plain → (optVal o).FiniteFloats → Says env (optVal o) j → IsOpt env j o
  | .mk id cond onF config, j, hp, hf, hs => by
    obtain ⟨u1, u2, hpl, hpo⟩ := hp
    have ih := plain_saysL (env := env) hl onF
    rw [optVal] at hf hs
    obtain ⟨js, rfl, hs⟩ := hs
    change SaysE env (AMap.ofEntries (config.getD []) (optBase id cond onF)) js at hs
    change Val.FiniteFloatsE (AMap.ofEntries (config.getD []) (optBase id cond onF)) at hf
    have hcfg : AMap.Sorted (config.getD []) ∧ Val.CanonE (config.getD []) ∧ Val.JsonOnlyE (config.getD []) ∧ Val.ValidTextE (config.getD []) ∧ ∀ e ∈ config.getD [], ∀ n ∈ optNames, ¬ Folds n e.1 := by
      cases config with
      | none => exact ⟨AMap.sorted_nil, trivial, trivial, trivial, by simp⟩
      | some m => exact hpo.2
    obtain ⟨c1, c2, c3, c4, c5⟩ := hcfg
    have cn : ∀ e ∈ config.getD [], e.1 ∉ optNames := fun e he hm => c5 e he e.1 hm (folds_self _)
    obtain ⟨b1, b2, b3, b4⟩ := optBase_spec id cond onF
    have hflt := filter_optVal (id := id) (cond := cond) (onF := onF) c1 cn
    generalize hes : AMap.ofEntries (config.getD []) (optBase id cond onF) = es at hs hf hflt
    have hsort : AMap.Sorted es := by rw [← hes]; exact AMap.sorted_ofEntries b1
    have hmem : ∀ e ∈ es, e ∈ config.getD [] ∨ e.1 ∈ optNames := by
      intro e he
      rw [← hes] at he
      rcases mem_ofEntries he with he | he
      · exact .inl he
      · exact .inr (optBase_mem he)
    have hval : ∀ e ∈ es, ValidUtf8 e.1 := by
      intro e he
      rcases hmem e he with he | he
      · exact (validTextE_iff.1 c4 e he).1
      · exact valid_optNames _ he
    have hlook : ∀ n ∈ optNames, AMap.lookup es n = AMap.lookup (optBase id cond onF) n := by
      intro n hn
      rw [← hes]
      refine AMap.lookup_ofEntries_of_not_mem ?_
      intro hm
      obtain ⟨e, he, rfl⟩ := List.mem_map.1 hm
      exact cn e he hn
    have hkeys := saysE_keys es js hs hval
    have hnd : (js.map (·.1)).Nodup := by rw [hkeys]; exact AMap.sorted_nodup hsort
    have hfold : ∀ n ∈ optNames, ∀ e ∈ js, Folds n e.1 → e.1 = n := by
      intro n hn e he hfo
      have hk : e.1 ∈ es.map (·.1) := by rw [← hkeys]; exact List.mem_map_of_mem he
      obtain ⟨x, hx, hxe⟩ := List.mem_map.1 hk
      rcases hmem x hx with hx | hx
      · exact absurd (hxe ▸ hfo) (c5 x hx n hn)
      · rw [hxe] at hx
        exact folds_unique (fieldNames _ hx) (fieldNames _ hn) (folds_self _) hfo
    have m1 : lit "id" ∈ optNames := by simp [optNames]
    have m2 : lit "if" ∈ optNames := by simp [optNames]
    have m3 : lit "on_failure" ∈ optNames := by simp [optNames]
    have hown : ownOptions env js = config := by
      have hsf := saysE_filter (fun k => decide (k ∉ optNames)) es js hs hval
      rw [hflt] at hsf
      unfold ownOptions
      simp only
      rw [saysE_isEmpty hsf]
      cases config with
      | none => rfl
      | some m =>
        obtain ⟨p1, p2, p3, p4, p5, _⟩ := hpo
        rw [if_neg (by simpa using p1)]
        have hfm : Val.FiniteFloatsE m := by
          rw [finiteFloatsE_iff]
          intro e he
          refine finiteFloatsE_iff.1 hf e ?_
          have : e ∈ es.filter fun e => decide (e.1 ∉ optNames) := by rw [hflt]; exact he
          exact (List.mem_filter.1 this).1
        have hb := (says_backE hl m _ hfm hsf).2
        rw [back_exactE m _ p4 p5 p3 hb, ofEntries_sorted p2]
    rw [← hown]
    refine .obj js _ _ _ id cond onF (fieldIs_lookup hnd (hfold _ m1)) (fieldIs_lookup hnd (hfold _ m2)) (fieldIs_lookup hnd (hfold _ m3)) ?_ ?_ ?_ (says_backE hl es js hf hs).1
    · exact strIs_of hs hval u1 (by rw [hlook _ m1, b2])
    · exact strIs_of hs hval u2 (by rw [hlook _ m2, b3])
    · rw [← hlook _ m3] at b4
      by_cases h : onF.isEmpty = true
      · rw [if_pos h] at b4
        rw [(saysE_lookup _ es js hs hval).1 b4, List.isEmpty_iff.1 h]
        exact .absent
      · rw [if_neg h] at b4
        obtain ⟨j, h1, h2⟩ := (saysE_lookup _ es js hs hval).2 _ b4
        rw [h1]
        obtain ⟨js', rfl, h2⟩ := h2
        exact .arr js' onF (ih js' hpl (finite_sub hf b4) h2)
theorem plain_saysL {env : JEnv} (hl : env.Lawful) : ∀ (cs : List (ProcCfg JCfg)) (js : List Json), PlainConfs cs → Val.FiniteFloatsL (confsVal cs) → SaysL env (confsVal cs) js → IsConfs env js cs
  | [], js, _, _, hs => by rw [show js = _ from hs]; exact .nil
  | c :: cs, js, hp, hf, hs => by
    obtain ⟨j, r, rfl, h1, h2⟩ := hs
    obtain ⟨es, rfl, h1⟩ := h1
    have := plain_saysE hl c es hp.1.2 hf.1 h1
    have h3 := IsConf.obj es c this
    rw [ofEntries_sorted hp.1.1] at h3
    exact .cons _ _ _ _ h3 (plain_saysL hl cs r hp.2 hf.2 h2)
theorem plain_saysE {env : JEnv} (hl : env.Lawful) : ∀ (c : List (Bytes × Option (OptCfg JCfg))) (es : List (Bytes × Json)), PlainEntries c → Val.FiniteFloatsE (entriesVal c) → SaysE env (entriesVal c) es →
    IsEntries env es c
  | [], es, _, _, hs => by rw [show es = _ from hs]; exact .nil
  | (k, o) :: c, es, hp, hf, hs => by
    obtain ⟨k', j, r, rfl, hk, h1, h2⟩ := hs
    rw [hk.unique (.of_valid hp.1.1)]
    exact .cons k j o r c (plain_saysP hl o j hp.1.2 hf.1 h1) (plain_saysE hl c r hp.2 hf.2 h2)
theorem plain_saysP {env : JEnv} (hl : env.Lawful) : ∀ (o : Option (OptCfg JCfg)) (j : Json), PlainPOpt o → (popt o).FiniteFloats → Says env (popt o) j → IsPOpt env j o
  | none, j, _, _, hs => by rw [show j = _ from hs]; exact .null
  | some o, j, hp, hf, hs => by
    have h := plain_says hl o j hp hf hs
    obtain ⟨id, cond, onF, config⟩ := o
    rw [popt, optVal] at hs
    obtain ⟨es, rfl, _⟩ := hs
    exact .obj es _ h
end

end Sawmill
