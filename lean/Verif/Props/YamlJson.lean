import Verif.Props.YamlOrder
/-!
# C93: a configuration in JSON is one in YAML
-/

namespace Sawmill
open Rfc

/-! ## Numbers -/

theorem itoa_snoc {n d : Nat} (hn : n ≠ 0) (hd : d < 10) : itoa (10 * n + d) = itoa n ++ [UInt8.ofNat (48 + d)] := by
  rw [itoa_ge (by omega), show (10 * n + d) / 10 = n by omega, show (10 * n + d) % 10 = d by omega]

theorem digitsVal_more {r : Bytes} {n m : Nat} (hn : n ≠ 0) (h : digitsVal r n = some m) : itoa n ++ r = itoa m := by
  induction r generalizing n with
  | nil => simp only [digitsVal, Option.some.injEq] at h; subst h; simp
  | cons b r ih =>
    simp only [digitsVal] at h
    by_cases hb : 48 ≤ b.toNat ∧ b.toNat ≤ 57
    · rw [if_pos hb] at h
      have := ih (by omega) h
      rw [itoa_snoc hn (by omega)] at this
      rw [← this]
      have e : UInt8.ofNat (48 + (b.toNat - 48)) = b := by
        rw [show 48 + (b.toNat - 48) = b.toNat by omega]; simp
      rw [e]; simp
    · rw [if_neg hb] at h; cases h

theorem digitsVal_zero {r : Bytes} {m : Nat} (hr : r ≠ []) (h : digitsVal r 0 = some m) : ∃ z, r = List.replicate z 48 ++ itoa m := by
  induction r with
  | nil => exact absurd rfl hr
  | cons b r ih =>
    simp only [digitsVal] at h
    by_cases hb : 48 ≤ b.toNat ∧ b.toNat ≤ 57
    · rw [if_pos hb] at h
      have eb : UInt8.ofNat (48 + (b.toNat - 48)) = b := by
        rw [show 48 + (b.toNat - 48) = b.toNat by omega]; simp
      by_cases h0 : b.toNat = 48
      · have hb' : b = 48 := UInt8.toNat_inj.1 h0
        rw [h0] at h
        subst hb'
        cases r with
        | nil =>
          simp only [digitsVal, Option.some.injEq] at h
          subst h
          exact ⟨0, by rw [itoa_lt (by omega)]; rfl⟩
        | cons c r =>
          obtain ⟨z, hz⟩ := ih (by simp) h
          exact ⟨z + 1, by rw [hz]; simp [List.replicate_succ]⟩
      · have := digitsVal_more (by omega) h
        refine ⟨0, ?_⟩
        rw [← this, itoa_lt (by omega)]
        simp only [Nat.mul_zero, Nat.zero_add, eb]
        rfl
    · rw [if_neg hb] at h; cases h

theorem numberVal_decimal {t : Bytes} {n : Nat} (h : numberVal t = some n) : ∃ z, t = List.replicate z 48 ++ itoa n := by
  unfold numberVal at h
  cases t with
  | nil => simp at h
  | cons b r => exact digitsVal_zero (by simp) (by simpa using h)

theorem resolveFloat_same {env : JEnv} {t : Bytes} {f : BitVec 64} (hf : env.atof t = some f) : ∃ v, IsAny (resolveFloat env t) v ∧ SameOption env (.scalar (.float f)) v := by
  unfold resolveFloat
  rw [hf]
  exact ⟨_, .plain t _, .float f⟩

theorem resolveNumber_same {env : JEnv} {t : Bytes} {f : BitVec 64} (hf : env.atof t = some f) : ∃ v, IsAny (resolveNumber env t) v ∧ SameOption env (.scalar (.float f)) v := by
  unfold resolveNumber
  by_cases h : t.head? = some 45
  · rw [if_pos h]
    have ht : t = 45 :: t.tail := by
      cases t with
      | nil => cases h
      | cons b r => simp only [List.head?_cons, Option.some.injEq] at h; rw [h]; rfl
    cases hn : numberVal t.tail with
    | none => exact resolveFloat_same hf
    | some n =>
      simp only
      by_cases hle : n ≤ 2 ^ 63
      · rw [if_pos hle]
        refine ⟨_, .plain t _, .int t f _ hf ?_⟩
        obtain ⟨z, hz⟩ := numberVal_decimal hn
        refine ⟨z, n, .inr ⟨by rw [← hz]; exact ht, ?_⟩⟩
        rw [BitVec.toInt_ofInt, Int.bmod_eq_of_le (by omega) (by omega)]
      · rw [if_neg hle]; exact resolveFloat_same hf
  · rw [if_neg h]
    cases hn : numberVal t with
    | none => exact resolveFloat_same hf
    | some n =>
      obtain ⟨z, hz⟩ := numberVal_decimal hn
      simp only
      by_cases hlt : n < 2 ^ 63
      · rw [if_pos hlt]
        refine ⟨_, .plain t _, .int t f _ hf ⟨z, n, .inl ⟨hz, ?_⟩⟩⟩
        rw [BitVec.toInt_eq_toNat_of_lt (by rw [BitVec.toNat_ofNat]; omega), BitVec.toNat_ofNat, Nat.mod_eq_of_lt (by omega)]
      · rw [if_neg hlt]
        by_cases hlt2 : n < 2 ^ 64
        · rw [if_pos hlt2]
          refine ⟨_, .plain t _, .uint t f _ hf ⟨z, n, .inl ⟨hz, ?_⟩⟩⟩
          rw [BitVec.toNat_ofNat, Nat.mod_eq_of_lt hlt2]
        · rw [if_neg hlt2]; exact resolveFloat_same hf

/-! ## Values -/

theorem sameE_insert {env : JEnv} {vs : List (Bytes × Val)} {ws : List (Bytes × YVal)} (h : SameOptionE env vs ws) {k : Bytes} {v : Val} {w : YVal} (hv : SameOption env v w) :
    SameOptionE env (AMap.insert vs k v) (AMap.insert ws k w) := by
  induction vs generalizing ws with
  | nil => cases h; exact .cons k v w _ _ hv .nil
  | cons e vs ih =>
    cases h with
    | cons k' v' w' _ ws' h1 h2 =>
      simp only [AMap.insert]
      by_cases hk : k' = k
      · rw [if_pos hk, if_pos hk]; exact .cons k v w vs ws' hv h2
      · rw [if_neg hk, if_neg hk]
        by_cases hb : bLt k k' = true
        · rw [if_pos hb, if_pos hb]; exact .cons k v w _ _ hv (.cons k' v' w' vs ws' h1 h2)
        · rw [if_neg hb, if_neg hb]; exact .cons k' v' w' _ _ h1 (ih h2)

theorem sameE_ofEntries {env : JEnv} {xs : List (Bytes × Val)} {ys : List (Bytes × YVal)} (h : SameOptionE env xs ys) {vs : List (Bytes × Val)} {ws : List (Bytes × YVal)} (hm : SameOptionE env vs ws) :
    SameOptionE env (AMap.ofEntries xs vs) (AMap.ofEntries ys ws) := by
  induction xs generalizing ys vs ws with
  | nil => cases h; exact hm
  | cons e xs ih =>
    cases h with
    | cons k v w _ ys h1 h2 =>
      rw [AMap.ofEntries_cons, AMap.ofEntries_cons]
      exact ih h2 (sameE_insert hm h1)

theorem asYamlE_mem {env : JEnv} {es : List (Bytes × Json)} {k y : Yaml} : (k, y) ∈ Json.asYamlE env es ↔ ∃ e ∈ es, k = .str e.1 ∧ y = e.2.asYaml env := by
  induction es with
  | nil => simp [Json.asYamlE]
  | cons e es ih =>
    obtain ⟨n, j⟩ := e
    simp only [Json.asYamlE, List.mem_cons, ih, exists_eq_or_imp, Prod.mk.injEq]

theorem asYamlE_unrepeated {env : JEnv} {es : List (Bytes × Json)} (h : NamesOnce es) : Unrepeated (Json.asYamlE env es) := by
  unfold NamesOnce at h
  induction es with
  | nil => simp [Json.asYamlE, Unrepeated]
  | cons e es ih =>
    obtain ⟨n, j⟩ := e
    rw [List.map_cons, List.nodup_cons] at h
    refine List.pairwise_cons.2 ⟨?_, ih h.2⟩
    rintro ⟨k, y⟩ hm hl
    obtain ⟨e, he, rfl, _⟩ := asYamlE_mem.1 hm
    rw [looks_iff] at hl
    simp only [Yaml.kindValue, Prod.mk.injEq, true_and] at hl
    exact h.1 (by show n ∈ _; rw [hl]; exact List.mem_map_of_mem he)

theorem asYamlE_named {env : JEnv} {es : List (Bytes × Json)} (h : NamesOnce es) : NamedKeys (Json.asYamlE env es) := by
  refine ⟨asYamlE_unrepeated h, ?_⟩
  rintro ⟨k, y⟩ hm
  obtain ⟨e, _, rfl, _⟩ := asYamlE_mem.1 hm
  trivial

mutual
/-- A JSON value as YAML is the same value. -/
theorem value_as_yaml (env : JEnv) : ∀ (j : Json), j.Tidy → InRange env j → ∃ v, IsAny (j.asYaml env) v ∧ SameOption env (jsonVal env j) v
  | .null, _, _ => ⟨_, by simp only [Json.asYaml]; exact .plain _ _, by simp only [jsonVal]; exact .nil⟩
  | .bool b, _, _ => ⟨_, by simp only [Json.asYaml]; exact .plain _ _, by simp only [jsonVal]; exact .bool b⟩
  | .num t, _, hr => by
    simp only [InRange, Option.isSome_iff_exists] at hr
    obtain ⟨f, hf⟩ := hr
    simp only [Json.asYaml, jsonVal, hf, Option.getD_some]
    exact resolveNumber_same hf
  | .str s, _, _ => ⟨_, by simp only [Json.asYaml]; exact .str s, by simp only [jsonVal]; exact .str s⟩
  | .arr js, ht, hr => by
    simp only [Json.Tidy] at ht
    simp only [InRange] at hr
    obtain ⟨vs, h1, h2⟩ := values_as_yaml env js ht hr
    exact ⟨.list vs, by simp only [Json.asYaml]; exact .seq _ vs h1, by simp only [jsonVal]; exact .list _ vs h2⟩
  | .obj es, ht, hr => by
    simp only [Json.Tidy] at ht
    simp only [InRange] at hr
    obtain ⟨ns, h1, h2⟩ := members_as_yaml env es ht.2 hr
    exact ⟨.smap (AMap.ofEntries ns []), by simp only [Json.asYaml]; exact .smap _ ns (asYamlE_unrepeated ht.1) h1, by simp only [jsonVal]; exact .map _ _ (sameE_ofEntries h2 .nil)⟩
theorem values_as_yaml (env : JEnv) : ∀ (js : List Json), Json.TidyL js → InRangeL env js → ∃ vs, IsAnyL (Json.asYamlL env js) vs ∧ SameOptionL env (jsonValL env js) vs
  | [], _, _ => ⟨[], by simp only [Json.asYamlL]; exact .nil, by simp only [jsonValL]; exact .nil⟩
  | j :: js, ht, hr => by
    simp only [Json.TidyL] at ht
    simp only [InRangeL] at hr
    obtain ⟨v, h1, h2⟩ := value_as_yaml env j ht.1 hr.1
    obtain ⟨vs, h3, h4⟩ := values_as_yaml env js ht.2 hr.2
    exact ⟨v :: vs, by simp only [Json.asYamlL]; exact .cons _ v _ vs h1 h3, by simp only [jsonValL]; exact .cons _ v _ vs h2 h4⟩
theorem members_as_yaml (env : JEnv) : ∀ (es : List (Bytes × Json)), Json.TidyE es → InRangeE env es → ∃ ns, IsAnyS (Json.asYamlE env es) ns ∧ SameOptionE env (jsonValE env es) ns
  | [], _, _ => ⟨[], by simp only [Json.asYamlE]; exact .nil, by simp only [jsonValE]; exact .nil⟩
  | (k, j) :: es, ht, hr => by
    simp only [Json.TidyE] at ht
    simp only [InRangeE] at hr
    obtain ⟨v, h1, h2⟩ := value_as_yaml env j ht.1 hr.1
    obtain ⟨ns, h3, h4⟩ := members_as_yaml env es ht.2 hr.2
    exact ⟨(k, v) :: ns, by simp only [Json.asYamlE]; exact .cons k _ v _ ns h1 h3, by simp only [jsonValE]; exact .cons k _ v _ ns h2 h4⟩
end

theorem own_as_yaml (env : JEnv) (es : List (Bytes × Json)) (ht : Json.TidyE es) (hr : InRangeE env es) :
    ∃ ns, IsOwn (Json.asYamlE env es) ns ∧ SameOptionE env (jsonValE env (es.filter fun e => e.1 ∉ optNames)) ns := by
  induction es with
  | nil => exact ⟨[], by simp only [Json.asYamlE]; exact .nil, by simp only [List.filter_nil, jsonValE]; exact .nil⟩
  | cons e es ih =>
    obtain ⟨k, j⟩ := e
    simp only [Json.TidyE] at ht
    simp only [InRangeE] at hr
    obtain ⟨ns, h1, h2⟩ := ih ht.2 hr.2
    simp only [Json.asYamlE]
    by_cases hk : k ∈ optNames
    · refine ⟨ns, .skip _ _ _ ns (by intro n hn; cases hn; exact hk) h1, ?_⟩
      rw [List.filter_cons_of_neg (by simpa using hk)]
      exact h2
    · obtain ⟨v, h3, h4⟩ := value_as_yaml env j ht.1 hr.1
      refine ⟨(k, v) :: ns, .own _ _ k v _ ns rfl hk h3 h1, ?_⟩
      rw [List.filter_cons_of_pos (by simpa using hk)]
      simp only [jsonValE]
      exact .cons k _ v _ ns h4 h2

theorem ownOptions_same {env : JEnv} {es : List (Bytes × Json)} {ns : List (Bytes × YVal)} (h : SameOptionE env (jsonValE env (es.filter fun e => e.1 ∉ optNames)) ns) : SameOptions env (ownOptions env es) (ownMap ns) := by
  unfold ownOptions ownMap
  generalize es.filter (fun e => decide (e.1 ∉ optNames)) = xs at h ⊢
  cases xs with
  | nil =>
    simp only [jsonValE] at h
    cases h
    exact .none
  | cons e xs =>
    obtain ⟨k, j⟩ := e
    simp only [jsonValE] at h
    cases h with
    | cons _ v w _ ws h1 h2 =>
      refine .some _ _ ?_
      simp only [jsonValE]
      exact sameE_ofEntries (.cons k _ w _ ws h1 h2) .nil

/-! ## Options -/

theorem field_as_yaml {env : JEnv} {es : List (Bytes × Json)} {n : Bytes} {o : Option Json} (hx : ∀ e ∈ es, Folds n e.1 → e.1 = n) (hself : Folds n n) (h : FieldIs es n o) : UnderName (Json.asYamlE env es) n (o.map (·.asYaml env)) := by
  cases o with
  | none =>
    rintro ⟨k, y⟩ hm hn
    obtain ⟨e, he, rfl, _⟩ := asYamlE_mem.1 hm
    cases hn
    exact h e he hself
  | some j =>
    obtain ⟨pre, k, post, rfl, hf, _, _⟩ := h
    have := hx (k, j) (by simp) hf
    exact ⟨.str k, asYamlE_mem.2 ⟨(k, j), by simp, rfl, rfl⟩, by rw [← show k = n from this]; rfl⟩

theorem str_as_yaml {env : JEnv} {o : Option Json} {s : Bytes} (h : StrIs o s) : YStrIs (o.map (·.asYaml env)) s := by
  cases h with
  | absent => exact .absent
  | null => simp only [Option.map_some, Json.asYaml]; exact .null _
  | str s => simp only [Option.map_some, Json.asYaml]; exact .str s

theorem entriesRel_insert {C D : Type} {R : C → D → Prop} {xs : ProcCfg C} {ys : ProcCfg D} (h : EntriesRel R xs ys) {n : Bytes} {x : Option (OptCfg C)} {y : Option (OptCfg D)} (hv : EntriesRel R [(n, x)] [(n, y)]) :
    EntriesRel R (AMap.insert xs n x) (AMap.insert ys n y) := by
  have put : ∀ {as : ProcCfg C} {bs : ProcCfg D}, EntriesRel R as bs → EntriesRel R ((n, x) :: as) ((n, y) :: bs) := by
    intro as bs hab
    cases hv with
    | none _ _ _ _ => exact .none n as bs hab
    | some _ x y _ _ h1 _ => exact .some n x y as bs h1 hab
  induction xs generalizing ys with
  | nil => cases h; exact put .nil
  | cons e xs ih =>
    cases h with
    | none k _ ys' h2 =>
      simp only [AMap.insert]
      by_cases hk : k = n
      · rw [if_pos hk, if_pos hk]; exact put h2
      · rw [if_neg hk, if_neg hk]
        by_cases hb : bLt n k = true
        · rw [if_pos hb, if_pos hb]; exact put (.none k xs ys' h2)
        · rw [if_neg hb, if_neg hb]; exact .none k _ _ (ih h2)
    | some k a b _ ys' h1 h2 =>
      simp only [AMap.insert]
      by_cases hk : k = n
      · rw [if_pos hk, if_pos hk]; exact put h2
      · rw [if_neg hk, if_neg hk]
        by_cases hb : bLt n k = true
        · rw [if_pos hb, if_pos hb]; exact put (.some k a b xs ys' h1 h2)
        · rw [if_neg hb, if_neg hb]; exact .some k a b _ _ h1 (ih h2)

theorem entriesRel_ofEntries {C D : Type} {R : C → D → Prop} {xs : ProcCfg C} {ys : ProcCfg D} (h : EntriesRel R xs ys) {as : ProcCfg C} {bs : ProcCfg D} (hm : EntriesRel R as bs) :
    EntriesRel R (AMap.ofEntries xs as) (AMap.ofEntries ys bs) := by
  induction xs generalizing ys as bs with
  | nil => cases h; exact hm
  | cons e xs ih =>
    cases h with
    | none n _ ys h2 => rw [AMap.ofEntries_cons, AMap.ofEntries_cons]; exact ih h2 (entriesRel_insert hm (.none n [] [] .nil))
    | some n x y _ ys h1 h2 => rw [AMap.ofEntries_cons, AMap.ofEntries_cons]; exact ih h2 (entriesRel_insert hm (.some n x y [] [] h1 .nil))

theorem tidyE_mem {es : List (Bytes × Json)} (h : Json.TidyE es) {k : Bytes} {j : Json} (hm : (k, j) ∈ es) : j.Tidy := by
  induction es with
  | nil => cases hm
  | cons e es ih =>
    obtain ⟨k', j'⟩ := e
    simp only [Json.TidyE] at h
    rcases List.mem_cons.1 hm with e | e
    · rw [(Prod.mk.inj e).2]; exact h.1
    · exact ih h.2 e

theorem exactFields_mem {names : List Bytes} {es : List (Bytes × Json)} (h : ExactFields names es) {k : Bytes} {j : Json} (hm : (k, j) ∈ es) (hk : k ∈ names) : ExactSlice j := by
  induction es with
  | nil => cases hm
  | cons e es ih =>
    obtain ⟨k', j'⟩ := e
    simp only [ExactFields] at h
    rcases List.mem_cons.1 hm with e | e
    · obtain ⟨e1, e2⟩ := Prod.mk.inj e
      rw [e2]; exact h.1 (e1 ▸ hk)
    · exact ih h.2 e

theorem fieldIs_mem {es : List (Bytes × Json)} {n : Bytes} {j : Json} (hx : ∀ e ∈ es, Folds n e.1 → e.1 = n) (h : FieldIs es n (some j)) : (n, j) ∈ es := by
  obtain ⟨pre, k, post, rfl, hf, _, _⟩ := h
  have := hx (k, j) (by simp) hf
  rw [← show k = n from this]
  simp

/-- What is under a name is tidy and exact. -/
def SliceFine : Option Json → Prop
  | none => True
  | some j => j.Tidy ∧ ExactSlice j

theorem field_fine {names : List Bytes} {es : List (Bytes × Json)} {n : Bytes} {o : Option Json} (hx : ∀ e ∈ es, Folds n e.1 → e.1 = n) (hn : n ∈ names) (ht : Json.TidyE es) (he : ExactFields names es) (h : FieldIs es n o) : SliceFine o := by
  cases o with
  | none => trivial
  | some j =>
    have := fieldIs_mem hx h
    exact ⟨tidyE_mem ht this, exactFields_mem he this hn⟩

mutual
theorem opt_as_yaml {env : JEnv} : ∀ {j : Json} {o : OptCfg JCfg}, IsOpt env j o → j ≠ .null → j.Tidy → ExactOpt j → ∃ o', IsYOpt (j.asYaml env) (some o') ∧ OptRel (SameOptions env) o o'
  | _, _, .null, hne, _, _ => absurd rfl hne
  | _, _, .obj es i c f id cond onF hi hc hf h1 h2 h3 hr, _, ht, hx => by
    simp only [Json.Tidy] at ht
    simp only [ExactOpt] at hx
    have x1 : ∀ e ∈ es, Folds (lit "id") e.1 → e.1 = lit "id" := fun e he => hx.1 e he _ (by simp [optNames])
    have x2 : ∀ e ∈ es, Folds (lit "if") e.1 → e.1 = lit "if" := fun e he => hx.1 e he _ (by simp [optNames])
    have x3 : ∀ e ∈ es, Folds (lit "on_failure") e.1 → e.1 = lit "on_failure" := fun e he => hx.1 e he _ (by simp [optNames])
    obtain ⟨cs, hs, hcs⟩ := slice_as_yaml h3 (field_fine x3 (by simp) ht.2 hx.2 hf)
    obtain ⟨ns, ho, hso⟩ := own_as_yaml env es ht.2 hr
    refine ⟨.mk id cond cs (ownMap ns), ?_, .mk id cond onF cs _ _ hcs (ownOptions_same hso)⟩
    simp only [Json.asYaml]
    exact .map _ _ _ _ id cond cs ns (asYamlE_named ht.1) (field_as_yaml x1 (folds_self _) hi) (field_as_yaml x2 (folds_self _) hc) (field_as_yaml x3 (folds_self _) hf) (str_as_yaml h1) (str_as_yaml h2) hs ho
theorem slice_as_yaml {env : JEnv} : ∀ {o : Option Json} {cs : List (ProcCfg JCfg)}, IsSlice env o cs → SliceFine o → ∃ cs', IsYSlice (o.map (·.asYaml env)) cs' ∧ ConfsRel (SameOptions env) cs cs'
  | _, _, .absent, _ => ⟨[], .absent, .nil⟩
  | _, _, .null, _ => ⟨[], by simp only [Option.map_some, Json.asYaml]; exact .null _, .nil⟩
  | _, _, .arr js cs h, hf => by
    simp only [SliceFine, Json.Tidy, ExactSlice] at hf
    obtain ⟨cs', h1, h2⟩ := confs_as_yaml h hf.1 hf.2
    exact ⟨cs', by simp only [Option.map_some, Json.asYaml]; exact .seq _ cs' h1, h2⟩
theorem confs_as_yaml {env : JEnv} : ∀ {js : List Json} {cs : List (ProcCfg JCfg)}, IsConfs env js cs → Json.TidyL js → ExactConfs js → ∃ cs', IsYConfs (Json.asYamlL env js) cs' ∧ ConfsRel (SameOptions env) cs cs'
  | _, _, .nil, _, _ => ⟨[], by simp only [Json.asYamlL]; exact .nil, .nil⟩
  | _, _, .cons j c js cs h1 h2, ht, hx => by
    simp only [Json.TidyL] at ht
    simp only [ExactConfs] at hx
    obtain ⟨c', a1, a2⟩ := conf_as_yaml h1 ht.1 hx.1
    obtain ⟨cs', b1, b2⟩ := confs_as_yaml h2 ht.2 hx.2
    exact ⟨c' :: cs', by simp only [Json.asYamlL]; exact .cons _ c' _ cs' a1 b1, .cons c c' cs cs' a2 b2⟩
theorem conf_as_yaml {env : JEnv} : ∀ {j : Json} {c : ProcCfg JCfg}, IsConf env j c → j.Tidy → ExactConf j → ∃ c', IsYConf (j.asYaml env) c' ∧ EntriesRel (SameOptions env) c c'
  | _, _, .null, _, _ => ⟨[], by simp only [Json.asYaml]; exact .null _, .nil⟩
  | _, _, .obj es os h, ht, hx => by
    simp only [Json.Tidy] at ht
    simp only [ExactConf] at hx
    obtain ⟨os', h1, h2⟩ := entries_as_yaml h ht.2 hx
    exact ⟨AMap.ofEntries os' [], by simp only [Json.asYaml]; exact .map _ os' (asYamlE_named ht.1) h1, entriesRel_ofEntries h2 .nil⟩
theorem entries_as_yaml {env : JEnv} : ∀ {es : List (Bytes × Json)} {os : List (Bytes × Option (OptCfg JCfg))}, IsEntries env es os → Json.TidyE es → ExactEntries es →
    ∃ os', IsYEntries (Json.asYamlE env es) os' ∧ EntriesRel (SameOptions env) os os'
  | _, _, .nil, _, _ => ⟨[], by simp only [Json.asYamlE]; exact .nil, .nil⟩
  | _, _, .cons k j o es os h1 h2, ht, hx => by
    simp only [Json.TidyE] at ht
    simp only [ExactEntries] at hx
    obtain ⟨os', b1, b2⟩ := entries_as_yaml h2 ht.2 hx.2
    obtain ⟨o', a1, a2⟩ := popt_as_yaml h1 ht.1 hx.1
    refine ⟨(k, o') :: os', by simp only [Json.asYamlE]; exact .entry _ _ k o' _ os' rfl a1 b1, ?_⟩
    have a3 := a2 k
    cases a3 with
    | none _ _ _ _ => exact .none k os os' b2
    | some _ x y _ _ h _ => exact .some k x y os os' h b2
theorem popt_as_yaml {env : JEnv} : ∀ {j : Json} {o : Option (OptCfg JCfg)}, IsPOpt env j o → j.Tidy → ExactOpt j → ∃ o', IsYOpt (j.asYaml env) o' ∧ ∀ k, EntriesRel (SameOptions env) [(k, o)] [(k, o')]
  | _, _, .null, _, _ => ⟨none, by simp only [Json.asYaml]; exact .null _, fun k => .none k [] [] .nil⟩
  | _, _, .obj es o h, ht, hx => by
    obtain ⟨o', h1, h2⟩ := opt_as_yaml h (by simp) ht hx
    exact ⟨some o', h1, fun k => .some k o o' [] [] h2 .nil⟩
end

/-! ## Tidy documents are regular -/

theorem once_of {es : List (Bytes × Json)} (hn : NamesOnce es) {n : Bytes} (hx : ∀ e ∈ es, Folds n e.1 → e.1 = n) : ∃ o, FieldIs es n o := by
  by_cases h : ∃ e ∈ es, e.1 = n
  · obtain ⟨⟨k, j⟩, he, hk⟩ := h
    obtain ⟨pre, post, rfl⟩ := List.append_of_mem he
    unfold NamesOnce at hn
    simp only [List.map_append, List.map_cons, List.nodup_append, List.nodup_cons] at hn
    refine ⟨some j, pre, k, post, rfl, by rw [← hk]; exact folds_self _, ?_, ?_⟩
    · intro e he hf
      have e1 := hx e (by simp [he]) hf
      exact hn.2.2 e.1 (List.mem_map_of_mem he) k (by simp) (e1.trans hk.symm)
    · intro e he hf
      have e1 := hx e (by simp [he]) hf
      exact hn.2.1.1 (by rw [show k = e.1 from hk.trans e1.symm]; exact List.mem_map_of_mem he)
  · refine ⟨none, fun e he hf => h ⟨e, he, hx e he hf⟩⟩

mutual
theorem regOpt_of : ∀ (j : Json), j.Tidy → ExactOpt j → RegOpt j
  | .null, _, _ => by simp only [RegOpt]
  | .bool _, _, _ => by simp only [RegOpt]
  | .num _, _, _ => by simp only [RegOpt]
  | .str _, _, _ => by simp only [RegOpt]
  | .arr _, _, _ => by simp only [RegOpt]
  | .obj es, ht, hx => by
    simp only [Json.Tidy] at ht
    simp only [ExactOpt] at hx
    simp only [RegOpt]
    exact ⟨fun n hn => once_of ht.1 fun e he => hx.1 e he n hn, regFields_of [lit "on_failure"] es (fun e he n hn => hx.1 e he n (by simp only [List.mem_singleton] at hn; simp [optNames, hn])) ht.2 hx.2⟩
theorem regFields_of : ∀ (names : List Bytes) (es : List (Bytes × Json)), (∀ e ∈ es, ∀ n ∈ names, Folds n e.1 → e.1 = n) → Json.TidyE es → ExactFields names es → RegFields names es
  | _, [], _, _, _ => by simp only [RegFields]
  | names, (k, j) :: es, hn, ht, hx => by
    have ih1 := regSlice_of j
    have ih2 := regFields_of names es
    simp only [Json.TidyE] at ht
    simp only [ExactFields] at hx
    simp only [RegFields]
    refine ⟨?_, ih2 (fun e he => hn e (by simp [he])) ht.2 hx.2⟩
    rintro ⟨n, hm, hf⟩
    have := hn (k, j) (by simp) n hm hf
    exact ih1 ht.1 (hx.1 (by rw [show k = n from this]; exact hm))
theorem regSlice_of : ∀ (j : Json), j.Tidy → ExactSlice j → RegSlice j
  | .null, _, _ => by simp only [RegSlice]
  | .bool _, _, _ => by simp only [RegSlice]
  | .num _, _, _ => by simp only [RegSlice]
  | .str _, _, _ => by simp only [RegSlice]
  | .obj _, _, _ => by simp only [RegSlice]
  | .arr js, ht, hx => by
    simp only [Json.Tidy] at ht
    simp only [ExactSlice] at hx
    simp only [RegSlice]
    exact regConfs_of js ht hx
theorem regConfs_of : ∀ (js : List Json), Json.TidyL js → ExactConfs js → RegConfs js
  | [], _, _ => by simp only [RegConfs]
  | j :: js, ht, hx => by
    simp only [Json.TidyL] at ht
    simp only [ExactConfs] at hx
    simp only [RegConfs]
    exact ⟨regConf_of j ht.1 hx.1, regConfs_of js ht.2 hx.2⟩
theorem regConf_of : ∀ (j : Json), j.Tidy → ExactConf j → RegConf j
  | .null, _, _ => by simp only [RegConf]
  | .bool _, _, _ => by simp only [RegConf]
  | .num _, _, _ => by simp only [RegConf]
  | .str _, _, _ => by simp only [RegConf]
  | .arr _, _, _ => by simp only [RegConf]
  | .obj es, ht, hx => by
    simp only [Json.Tidy] at ht
    simp only [ExactConf] at hx
    simp only [RegConf]
    exact regEntries_of es ht.2 hx
theorem regEntries_of : ∀ (es : List (Bytes × Json)), Json.TidyE es → ExactEntries es → RegEntries es
  | [], _, _ => by simp only [RegEntries]
  | (_, j) :: es, ht, hx => by
    simp only [Json.TidyE] at ht
    simp only [ExactEntries] at hx
    simp only [RegEntries]
    exact ⟨regOpt_of j ht.1 hx.1, regEntries_of es ht.2 hx.2⟩
end

theorem regConfig_of {j : Json} (ht : j.Tidy) (hx : ExactConfig j) : RegConfig j := by
  cases j with
  | obj es =>
    simp only [Json.Tidy] at ht
    obtain ⟨h1, h2⟩ := hx
    exact ⟨fun n hn => once_of ht.1 fun e he => h1 e he n hn, regFields_of _ es (fun e he n hn => h1 e he n (by simp only [List.mem_cons, List.not_mem_nil, or_false] at hn ⊢; rcases hn with h | h <;> simp [h])) ht.2 h2⟩
  | _ => trivial

/-! ## Configurations -/

/-- C93: what is accepted as a configuration in JSON is accepted in YAML and is the same configuration, except that integers are not made floating point numbers. -/
theorem json_as_yaml {env : JEnv} {bs : Bytes} {j : Json} (hd : Document j bs) (hn : depth j ≤ 10000) (ht : j.Tidy) (hx : ExactConfig j) {c : JConfig} (hc : unmarshalConfig env bs = some (some c)) :
    ∃ c', decodeYaml (j.asYaml env) = some (some c') ∧ c'.description = c.description ∧ ConfigRel (SameOptions env) c.config c'.config := by
  rcases (unmarshalConfig_iff hd hn (regConfig_of ht hx) (some c)).1 hc with ⟨_, h⟩ | ⟨c', h, hc⟩
  · cases h
  · cases h
    obtain ⟨es, i, d, p, f, rfl, hi, hde, hp, hf, h1, h2, h3, h4⟩ := hc
    simp only [Json.Tidy] at ht
    obtain ⟨hx1, hx2⟩ := hx
    have x : ∀ n ∈ [lit "id", lit "description", lit "processors", lit "on_failure"], ∀ e ∈ es, Folds n e.1 → e.1 = n := fun n hn e he => hx1 e he n hn
    have xi := x (lit "id") (by simp)
    have xd := x (lit "description") (by simp)
    have xp := x (lit "processors") (by simp)
    have xf := x (lit "on_failure") (by simp)
    obtain ⟨ps, p1, p2⟩ := slice_as_yaml h3 (field_fine xp (by simp) ht.2 hx2 hp)
    obtain ⟨fs, f1, f2⟩ := slice_as_yaml h4 (field_fine xf (by simp) ht.2 hx2 hf)
    refine ⟨⟨⟨c.config.id, ps, fs⟩, c.description⟩, ?_, rfl, rfl, p2, f2⟩
    simp only [Json.asYaml]
    exact (decodeYaml_iff _ _).2 (.inr ⟨_, rfl, _, _, _, _, _, rfl, asYamlE_named ht.1, field_as_yaml xi (folds_self _) hi, field_as_yaml xd (folds_self _) hde, field_as_yaml xp (folds_self _) hp, field_as_yaml xf (folds_self _) hf,
      str_as_yaml h1, str_as_yaml h2, p1, f1⟩)

/-! ## Pipelines -/

section
variable {A R C D : Type} {Q : C → D → Prop} {F : Factory A R C} {G : Factory A R D}

theorem newProcessor_rel (hF : ∀ n c d, Q c d → F.newProcessor n c = G.newProcessor n d) {base name cond : Bytes} {i : Nat} {c : C} {d : D} (h : Q c d) {hs hs' : Bytes → Res (Except NewErr (List (Node A R)))} (hh : hs = hs') :
    newProcessor F base i name cond c hs = newProcessor G base i name cond d hs' := by
  unfold newProcessor
  rw [hF name c d h, hh]

mutual
theorem newProcessors_rel (hF : ∀ n c d, Q c d → F.newProcessor n c = G.newProcessor n d) (h0 : Q F.nilConfig G.nilConfig) :
    ∀ {xs : List (ProcCfg C)} {ys : List (ProcCfg D)}, ConfsRel Q xs ys → ∀ (base : Bytes) (i : Nat), newProcessors F base xs i = newProcessors G base ys i
  | _, _, .nil, base, i => by simp only [newProcessors]
  | _, _, .cons x y xs ys h1 h2, base, i => by
    have ih1 := newFrom_rel hF h0 h1 base i
    have ih2 := newProcessors_rel hF h0 h2 base (i + 1)
    simp only [newProcessors]
    rw [ih1, ih2]
theorem newFrom_rel (hF : ∀ n c d, Q c d → F.newProcessor n c = G.newProcessor n d) (h0 : Q F.nilConfig G.nilConfig) :
    ∀ {x : ProcCfg C} {y : ProcCfg D}, EntriesRel Q x y → ∀ (base : Bytes) (i : Nat), newFrom F base i x = newFrom G base i y
  | _, _, .nil, base, i => by simp only [newFrom]
  | _, _, .none n xs ys h, base, i => by
    cases h with
    | nil =>
      simp only [newFrom, newEntry, newOptions]
      exact newProcessor_rel hF h0 rfl
    | none => simp only [newFrom]
    | some => simp only [newFrom]
  | _, _, .some n x y xs ys h1 h2, base, i => by
    have ih := newOption_rel hF h0 h1 base i n
    cases h2 with
    | nil =>
      simp only [newFrom, newEntry, newOptions]
      exact ih
    | none => simp only [newFrom]
    | some => simp only [newFrom]
theorem newOption_rel (hF : ∀ n c d, Q c d → F.newProcessor n c = G.newProcessor n d) (h0 : Q F.nilConfig G.nilConfig) :
    ∀ {x : OptCfg C} {y : OptCfg D}, OptRel Q x y → ∀ (base : Bytes) (i : Nat) (name : Bytes), newOption F base i name x = newOption G base i name y
  | _, _, .mk id cond xs ys c d h hc, base, i, name => by
    have ih := newProcessors_rel hF h0 h
    simp only [newOption]
    exact newProcessor_rel hF hc (funext fun b => ih b 0)
end

/-- Configurations that differ only in options that the processors take alike give the same pipeline, or the same error. -/
theorem new_rel (hF : ∀ n c d, Q c d → F.newProcessor n c = G.newProcessor n d) (h0 : Q F.nilConfig G.nilConfig) {x : Config C} {y : Config D} (h : ConfigRel Q x y) : Pipeline.new F x = Pipeline.new G y := by
  obtain ⟨h1, h2, h3⟩ := h
  unfold Pipeline.new
  rw [h1, newProcessors_rel hF h0 h2, newProcessors_rel hF h0 h3]
end

/-- C93: so a configuration in JSON gives the same pipeline, or the same error, if it is read as YAML, provided the processors take integers as they take the floating point numbers of the same text. -/
theorem json_yaml_pipeline {A R : Type} {env : JEnv} {F : Factory A R JCfg} {G : Factory A R YCfg} (hF : ∀ n c d, SameOptions env c d → F.newProcessor n c = G.newProcessor n d) (h0 : SameOptions env F.nilConfig G.nilConfig)
    {bs : Bytes} {j : Json} (hd : Document j bs) (hn : depth j ≤ 10000) (ht : j.Tidy) (hx : ExactConfig j) {c : JConfig} (hc : unmarshalConfig env bs = some (some c))
    {parse : Bytes → Option (Option Yaml)} (hp : parse bs = some (some (j.asYaml env))) :
    ∃ c', yamlDecode parse bs = some (some c') ∧ newOrPanic G (some c') = Pipeline.newFromPtr F (some c) := by
  obtain ⟨c', h1, _, h2⟩ := json_as_yaml hd hn ht hx hc
  refine ⟨c'.config, ?_, (new_rel hF h0 h2).symm⟩
  unfold yamlDecode
  rw [hp]
  simp only [h1, Option.map_some]

end Sawmill
