import Verif.Lemmas.JsonDec
import Verif.Spec.ConfigJson
/-!
# Encoding a configuration as JSON
-/

namespace Sawmill
open Rfc

/-- The outcome of encoding a part: its text if there is no infinity and no NaN in it; an error only if there is, or if it is nested too deeply. -/
def Enc0 (env : JEnv) (v : Val) (r : JOut Bytes) : Prop :=
  (v.FiniteFloats ∧ ∃ t j, r = .ok t ∧ Text j t ∧ Says env v j) ∨ (r = .error ∧ ¬ (v.FiniteFloats ∧ v.nest ≤ 10000))

theorem Enc0.of {env : JEnv} {v : Val} {r : JOut Bytes} (h : EncVal env v r) : Enc0 env v r := by
  rcases h with ⟨h1, t, h2, j, h3, h4⟩ | ⟨h1, h2⟩
  · exact .inl ⟨h1.1, t, j, h2, h3, h4⟩
  · exact .inr ⟨h2, h1⟩

theorem Enc0.compact {env : JEnv} {v : Val} {r : JOut Bytes} (h : Enc0 env v r) : EncVal env v (r.bind compact) := by
  rcases h with ⟨h1, t, j, rfl, h3, h4⟩ | ⟨rfl, h1⟩
  · simp only [bind_ok]
    by_cases hd : v.nest ≤ 10000
    · exact .inl ⟨⟨h1, hd⟩, t, compact_ok h3 (by rw [says_depth _ _ h4]; exact hd), j, h3, h4⟩
    · exact .inr ⟨fun hc => hd hc.2, compact_error h3 (by rw [says_depth _ _ h4]; exact hd)⟩
  · exact .inr ⟨h1, rfl⟩

def Enc0L (env : JEnv) : List Val → List (JOut Bytes) → Prop
  | [], rs => rs = []
  | v :: vs, rs => ∃ r t, rs = r :: t ∧ Enc0 env v r ∧ Enc0L env vs t

def Enc0E (env : JEnv) : List (Bytes × Val) → List (Bytes × JOut Bytes) → Prop
  | [], rs => rs = []
  | (k, v) :: es, rs => ∃ r t, rs = (k, r) :: t ∧ Enc0 env v r ∧ Enc0E env es t

theorem enc0L_join {env : JEnv} : ∀ (vs : List Val) (rs : List (JOut Bytes)), Enc0L env vs rs →
    (Val.FiniteFloatsL vs ∧ ∃ t js, joinText id rs = .ok t ∧ Body js t ∧ SaysL env vs js) ∨ (joinText id rs = .error ∧ ¬ (Val.FiniteFloatsL vs ∧ Val.nestL vs ≤ 10000))
  | [], rs, h => by
    rw [show rs = _ from h]
    exact .inl ⟨trivial, [], [], rfl, rfl, rfl⟩
  | [v], rs, h => by
    obtain ⟨r, t, rfl, h1, h2⟩ := h
    rw [show t = _ from h2]
    simp only [joinText, id]
    rcases h1 with ⟨hf, t, j, rfl, ht, hs⟩ | ⟨rfl, hn⟩
    · exact .inl ⟨⟨hf, trivial⟩, t, [j], rfl, ⟨t, [], by simp, ht, rfl⟩, ⟨j, [], rfl, hs, rfl⟩⟩
    · exact .inr ⟨rfl, fun hc => hn ⟨hc.1.1, by have := hc.2; simp only [Val.nestL] at this; omega⟩⟩
  | v :: v2 :: vs, rs, h => by
    obtain ⟨r, t, rfl, h1, h2⟩ := h
    have ih := enc0L_join (v2 :: vs) t h2
    obtain ⟨r2, t2, rfl, _, _⟩ := h2
    rw [joinText_cons]
    rcases h1 with ⟨hf, t, j, rfl, ht, hs⟩ | ⟨rfl, hn⟩
    · simp only [id, bind_ok]
      rcases ih with ⟨hf', t', js, e', hb, hss⟩ | ⟨e', hn⟩
      · rw [e', bind_ok]
        refine .inl ⟨⟨hf, hf'⟩, _, j :: js, rfl, ?_, ⟨j, js, rfl, hs, hss⟩⟩
        obtain ⟨j2, r2, rfl, _, _⟩ := hss
        obtain ⟨u, r, rfl, hu, hr2⟩ := hb
        exact ⟨t, 44 :: (u ++ r), rfl, ht, [], u, [], r, by simp, ws_nil, ws_nil, hu, hr2⟩
      · rw [e', bind_error]
        exact .inr ⟨rfl, fun hc => hn ⟨hc.1.2, by have := hc.2; rw [Val.nestL] at this; omega⟩⟩
    · exact .inr ⟨rfl, fun hc => hn ⟨hc.1.1, by have := hc.2; rw [Val.nestL] at this; omega⟩⟩

theorem enc0E_join {env : JEnv} : ∀ (vs : List (Bytes × Val)) (rs : List (Bytes × JOut Bytes)), Enc0E env vs rs →
    let r := joinText (fun e : Bytes × JOut Bytes => e.2.bind fun t => .ok (encStr e.1 ++ 58 :: t)) rs
    (Val.FiniteFloatsE vs ∧ ∃ t js, r = .ok t ∧ BodyE js t ∧ SaysE env vs js) ∨ (r = .error ∧ ¬ (Val.FiniteFloatsE vs ∧ Val.nestE vs ≤ 10000))
  | [], rs, h => by
    rw [show rs = _ from h]
    exact .inl ⟨trivial, [], [], rfl, rfl, rfl⟩
  | [(k, v)], rs, h => by
    obtain ⟨r, t, rfl, h1, h2⟩ := h
    rw [show t = _ from h2]
    simp only [joinText]
    obtain ⟨q, k', e, h3, h4⟩ := encStr_spec k
    rcases h1 with ⟨hf, t, j, rfl, ht, hs⟩ | ⟨rfl, hn⟩
    · exact .inl ⟨⟨hf, trivial⟩, _, [(k', j)], rfl, ⟨q, t, [], by rw [e]; simp, h4, ht, rfl⟩, ⟨k', j, [], rfl, h3, hs, rfl⟩⟩
    · exact .inr ⟨rfl, fun hc => hn ⟨hc.1.1, by have := hc.2; simp only [Val.nestE] at this; omega⟩⟩
  | (k, v) :: (k2, v2) :: vs, rs, h => by
    obtain ⟨r, t, rfl, h1, h2⟩ := h
    have ih := enc0E_join ((k2, v2) :: vs) t h2
    obtain ⟨r2, t2, rfl, _, _⟩ := h2
    obtain ⟨q, k', e, h3, h4⟩ := encStr_spec k
    simp only [joinText_cons]
    rcases h1 with ⟨hf, t, j, rfl, ht, hs⟩ | ⟨rfl, hn⟩
    · simp only [bind_ok]
      rcases ih with ⟨hf', t', js, e', hb, hss⟩ | ⟨e', hn⟩
      · rw [e', bind_ok]
        refine .inl ⟨⟨hf, hf'⟩, _, (k', j) :: js, rfl, ?_, ⟨k', j, js, rfl, h3, hs, hss⟩⟩
        obtain ⟨k2', j2, r2, rfl, _, _, _⟩ := hss
        obtain ⟨q2, u2, r, rfl, hq2, hu, hr2⟩ := hb
        exact ⟨q, t, 44 :: (34 :: (q2 ++ 34 :: 58 :: (u2 ++ r))), by rw [e]; simp, h4, ht, [], q2, [], [], u2, [], r, by simp, ws_nil, ws_nil, ws_nil, ws_nil, hq2, hu, hr2⟩
      · rw [e', bind_error]
        exact .inr ⟨rfl, fun hc => hn ⟨hc.1.2, by have := hc.2; rw [Val.nestE] at this; omega⟩⟩
    · exact .inr ⟨rfl, fun hc => hn ⟨hc.1.1, by have := hc.2; rw [Val.nestE] at this; omega⟩⟩

theorem enc0_arr {env : JEnv} {vs : List Val} {rs : List (JOut Bytes)} (h : Enc0L env vs rs) : Enc0 env (.arr vs) (arrText rs) := by
  unfold arrText
  rcases enc0L_join vs rs h with ⟨h1, t, js, e, hb, hs⟩ | ⟨e, hn⟩
  · rw [e, bind_ok]
    exact .inl ⟨h1, _, .arr js, rfl, hb.text, js, rfl, hs⟩
  · rw [e, bind_error]
    exact .inr ⟨rfl, fun hc => hn ⟨hc.1, by have := hc.2; simp only [Val.nest] at this; omega⟩⟩

theorem enc0_obj {env : JEnv} {vs : List (Bytes × Val)} {rs : List (Bytes × JOut Bytes)} (h : Enc0E env vs rs) : Enc0 env (.obj vs) (mapText rs) := by
  unfold mapText
  rcases enc0E_join vs rs h with ⟨h1, t, js, e, hb, hs⟩ | ⟨e, hn⟩
  · rw [e, bind_ok]
    exact .inl ⟨h1, _, .obj js, rfl, hb.text, js, rfl, hs⟩
  · rw [e, bind_error]
    exact .inr ⟨rfl, fun hc => hn ⟨hc.1, by have := hc.2; simp only [Val.nest] at this; omega⟩⟩

theorem enc0_leaf {env : JEnv} {v : Val} {j : Json} {t : Bytes} (h1 : v.FiniteFloats) (ht : Text j t) (hs : Says env v j) : Enc0 env v (.ok t) := .inl ⟨h1, t, j, rfl, ht, hs⟩

theorem enc0_str {env : JEnv} (s : Bytes) : Enc0 env (.scalar (.str s)) (.ok (encStr s)) := by
  obtain ⟨s', h1, h2⟩ := repaired_text s
  exact enc0_leaf (j := .str s') trivial h1 ⟨s', rfl, h2⟩

mutual
theorem encI_spec {env : JEnv} (hl : env.Lawful) : ∀ (v : Val), Enc0 env v (encI env v)
  | .nilp => enc0_leaf trivial text_null rfl
  | .scalar .null => enc0_leaf trivial text_null rfl
  | .scalar (.bool b) => enc0_leaf (j := .bool b) trivial (by simp [Text]) rfl
  | .scalar (.int i) => by
    have := intLit_int i.toInt
    exact enc0_leaf (j := .num _) trivial ⟨rfl, this.1⟩ ⟨_, rfl, this⟩
  | .scalar (.uint u) => by
    have := intLit_nat u.toNat
    exact enc0_leaf (j := .num _) trivial ⟨rfl, this.1⟩ ⟨_, rfl, this⟩
  | .scalar (.float f) => by
    simp only [encI]
    by_cases hf : finite f = true
    · rw [if_pos hf]
      exact enc0_leaf (j := .num _) hf ⟨rfl, hl.number f hf⟩ rfl
    · rw [if_neg hf]
      exact .inr ⟨rfl, fun hc => hf hc.1⟩
  | .scalar (.str s) => enc0_str s
  | .scalar (.ts t) => by
    obtain ⟨s, h1, h2⟩ := timestamp_json t
    rw [encI, compact_ok h1 (by simp [depth])]
    exact enc0_leaf (j := .str s) trivial h1 ⟨s, rfl, h2⟩
  | .arrNil => enc0_leaf trivial text_null rfl
  | .arr vs => by rw [encI]; exact enc0_arr (encIL_spec hl vs)
  | .objNil => enc0_leaf trivial text_null rfl
  | .obj es => by rw [encI]; exact enc0_obj (encIE_spec hl es)
theorem encIL_spec {env : JEnv} (hl : env.Lawful) : ∀ (vs : List Val), Enc0L env vs (encIL env vs)
  | [] => rfl
  | v :: vs => ⟨_, _, rfl, encI_spec hl v, encIL_spec hl vs⟩
theorem encIE_spec {env : JEnv} (hl : env.Lawful) : ∀ (es : List (Bytes × Val)), Enc0E env es (encIE env es)
  | [] => rfl
  | (k, v) :: es => ⟨_, _, rfl, encI_spec hl v, encIE_spec hl es⟩
end

theorem enc0E_insert {env : JEnv} (k : Bytes) {v : Val} {r : JOut Bytes} (h : Enc0 env v r) : ∀ (m : AMap Val) (rs : AMap (JOut Bytes)), Enc0E env m rs → Enc0E env (AMap.insert m k v) (AMap.insert rs k r)
  | [], rs, hm => by
    rw [show rs = _ from hm]
    exact ⟨r, [], rfl, h, rfl⟩
  | (k', v') :: m, rs, hm => by
    obtain ⟨r', t, rfl, h1, h2⟩ := hm
    simp only [AMap.insert]
    split
    · exact ⟨_, _, rfl, h, h2⟩
    · split
      · exact ⟨_, _, rfl, h, _, _, rfl, h1, h2⟩
      · exact ⟨_, _, rfl, h1, enc0E_insert k h m t h2⟩

theorem enc0E_ofEntries {env : JEnv} : ∀ (es : List (Bytes × Val)) (rs : List (Bytes × JOut Bytes)) (m : AMap Val) (ms : AMap (JOut Bytes)), Enc0E env es rs → Enc0E env m ms →
    Enc0E env (AMap.ofEntries es m) (AMap.ofEntries rs ms)
  | [], rs, m, ms, h, hm => by
    rw [show rs = _ from h]
    exact hm
  | (k, v) :: es, rs, m, ms, h, hm => by
    obtain ⟨r', t, rfl, h1, h2⟩ := h
    simp only [AMap.ofEntries_cons]
    exact enc0E_ofEntries es t _ _ h2 (enc0E_insert k h1 m ms hm)

theorem enc0E_append {env : JEnv} : ∀ (a : List (Bytes × Val)) (as : List (Bytes × JOut Bytes)) {b : List (Bytes × Val)} {bs : List (Bytes × JOut Bytes)}, Enc0E env a as → Enc0E env b bs →
    Enc0E env (a ++ b) (as ++ bs)
  | [], as, b, bs, h1, h2 => by
    rw [show as = _ from h1]
    exact h2
  | (k, v) :: a, as, b, bs, h1, h2 => by
    obtain ⟨r', t, rfl, h3, h4⟩ := h1
    exact ⟨_, _, rfl, h3, enc0E_append a t h4 h2⟩

theorem enc0E_textField {env : JEnv} (name s : Bytes) : Enc0E env (textField name s) (if s = [] then [] else [(name, .ok (encStr s))]) := by
  unfold textField
  split
  · rfl
  · exact ⟨_, _, rfl, enc0_str s, rfl⟩

theorem names_lt : bLt (lit "id") (lit "if") = true ∧ bLt (lit "id") (lit "on_failure") = true ∧ bLt (lit "if") (lit "on_failure") = true := by decide +kernel

/-- What `MarshalJSON` has in its map before it adds the processor's own options. -/
theorem optMap_base (id cond : Bytes) (f : Option (JOut Bytes)) (config : AMap (JOut Bytes)) :
    optMap id cond f config = AMap.ofEntries config ((if id = [] then [] else [(lit "id", .ok (encStr id))]) ++ (if cond = [] then [] else [(lit "if", .ok (encStr cond))]) ++ (f.map fun t => (lit "on_failure", t)).toList) := by
  unfold optMap
  have n1 : lit "if" ≠ lit "id" := by decide +kernel
  have n2 : lit "on_failure" ≠ lit "id" := by decide +kernel
  have n3 : lit "on_failure" ≠ lit "if" := by decide +kernel
  have l1 : bLt (lit "if") (lit "id") = false := by decide +kernel
  have l2 : bLt (lit "on_failure") (lit "id") = false := by decide +kernel
  have l3 : bLt (lit "on_failure") (lit "if") = false := by decide +kernel
  by_cases h1 : id = [] <;> by_cases h2 : cond = [] <;> cases f <;> simp [h1, h2, AMap.insert, n1.symm, n2.symm, n3.symm, l1, l2, l3]

mutual
theorem marshalOpt_enc {env : JEnv} (hl : env.Lawful) : ∀ (o : OptCfg JCfg), EncVal env (optVal o) (marshalOpt env o)
  | .mk id cond onF config => by
    rw [optVal, marshalOpt, optMap_base]
    refine Enc0.compact (enc0_obj (enc0E_ofEntries _ _ _ _ (encIE_spec hl _) ?_))
    refine enc0E_append _ _ (enc0E_append _ _ (enc0E_textField _ _) (enc0E_textField _ _)) ?_
    have := marshalConfs_enc hl onF
    split
    · rfl
    · exact ⟨_, _, rfl, enc0_arr this, rfl⟩
theorem marshalConfs_enc {env : JEnv} (hl : env.Lawful) : ∀ (cs : List (ProcCfg JCfg)), Enc0L env (confsVal cs) (marshalConfs env cs)
  | [] => rfl
  | c :: cs => ⟨_, _, rfl, enc0_obj (marshalEntries_enc hl c), marshalConfs_enc hl cs⟩
theorem marshalEntries_enc {env : JEnv} (hl : env.Lawful) : ∀ (es : List (Bytes × Option (OptCfg JCfg))), Enc0E env (entriesVal es) (marshalEntries env es)
  | [] => rfl
  | (_, o) :: es => ⟨_, _, rfl, marshalPOpt_enc hl o, marshalEntries_enc hl es⟩
theorem marshalPOpt_enc {env : JEnv} (hl : env.Lawful) : ∀ (o : Option (OptCfg JCfg)), Enc0 env (popt o) (marshalPOpt env o)
  | none => enc0_leaf trivial text_null rfl
  | some o => Enc0.of (marshalOpt_enc hl o)
end

theorem enc0E_procsField {env : JEnv} (hl : env.Lawful) (name : Bytes) (cs : List (ProcCfg JCfg)) : Enc0E env (procsField name cs) (if cs.isEmpty then [] else [(name, arrText (marshalConfs env cs))]) := by
  unfold procsField
  split
  · rfl
  · exact ⟨_, _, rfl, enc0_arr (marshalConfs_enc hl cs), rfl⟩

theorem marshalConfig_enc {env : JEnv} (hl : env.Lawful) (c : JConfig) : Enc0 env (cfgVal c) (marshalConfig env c) :=
  enc0_obj (enc0E_append _ _ (enc0E_append _ _ (enc0E_append _ _ (enc0E_textField _ _) (enc0E_textField _ _)) (enc0E_procsField hl _ _)) (enc0E_procsField hl _ _))

end Sawmill
