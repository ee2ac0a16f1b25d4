import Verif.Spec.Yaml
import Verif.Props.ConfigJson
/-!
# C93: configurations as YAML
-/

namespace Sawmill

/-! ## Keys -/

theorem looks_iff (a b : Yaml) : a.LooksLike b ↔ a.kindValue = b.kindValue := by
  constructor
  · rintro (_ | _) <;> rfl
  · intro h
    cases a <;> cases b <;> simp only [Yaml.kindValue, Prod.mk.injEq] at h <;> first
      | (obtain ⟨_, rfl⟩ := h; constructor)
      | constructor
      | (exfalso; omega)

theorem repeatedKey_iff (es : List (Yaml × Yaml)) : repeatedKey es = false ↔ Unrepeated es := by
  induction es with
  | nil => simp [repeatedKey, Unrepeated]
  | cons e es ih =>
    obtain ⟨k, y⟩ := e
    simp only [repeatedKey, Bool.or_eq_false_iff, ih, Unrepeated, List.pairwise_cons, looks_iff]
    simp [List.any_eq_false]

theorem yName_iff (k : Yaml) (o : Option Bytes) : yName k = some o ↔ k.Scalar ∧ k.name = o := by
  cases k with
  | str t => simp [yName, Yaml.Scalar, Yaml.name]
  | plain t v => cases v <;> simp [yName, Yaml.Scalar, Yaml.name]
  | seq ys => simp [yName, Yaml.Scalar]
  | map es => simp [yName, Yaml.Scalar]

theorem yName_none (k : Yaml) : yName k = none ↔ ¬ k.Scalar := by
  cases k with
  | str t => simp [yName, Yaml.Scalar]
  | plain t v => cases v <;> simp [yName, Yaml.Scalar]
  | seq ys => simp [yName, Yaml.Scalar]
  | map es => simp [yName, Yaml.Scalar]

/-- Two scalars with the same name look alike. -/
theorem looks_of_name {a b : Yaml} {n : Bytes} (ha : a.name = some n) (hb : b.name = some n) : a.LooksLike b := by
  rw [looks_iff]
  cases a <;> cases b <;> simp_all [Yaml.name, Yaml.kindValue]

theorem under_unique {es : List (Yaml × Yaml)} {n : Bytes} {x y : Option Yaml} (hu : Unrepeated es) (hx : UnderName es n x) (hy : UnderName es n y) : x = y := by
  induction es generalizing x y with
  | nil =>
    cases x with
    | some _ => obtain ⟨_, h, _⟩ := hx; cases h
    | none => cases y with
      | some _ => obtain ⟨_, h, _⟩ := hy; cases h
      | none => rfl
  | cons e es ih =>
    obtain ⟨k, z⟩ := e
    have hu' := List.pairwise_cons.1 hu
    by_cases hk : k.name = some n
    · have only : ∀ k' z', (k', z') ∈ (k, z) :: es → k'.name = some n → z' = z := by
        intro k' z' hm hn
        rcases List.mem_cons.1 hm with h | h
        · exact (Prod.mk.inj h).2
        · exact absurd (looks_of_name hk hn) (hu'.1 _ h)
      have none_out : ¬ UnderName ((k, z) :: es) n none := fun h => h (k, z) (by simp) hk
      cases x with
      | none => exact absurd hx none_out
      | some x =>
        cases y with
        | none => exact absurd hy none_out
        | some y =>
          obtain ⟨k1, h1, h1n⟩ := hx
          obtain ⟨k2, h2, h2n⟩ := hy
          rw [only _ _ h1 h1n, only _ _ h2 h2n]
    · have down : ∀ o, UnderName ((k, z) :: es) n o → UnderName es n o := by
        intro o ho
        cases o with
        | none => exact fun e he => ho e (by simp [he])
        | some o =>
          obtain ⟨k', hm, hn⟩ := ho
          rcases List.mem_cons.1 hm with h | h
          · exact absurd ((Prod.mk.inj h).1 ▸ hn) hk
          · exact ⟨k', h, hn⟩
      exact ih hu'.2 (down _ hx) (down _ hy)

/-- What is under a name: the first such entry. -/
def yFind (n : Bytes) : List (Yaml × Yaml) → Option Yaml
  | [] => none
  | (k, y) :: es => if k.name = some n then some y else yFind n es

theorem under_find (es : List (Yaml × Yaml)) (n : Bytes) : UnderName es n (yFind n es) := by
  induction es with
  | nil => intro e he; cases he
  | cons e es ih =>
    obtain ⟨k, y⟩ := e
    unfold yFind
    by_cases hk : k.name = some n
    · rw [if_pos hk]; exact ⟨k, by simp, hk⟩
    · rw [if_neg hk]
      cases h : yFind n es with
      | none =>
        rw [h] at ih
        intro e he
        rcases List.mem_cons.1 he with h | h
        · subst h; exact hk
        · exact ih e h
      | some z =>
        rw [h] at ih
        obtain ⟨k', hm, hn⟩ := ih
        exact ⟨k', by simp [hm], hn⟩

theorem find_iff {es : List (Yaml × Yaml)} (hu : Unrepeated es) (n : Bytes) (o : Option Yaml) : UnderName es n o ↔ yFind n es = o :=
  ⟨fun h => under_unique hu (under_find es n) h, fun h => h ▸ under_find es n⟩

theorem find_mem {es : List (Yaml × Yaml)} {n : Bytes} {y : Yaml} (h : yFind n es = some y) : ∃ k, (k, y) ∈ es := by
  have := under_find es n
  rw [h] at this
  obtain ⟨k, hm, _⟩ := this
  exact ⟨k, hm⟩

theorem find_tail {k y : Yaml} {es : List (Yaml × Yaml)} {n : Bytes} (hu : Unrepeated ((k, y) :: es)) (hk : k.name = some n) : yFind n es = none := by
  cases h : yFind n es with
  | none => rfl
  | some z =>
    have := under_find es n
    rw [h] at this
    obtain ⟨k', hm, hn⟩ := this
    exact absurd (looks_of_name hk hn) ((List.pairwise_cons.1 hu).1 _ hm)

theorem named_cons {k y : Yaml} {es : List (Yaml × Yaml)} : NamedKeys ((k, y) :: es) ↔ (∀ e ∈ es, ¬ k.LooksLike e.1) ∧ k.Scalar ∧ NamedKeys es := by
  unfold NamedKeys Unrepeated
  simp only [List.pairwise_cons, List.mem_cons, forall_eq_or_imp]
  constructor
  · rintro ⟨⟨a, b⟩, c, d⟩; exact ⟨a, c, b, d⟩
  · rintro ⟨a, c, b, d⟩; exact ⟨⟨a, b⟩, c, d⟩

/-! ## Strings -/

/-- A field of text that holds `s`. -/
def yStrAt : Option Yaml → Bytes → Option Bytes
  | none, s => some s
  | some y, s => yString y s

theorem yStrAt_iff (o : Option Yaml) (s : Bytes) : yStrAt o [] = some s ↔ YStrIs o s := by
  cases o with
  | none =>
    refine ⟨fun h => ?_, fun h => by cases h; rfl⟩
    cases h; exact .absent
  | some y =>
    show yString y [] = some s ↔ _
    cases y with
    | str t => exact ⟨fun h => by cases h; exact .str s, fun h => by cases h; rfl⟩
    | plain t v =>
      by_cases hv : v = .null
      · subst hv
        refine ⟨fun h => by cases h; exact .null t, fun h => ?_⟩
        cases h with
        | null => rfl
        | plain _ _ h => exact absurd rfl h
      · have e : yString (.plain t v) [] = some t := by cases v <;> first | rfl | exact absurd rfl hv
        rw [e]
        refine ⟨fun h => by cases h; exact .plain s v hv, fun h => ?_⟩
        cases h with
        | null => exact absurd rfl hv
        | plain => rfl
    | seq ys => exact ⟨fun h => (by cases h), fun h => (by cases h)⟩
    | map es => exact ⟨fun h => (by cases h), fun h => (by cases h)⟩

/-! ## Values without a type -/

theorem isStringMap_cons (k y : Yaml) (es : List (Yaml × Yaml)) : isStringMap ((k, y) :: es) = true ↔ (∃ t, k = .str t) ∧ isStringMap es = true := by
  cases k <;> simp [isStringMap]

theorem isStringMap_false (es : List (Yaml × Yaml)) : isStringMap es = false ↔ ∃ e ∈ es, ∀ t, e.1 ≠ .str t := by
  induction es with
  | nil => simp [isStringMap]
  | cons e es ih =>
    obtain ⟨k, y⟩ := e
    have hc := isStringMap_cons k y es
    simp only [List.mem_cons, exists_eq_or_imp, ← ih]
    cases h : isStringMap ((k, y) :: es) with
    | true =>
      obtain ⟨⟨t, ht⟩, h2⟩ := hc.1 h
      simp [h2, ht]
    | false =>
      simp only [true_iff]
      by_cases hk : ∃ t, k = .str t
      · right
        cases h2 : isStringMap es with
        | false => rfl
        | true => rw [hc.2 ⟨hk, h2⟩] at h; cases h
      · left
        intro t ht
        exact hk ⟨t, ht⟩

mutual
theorem isAny_of : ∀ (y : Yaml) {v : YVal}, yAny y = some v → IsAny y v
  | .str t, v, h => by simp only [yAny, Option.some.injEq] at h; subst h; exact .str t
  | .plain t p, v, h => by simp only [yAny, Option.some.injEq] at h; subst h; exact .plain t p
  | .seq ys, v, h => by
    simp only [yAny, Option.map_eq_some_iff] at h
    obtain ⟨vs, hv, rfl⟩ := h
    exact .seq ys vs (isAnyL_of ys hv)
  | .map es, v, h => by
    have ihS := @isAnyS_of es
    have ihG := @isAnyG_of es
    simp only [yAny] at h
    by_cases hr : repeatedKey es = true
    · rw [if_pos hr] at h; cases h
    · rw [if_neg hr] at h
      have hu := (repeatedKey_iff es).1 (by simpa using hr)
      by_cases hs : isStringMap es = true
      · rw [if_pos hs, Option.map_eq_some_iff] at h
        obtain ⟨m, hm, rfl⟩ := h
        obtain ⟨ns, hn, rfl⟩ := ihS hs hm
        exact .smap es ns hu hn
      · rw [if_neg hs, Option.map_eq_some_iff] at h
        obtain ⟨gs, hg, rfl⟩ := h
        exact .gmap es gs hu ((isStringMap_false es).1 (by simpa using hs)) (ihG hg)
theorem isAnyL_of : ∀ (ys : List Yaml) {vs : List YVal}, yAnyL ys = some vs → IsAnyL ys vs
  | [], vs, h => by simp only [yAnyL, Option.some.injEq] at h; subst h; exact .nil
  | y :: ys, vs, h => by
    have ih1 := @isAny_of y
    have ih2 := @isAnyL_of ys
    simp only [yAnyL] at h
    cases h1 : yAny y with
    | none => rw [h1] at h; cases h
    | some v =>
      cases h2 : yAnyL ys with
      | none => rw [h1, h2] at h; cases h
      | some ws => rw [h1, h2] at h; cases h; exact .cons y v ys ws (ih1 h1) (ih2 h2)
theorem isAnyS_of : ∀ (es : List (Yaml × Yaml)) {m r : AMap YVal}, isStringMap es = true → yAnyS es m = some r → ∃ ns, IsAnyS es ns ∧ r = AMap.ofEntries ns m
  | [], m, r, _, h => by simp only [yAnyS, Option.some.injEq] at h; subst h; exact ⟨[], .nil, rfl⟩
  | (k, y) :: es, m, r, hs, h => by
    have ih1 := @isAny_of y
    have ih2 := @isAnyS_of es
    obtain ⟨⟨t, rfl⟩, hs'⟩ := (isStringMap_cons k y es).1 hs
    simp only [yAnyS, yName] at h
    cases h1 : yAny y with
    | none => rw [h1] at h; cases h
    | some v =>
      rw [h1] at h
      obtain ⟨ns, hn, hr⟩ := ih2 hs' h
      exact ⟨(t, v) :: ns, .cons t y v es ns (ih1 h1) hn, by rw [hr, AMap.ofEntries_cons]⟩
theorem isAnyG_of : ∀ (es : List (Yaml × Yaml)) {gs : List (YKey × YVal)}, yAnyG es = some gs → IsAnyG es gs
  | [], gs, h => by simp only [yAnyG, Option.some.injEq] at h; subst h; exact .nil
  | (k, y) :: es, gs, h => by
    have ih1 := @isAny_of y
    have ih2 := @isAnyG_of es
    simp only [yAnyG] at h
    cases hk : yKey k with
    | none => rw [hk] at h; cases h
    | some k' =>
      cases h1 : yAny y with
      | none => rw [hk, h1] at h; cases h
      | some v =>
        cases h2 : yAnyG es with
        | none => rw [hk, h1, h2] at h; cases h
        | some r =>
          rw [hk, h1, h2] at h
          cases h
          cases k with
          | str t => cases hk; exact .str t y v es r (ih1 h1) (ih2 h2)
          | plain t p => cases hk; exact .plain t p y v es r (ih1 h1) (ih2 h2)
          | seq => cases hk
          | map => cases hk
end

theorem isAnyS_strings {es : List (Yaml × Yaml)} {ns : List (Bytes × YVal)} (h : IsAnyS es ns) : isStringMap es = true := by
  induction es generalizing ns with
  | nil => rfl
  | cons e es ih =>
    cases h with
    | cons t y v es ns h1 h2 => exact (isStringMap_cons _ _ _).2 ⟨⟨t, rfl⟩, ih h2⟩

mutual
theorem yAny_of : ∀ {y : Yaml} {v : YVal}, IsAny y v → yAny y = some v
  | _, _, .str t => by simp only [yAny]
  | _, _, .plain t p => by simp only [yAny]
  | _, _, .seq ys vs h => by simp only [yAny, yAnyL_of h, Option.map_some]
  | _, _, .smap es ns hu h => by
    simp only [yAny]
    rw [if_neg (by rw [(repeatedKey_iff es).2 hu]; simp), if_pos (isAnyS_strings h), yAnyS_of h]
    rfl
  | _, _, .gmap es gs hu hk h => by
    simp only [yAny]
    rw [if_neg (by rw [(repeatedKey_iff es).2 hu]; simp), if_neg (by rw [(isStringMap_false es).2 hk]; simp), yAnyG_of h]
    rfl
theorem yAnyL_of : ∀ {ys : List Yaml} {vs : List YVal}, IsAnyL ys vs → yAnyL ys = some vs
  | _, _, .nil => by simp only [yAnyL]
  | _, _, .cons y v ys vs h1 h2 => by simp only [yAnyL, yAny_of h1, yAnyL_of h2]
theorem yAnyS_of : ∀ {es : List (Yaml × Yaml)} {ns : List (Bytes × YVal)} {m : AMap YVal}, IsAnyS es ns → yAnyS es m = some (AMap.ofEntries ns m)
  | _, _, _, .nil => by simp only [yAnyS]; rfl
  | _, _, _, .cons t y v es ns h1 h2 => by simp only [yAnyS, yName, yAny_of h1, yAnyS_of h2, AMap.ofEntries_cons]
theorem yAnyG_of : ∀ {es : List (Yaml × Yaml)} {gs : List (YKey × YVal)}, IsAnyG es gs → yAnyG es = some gs
  | _, _, .nil => by simp only [yAnyG]
  | _, _, .str t y v es gs h1 h2 => by simp only [yAnyG, yKey, yAny_of h1, yAnyG_of h2]
  | _, _, .plain t p y v es gs h1 h2 => by simp only [yAnyG, yKey, yAny_of h1, yAnyG_of h2]
end

/-- What a node is where nothing is said about its type. -/
theorem yAny_iff (y : Yaml) (v : YVal) : yAny y = some v ↔ IsAny y v := ⟨isAny_of y, yAny_of⟩

/-! ## The options of a processor -/

/-- A list of processors that is there or not; `cs` is what the field holds. -/
def ySliceAt : Option Yaml → List (ProcCfg YCfg) → Option (List (ProcCfg YCfg))
  | none, cs => some cs
  | some y, _ => ySlice y

/-- The own options alone. -/
def yOwn : List (Yaml × Yaml) → YCfg → Option YCfg
  | [], m => some m
  | (k, y) :: es, m =>
    match k.name with
    | none => yOwn es m
    | some n =>
      if n ∈ optNames then yOwn es m
      else match yAny y with
        | none => none
        | some v => yOwn es (some (AMap.insert (m.getD []) n v))

theorem optNames_iff (n : Bytes) : n ∈ optNames ↔ n = lit "id" ∨ n = lit "if" ∨ n = lit "on_failure" := by simp [optNames]

theorem yName_of {k : Yaml} (h : k.Scalar) : yName k = some k.name := (yName_iff k _).2 ⟨h, rfl⟩

theorem optFields_iff (es : List (Yaml × Yaml)) (hu : Unrepeated es) (a r : YOptAcc) :
    yOptFields es a = some r ↔ (∀ e ∈ es, e.1.Scalar) ∧ yStrAt (yFind (lit "id") es) a.id = some r.id ∧ yStrAt (yFind (lit "if") es) a.cond = some r.cond ∧
      ySliceAt (yFind (lit "on_failure") es) a.onFailure = some r.onFailure ∧ yOwn es a.config = some r.config := by
  induction es generalizing a r with
  | nil =>
    simp only [yOptFields, yFind, yStrAt, ySliceAt, yOwn, Option.some.injEq]
    constructor
    · rintro rfl; simp
    · rintro ⟨_, h1, h2, h3, h4⟩
      cases a; cases r; simp_all
  | cons e es ih =>
    obtain ⟨k, y⟩ := e
    have hu' : Unrepeated es := (List.pairwise_cons.1 hu).2
    have n1 : lit "id" ≠ lit "if" := by decide +kernel
    have n2 : lit "id" ≠ lit "on_failure" := by decide +kernel
    have n3 : lit "if" ≠ lit "on_failure" := by decide +kernel
    by_cases hk : k.Scalar
    · have hall : (∀ e ∈ (k, y) :: es, e.1.Scalar) ↔ ∀ e ∈ es, e.1.Scalar := by simp [hk]
      rw [hall]
      simp only [yOptFields, yName_of hk]
      cases hn : k.name with
      | none =>
        simp only [ih hu', yFind, hn, yOwn]
        simp
      | some n =>
        simp only [yFind, hn, yOwn, Option.some.injEq]
        by_cases h1 : n = lit "id"
        · subst h1
          have ht := find_tail hu hn
          simp only [if_pos, if_neg n1, if_neg n2, yStrAt, if_pos ((optNames_iff _).2 (Or.inl rfl))]
          cases hy : yString y a.id with
          | none => simp
          | some s =>
            simp only [ih hu', ht, yStrAt]
        · by_cases h2 : n = lit "if"
          · subst h2
            have ht := find_tail hu hn
            simp only [if_pos, if_neg n1.symm, if_neg n3, yStrAt, if_pos ((optNames_iff _).2 (Or.inr (Or.inl rfl)))]
            cases hy : yString y a.cond with
            | none => simp
            | some s =>
              simp only [ih hu', ht, yStrAt]
          · by_cases h3 : n = lit "on_failure"
            · subst h3
              have ht := find_tail hu hn
              simp only [if_pos, if_neg n2.symm, if_neg n3.symm, ySliceAt, if_pos ((optNames_iff _).2 (Or.inr (Or.inr rfl)))]
              cases hy : ySlice y with
              | none => simp
              | some s =>
                simp only [ih hu', ht, ySliceAt]
            · simp only [if_neg h1, if_neg h2, if_neg h3, if_neg (fun h => by rcases (optNames_iff n).1 h with h | h | h <;> contradiction : ¬ n ∈ optNames)]
              cases hy : yAny y with
              | none => simp
              | some v => simp only [ih hu']
    · simp only [yOptFields, (yName_none k).2 hk]
      simp [hk]

theorem ownMap_cons (n : Bytes) (v : YVal) (ns : List (Bytes × YVal)) : ownMap ((n, v) :: ns) = some (AMap.ofEntries ((n, v) :: ns) []) := rfl

/-- Adding own options to those that are there. -/
def addOwn (m : YCfg) (ns : List (Bytes × YVal)) : YCfg := if ns.isEmpty then m else some (AMap.ofEntries ns (m.getD []))

theorem addOwn_cons (m : YCfg) (n : Bytes) (v : YVal) (ns : List (Bytes × YVal)) : addOwn m ((n, v) :: ns) = addOwn (some (AMap.insert (m.getD []) n v)) ns := by
  unfold addOwn
  cases ns with
  | nil => simp [AMap.ofEntries_cons]
  | cons e ns => simp [AMap.ofEntries_cons]

theorem yOwn_iff (es : List (Yaml × Yaml)) (m r : YCfg) : yOwn es m = some r ↔ ∃ ns, IsOwn es ns ∧ r = addOwn m ns := by
  induction es generalizing m with
  | nil =>
    simp only [yOwn, Option.some.injEq]
    constructor
    · rintro rfl; exact ⟨[], .nil, rfl⟩
    · rintro ⟨ns, h, rfl⟩; cases h; rfl
  | cons e es ih =>
    obtain ⟨k, y⟩ := e
    simp only [yOwn]
    have hskip : (∀ n, k.name = some n → n ∈ optNames) → ((∃ ns, IsOwn ((k, y) :: es) ns ∧ r = addOwn m ns) ↔ ∃ ns, IsOwn es ns ∧ r = addOwn m ns) := by
      intro hk
      constructor
      · rintro ⟨ns, h, e⟩
        cases h with
        | skip _ _ _ _ _ h => exact ⟨ns, h, e⟩
        | own _ _ n v _ ns hn hno hv h => exact absurd (hk n hn) hno
      · rintro ⟨ns, h, e⟩; exact ⟨ns, .skip k y es ns hk h, e⟩
    cases hn : k.name with
    | none => simp only [ih]; exact (hskip (by simp [hn])).symm
    | some n =>
      simp only
      by_cases ho : n ∈ optNames
      · rw [if_pos ho, ih]
        exact (hskip (by rw [hn]; intro n' h; cases h; exact ho)).symm
      · rw [if_neg ho]
        cases hy : yAny y with
        | none =>
          simp only [reduceCtorEq, false_iff]
          rintro ⟨ns, h, _⟩
          cases h with
          | skip _ _ _ _ hk h => exact ho (hk n hn)
          | own _ _ n v _ ns hn hno hv h => rw [(yAny_iff y v).2 hv] at hy; cases hy
        | some v =>
          simp only [ih]
          constructor
          · rintro ⟨ns, h, e⟩
            exact ⟨(n, v) :: ns, .own k y n v es ns hn ho (isAny_of y hy) h, by rw [addOwn_cons]; exact e⟩
          · rintro ⟨ns, h, e⟩
            cases h with
            | skip _ _ _ _ hk h => exact absurd (hk n hn) ho
            | own _ _ n' v' _ ns hn' hno hv h =>
              rw [hn] at hn'; cases hn'
              rw [(yAny_iff y v').2 hv] at hy; cases hy
              exact ⟨ns, h, by rw [addOwn_cons] at e; exact e⟩

theorem addOwn_none (ns : List (Bytes × YVal)) : addOwn none ns = ownMap ns := rfl

mutual
theorem isYOpt_of : ∀ (y : Yaml) {o : Option (OptCfg YCfg)}, yOpt y = some o → IsYOpt y o
  | .str t, o, h => by simp [yOpt] at h
  | .seq ys, o, h => by simp [yOpt] at h
  | .plain t v, o, h => by
    cases v with
    | null => simp only [yOpt, Option.some.injEq] at h; subst h; exact .null t
    | _ => simp [yOpt] at h
  | .map es, o, h => by
    have ih := @isYSlices_of es
    simp only [yOpt] at h
    by_cases hr : repeatedKey es = true
    · rw [if_pos hr] at h; cases h
    · rw [if_neg hr, Option.map_eq_some_iff] at h
      have hu := (repeatedKey_iff es).1 (by simpa using hr)
      obtain ⟨a, ha, rfl⟩ := h
      obtain ⟨hk, h1, h2, h3, h4⟩ := (optFields_iff es hu {} a).1 ha
      obtain ⟨ns, hn, hc⟩ := (yOwn_iff es none a.config).1 h4
      rw [hc, addOwn_none]
      refine .map es _ _ _ _ _ _ ns ⟨hu, hk⟩ (under_find es _) (under_find es _) (under_find es (lit "on_failure")) ((yStrAt_iff _ _).1 h1) ((yStrAt_iff _ _).1 h2) ?_ hn
      cases hf : yFind (lit "on_failure") es with
      | none => rw [hf] at h3; rw [← Option.some.inj h3]; exact .absent
      | some y =>
        rw [hf] at h3
        obtain ⟨k, hm⟩ := find_mem hf
        exact ih hm h3
theorem isYSlices_of : ∀ (es : List (Yaml × Yaml)) {k y : Yaml} {cs : List (ProcCfg YCfg)}, (k, y) ∈ es → ySlice y = some cs → IsYSlice (some y) cs
  | [], _, _, _, hm, _ => by cases hm
  | (k', y') :: es, k, y, cs, hm, h => by
    have ih1 := @isYSlice_of y'
    have ih2 := @isYSlices_of es
    rcases List.mem_cons.1 hm with e | e
    · rw [(Prod.mk.inj e).2] at h ⊢; exact ih1 h
    · exact ih2 e h
theorem isYSlice_of : ∀ (y : Yaml) {cs : List (ProcCfg YCfg)}, ySlice y = some cs → IsYSlice (some y) cs
  | .str t, cs, h => by simp [ySlice] at h
  | .map es, cs, h => by simp [ySlice] at h
  | .plain t v, cs, h => by
    cases v with
    | null => simp only [ySlice, Option.some.injEq] at h; subst h; exact .null t
    | _ => simp [ySlice] at h
  | .seq ys, cs, h => by
    have ih := @isYConfs_of ys
    simp only [ySlice] at h
    exact .seq ys cs (ih h)
theorem isYConfs_of : ∀ (ys : List Yaml) {cs : List (ProcCfg YCfg)}, yConfs ys = some cs → IsYConfs ys cs
  | [], cs, h => by simp only [yConfs, Option.some.injEq] at h; subst h; exact .nil
  | y :: ys, cs, h => by
    have ih1 := @isYConf_of y
    have ih2 := @isYConfs_of ys
    simp only [yConfs] at h
    cases h1 : yConf y with
    | none => rw [h1] at h; cases h
    | some c =>
      cases h2 : yConfs ys with
      | none => rw [h1, h2] at h; cases h
      | some cs => rw [h1, h2] at h; cases h; exact .cons y c ys cs (ih1 h1) (ih2 h2)
theorem isYConf_of : ∀ (y : Yaml) {c : ProcCfg YCfg}, yConf y = some c → IsYConf y c
  | .str t, c, h => by simp [yConf] at h
  | .seq ys, c, h => by simp [yConf] at h
  | .plain t v, c, h => by
    cases v with
    | null => simp only [yConf, Option.some.injEq] at h; subst h; exact .null t
    | _ => simp [yConf] at h
  | .map es, c, h => by
    have ih := @isYEntries_of es
    simp only [yConf] at h
    by_cases hr : repeatedKey es = true
    · rw [if_pos hr] at h; cases h
    · rw [if_neg hr] at h
      obtain ⟨hk, os, ho, rfl⟩ := ih h
      exact .map es os ⟨(repeatedKey_iff es).1 (by simpa using hr), hk⟩ ho
theorem isYEntries_of : ∀ (es : List (Yaml × Yaml)) {m r : ProcCfg YCfg}, yEntries es m = some r → (∀ e ∈ es, e.1.Scalar) ∧ ∃ os, IsYEntries es os ∧ r = AMap.ofEntries os m
  | [], m, r, h => by
    simp only [yEntries, Option.some.injEq] at h
    subst h
    exact ⟨by simp, [], .nil, rfl⟩
  | (k, y) :: es, m, r, h => by
    have ih1 := @isYOpt_of y
    have ih2 := @isYEntries_of es
    simp only [yEntries] at h
    cases hn : yName k with
    | none => rw [hn] at h; cases h
    | some o =>
      obtain ⟨hk, hn'⟩ := (yName_iff k o).1 hn
      rw [hn] at h
      cases o with
      | none =>
        obtain ⟨hs, os, ho, hr⟩ := ih2 h
        exact ⟨by simpa [hk] using hs, os, .skip k y es os hn' ho, hr⟩
      | some n =>
        simp only at h
        cases h1 : yOpt y with
        | none => rw [h1] at h; cases h
        | some p =>
          rw [h1] at h
          obtain ⟨hs, os, ho, hr⟩ := ih2 h
          exact ⟨by simpa [hk] using hs, (n, p) :: os, .entry k y n p es os hn' (ih1 h1) ho, by rw [hr, AMap.ofEntries_cons]⟩
end

mutual
theorem yOpt_of : ∀ {y : Yaml} {o : Option (OptCfg YCfg)}, IsYOpt y o → yOpt y = some o
  | _, _, .null t => by simp only [yOpt]
  | _, _, .map es i c f id cond onF ns hk hi hc hf h1 h2 h3 ho => by
    have ih := ySliceAt_of h3
    have a := (optFields_iff es hk.1 {} ⟨id, cond, onF, ownMap ns⟩).2 ⟨hk.2, by rw [(find_iff hk.1 _ _).1 hi]; exact (yStrAt_iff i id).2 h1,
      by rw [(find_iff hk.1 _ _).1 hc]; exact (yStrAt_iff c cond).2 h2, by rw [(find_iff hk.1 _ _).1 hf]; exact ih, (yOwn_iff es none _).2 ⟨ns, ho, (addOwn_none ns).symm⟩⟩
    simp only [yOpt]
    rw [if_neg (by rw [(repeatedKey_iff es).2 hk.1]; simp), a]
    rfl
theorem ySliceAt_of : ∀ {o : Option Yaml} {cs : List (ProcCfg YCfg)}, IsYSlice o cs → ySliceAt o [] = some cs
  | _, _, .absent => rfl
  | _, _, .null t => by simp only [ySliceAt, ySlice]
  | _, _, .seq ys cs h => by simp only [ySliceAt, ySlice]; exact yConfs_of h
theorem yConfs_of : ∀ {ys : List Yaml} {cs : List (ProcCfg YCfg)}, IsYConfs ys cs → yConfs ys = some cs
  | _, _, .nil => by simp only [yConfs]
  | _, _, .cons y c ys cs h1 h2 => by simp only [yConfs, yConf_of h1, yConfs_of h2]
theorem yConf_of : ∀ {y : Yaml} {c : ProcCfg YCfg}, IsYConf y c → yConf y = some c
  | _, _, .null t => by simp only [yConf]
  | _, _, .map es os hk h => by
    have ih := @yEntries_of es os h
    simp only [yConf]
    rw [if_neg (by rw [(repeatedKey_iff es).2 hk.1]; simp), ih hk.2 []]
theorem yEntries_of : ∀ {es : List (Yaml × Yaml)} {os : List (Bytes × Option (OptCfg YCfg))}, IsYEntries es os → (∀ e ∈ es, e.1.Scalar) → ∀ m : ProcCfg YCfg, yEntries es m = some (AMap.ofEntries os m)
  | _, _, .nil, _, m => by simp only [yEntries]; rfl
  | _, _, .skip k y es os hk h, hs, m => by
    have ih := yEntries_of h (fun e he => hs e (by simp [he]))
    have hn := yName_of (hs (k, y) (by simp) : k.Scalar)
    rw [hk] at hn
    simp only [yEntries, hn]
    exact ih m
  | _, _, .entry k y n o es os hk ho h, hs, m => by
    have ih := yEntries_of h (fun e he => hs e (by simp [he]))
    have ih' := yOpt_of ho
    have hn := yName_of (hs (k, y) (by simp) : k.Scalar)
    rw [hk] at hn
    simp only [yEntries, hn, ih', AMap.ofEntries_cons]
    exact ih _
end

theorem ySliceAt_iff (o : Option Yaml) (cs : List (ProcCfg YCfg)) : ySliceAt o [] = some cs ↔ IsYSlice o cs := by
  refine ⟨fun h => ?_, ySliceAt_of⟩
  cases o with
  | none => cases h; exact .absent
  | some y => exact isYSlice_of y h

/-! ## Configurations -/

theorem cfgFields_iff (es : List (Yaml × Yaml)) (hu : Unrepeated es) (a r : YConfig) :
    yCfgFields es a = some r ↔ (∀ e ∈ es, e.1.Scalar) ∧ yStrAt (yFind (lit "id") es) a.config.id = some r.config.id ∧ yStrAt (yFind (lit "description") es) a.description = some r.description ∧
      ySliceAt (yFind (lit "processors") es) a.config.processors = some r.config.processors ∧ ySliceAt (yFind (lit "on_failure") es) a.config.onFailure = some r.config.onFailure := by
  induction es generalizing a r with
  | nil =>
    simp only [yCfgFields, yFind, yStrAt, ySliceAt, Option.some.injEq]
    constructor
    · rintro rfl; simp
    · rintro ⟨_, h1, h2, h3, h4⟩
      obtain ⟨⟨_, _, _⟩, _⟩ := a
      obtain ⟨⟨_, _, _⟩, _⟩ := r
      simp_all
  | cons e es ih =>
    obtain ⟨k, y⟩ := e
    have hu' : Unrepeated es := (List.pairwise_cons.1 hu).2
    have n1 : lit "id" ≠ lit "description" := by decide +kernel
    have n2 : lit "id" ≠ lit "processors" := by decide +kernel
    have n3 : lit "id" ≠ lit "on_failure" := by decide +kernel
    have n4 : lit "description" ≠ lit "processors" := by decide +kernel
    have n5 : lit "description" ≠ lit "on_failure" := by decide +kernel
    have n6 : lit "processors" ≠ lit "on_failure" := by decide +kernel
    by_cases hk : k.Scalar
    · have hall : (∀ e ∈ (k, y) :: es, e.1.Scalar) ↔ ∀ e ∈ es, e.1.Scalar := by simp [hk]
      rw [hall]
      simp only [yCfgFields, yName_of hk]
      cases hn : k.name with
      | none =>
        simp only [ih hu', yFind, hn]
        simp
      | some n =>
        simp only [yFind, hn, Option.some.injEq]
        by_cases h1 : n = lit "id"
        · subst h1
          have ht := find_tail hu hn
          simp only [if_pos, if_neg n1, if_neg n2, if_neg n3, yStrAt]
          cases hy : yString y a.config.id with
          | none => simp
          | some s => simp only [ih hu', ht, yStrAt]
        · by_cases h2 : n = lit "description"
          · subst h2
            have ht := find_tail hu hn
            simp only [if_pos, if_neg n1.symm, if_neg n4, if_neg n5, yStrAt]
            cases hy : yString y a.description with
            | none => simp
            | some s => simp only [ih hu', ht, yStrAt]
          · by_cases h3 : n = lit "processors"
            · subst h3
              have ht := find_tail hu hn
              simp only [if_pos, if_neg n2.symm, if_neg n4.symm, if_neg n6, ySliceAt]
              cases hy : ySlice y with
              | none => simp
              | some s => simp only [ih hu', ht, ySliceAt]
            · by_cases h4 : n = lit "on_failure"
              · subst h4
                have ht := find_tail hu hn
                simp only [if_pos, if_neg n3.symm, if_neg n5.symm, if_neg n6.symm, ySliceAt]
                cases hy : ySlice y with
                | none => simp
                | some s => simp only [ih hu', ht, ySliceAt]
              · simp only [if_neg h1, if_neg h2, if_neg h3, if_neg h4, ih hu']
    · simp only [yCfgFields, (yName_none k).2 hk]
      simp [hk]

/-- C93: which documents are configurations, and which ones. The null document is accepted and gives no configuration. -/
theorem decodeYaml_iff (y : Yaml) (c : Option YConfig) : decodeYaml y = some c ↔ ((∃ t, y = .plain t .null) ∧ c = none) ∨ ∃ c', c = some c' ∧ IsYConfig y c' := by
  have other : ∀ y', (∀ es, y' ≠ .map es) → ¬ ∃ c', c = some c' ∧ IsYConfig y' c' := by
    rintro y' hy ⟨c', _, es, i, d, p, f, rfl, _⟩
    exact hy es rfl
  cases y with
  | str t => simp [decodeYaml, other (.str t) (by simp)]
  | seq ys => simp [decodeYaml, other (.seq ys) (by simp)]
  | plain t v =>
    have := other (.plain t v) (by simp)
    cases v with
    | null => simp [decodeYaml, this, eq_comm]
    | _ => simp [decodeYaml, this]
  | map es =>
    simp only [decodeYaml, reduceCtorEq, exists_false, false_and, false_or]
    by_cases hr : repeatedKey es = true
    · rw [if_pos hr]
      simp only [reduceCtorEq, false_iff]
      rintro ⟨c', _, es', i, d, p, f, e, hk, _⟩
      cases e
      rw [(repeatedKey_iff es).2 hk.1] at hr
      cases hr
    · rw [if_neg hr, Option.map_eq_some_iff]
      have hu := (repeatedKey_iff es).1 (by simpa using hr)
      constructor
      · rintro ⟨a, ha, rfl⟩
        obtain ⟨hk, h1, h2, h3, h4⟩ := (cfgFields_iff es hu _ a).1 ha
        exact ⟨a, rfl, es, _, _, _, _, rfl, ⟨hu, hk⟩, under_find es _, under_find es _, under_find es _, under_find es _, (yStrAt_iff _ _).1 h1, (yStrAt_iff _ _).1 h2, (ySliceAt_iff _ _).1 h3, (ySliceAt_iff _ _).1 h4⟩
      · rintro ⟨c', rfl, es', i, d, p, f, e, hk, hi, hd, hp, hf, h1, h2, h3, h4⟩
        cases e
        refine ⟨c', (cfgFields_iff es hu _ c').2 ⟨hk.2, ?_, ?_, ?_, ?_⟩, rfl⟩
        · rw [(find_iff hu _ _).1 hi]; exact (yStrAt_iff _ _).2 h1
        · rw [(find_iff hu _ _).1 hd]; exact (yStrAt_iff _ _).2 h2
        · rw [(find_iff hu _ _).1 hp]; exact (ySliceAt_iff _ _).2 h3
        · rw [(find_iff hu _ _).1 hf]; exact (ySliceAt_iff _ _).2 h4

end Sawmill
