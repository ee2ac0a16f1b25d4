import Verif.Props.Yaml
import Verif.Props.Reflect
/-!
# C93: the order of entries in a YAML configuration does not matter
-/

namespace Sawmill

/-! ## Collecting the entries of a mapping -/

/-- The entries of a mapping: `sel` chooses the keys (an error, to be left out, or a name), `f` reads what is under them. -/
def yCollect {α : Type} (sel : Yaml → Option (Option Bytes)) (f : Yaml → Option α) : List (Yaml × Yaml) → Option (List (Bytes × α))
  | [] => some []
  | (k, y) :: es =>
    match sel k with
    | none => none
    | some none => yCollect sel f es
    | some (some n) =>
      match f y, yCollect sel f es with
      | some v, some r => some ((n, v) :: r)
      | _, _ => none

theorem yAnyS_collect (es : List (Yaml × Yaml)) (m : AMap YVal) : yAnyS es m = (yCollect yName yAny es).map (AMap.ofEntries · m) := by
  induction es generalizing m with
  | nil => simp [yAnyS, yCollect]
  | cons e es ih =>
    obtain ⟨k, y⟩ := e
    simp only [yAnyS, yCollect]
    cases yName k with
    | none => rfl
    | some o =>
      cases o with
      | none => exact ih m
      | some n =>
        simp only [ih]
        cases yAny y with
        | none => rfl
        | some v => cases yCollect yName yAny es <;> rfl

theorem yEntries_collect (es : List (Yaml × Yaml)) (m : ProcCfg YCfg) : yEntries es m = (yCollect yName yOpt es).map (AMap.ofEntries · m) := by
  induction es generalizing m with
  | nil => simp [yEntries, yCollect]
  | cons e es ih =>
    obtain ⟨k, y⟩ := e
    simp only [yEntries, yCollect]
    cases yName k with
    | none => rfl
    | some o =>
      cases o with
      | none => exact ih m
      | some n =>
        simp only [ih]
        cases yOpt y with
        | none => rfl
        | some v => cases yCollect yName yOpt es <;> rfl

/-- The keys of own options. -/
def ownSel (k : Yaml) : Option (Option Bytes) :=
  match k.name with
  | none => some none
  | some n => if n ∈ optNames then some none else some (some n)

theorem yOwn_collect (es : List (Yaml × Yaml)) (m : YCfg) : yOwn es m = (yCollect ownSel yAny es).map (addOwn m) := by
  induction es generalizing m with
  | nil => simp [yOwn, yCollect, addOwn]
  | cons e es ih =>
    obtain ⟨k, y⟩ := e
    simp only [yOwn, yCollect, ownSel]
    cases k.name with
    | none => exact ih m
    | some n =>
      simp only
      by_cases hn : n ∈ optNames
      · simp only [if_pos hn]; exact ih m
      · simp only [if_neg hn, ih]
        cases yAny y with
        | none => rfl
        | some v =>
          cases yCollect ownSel yAny es with
          | none => rfl
          | some r => simp only [Option.map_some, addOwn_cons]

theorem yCollect_perm {α : Type} (sel : Yaml → Option (Option Bytes)) (f : Yaml → Option α) {xs ys : List (Yaml × Yaml)} (hp : xs.Perm ys) {r : List (Bytes × α)} (h : yCollect sel f xs = some r) :
    ∃ r', yCollect sel f ys = some r' ∧ r.Perm r' := by
  induction hp generalizing r with
  | nil => exact ⟨r, h, .refl _⟩
  | @cons e l1 l2 hp ih =>
    obtain ⟨k, y⟩ := e
    simp only [yCollect] at h ⊢
    cases hs : sel k with
    | none => rw [hs] at h; cases h
    | some o =>
      rw [hs] at h
      cases o with
      | none => exact ih h
      | some n =>
        simp only at h ⊢
        cases hy : f y with
        | none => rw [hy] at h; cases h
        | some v =>
          cases hc : yCollect sel f l1 with
          | none => rw [hy, hc] at h; cases h
          | some r1 =>
            rw [hy, hc] at h
            cases h
            obtain ⟨r2, h2, p2⟩ := ih hc
            rw [h2]
            exact ⟨_, rfl, p2.cons _⟩
  | swap e1 e2 l =>
    obtain ⟨k1, y1⟩ := e1
    obtain ⟨k2, y2⟩ := e2
    simp only [yCollect] at h ⊢
    cases h1 : sel k1 with
    | none =>
      rw [h1] at h
      simp only at h
      cases h2 : sel k2 with
      | none => rw [h2] at h; cases h
      | some o2 =>
        rw [h2] at h
        cases o2 with
        | none => cases h
        | some n2 => simp only at h; cases hf : f y2 <;> rw [hf] at h <;> cases h
    | some o1 =>
      rw [h1] at h
      cases h2 : sel k2 with
      | none => rw [h2] at h; cases h
      | some o2 =>
        rw [h2] at h
        cases o1 with
        | none =>
          cases o2 with
          | none => exact ⟨r, h, .refl _⟩
          | some n2 => exact ⟨r, h, .refl _⟩
        | some n1 =>
          cases o2 with
          | none => exact ⟨r, h, .refl _⟩
          | some n2 =>
            simp only at h ⊢
            cases hf1 : f y1 with
            | none => rw [hf1] at h; simp only at h; cases hf2 : f y2 <;> rw [hf2] at h <;> cases h
            | some v1 =>
              cases hf2 : f y2 with
              | none => rw [hf2] at h; cases h
              | some v2 =>
                rw [hf1, hf2] at h
                cases hc : yCollect sel f l with
                | none => rw [hc] at h; cases h
                | some r1 =>
                  rw [hc] at h
                  cases h
                  exact ⟨_, rfl, .swap _ _ _⟩
  | trans _ _ ih1 ih2 =>
    obtain ⟨r1, h1, p1⟩ := ih1 h
    obtain ⟨r2, h2, p2⟩ := ih2 h1
    exact ⟨r2, h2, p1.trans p2⟩

/-- SelNames that are chosen are the names of their keys. -/
def SelNames (sel : Yaml → Option (Option Bytes)) : Prop := ∀ k n, sel k = some (some n) → k.name = some n

theorem names_yName : SelNames yName := fun k n h => ((yName_iff k (some n)).1 h).2

theorem names_own : SelNames ownSel := by
  intro k n h
  unfold ownSel at h
  cases hk : k.name with
  | none => rw [hk] at h; cases h
  | some m =>
    rw [hk] at h
    simp only at h
    by_cases hm : m ∈ optNames
    · rw [if_pos hm] at h; cases h
    · rw [if_neg hm] at h; cases h; rfl

theorem yCollect_names {α : Type} {sel : Yaml → Option (Option Bytes)} (hsel : SelNames sel) (f : Yaml → Option α) {es : List (Yaml × Yaml)} {r : List (Bytes × α)} (h : yCollect sel f es = some r) :
    ∀ e ∈ r, ∃ x ∈ es, x.1.name = some e.1 := by
  induction es generalizing r with
  | nil => simp only [yCollect, Option.some.injEq] at h; subst h; simp
  | cons e es ih =>
    obtain ⟨k, y⟩ := e
    simp only [yCollect] at h
    cases hs : sel k with
    | none => rw [hs] at h; cases h
    | some o =>
      rw [hs] at h
      cases o with
      | none =>
        intro e he
        obtain ⟨x, hx, hn⟩ := ih h e he
        exact ⟨x, by simp [hx], hn⟩
      | some n =>
        simp only at h
        cases hy : f y with
        | none => rw [hy] at h; cases h
        | some v =>
          cases hc : yCollect sel f es with
          | none => rw [hy, hc] at h; cases h
          | some r1 =>
            rw [hy, hc] at h
            cases h
            intro e he
            rcases List.mem_cons.1 he with h | h
            · subst h; exact ⟨(k, y), by simp, hsel k n hs⟩
            · obtain ⟨x, hx, hn⟩ := ih hc e h
              exact ⟨x, by simp [hx], hn⟩

theorem yCollect_nodup {α : Type} {sel : Yaml → Option (Option Bytes)} (hsel : SelNames sel) (f : Yaml → Option α) {es : List (Yaml × Yaml)} {r : List (Bytes × α)} (hu : Unrepeated es)
    (h : yCollect sel f es = some r) : (r.map (·.1)).Nodup := by
  induction es generalizing r with
  | nil => simp only [yCollect, Option.some.injEq] at h; subst h; simp
  | cons e es ih =>
    obtain ⟨k, y⟩ := e
    obtain ⟨hu1, hu2⟩ := List.pairwise_cons.1 hu
    simp only [yCollect] at h
    cases hs : sel k with
    | none => rw [hs] at h; cases h
    | some o =>
      rw [hs] at h
      cases o with
      | none => exact ih hu2 h
      | some n =>
        simp only at h
        cases hy : f y with
        | none => rw [hy] at h; cases h
        | some v =>
          cases hc : yCollect sel f es with
          | none => rw [hy, hc] at h; cases h
          | some r1 =>
            rw [hy, hc] at h
            cases h
            rw [List.map_cons, List.nodup_cons]
            refine ⟨fun hm => ?_, ih hu2 hc⟩
            obtain ⟨e, he, hn⟩ := List.mem_map.1 hm
            obtain ⟨x, hx, hxn⟩ := yCollect_names hsel f hc e he
            exact hu1 x hx (looks_of_name (hsel k n hs) (by rw [hxn]; exact congrArg some hn))

theorem ofEntries_same {α : Type} {xs ys : List (Bytes × α)} (hp : xs.Perm ys) (hn : (ys.map (·.1)).Nodup) : AMap.ofEntries xs [] = AMap.ofEntries ys [] := by
  refine AMap.ofEntries_perm (AMap.sorted_ofEntries AMap.sorted_nil) (hp.trans ?_)
  have := ofEntries_perm_self ys [] (by simpa using hn)
  simpa using this.symm

/-! ## Two nodes that are read alike -/

/-- Two nodes are read in the same way, whatever they are read as. -/
structure SameRead (x y : Yaml) : Prop where
  any : yAny x = yAny y
  opt : yOpt x = yOpt y
  slice : ySlice x = ySlice y
  conf : yConf x = yConf y
  str : ∀ s, yString x s = yString y s
  doc : decodeYaml x = decodeYaml y

theorem SameRead.refl (x : Yaml) : SameRead x x := ⟨rfl, rfl, rfl, rfl, fun _ => rfl, rfl⟩

theorem SameRead.trans {x y z : Yaml} (h1 : SameRead x y) (h2 : SameRead y z) : SameRead x z :=
  ⟨h1.any.trans h2.any, h1.opt.trans h2.opt, h1.slice.trans h2.slice, h1.conf.trans h2.conf, fun s => (h1.str s).trans (h2.str s), h1.doc.trans h2.doc⟩

/-- The same keys in the same order, with things under them that are read alike. -/
inductive EntriesSame : List (Yaml × Yaml) → List (Yaml × Yaml) → Prop where
  | nil : EntriesSame [] []
  | cons (k x y : Yaml) (xs ys : List (Yaml × Yaml)) (h1 : SameRead x y) (h2 : EntriesSame xs ys) : EntriesSame ((k, x) :: xs) ((k, y) :: ys)

inductive ItemsSame : List Yaml → List Yaml → Prop where
  | nil : ItemsSame [] []
  | cons (x y : Yaml) (xs ys : List Yaml) (h1 : SameRead x y) (h2 : ItemsSame xs ys) : ItemsSame (x :: xs) (y :: ys)

theorem entriesSame_keys {xs ys : List (Yaml × Yaml)} (h : EntriesSame xs ys) : xs.map (·.1) = ys.map (·.1) := by
  induction h with
  | nil => rfl
  | cons k x y xs ys _ _ ih => simp [ih]

theorem repeatedKey_keys : ∀ {xs ys : List (Yaml × Yaml)}, xs.map (·.1) = ys.map (·.1) → repeatedKey xs = repeatedKey ys
  | [], [], _ => rfl
  | [], _ :: _, h => by simp at h
  | _ :: _, [], h => by simp at h
  | (k, x) :: xs, (k', y) :: ys, h => by
    simp only [List.map_cons, List.cons.injEq] at h
    obtain ⟨rfl, h⟩ := h
    have e : ∀ zs : List (Yaml × Yaml), (zs.any fun e => decide (k.kindValue = e.1.kindValue)) = (zs.map (·.1)).any fun a => decide (k.kindValue = a.kindValue) := by
      intro zs; simp [List.any_map, Function.comp_def]
    simp only [repeatedKey]
    rw [e, e, h, repeatedKey_keys h]

theorem isStringMap_keys : ∀ {xs ys : List (Yaml × Yaml)}, xs.map (·.1) = ys.map (·.1) → isStringMap xs = isStringMap ys
  | [], [], _ => rfl
  | [], _ :: _, h => by simp at h
  | _ :: _, [], h => by simp at h
  | (k, x) :: xs, (k', y) :: ys, h => by
    simp only [List.map_cons, List.cons.injEq] at h
    obtain ⟨rfl, h⟩ := h
    have := isStringMap_keys h
    simp only [isStringMap, List.all_cons] at this ⊢
    rw [this]

theorem yAnyS_same {xs ys : List (Yaml × Yaml)} (h : EntriesSame xs ys) : ∀ m, yAnyS xs m = yAnyS ys m := by
  induction h with
  | nil => intro m; rfl
  | cons k x y xs ys h1 h2 ih =>
    intro m
    simp only [yAnyS, h1.any, ih]

theorem yAnyG_same {xs ys : List (Yaml × Yaml)} (h : EntriesSame xs ys) : yAnyG xs = yAnyG ys := by
  induction h with
  | nil => rfl
  | cons k x y xs ys h1 h2 ih => simp only [yAnyG, h1.any, ih]

theorem yOptFields_same {xs ys : List (Yaml × Yaml)} (h : EntriesSame xs ys) : ∀ a, yOptFields xs a = yOptFields ys a := by
  induction h with
  | nil => intro a; rfl
  | cons k x y xs ys h1 h2 ih =>
    intro a
    simp only [yOptFields, h1.any, h1.str, h1.slice, ih]

theorem yEntries_same {xs ys : List (Yaml × Yaml)} (h : EntriesSame xs ys) : ∀ m, yEntries xs m = yEntries ys m := by
  induction h with
  | nil => intro m; rfl
  | cons k x y xs ys h1 h2 ih =>
    intro m
    simp only [yEntries, h1.opt, ih]

theorem yCfgFields_same {xs ys : List (Yaml × Yaml)} (h : EntriesSame xs ys) : ∀ a, yCfgFields xs a = yCfgFields ys a := by
  induction h with
  | nil => intro a; rfl
  | cons k x y xs ys h1 h2 ih =>
    intro a
    simp only [yCfgFields, h1.str, h1.slice, ih]

theorem map_same_read {xs ys : List (Yaml × Yaml)} (h : EntriesSame xs ys) : SameRead (.map xs) (.map ys) := by
  have hr := repeatedKey_keys (entriesSame_keys h)
  have hs := isStringMap_keys (entriesSame_keys h)
  refine ⟨?_, ?_, rfl, ?_, fun _ => rfl, ?_⟩
  · simp only [yAny, hr, hs, yAnyS_same h, yAnyG_same h]
  · simp only [yOpt, hr, yOptFields_same h]
  · simp only [yConf, hr, yEntries_same h]
  · simp only [decodeYaml, hr, yCfgFields_same h]

theorem seq_same_read {xs ys : List Yaml} (h : ItemsSame xs ys) : SameRead (.seq xs) (.seq ys) := by
  have h1 : yAnyL xs = yAnyL ys := by
    induction h with
    | nil => rfl
    | cons x y xs ys h1 h2 ih => simp only [yAnyL, h1.any, ih]
  have h2 : yConfs xs = yConfs ys := by
    clear h1
    induction h with
    | nil => rfl
    | cons x y xs ys h1 h2 ih => simp only [yConfs, h1.conf, ih]
  exact ⟨by simp only [yAny, h1], rfl, by simp only [ySlice, h2], rfl, fun _ => rfl, rfl⟩

/-! ## Permuting the entries -/

theorem looks_symm {a b : Yaml} (h : a.LooksLike b) : b.LooksLike a := by rw [looks_iff] at h ⊢; exact h.symm

theorem unrepeated_perm {xs ys : List (Yaml × Yaml)} (hp : xs.Perm ys) : Unrepeated xs ↔ Unrepeated ys :=
  hp.pairwise_iff (fun h h' => h (looks_symm h'))

theorem repeatedKey_perm {xs ys : List (Yaml × Yaml)} (hp : xs.Perm ys) : repeatedKey xs = repeatedKey ys := by
  have h := unrepeated_perm hp
  rw [← repeatedKey_iff, ← repeatedKey_iff] at h
  cases h1 : repeatedKey xs <;> cases h2 : repeatedKey ys <;> simp_all

theorem isStringMap_perm {xs ys : List (Yaml × Yaml)} (hp : xs.Perm ys) : isStringMap xs = isStringMap ys := by
  unfold isStringMap
  exact hp.all_eq

theorem find_perm {xs ys : List (Yaml × Yaml)} (hp : xs.Perm ys) (hu : Unrepeated xs) (n : Bytes) : yFind n xs = yFind n ys := by
  refine (find_iff hu n _).1 ?_
  have h := under_find ys n
  cases hf : yFind n ys with
  | none => rw [hf] at h; exact fun e he => h e (hp.mem_iff.1 he)
  | some y =>
    rw [hf] at h
    obtain ⟨k, hm, hn⟩ := h
    exact ⟨k, hp.mem_iff.2 hm, hn⟩

/-- Collecting and making a map of it. -/
theorem yCollect_map_perm {α β : Type} {sel : Yaml → Option (Option Bytes)} (hsel : SelNames sel) (f : Yaml → Option α) (g : List (Bytes × α) → β) (hg : ∀ r r' : List (Bytes × α), r.Perm r' → (r'.map (·.1)).Nodup → g r = g r')
    {xs ys : List (Yaml × Yaml)} (hp : xs.Perm ys) (hu : Unrepeated xs) : (yCollect sel f xs).map g = (yCollect sel f ys).map g := by
  cases h : yCollect sel f xs with
  | some r =>
    obtain ⟨r', h', p⟩ := yCollect_perm sel f hp h
    rw [h']
    simp only [Option.map_some, hg r r' p (yCollect_nodup hsel f ((unrepeated_perm hp).1 hu) h')]
  | none =>
    cases h' : yCollect sel f ys with
    | none => rfl
    | some r' =>
      obtain ⟨r, h'', _⟩ := yCollect_perm sel f hp.symm h'
      rw [h] at h''; cases h''

theorem scalars_perm {xs ys : List (Yaml × Yaml)} (hp : xs.Perm ys) : (∀ e ∈ xs, e.1.Scalar) ↔ ∀ e ∈ ys, e.1.Scalar :=
  ⟨fun h e he => h e (hp.mem_iff.2 he), fun h e he => h e (hp.mem_iff.1 he)⟩

theorem option_ext {α : Type} {x y : Option α} (h : ∀ a, x = some a ↔ y = some a) : x = y := by
  cases x with
  | some a => exact ((h a).1 rfl).symm
  | none =>
    cases y with
    | none => rfl
    | some a => exact (h a).2 rfl

theorem perm_same_read {xs ys : List (Yaml × Yaml)} (hp : xs.Perm ys) (hs : ∀ e ∈ xs, ∃ t, e.1 = .str t) : SameRead (.map xs) (.map ys) := by
  have hr := repeatedKey_perm hp
  have hm := isStringMap_perm hp
  have hst : isStringMap xs = true := by
    unfold isStringMap
    rw [List.all_eq_true]
    intro e he
    obtain ⟨t, ht⟩ := hs e he
    rw [ht]
  cases hd : repeatedKey xs with
  | true =>
    have hd' := hr ▸ hd
    refine ⟨?_, ?_, rfl, ?_, fun _ => rfl, ?_⟩ <;> simp only [yAny, yOpt, yConf, decodeYaml, hd, hd', if_true]
  | false =>
    have hd' := hr ▸ hd
    have hu := (repeatedKey_iff xs).1 hd
    have hu' := (repeatedKey_iff ys).1 hd'
    refine ⟨?_, ?_, rfl, ?_, fun _ => rfl, ?_⟩
    · simp only [yAny, hd, hd', ← hm, hst, if_true, yAnyS_collect]
      rw [yCollect_map_perm names_yName yAny (AMap.ofEntries · []) (fun r r' p n => ofEntries_same p n) hp hu]
    · simp only [yOpt, hd, hd']
      have : yOptFields xs {} = yOptFields ys {} := by
        refine option_ext fun a => ?_
        rw [optFields_iff xs hu, optFields_iff ys hu', scalars_perm hp, find_perm hp hu, find_perm hp hu, find_perm hp hu, yOwn_collect, yOwn_collect,
          yCollect_map_perm names_own yAny (addOwn none) ?_ hp hu]
        intro r r' p n
        unfold addOwn
        have : r.isEmpty = r'.isEmpty := by
          cases r with
          | nil => rw [p.nil_eq]
          | cons e r => cases r' with
            | nil => exact absurd p.symm.nil_eq (by simp)
            | cons => rfl
        rw [this]
        simp only [Option.getD_none, ofEntries_same p n]
      rw [this]
    · simp only [yConf, hd, hd', yEntries_collect]
      rw [yCollect_map_perm names_yName yOpt (AMap.ofEntries · []) (fun r r' p n => ofEntries_same p n) hp hu]
    · simp only [decodeYaml, hd, hd']
      have : yCfgFields xs ⟨⟨[], [], []⟩, []⟩ = yCfgFields ys ⟨⟨[], [], []⟩, []⟩ := by
        refine option_ext fun a => ?_
        rw [cfgFields_iff xs hu, cfgFields_iff ys hu', scalars_perm hp, find_perm hp hu, find_perm hp hu, find_perm hp hu, find_perm hp hu]
      rw [this]

mutual
theorem reordered_same : ∀ {x y : Yaml}, Reordered x y → SameRead x y
  | _, _, .str t => .refl _
  | _, _, .plain t v => .refl _
  | _, _, .seq xs ys h => seq_same_read (reorderedL_same h)
  | _, _, .map xs ys zs h hs hp => by
    have ih := reorderedE_same h
    refine (map_same_read ih).trans (perm_same_read hp ?_)
    intro e he
    have : e.1 ∈ xs.map (·.1) := by rw [entriesSame_keys ih]; exact List.mem_map_of_mem he
    obtain ⟨e', he', hk⟩ := List.mem_map.1 this
    obtain ⟨t, ht⟩ := hs e' he'
    exact ⟨t, by rw [← hk, ht]⟩
  | _, _, .gmap xs ys h => map_same_read (reorderedE_same h)
theorem reorderedL_same : ∀ {xs ys : List Yaml}, ReorderedL xs ys → ItemsSame xs ys
  | _, _, .nil => .nil
  | _, _, .cons x y xs ys h1 h2 => .cons x y xs ys (reordered_same h1) (reorderedL_same h2)
theorem reorderedE_same : ∀ {xs ys : List (Yaml × Yaml)}, ReorderedE xs ys → EntriesSame xs ys
  | _, _, .nil => .nil
  | _, _, .cons k x y xs ys h1 h2 => .cons k x y xs ys (reordered_same h1) (reorderedE_same h2)
end

/-- C93: the order of the entries of mappings does not matter, at any depth. -/
theorem yaml_order {x y : Yaml} (h : Reordered x y) : decodeYaml x = decodeYaml y := (reordered_same h).doc

end Sawmill
