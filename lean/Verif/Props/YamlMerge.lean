import Verif.Spec.YamlMerge
import Verif.Props.YamlOrder
/-!
# C94: merge keys and aliases in a YAML configuration are abbreviations
-/

namespace Sawmill

theorem cleanKeys_cons {k y : MYaml} {es : List (MYaml × MYaml)} (h : CleanKeys ((k, y) :: es)) : (k = .merge ∨ ∃ t, k = .str t ∧ t ≠ lit "<<") ∧ (∀ e ∈ es, k ≠ e.1) ∧ CleanKeys es :=
  ⟨h.1 _ (List.mem_cons_self ..), (List.pairwise_cons.1 h.2).1, fun e he => h.1 e (List.mem_cons_of_mem _ he), (List.pairwise_cons.1 h.2).2⟩

theorem ownEntry_merge (n : Bytes) (y : MYaml) (es : List (MYaml × MYaml)) : ownEntry n ((.merge, y) :: es) = ownEntry n es := by
  simp [ownEntry]

theorem ownEntry_str (n t : Bytes) (y : MYaml) (es : List (MYaml × MYaml)) : ownEntry n ((.str t, y) :: es) = if t = n then some y else ownEntry n es := by
  by_cases h : t = n <;> simp [ownEntry, h]

theorem ownEntry_none {n : Bytes} {es : List (MYaml × MYaml)} (h : ∀ e ∈ es, MYaml.str n ≠ e.1) : ownEntry n es = none := by
  unfold ownEntry
  rw [List.findSome?_eq_none_iff]
  intro e he
  split
  · rename_i t ht
    rw [if_neg]
    intro hn
    exact h e he (by rw [ht, hn])
  · rfl

theorem ownEntry_mem {n : Bytes} {y : MYaml} {es : List (MYaml × MYaml)} (h : ownEntry n es = some y) : (.str n, y) ∈ es := by
  unfold ownEntry at h
  replace h := List.exists_of_findSome?_eq_some h
  obtain ⟨⟨k, v⟩, he, h⟩ := h
  split at h
  · rename_i t ht
    split at h
    · rename_i hn
      have ht : k = .str t := ht
      have h : some v = some y := h
      subst ht hn
      rw [← Option.some.inj h]
      exact he
    · cases h
  · cases h

theorem own_visit {es : List (MYaml × MYaml)} (h : CleanKeys es) (s : List YKey) :
    ∃ xs s', visitOwn mName .str es (some s) = some (xs, some s') ∧ (xs.map (·.1)).Nodup ∧ (∀ n y, (n, y) ∈ xs ↔ YKey.str n ∉ s ∧ ownEntry n es = some y) ∧
      ∀ k, k ∈ s' ↔ k ∈ s ∨ ∃ n y, k = .str n ∧ ownEntry n es = some y := by
  induction es generalizing s with
  | nil => exact ⟨[], s, rfl, by simp, by simp [ownEntry], by simp [ownEntry]⟩
  | cons e es ih =>
    obtain ⟨k, y⟩ := e
    obtain ⟨hk, hd, hc⟩ := cleanKeys_cons h
    rcases hk with rfl | ⟨t, rfl, ht⟩
    · obtain ⟨xs, s', he, h1, h2, h3⟩ := ih hc s
      refine ⟨xs, s', by simpa [visitOwn, MYaml.isMerge] using he, h1, ?_, ?_⟩ <;> simpa only [ownEntry_merge] using by assumption
    · have hno := ownEntry_none hd
      by_cases hs : YKey.str t ∈ s
      · obtain ⟨xs, s', he, h1, h2, h3⟩ := ih hc s
        refine ⟨xs, s', ?_, h1, ?_, ?_⟩
        · simp only [visitOwn, MYaml.isMerge, mName, if_pos hs]; exact he
        · intro n v
          rw [h2, ownEntry_str]
          by_cases hn : t = n
          · subst hn
            simp [hs]
          · rw [if_neg hn]
        · intro k
          rw [h3]
          constructor
          · rintro (hk | ⟨n, v, rfl, hv⟩)
            · exact .inl hk
            · refine .inr ⟨n, v, rfl, ?_⟩
              rw [ownEntry_str, if_neg, hv]
              rintro rfl
              rw [hno] at hv; cases hv
          · rintro (hk | ⟨n, v, rfl, hv⟩)
            · exact .inl hk
            · rw [ownEntry_str] at hv
              by_cases hn : t = n
              · subst hn; exact .inl hs
              · rw [if_neg hn] at hv; exact .inr ⟨n, v, rfl, hv⟩
      · obtain ⟨xs, s', he, h1, h2, h3⟩ := ih hc (.str t :: s)
        refine ⟨(t, y) :: xs, s', ?_, ?_, ?_, ?_⟩
        · simp only [visitOwn, MYaml.isMerge, mName, if_neg hs]
          rw [if_neg (by simp)]
          rw [he]; rfl
        · refine List.nodup_cons.2 ⟨?_, h1⟩
          intro hm
          obtain ⟨⟨n, v⟩, hx, rfl⟩ := List.mem_map.1 hm
          exact ((h2 _ _).1 hx).1 (List.mem_cons_self ..)
        · intro n v
          rw [List.mem_cons, h2, ownEntry_str]
          by_cases hn : t = n
          · subst hn
            rw [if_pos rfl]
            constructor
            · rintro (hx | ⟨hx, _⟩)
              · cases hx; exact ⟨hs, rfl⟩
              · exact absurd (List.mem_cons_self ..) hx
            · rintro ⟨_, hx⟩
              cases hx; exact .inl rfl
          · rw [if_neg hn]
            constructor
            · rintro (hx | ⟨hx, hv⟩)
              · cases hx; exact absurd rfl hn
              · exact ⟨fun hm => hx (List.mem_cons_of_mem _ hm), hv⟩
            · rintro ⟨hx, hv⟩
              refine .inr ⟨?_, hv⟩
              intro hm
              rcases List.mem_cons.1 hm with hm | hm
              · cases hm; exact hn rfl
              · exact hx hm
        · intro k
          rw [h3]
          constructor
          · rintro (hk | ⟨n, v, rfl, hv⟩)
            · rcases List.mem_cons.1 hk with rfl | hk
              · exact .inr ⟨t, y, rfl, by rw [ownEntry_str, if_pos rfl]⟩
              · exact .inl hk
            · refine .inr ⟨n, v, rfl, ?_⟩
              rw [ownEntry_str, if_neg, hv]
              rintro rfl
              rw [hno] at hv; cases hv
          · rintro (hk | ⟨n, v, rfl, hv⟩)
            · exact .inl (List.mem_cons_of_mem _ hk)
            · rw [ownEntry_str] at hv
              by_cases hn : t = n
              · subst hn; exact .inl (List.mem_cons_self ..)
              · rw [if_neg hn] at hv; exact .inr ⟨n, v, rfl, hv⟩

theorem own_visit_all {es : List (MYaml × MYaml)} (h : CleanKeys es) :
    ∃ xs, visitOwn mName .str es none = some (xs, none) ∧ (xs.map (·.1)).Nodup ∧ (∀ n y, (n, y) ∈ xs ↔ ownEntry n es = some y) := by
  induction es with
  | nil => exact ⟨[], rfl, by simp, by simp [ownEntry]⟩
  | cons e es ih =>
    obtain ⟨k, y⟩ := e
    obtain ⟨hk, hd, hc⟩ := cleanKeys_cons h
    obtain ⟨xs, he, h1, h2⟩ := ih hc
    rcases hk with rfl | ⟨t, rfl, ht⟩
    · refine ⟨xs, by simpa [visitOwn, MYaml.isMerge] using he, h1, ?_⟩
      simpa only [ownEntry_merge] using h2
    · have hno := ownEntry_none hd
      refine ⟨(t, y) :: xs, ?_, ?_, ?_⟩
      · show (visitOwn mName YKey.str es none).map (fun r => ((t, y) :: r.1, r.2)) = _
        rw [he]; rfl
      · refine List.nodup_cons.2 ⟨?_, h1⟩
        intro hm
        obtain ⟨⟨n, v⟩, hx, rfl⟩ := List.mem_map.1 hm
        rw [h2, hno] at hx; cases hx
      · intro n v
        rw [List.mem_cons, h2, ownEntry_str]
        by_cases hn : t = n
        · subst hn
          rw [if_pos rfl, hno]
          constructor
          · rintro (hx | hx)
            · cases hx; rfl
            · cases hx
          · intro hx
            cases hx; exact .inl rfl
        · rw [if_neg hn]
          constructor
          · rintro (hx | hx)
            · cases hx; exact absurd rfl hn
            · exact hx
          · exact .inr

/-- A list of entries is what `get` gives, for the names not in `s`; and `s'` is `s` with all those names. -/
structure Visited (get : Bytes → Option MYaml) (s : List YKey) (xs : List (Bytes × MYaml)) (s' : List YKey) : Prop where
  nodup : (xs.map (·.1)).Nodup
  mem : ∀ n y, (n, y) ∈ xs ↔ YKey.str n ∉ s ∧ get n = some y
  seen : ∀ k, k ∈ s' ↔ k ∈ s ∨ ∃ n y, k = .str n ∧ get n = some y

theorem Visited.nil (s : List YKey) : Visited (fun _ => none) s [] s := ⟨by simp, by simp, by simp⟩

theorem Visited.append {f g : Bytes → Option MYaml} {s t u : List YKey} {xs ys : List (Bytes × MYaml)} (h1 : Visited f s xs t) (h2 : Visited g t ys u) : Visited (fun n => (f n).or (g n)) s (xs ++ ys) u := by
  have key : ∀ n, YKey.str n ∈ t ↔ YKey.str n ∈ s ∨ ∃ y, f n = some y := by
    intro n
    rw [h1.seen]
    constructor
    · rintro (h | ⟨m, y, hm, hy⟩)
      · exact .inl h
      · cases hm; exact .inr ⟨y, hy⟩
    · rintro (h | ⟨y, hy⟩)
      · exact .inl h
      · exact .inr ⟨n, y, rfl, hy⟩
  refine ⟨?_, ?_, ?_⟩
  · rw [List.map_append, List.nodup_append]
    refine ⟨h1.nodup, h2.nodup, ?_⟩
    intro a ha b hb hab
    subst hab
    obtain ⟨⟨n, v⟩, hx, rfl⟩ := List.mem_map.1 ha
    obtain ⟨⟨n', w⟩, hy, hn⟩ := List.mem_map.1 hb
    have hn : n' = n := hn
    subst hn
    exact ((h2.mem _ _).1 hy).1 ((key _).2 (.inr ⟨v, ((h1.mem _ _).1 hx).2⟩))
  · intro n y
    rw [List.mem_append, h1.mem, h2.mem, key]
    cases hf : f n with
    | none => simp
    | some v => simp
  · intro k
    rw [h2.seen, h1.seen]
    constructor
    · rintro ((h | ⟨n, y, rfl, hy⟩) | ⟨n, y, rfl, hy⟩)
      · exact .inl h
      · exact .inr ⟨n, y, rfl, by simp [hy]⟩
      · cases hf : f n with
        | none => exact .inr ⟨n, y, rfl, by simp [hf, hy]⟩
        | some v => exact .inr ⟨n, v, rfl, by simp [hf]⟩
    · rintro (h | ⟨n, y, rfl, hy⟩)
      · exact .inl (.inl h)
      · cases hf : f n with
        | none => exact .inr ⟨n, y, rfl, by simpa [hf] using hy⟩
        | some v => exact .inl (.inr ⟨n, v, rfl, hf⟩)

theorem visitAll_spec {ys : List MYaml} (hs : ∀ y ∈ ys, ∃ es, y = .map es) (h : ∀ y ∈ ys, ∀ s, ∃ xs s', visitNode mName .str y s = some (xs, s') ∧ Visited (nodeEntry · y) s xs s') (s : List YKey) :
    ∃ xs s', visitAll mName .str ys s = some (xs, s') ∧ Visited (firstEntry · ys) s xs s' := by
  induction ys generalizing s with
  | nil => exact ⟨[], s, by simp [visitAll], by simpa [firstEntry] using Visited.nil s⟩
  | cons y ys ih =>
    obtain ⟨xs, s', he, hv⟩ := h y (List.mem_cons_self ..) s
    obtain ⟨zs, s'', he', hv'⟩ := ih (fun z hz => hs z (List.mem_cons_of_mem _ hz)) (fun z hz => h z (List.mem_cons_of_mem _ hz)) s'
    obtain ⟨es, rfl⟩ := hs y (List.mem_cons_self ..)
    refine ⟨xs ++ zs, s'', ?_, ?_⟩
    · simp only [visitAll, he, he', Option.map_some]
    · simpa only [firstEntry] using hv.append hv'

theorem visitMerge_spec {es : List (MYaml × MYaml)} (hc : CleanKeys es) (h : ∀ y, (MYaml.merge, y) ∈ es → ∀ s, ∃ xs s', visitNode mName .str y s = some (xs, s') ∧ Visited (nodeEntry · y) s xs s') (s : List YKey) :
    ∃ xs s', visitMerge mName .str es s = some (xs, s') ∧ Visited (mergedEntry · es) s xs s' := by
  induction es with
  | nil => exact ⟨[], s, by simp [visitMerge], by simpa [mergedEntry] using Visited.nil s⟩
  | cons e es ih =>
    obtain ⟨k, y⟩ := e
    replace hc := cleanKeys_cons hc
    obtain ⟨hk, hd, hc⟩ := hc
    rcases hk with rfl | ⟨t, rfl, ht⟩
    · obtain ⟨xs, s', he, hv⟩ := h y (List.mem_cons_self ..) s
      exact ⟨xs, s', by simp only [visitMerge, MYaml.isMerge, if_true]; exact he, by simpa only [mergedEntry] using hv⟩
    · obtain ⟨xs, s', he, hv⟩ := ih hc (fun y hy => h y (List.mem_cons_of_mem _ hy))
      exact ⟨xs, s', by simp only [visitMerge, MYaml.isMerge]; exact he, by simpa only [mergedEntry] using hv⟩

theorem repeatedM_clean {es : List (MYaml × MYaml)} (h : CleanKeys es) : repeatedKeyM es = false := by
  induction es with
  | nil => rfl
  | cons e es ih =>
    obtain ⟨k, y⟩ := e
    obtain ⟨hk, hd, hc⟩ := cleanKeys_cons h
    simp only [repeatedKeyM, ih hc, Bool.or_false]
    rw [List.any_eq_false]
    intro e he
    have hk' := hc.1 e he
    have hne := hd e he
    rcases hk with rfl | ⟨t, rfl, ht⟩ <;> rcases hk' with h' | ⟨t', h', ht'⟩ <;> rw [h'] at hne ⊢ <;> simp [MYaml.kindValue]
    · exact absurd rfl hne
    · exact fun h => ht' h.symm
    · exact ht
    · rintro rfl; exact hne rfl

mutual
theorem can_visit : ∀ {es : List (MYaml × MYaml)}, CanMerge es → ∀ s, ∃ xs s', visitNode mName .str (.map es) s = some (xs, s') ∧ Visited (nodeEntry · (.map es)) s xs s'
  | _, .mk es hk hm, s => by
    have ih := fun y hy => source_visit (hm y hy)
    obtain ⟨xs, s1, he, h1, h2, h3⟩ := own_visit hk s
    obtain ⟨ys, s2, he', hv⟩ := visitMerge_spec hk ih s1
    refine ⟨xs ++ ys, s2, ?_, ?_⟩
    · simp only [visitNode, repeatedM_clean hk, he, Option.getD_some, he', Option.map_some]
      rfl
    · simpa only [nodeEntry] using (Visited.mk h1 h2 h3).append hv
theorem source_visit : ∀ {y : MYaml}, Source y → ∀ s, ∃ xs s', visitNode mName .str y s = some (xs, s') ∧ Visited (nodeEntry · y) s xs s'
  | _, .map es h, s => can_visit h s
  | _, .seq ys hs h, s => by
    have ih := fun es hes => @can_visit es (h es hes)
    have := visitAll_spec hs (fun y hy => by obtain ⟨es, rfl⟩ := hs y hy; exact ih es hy) s
    simpa only [visitNode, nodeEntry] using this
end

theorem or_none {α : Type} {a b : Option α} (h1 : a = none) (h2 : b = none) : a.or b = none := by rw [h1, h2]; rfl

theorem clean_angle {es : List (MYaml × MYaml)} (h : CleanKeys es) : ownEntry (lit "<<") es = none :=
  ownEntry_none fun e he hk => by
    rcases h.1 e he with h' | ⟨t, h', ht⟩ <;> rw [h'] at hk
    · cases hk
    · cases hk; exact ht rfl

theorem merged_cases (n : Bytes) (es : List (MYaml × MYaml)) : mergedEntry n es = none ∨ ∃ y, (MYaml.merge, y) ∈ es ∧ mergedEntry n es = nodeEntry n y := by
  induction es with
  | nil => exact .inl (by simp [mergedEntry])
  | cons e es ih =>
    obtain ⟨k, y⟩ := e
    cases k with
    | merge => exact .inr ⟨y, List.mem_cons_self .., by simp [mergedEntry]⟩
    | _ =>
      simp only [mergedEntry]
      rcases ih with ih | ⟨z, hz, ih⟩
      · exact .inl ih
      · exact .inr ⟨z, List.mem_cons_of_mem _ hz, ih⟩

theorem first_none {n : Bytes} {ys : List MYaml} (h : ∀ y ∈ ys, nodeEntry n y = none) : firstEntry n ys = none := by
  induction ys with
  | nil => simp [firstEntry]
  | cons y ys ih => simp only [firstEntry]; exact or_none (h y (List.mem_cons_self ..)) (ih fun z hz => h z (List.mem_cons_of_mem _ hz))

mutual
theorem can_angle : ∀ {es : List (MYaml × MYaml)}, CanMerge es → nodeEntry (lit "<<") (.map es) = none
  | _, .mk es hk hm => by
    have ih := fun y hy => source_angle (hm y hy)
    simp only [nodeEntry]
    refine or_none (clean_angle hk) ?_
    rcases merged_cases (lit "<<") es with h | ⟨y, hy, h⟩
    · exact h
    · rw [h]; exact ih y hy
theorem source_angle : ∀ {y : MYaml}, Source y → nodeEntry (lit "<<") y = none
  | _, .map es h => can_angle h
  | _, .seq ys hs h => by
    have ih := fun es hes => @can_angle es (h es hes)
    simp only [nodeEntry]
    exact first_none fun y hy => by obtain ⟨es, rfl⟩ := hs y hy; exact ih es hy
end

theorem parentKeys_mem {es : List (MYaml × MYaml)} (h : CleanKeys es) {n : Bytes} (hn : n ≠ lit "<<") : YKey.str n ∈ parentKeys es ↔ ∃ y, ownEntry n es = some y := by
  induction es with
  | nil => simp [parentKeys, ownEntry]
  | cons e es ih =>
    obtain ⟨k, y⟩ := e
    obtain ⟨hk, hd, hc⟩ := cleanKeys_cons h
    replace ih := ih hc
    unfold parentKeys at ih ⊢
    rcases hk with rfl | ⟨t, rfl, ht⟩
    · simp only [List.filterMap_cons, mKey, Option.join_some, List.mem_cons, YKey.str.injEq, hn, false_or, ownEntry_merge]
      exact ih
    · simp only [List.filterMap_cons, mKey, Option.join_some, List.mem_cons, YKey.str.injEq, ownEntry_str]
      by_cases h : t = n
      · subst h; simp
      · rw [if_neg h, ← ih]
        constructor
        · rintro (h' | h')
          · exact absurd h'.symm h
          · exact h'
        · exact .inr

/-- The entries that are decoded, for a mapping that can have a merge key: those that it stands for. -/
theorem visitNames_spec {es : List (MYaml × MYaml)} (h : CanMerge es) : ∃ xs, visitNames es = some xs ∧ (xs.map (·.1)).Nodup ∧ ∀ n y, (n, y) ∈ xs ↔ nodeEntry n (.map es) = some y := by
  have ha := can_angle h
  obtain ⟨_, hk, hm⟩ := h
  obtain ⟨xs, he, h1, h2⟩ := own_visit_all hk
  obtain ⟨ys, s', he', hv⟩ := visitMerge_spec hk (fun y hy => source_visit (hm y hy)) (parentKeys es)
  have hno : ∀ n y, (n, y) ∈ ys → n ≠ lit "<<" := by
    rintro _ y hy rfl
    simp only [nodeEntry, clean_angle hk, Option.none_or] at ha
    have := ((hv.mem _ _).1 hy).2
    rw [ha] at this; cases this
  have hno' : ∀ n y, (n, y) ∈ xs → n ≠ lit "<<" := by
    rintro _ y hy rfl
    rw [h2, clean_angle hk] at hy; cases hy
  refine ⟨xs ++ ys, ?_, ?_, ?_⟩
  · simp only [visitNames, visit, repeatedM_clean hk, he, he', Option.map_some]
    rfl
  · rw [List.map_append, List.nodup_append]
    refine ⟨h1, hv.nodup, ?_⟩
    intro a ha b hb hab
    subst hab
    obtain ⟨⟨n, v⟩, hx, rfl⟩ := List.mem_map.1 ha
    obtain ⟨⟨n', w⟩, hy, hn⟩ := List.mem_map.1 hb
    have hn : n' = n := hn
    subst hn
    exact ((hv.mem _ _).1 hy).1 ((parentKeys_mem hk (hno _ _ hy)).2 ⟨v, (h2 _ _).1 hx⟩)
  · intro n y
    rw [List.mem_append, h2, hv.mem]
    simp only [nodeEntry]
    by_cases hn : n = lit "<<"
    · subst hn
      rw [clean_angle hk]
      simp only [nodeEntry, clean_angle hk, Option.none_or] at ha
      simp [ha]
    · rw [parentKeys_mem hk hn]
      cases ownEntry n es <;> simp

/-! ## Depth -/

theorem depthE_mem {k y : MYaml} {es : List (MYaml × MYaml)} (h : (k, y) ∈ es) : y.depth ≤ MYaml.depthE es := by
  induction es with
  | nil => cases h
  | cons e es ih =>
    obtain ⟨k', y'⟩ := e
    simp only [MYaml.depthE]
    rcases List.mem_cons.1 h with h | h
    · cases h; omega
    · have := ih h; omega

mutual
theorem mergedEntry_depth (n : Bytes) : ∀ (es : List (MYaml × MYaml)) {v : MYaml}, mergedEntry n es = some v → v.depth ≤ MYaml.depthE es
  | [], v, h => by simp [mergedEntry] at h
  | (k, y) :: es, v, h => by
    have ih1 := @nodeEntry_depth n y v
    have ih2 := @mergedEntry_depth n es v
    simp only [MYaml.depthE]
    cases k with
    | merge => simp only [mergedEntry] at h; have := ih1 h; omega
    | _ => simp only [mergedEntry] at h; have := ih2 h; omega
theorem nodeEntry_depth (n : Bytes) : ∀ (y : MYaml) {v : MYaml}, nodeEntry n y = some v → v.depth + 1 ≤ y.depth
  | .map es, v, h => by
    have ih := @mergedEntry_depth n es v
    simp only [nodeEntry, Option.or_eq_some_iff] at h
    simp only [MYaml.depth]
    rcases h with h | ⟨_, h⟩
    · have := depthE_mem (ownEntry_mem h); omega
    · have := ih h; omega
  | .seq ys, v, h => by
    have ih := @firstEntry_depth n ys v
    simp only [nodeEntry] at h
    simp only [MYaml.depth]
    have := ih h; omega
  | .str _, v, h => by simp [nodeEntry] at h
  | .plain _ _, v, h => by simp [nodeEntry] at h
  | .merge, v, h => by simp [nodeEntry] at h
theorem firstEntry_depth (n : Bytes) : ∀ (ys : List MYaml) {v : MYaml}, firstEntry n ys = some v → v.depth ≤ MYaml.depthL ys
  | [], v, h => by simp [firstEntry] at h
  | y :: ys, v, h => by
    have ih1 := @nodeEntry_depth n y v
    have ih2 := @firstEntry_depth n ys v
    simp only [firstEntry, Option.or_eq_some_iff] at h
    simp only [MYaml.depthL]
    rcases h with h | ⟨_, h⟩
    · have := ih1 h; omega
    · have := ih2 h; omega
end

/-! ## Loops over entries -/

/-- A node and one without merge keys are read in the same way, whatever they are read as. -/
structure ReadAs (n : Nat) (y : MYaml) (z : Yaml) : Prop where
  any : mAny n y = yAny z
  opt : mOpt n y = yOpt z
  slice : mSlice n y = ySlice z
  conf : mConf n y = yConf z
  str : ∀ s, mString y s = yString z s

/-- Entries with names, and the entries of a mapping that have names. -/
inductive NamedAs (n : Nat) : List (Bytes × MYaml) → List (Yaml × Yaml) → Prop where
  | nil : NamedAs n [] []
  | named (k z : Yaml) (t : Bytes) (y : MYaml) (xs : List (Bytes × MYaml)) (fs : List (Yaml × Yaml)) (hk : yName k = some (some t)) (h1 : ReadAs n y z) (h2 : NamedAs n xs fs) : NamedAs n ((t, y) :: xs) ((k, z) :: fs)
  | skip (k z : Yaml) (xs : List (Bytes × MYaml)) (fs : List (Yaml × Yaml)) (hk : yName k = some none) (h2 : NamedAs n xs fs) : NamedAs n xs ((k, z) :: fs)

theorem named_collect {α : Type} {n : Nat} {f : MYaml → Option α} {g : Yaml → Option α} (hf : ∀ y z, ReadAs n y z → f y = g z) {xs : List (Bytes × MYaml)} {fs : List (Yaml × Yaml)} (h : NamedAs n xs fs) :
    allSnd f xs = yCollect yName g fs := by
  induction h with
  | nil => rfl
  | named k z t y xs fs hk h1 h2 ih =>
    unfold allSnd at ih ⊢
    simp only [allSome, yCollect, hk, hf y z h1, ih]
    cases g z with
    | none => rfl
    | some v => cases yCollect yName g fs <;> rfl
  | skip k z xs fs hk h2 ih => simp only [yCollect, hk, ih]

theorem named_opt {n : Nat} {xs : List (Bytes × MYaml)} {fs : List (Yaml × Yaml)} (h : NamedAs n xs fs) (a : YOptAcc) : mOptFields (mSlice n) (mAny n) xs a = yOptFields fs a := by
  induction h generalizing a with
  | nil => rfl
  | named k z t y xs fs hk h1 h2 ih =>
    simp only [mOptFields, yOptFields, hk, h1.str, h1.slice, h1.any, ih]
    repeat' split
    all_goals first | rfl | simp_all
  | skip k z xs fs hk h2 ih => simp only [yOptFields, hk, ih]

theorem named_cfg {n : Nat} {xs : List (Bytes × MYaml)} {fs : List (Yaml × Yaml)} (h : NamedAs n xs fs) (a : YConfig) : mCfgFields (mSlice n) xs a = yCfgFields fs a := by
  induction h generalizing a with
  | nil => rfl
  | named k z t y xs fs hk h1 h2 ih =>
    simp only [mCfgFields, yCfgFields, hk, h1.str, h1.slice, ih]
    repeat' split
    all_goals first | rfl | simp_all
  | skip k z xs fs hk h2 ih => simp only [yCfgFields, hk, ih]

/-! ## Mappings without merge keys -/

/-- The entries of a mapping without merge keys, and those of the mapping that it stands for. -/
inductive EntriesAs (n : Nat) : List (MYaml × MYaml) → List (Yaml × Yaml) → Prop where
  | nil : EntriesAs n [] []
  | str (t : Bytes) (y : MYaml) (z : Yaml) (es : List (MYaml × MYaml)) (fs : List (Yaml × Yaml)) (h1 : ReadAs n y z) (h2 : EntriesAs n es fs) : EntriesAs n ((.str t, y) :: es) ((.str t, z) :: fs)
  | plain (t : Bytes) (v : YPlain) (y : MYaml) (z : Yaml) (es : List (MYaml × MYaml)) (fs : List (Yaml × Yaml)) (h1 : ReadAs n y z) (h2 : EntriesAs n es fs) : EntriesAs n ((.plain t v, y) :: es) ((.plain t v, z) :: fs)

theorem entriesAs_keys {n : Nat} {es : List (MYaml × MYaml)} {fs : List (Yaml × Yaml)} (h : EntriesAs n es fs) : es.map (fun e => e.1.kindValue) = fs.map fun e => e.1.kindValue := by
  induction h with
  | nil => rfl
  | str t y z es fs h1 h2 ih => rw [List.map_cons, List.map_cons, ih]; rfl
  | plain t v y z es fs h1 h2 ih => rw [List.map_cons, List.map_cons, ih]; rfl

theorem repeatedM_as : ∀ {es : List (MYaml × MYaml)} {fs : List (Yaml × Yaml)}, es.map (fun e => e.1.kindValue) = fs.map (fun e => e.1.kindValue) → repeatedKeyM es = repeatedKey fs
  | [], [], _ => rfl
  | [], _ :: _, h => by cases h
  | _ :: _, [], h => by cases h
  | (k, y) :: es, (k', z) :: fs, h => by
    simp only [List.map_cons, List.cons.injEq] at h
    simp only [repeatedKeyM, repeatedKey, repeatedM_as h.2, h.1]
    congr 1
    have : es.any (fun e => decide (k'.kindValue = e.1.kindValue)) = (es.map fun e => e.1.kindValue).any fun x => decide (k'.kindValue = x) := by
      rw [List.any_map]; rfl
    rw [this, h.2, List.any_map]
    rfl

theorem stringMap_as {n : Nat} {es : List (MYaml × MYaml)} {fs : List (Yaml × Yaml)} (h : EntriesAs n es fs) : isStringMapM es = isStringMap fs := by
  unfold isStringMapM isStringMap
  induction h with
  | nil => rfl
  | str t y z es fs h1 h2 ih => simpa using ih
  | plain t v y z es fs h1 h2 ih => simp

theorem visitMerge_as {κ : Type} {key : MYaml → Option (Option κ)} {emb : κ → YKey} {n : Nat} {es : List (MYaml × MYaml)} {fs : List (Yaml × Yaml)} (h : EntriesAs n es fs) (s : List YKey) : visitMerge key emb es s = some ([], s) := by
  induction h with
  | nil => simp [visitMerge]
  | str t y z es fs h1 h2 ih => simpa [visitMerge, MYaml.isMerge] using ih
  | plain t v y z es fs h1 h2 ih => simpa [visitMerge, MYaml.isMerge] using ih

theorem own_as {n : Nat} {es : List (MYaml × MYaml)} {fs : List (Yaml × Yaml)} (h : EntriesAs n es fs) : ∃ xs, visitOwn mName .str es none = some (xs, none) ∧ NamedAs n xs fs := by
  induction h with
  | nil => exact ⟨[], rfl, .nil⟩
  | str t y z es fs h1 h2 ih =>
    obtain ⟨xs, he, hn⟩ := ih
    refine ⟨(t, y) :: xs, ?_, .named _ _ _ _ _ _ rfl h1 hn⟩
    show (visitOwn mName YKey.str es none).map (fun r => ((t, y) :: r.1, r.2)) = _
    rw [he]; rfl
  | plain t v y z es fs h1 h2 ih =>
    obtain ⟨xs, he, hn⟩ := ih
    by_cases hv : v = .null
    · subst hv
      exact ⟨xs, he, .skip _ _ _ _ rfl hn⟩
    · refine ⟨(t, y) :: xs, ?_, .named _ _ _ _ _ _ ?_ h1 hn⟩
      · have : mName (.plain t v) = some (some t) := by cases v <;> first | rfl | exact absurd rfl hv
        unfold visitOwn
        rw [this]
        show (visitOwn mName YKey.str es none).map (fun r => ((t, y) :: r.1, r.2)) = _
        rw [he]; rfl
      · cases v <;> first | rfl | exact absurd rfl hv

theorem keys_as {n : Nat} {es : List (MYaml × MYaml)} {fs : List (Yaml × Yaml)} (h : EntriesAs n es fs) : ∃ xs, visitOwn mKey id es none = some (xs, none) ∧ allSnd (mAny n) xs = yAnyG fs := by
  induction h with
  | nil => exact ⟨[], rfl, rfl⟩
  | str t y z es fs h1 h2 ih =>
    obtain ⟨xs, he, hn⟩ := ih
    refine ⟨(.str t, y) :: xs, ?_, ?_⟩
    · show (visitOwn mKey id es none).map (fun r => ((YKey.str t, y) :: r.1, r.2)) = _
      rw [he]; rfl
    · unfold allSnd at hn ⊢
      simp only [allSome, yAnyG, yKey, h1.any, hn]
      cases yAny z with
      | none => rfl
      | some v => cases yAnyG fs <;> rfl
  | plain t v y z es fs h1 h2 ih =>
    obtain ⟨xs, he, hn⟩ := ih
    refine ⟨(.plain v, y) :: xs, ?_, ?_⟩
    · show (visitOwn mKey id es none).map (fun r => ((YKey.plain v, y) :: r.1, r.2)) = _
      rw [he]; rfl
    · unfold allSnd at hn ⊢
      simp only [allSome, yAnyG, yKey, h1.any, hn]
      cases yAny z with
      | none => rfl
      | some v => cases yAnyG fs <;> rfl

/-- The entries with names, for such a mapping. -/
theorem visitNames_as {n : Nat} {es : List (MYaml × MYaml)} {fs : List (Yaml × Yaml)} (h : EntriesAs n es fs) :
    (repeatedKey fs = true ∧ visitNames es = none) ∨ (repeatedKey fs = false ∧ ∃ xs, visitNames es = some xs ∧ NamedAs n xs fs) := by
  have hr := repeatedM_as (entriesAs_keys h)
  obtain ⟨xs, he, hn⟩ := own_as h
  cases hd : repeatedKey fs with
  | true => exact .inl ⟨rfl, by rw [hd] at hr; simp only [visitNames, visit, hr, if_true]⟩
  | false =>
    rw [hd] at hr
    refine .inr ⟨rfl, xs, ?_, hn⟩
    simp only [visitNames, visit, hr, he, visitMerge_as h, Option.map_some, List.append_nil]
    rfl

theorem visitKeys_as {n : Nat} {es : List (MYaml × MYaml)} {fs : List (Yaml × Yaml)} (h : EntriesAs n es fs) :
    (repeatedKey fs = true ∧ visitKeys es = none) ∨ (repeatedKey fs = false ∧ ∃ xs, visitKeys es = some xs ∧ allSnd (mAny n) xs = yAnyG fs) := by
  have hr := repeatedM_as (entriesAs_keys h)
  obtain ⟨xs, he, hn⟩ := keys_as h
  cases hd : repeatedKey fs with
  | true => exact .inl ⟨rfl, by rw [hd] at hr; simp only [visitKeys, visit, hr, if_true]⟩
  | false =>
    rw [hd] at hr
    refine .inr ⟨rfl, xs, ?_, hn⟩
    simp only [visitKeys, visit, hr, he, visitMerge_as h, Option.map_some, List.append_nil]
    rfl

/-! ## Mappings -/

/-- What is common to mappings with and without merge keys: the entries with names are those of the mapping that it stands for. -/
theorem map_read_as {n : Nat} {es : List (MYaml × MYaml)} {fs : List (Yaml × Yaml)} (hs : isStringMapM es = isStringMap fs)
    (h : (repeatedKey fs = true ∧ visitNames es = none) ∨ (repeatedKey fs = false ∧ ∃ xs, visitNames es = some xs ∧ NamedAs n xs fs))
    (hg : isStringMap fs = false → (repeatedKey fs = true ∧ visitKeys es = none) ∨ (repeatedKey fs = false ∧ ∃ xs, visitKeys es = some xs ∧ allSnd (mAny n) xs = yAnyG fs)) :
    ReadAs (n + 1) (.map es) (.map fs) := by
  refine ⟨?_, ?_, rfl, ?_, fun _ => rfl⟩
  · simp only [mAny, yAny, hs]
    cases hst : isStringMap fs with
    | true =>
      rcases h with ⟨hr, hv⟩ | ⟨hr, xs, hv, hx⟩
      · simp [hr, hv]
      · simp only [hr, hv, if_true, named_collect (fun y z r => r.any) hx, yAnyS_collect]
        simp only [Option.map_map]
        rfl
    | false =>
      rcases hg hst with ⟨hr, hv⟩ | ⟨hr, xs, hv, hx⟩
      · simp [hr, hv]
      · simp [hr, hv, hx]
  · rcases h with ⟨hr, hv⟩ | ⟨hr, xs, hv, hx⟩
    · simp [mOpt, yOpt, hr, hv]
    · simp [mOpt, yOpt, hr, hv, named_opt hx]
  · rcases h with ⟨hr, hv⟩ | ⟨hr, xs, hv, hx⟩
    · simp [mConf, yConf, hr, hv]
    · simp [mConf, yConf, hr, hv, named_collect (fun y z r => r.opt) hx, yEntries_collect]

theorem ReadAs.same {n : Nat} {y : MYaml} {z z' : Yaml} (h : ReadAs n y z) (hs : SameRead z z') : ReadAs n y z' :=
  ⟨h.any.trans hs.any, h.opt.trans hs.opt, h.slice.trans hs.slice, h.conf.trans hs.conf, fun s => (h.str s).trans (hs.str s)⟩

theorem stringMap_clean {es : List (MYaml × MYaml)} (h : CleanKeys es) : isStringMapM es = true := by
  unfold isStringMapM
  rw [List.all_eq_true]
  intro e he
  rcases h.1 e he with h' | ⟨t, h', _⟩ <;> rw [h']

/-- A mapping with a merge key: the entries that are decoded are, in some order, those of the mapping that it stands for. -/
theorem merged_entries {n : Nat} {es : List (MYaml × MYaml)} {names : List Bytes} {under : Bytes → Yaml} (hc : CanMerge es) (hn : names.Nodup) (h : ∀ m, m ∈ names ↔ ∃ y, nodeEntry m (.map es) = some y)
    (hv : ∀ m y, nodeEntry m (.map es) = some y → ReadAs n y (under m)) :
    ∃ xs fs, visitNames es = some xs ∧ NamedAs n xs fs ∧ repeatedKey fs = false ∧ isStringMap fs = true ∧ fs.Perm (names.map fun m => (.str m, under m)) := by
  obtain ⟨xs, he, hd, hx⟩ := visitNames_spec hc
  have hp : (xs.map (·.1)).Perm names := by
    rw [List.perm_ext_iff_of_nodup hd hn]
    intro m
    rw [h, List.mem_map]
    constructor
    · rintro ⟨⟨m, y⟩, hm, rfl⟩
      exact ⟨y, (hx _ _).1 hm⟩
    · rintro ⟨y, hy⟩
      exact ⟨(m, y), (hx _ _).2 hy, rfl⟩
  refine ⟨xs, (xs.map (·.1)).map fun m => (.str m, under m), he, ?_, ?_, ?_, hp.map _⟩
  · have : ∀ x ∈ xs, ReadAs n x.2 (under x.1) := fun x hm => hv x.1 x.2 ((hx _ _).1 hm)
    clear hx hd hp he
    induction xs with
    | nil => exact .nil
    | cons x xs ih => exact .named _ _ _ _ _ _ rfl (this x (List.mem_cons_self ..)) (ih fun y hy => this y (List.mem_cons_of_mem _ hy))
  · rw [repeatedKey_iff]
    unfold Unrepeated
    rw [List.pairwise_map]
    refine hd.imp ?_
    intro a b hab hl
    rw [looks_iff] at hl
    simp only [Yaml.kindValue, Prod.mk.injEq, true_and] at hl
    exact hab hl
  · unfold isStringMap
    rw [List.all_eq_true]
    intro e he
    obtain ⟨m, _, rfl⟩ := List.mem_map.1 he
    rfl

mutual
theorem read_as : ∀ {y : MYaml} {z : Yaml}, Expands y z → ∀ n, y.depth ≤ n → ReadAs n y z
  | _, _, .str t, n, _ => by cases n <;> exact ⟨rfl, rfl, rfl, rfl, fun _ => rfl⟩
  | _, _, .plain t v, n, _ => by cases n <;> cases v <;> exact ⟨rfl, rfl, rfl, rfl, fun _ => rfl⟩
  | _, _, .text, n, _ => by cases n <;> exact ⟨rfl, rfl, rfl, rfl, fun _ => rfl⟩
  | _, _, .seq ys zs h, n, hn => by
    have ih := fun m => read_as_list h m
    simp only [MYaml.depth] at hn
    cases n with
    | zero => omega
    | succ n =>
      obtain ⟨h1, h2⟩ := ih n (by omega)
      exact ⟨by simp only [mAny, yAny, h1], rfl, by simp only [mSlice, ySlice, h2], rfl, fun _ => rfl⟩
  | _, _, .map es fs h, n, hn => by
    have ih := fun m => read_as_entries h m
    simp only [MYaml.depth] at hn
    cases n with
    | zero => omega
    | succ n =>
      have := ih n (by omega)
      exact map_read_as (stringMap_as this) (visitNames_as this) (fun _ => visitKeys_as this)
  | _, _, .merged es names under hm hc hd h hv, n, hn => by
    have ih := fun m y hy => read_as (hv m y hy)
    simp only [MYaml.depth] at hn
    cases n with
    | zero => omega
    | succ n =>
      obtain ⟨xs, fs, he, hx, hr, hs, hp⟩ := merged_entries (n := n) hc hd h (fun m y hy => ih m y hy n (by have := nodeEntry_depth m _ hy; simp only [MYaml.depth] at this; omega))
      have hst := stringMap_clean (by cases hc; assumption : CleanKeys es)
      refine (map_read_as (hst.trans hs.symm) (.inr ⟨hr, xs, he, hx⟩) (fun hf => by rw [hs] at hf; cases hf)).same (perm_same_read hp ?_)
      intro e he
      have := hp.mem_iff.1 he
      obtain ⟨m, _, rfl⟩ := List.mem_map.1 this
      exact ⟨m, rfl⟩
theorem read_as_list : ∀ {ys : List MYaml} {zs : List Yaml}, ExpandsL ys zs → ∀ n, MYaml.depthL ys ≤ n → allSome (mAny n) ys = yAnyL zs ∧ allSome (mConf n) ys = yConfs zs
  | _, _, .nil, n, _ => ⟨rfl, rfl⟩
  | _, _, .cons y z ys zs h1 h2, n, hn => by
    simp only [MYaml.depthL] at hn
    have r1 := read_as h1 n (by omega)
    have r2 := read_as_list h2 n (by omega)
    refine ⟨?_, ?_⟩
    · simp only [allSome, yAnyL, r1.any, r2.1]; cases yAny z <;> cases yAnyL zs <;> rfl
    · simp only [allSome, yConfs, r1.conf, r2.2]; cases yConf z <;> cases yConfs zs <;> rfl
theorem read_as_entries : ∀ {es : List (MYaml × MYaml)} {fs : List (Yaml × Yaml)}, ExpandsE es fs → ∀ n, MYaml.depthE es ≤ n → EntriesAs n es fs
  | _, _, .nil, n, _ => .nil
  | _, _, .str t y z es fs h1 h2, n, hn => by
    simp only [MYaml.depthE] at hn
    exact .str _ _ _ _ _ (read_as h1 n (by omega)) (read_as_entries h2 n (by omega))
  | _, _, .plain t v y z es fs h1 h2, n, hn => by
    simp only [MYaml.depthE] at hn
    exact .plain _ _ _ _ _ _ (read_as h1 n (by omega)) (read_as_entries h2 n (by omega))
end

/-- C94: a document is decoded like the document without merge keys that it stands for. -/
theorem merge_decode {y : MYaml} {z : Yaml} (h : Expands y z) : decodeMerged y = decodeYaml z := by
  cases h with
  | str t => rfl
  | plain t v => cases v <;> rfl
  | text => rfl
  | seq ys zs h => rfl
  | map es fs h =>
    have he := read_as_entries h (MYaml.depthE es) (Nat.le_refl _)
    rcases visitNames_as he with ⟨hr, hv⟩ | ⟨hr, xs, hv, hx⟩
    · simp [decodeMerged, decodeYaml, hr, hv]
    · simp [decodeMerged, decodeYaml, hr, hv, named_cfg hx]
  | merged es names under hm hc hd h hv =>
    obtain ⟨xs, fs, he, hx, hr, hs, hp⟩ := merged_entries (n := MYaml.depthE es) hc hd h (fun m y hy => read_as (hv m y hy) _ (by have := nodeEntry_depth m _ hy; simp only [MYaml.depth] at this; omega))
    have h1 : decodeMerged (.map es) = decodeYaml (.map fs) := by simp [decodeMerged, decodeYaml, hr, he, named_cfg hx]
    rw [h1]
    refine (perm_same_read hp ?_).doc
    intro e he
    have := hp.mem_iff.1 he
    obtain ⟨m, _, rfl⟩ := List.mem_map.1 this
    exact ⟨m, rfl⟩

/-! ## Every fine document stands for one -/

theorem fineE_mem {es : List (MYaml × MYaml)} (h : MYaml.FineE es) {k y : MYaml} (hm : (k, y) ∈ es) : y.Fine := by
  induction es with
  | nil => cases hm
  | cons e es ih =>
    obtain ⟨k', y'⟩ := e
    simp only [MYaml.FineE] at h
    rcases List.mem_cons.1 hm with hm | hm
    · cases hm; exact h.2.2.1
    · exact ih h.2.2.2 hm

mutual
theorem mergedEntry_fine (n : Bytes) : ∀ (es : List (MYaml × MYaml)) {v : MYaml}, MYaml.FineE es → mergedEntry n es = some v → v.Fine
  | [], v, hf, h => by simp [mergedEntry] at h
  | (k, y) :: es, v, hf, h => by
    have ih1 := @nodeEntry_fine n y v
    have ih2 := @mergedEntry_fine n es v
    simp only [MYaml.FineE] at hf
    cases k with
    | merge => simp only [mergedEntry] at h; exact ih1 hf.2.2.1 h
    | _ => simp only [mergedEntry] at h; exact ih2 hf.2.2.2 h
theorem nodeEntry_fine (n : Bytes) : ∀ (y : MYaml) {v : MYaml}, y.Fine → nodeEntry n y = some v → v.Fine
  | .map es, v, hf, h => by
    have ih := @mergedEntry_fine n es v
    simp only [nodeEntry, Option.or_eq_some_iff] at h
    simp only [MYaml.Fine] at hf
    rcases h with h | ⟨_, h⟩
    · exact fineE_mem hf.2 (ownEntry_mem h)
    · exact ih hf.2 h
  | .seq ys, v, hf, h => by
    have ih := @firstEntry_fine n ys v
    simp only [nodeEntry] at h
    simp only [MYaml.Fine] at hf
    exact ih hf h
  | .str _, v, _, h => by simp [nodeEntry] at h
  | .plain _ _, v, _, h => by simp [nodeEntry] at h
  | .merge, v, _, h => by simp [nodeEntry] at h
theorem firstEntry_fine (n : Bytes) : ∀ (ys : List MYaml) {v : MYaml}, MYaml.FineL ys → firstEntry n ys = some v → v.Fine
  | [], v, _, h => by simp [firstEntry] at h
  | y :: ys, v, hf, h => by
    have ih1 := @nodeEntry_fine n y v
    have ih2 := @firstEntry_fine n ys v
    simp only [firstEntry, Option.or_eq_some_iff] at h
    simp only [MYaml.FineL] at hf
    rcases h with h | ⟨_, h⟩
    · exact ih1 hf.1 h
    · exact ih2 hf.2 h
end

theorem expandsL_of {ys : List MYaml} (h : ∀ y ∈ ys, ∃ z, Expands y z) : ∃ zs, ExpandsL ys zs := by
  induction ys with
  | nil => exact ⟨[], .nil⟩
  | cons y ys ih =>
    obtain ⟨z, hz⟩ := h y (List.mem_cons_self ..)
    obtain ⟨zs, hzs⟩ := ih fun x hx => h x (List.mem_cons_of_mem _ hx)
    exact ⟨z :: zs, .cons _ _ _ _ hz hzs⟩

theorem expandsE_of {es : List (MYaml × MYaml)} (hm : ∀ e ∈ es, e.1 ≠ .merge) (hf : MYaml.FineE es) (h : ∀ k y, (k, y) ∈ es → ∃ z, Expands y z) : ∃ fs, ExpandsE es fs := by
  induction es with
  | nil => exact ⟨[], .nil⟩
  | cons e es ih =>
    obtain ⟨k, y⟩ := e
    simp only [MYaml.FineE] at hf
    obtain ⟨z, hz⟩ := h k y (List.mem_cons_self ..)
    obtain ⟨zs, hzs⟩ := ih (fun x hx => hm x (List.mem_cons_of_mem _ hx)) hf.2.2.2 fun k x hx => h k x (List.mem_cons_of_mem _ hx)
    cases k with
    | str t => exact ⟨_, .str t _ _ _ _ hz hzs⟩
    | plain t v => exact ⟨_, .plain t v _ _ _ _ hz hzs⟩
    | merge => exact absurd rfl (hm _ (List.mem_cons_self ..))
    | seq xs => exact absurd rfl (hf.1 xs)
    | map xs => exact absurd rfl (hf.2.1 xs)

theorem fineL_mem {ys : List MYaml} (h : MYaml.FineL ys) {y : MYaml} (hm : y ∈ ys) : y.Fine ∧ y.depth ≤ MYaml.depthL ys := by
  induction ys with
  | nil => cases hm
  | cons x ys ih =>
    simp only [MYaml.FineL] at h
    simp only [MYaml.depthL]
    rcases List.mem_cons.1 hm with hm | hm
    · subst hm; exact ⟨h.1, by omega⟩
    · have := ih h.2 hm; exact ⟨this.1, by omega⟩

theorem expands_of (n : Nat) : ∀ (y : MYaml), y.depth ≤ n → y.Fine → ∃ z, Expands y z := by
  induction n with
  | zero =>
    intro y hd hf
    cases y with
    | str t => exact ⟨_, .str t⟩
    | plain t v => exact ⟨_, .plain t v⟩
    | merge => exact ⟨_, .text⟩
    | seq ys => simp only [MYaml.depth] at hd; omega
    | map es => simp only [MYaml.depth] at hd; omega
  | succ n ih =>
    intro y hd hf
    cases y with
    | str t => exact ⟨_, .str t⟩
    | plain t v => exact ⟨_, .plain t v⟩
    | merge => exact ⟨_, .text⟩
    | seq ys =>
      simp only [MYaml.depth] at hd
      simp only [MYaml.Fine] at hf
      obtain ⟨zs, h⟩ := expandsL_of fun y hy => ih y (by have := (fineL_mem hf hy).2; omega) (fineL_mem hf hy).1
      exact ⟨_, .seq _ _ h⟩
    | map es =>
      simp only [MYaml.depth] at hd
      have hf' := hf
      simp only [MYaml.Fine] at hf
      by_cases hm : ∃ e ∈ es, e.1 = .merge
      · have hc := hf.1 hm
        obtain ⟨xs, _, hn, hx⟩ := visitNames_spec hc
        have : ∀ m, ∃ z, ∀ y, nodeEntry m (.map es) = some y → Expands y z := by
          intro m
          cases hy : nodeEntry m (.map es) with
          | none => exact ⟨.seq [], fun y h => by cases h⟩
          | some y =>
            have hdd := nodeEntry_depth m _ hy
            simp only [MYaml.depth] at hdd
            obtain ⟨z, hz⟩ := ih y (by omega) (nodeEntry_fine m _ hf' hy)
            exact ⟨z, fun y' h => by cases h; exact hz⟩
        obtain ⟨under, hu⟩ := Classical.axiomOfChoice this
        refine ⟨_, .merged es (xs.map (·.1)) under hm hc hn ?_ hu⟩
        intro m
        rw [List.mem_map]
        constructor
        · rintro ⟨⟨m, y⟩, hm, rfl⟩
          exact ⟨y, (hx _ _).1 hm⟩
        · rintro ⟨y, hy⟩
          exact ⟨(m, y), (hx _ _).2 hy, rfl⟩
      · obtain ⟨fs, h⟩ := expandsE_of (fun e he hk => hm ⟨e, he, hk⟩) hf.2 fun k y hy => ih y (by have := depthE_mem hy; omega) (fineE_mem hf.2 hy)
        exact ⟨_, .map _ _ h⟩

/-- C94: every document whose merge keys are used as they should be stands for one without merge keys. -/
theorem expands_exists {y : MYaml} (h : y.Fine) : ∃ z, Expands y z := expands_of y.depth y (Nat.le_refl _) h

/-! ## What is refused -/

theorem visitMerge_node {κ : Type} {key : MYaml → Option (Option κ)} {emb : κ → YKey} {es : List (MYaml × MYaml)} {y : MYaml} (hr : repeatedKeyM es = false) (h : (MYaml.merge, y) ∈ es) (s : List YKey) :
    visitMerge key emb es s = visitNode key emb y s := by
  induction es with
  | nil => cases h
  | cons e es ih =>
    obtain ⟨k, v⟩ := e
    simp only [repeatedKeyM, Bool.or_eq_false_iff] at hr
    replace h := List.mem_cons.1 h
    rcases h with h | h
    · cases h
      simp [visitMerge, MYaml.isMerge]
    · have := (List.any_eq_false.1 hr.1) _ h
      cases k with
      | merge => simp [MYaml.kindValue] at this
      | _ => simp only [visitMerge, MYaml.isMerge]; exact ih hr.2 h

theorem visitAll_bad {κ : Type} {key : MYaml → Option (Option κ)} {emb : κ → YKey} {ys : List MYaml} (h : ∃ x ∈ ys, ∀ es, x ≠ .map es) (s : List YKey) : visitAll key emb ys s = none := by
  induction ys generalizing s with
  | nil => obtain ⟨x, hx, _⟩ := h; cases hx
  | cons y ys ih =>
    obtain ⟨x, hx, hn⟩ := h
    rcases List.mem_cons.1 hx with rfl | hx
    · cases x with
      | map es => exact absurd rfl (hn es)
      | _ => simp [visitAll]
    · simp only [visitAll]
      split
      · rfl
      · rw [ih ⟨x, hx, hn⟩]; rfl

theorem visit_refused {κ : Type} {key : MYaml → Option (Option κ)} {emb : κ → YKey} {es : List (MYaml × MYaml)} {y : MYaml} (h : (MYaml.merge, y) ∈ es) (hb : ∀ s, visitNode key emb y s = none) : visit key emb es = none := by
  unfold visit
  cases hr : repeatedKeyM es with
  | true => rfl
  | false =>
    rw [if_neg (by simp)]
    split
    · rfl
    · rw [visitMerge_node hr h, hb]; rfl

theorem refused_of {es : List (MYaml × MYaml)} (h1 : visitNames es = none) (h2 : visitKeys es = none) (n : Nat) : decodeMerged (.map es) = none ∧ mOpt n (.map es) = none ∧ mConf n (.map es) = none ∧ mAny n (.map es) = none := by
  refine ⟨by simp [decodeMerged, h1], ?_, ?_, ?_⟩ <;> cases n <;> simp [mOpt, mConf, mAny, h1, h2]

/-- C94: under a merge key there must be a mapping or a list of mappings; anything else is refused, whatever the mapping is read as. -/
theorem merge_refused {es : List (MYaml × MYaml)} {y : MYaml} (h : (MYaml.merge, y) ∈ es) (hb : ∀ fs, y ≠ .map fs) (hs : ∀ ys, y = .seq ys → ∃ x ∈ ys, ∀ fs, x ≠ .map fs) (n : Nat) :
    decodeMerged (.map es) = none ∧ mOpt n (.map es) = none ∧ mConf n (.map es) = none ∧ mAny n (.map es) = none := by
  have key : ∀ {κ : Type} (key : MYaml → Option (Option κ)) (emb : κ → YKey) (s : List YKey), visitNode key emb y s = none := by
    intro κ key emb s
    cases y with
    | map fs => exact absurd rfl (hb fs)
    | seq ys => simp only [visitNode]; exact visitAll_bad (hs ys rfl) s
    | _ => simp [visitNode]
  exact refused_of (visit_refused h (key _ _)) (visit_refused h (key _ _)) n

/-- How keys look, with merge keys. -/
def MYaml.SameLook (a b : MYaml) : Prop := ∃ t, (a = .str t ∨ (∃ v, a = .plain t v) ∨ (a = .merge ∧ t = lit "<<")) ∧ (b = .str t ∨ (∃ v, b = .plain t v) ∨ (b = .merge ∧ t = lit "<<"))

theorem repeatedM_of {es : List (MYaml × MYaml)} (h : ¬ es.Pairwise fun a b => ¬ a.1.SameLook b.1) : repeatedKeyM es = true := by
  induction es with
  | nil => exact absurd .nil h
  | cons e es ih =>
    obtain ⟨k, y⟩ := e
    simp only [repeatedKeyM, Bool.or_eq_true]
    rw [List.pairwise_cons] at h
    by_cases hp : es.Pairwise fun a b => ¬ a.1.SameLook b.1
    · left
      rw [List.any_eq_true]
      apply Classical.byContradiction
      intro hn
      refine h ⟨?_, hp⟩
      rintro e he ⟨t, ha, hb⟩
      refine hn ⟨e, he, ?_⟩
      rw [decide_eq_true_eq]
      have hk : ∀ {x : MYaml}, (x = .str t ∨ (∃ v, x = .plain t v) ∨ (x = .merge ∧ t = lit "<<")) → x.kindValue = (8, t) := by
        rintro x (rfl | ⟨v, rfl⟩ | ⟨rfl, rfl⟩) <;> rfl
      rw [hk hb]
      exact hk ha
    · exact .inr (ih hp)

/-- C94: a mapping in which two keys look alike is refused, and so is one into which such a mapping is merged. -/
theorem merge_repeated {es : List (MYaml × MYaml)} (h : ¬ es.Pairwise fun a b => ¬ a.1.SameLook b.1) (n : Nat) :
    (decodeMerged (.map es) = none ∧ mOpt n (.map es) = none ∧ mConf n (.map es) = none ∧ mAny n (.map es) = none) ∧
    ∀ fs, (MYaml.merge, .map es) ∈ fs → decodeMerged (.map fs) = none ∧ mOpt n (.map fs) = none ∧ mConf n (.map fs) = none ∧ mAny n (.map fs) = none := by
  have hr := repeatedM_of h
  refine ⟨refused_of (by simp [visitNames, visit, hr]) (by simp [visitKeys, visit, hr]) n, fun fs hm => ?_⟩
  exact refused_of (visit_refused hm fun s => by simp [visitNode, hr]) (visit_refused hm fun s => by simp [visitNode, hr]) n

/-! ## The program -/

/-- C94: the program loads the same configuration from a file with merge keys as from one with the document that it stands for. -/
theorem load_merged {E E' : MainEnv YCfg} {parse : Bytes → Option (Option MYaml)} {parse' : Bytes → Option (Option Yaml)} (hE : E.decode = mergedDecode parse) (hE' : E'.decode = yamlDecode parse') {fs fs' : Files} {path path' : Bytes} {file file' : FileC}
    (hf : fs path = some file) (hf' : fs' path' = some file') {y : MYaml} {z : Yaml} (hy : parse file.read = some (some y)) (hz : parse' file'.read = some (some z)) (h : Expands y z) :
    loadPipeline E fs path = loadPipeline E' fs' path' := by
  simp only [loadPipeline, hf, hf', hE, hE', mergedDecode, yamlDecode, hy, hz, merge_decode h]

/-! ## A sample -/

/-- The options that processors share. -/
def sharedOptions : MYaml := .map [(.str (lit "ignore_missing"), .plain (lit "true") (.bool true)), (.str (lit "field"), .str (lit "a"))]

/-- ```
id: p
defaults: &d {ignore_missing: true, field: a}
processors:
- lowercase: {<<: *d, field: b}
- uppercase: {id: u, <<: [{field: c}, *d, {if: x}]}
``` -/
def mergeSample : MYaml :=
  .map [(.str (lit "id"), .str (lit "p")), (.str (lit "defaults"), sharedOptions),
    (.str (lit "processors"), .seq [
      .map [(.str (lit "lowercase"), .map [(.merge, sharedOptions), (.str (lit "field"), .str (lit "b"))])],
      .map [(.str (lit "uppercase"), .map [(.str (lit "id"), .str (lit "u")), (.merge, .seq [.map [(.str (lit "field"), .str (lit "c"))], sharedOptions, .map [(.str (lit "if"), .str (lit "x"))]])])]])]

/-- The configuration that it stands for. -/
theorem merge_sample : decodeMerged mergeSample = some (some ⟨⟨lit "p",
    [[(lit "lowercase", some (.mk [] [] [] (some [(lit "field", .str (lit "b")), (lit "ignore_missing", .plain (.bool true))])))],
     [(lit "uppercase", some (.mk (lit "u") (lit "x") [] (some [(lit "field", .str (lit "c")), (lit "ignore_missing", .plain (.bool true))])))]], []⟩, []⟩) := by rfl

theorem canMerge_of {es : List (MYaml × MYaml)} {ts : List Bytes} (hk : es.map (·.1) = ts.map .str) (hd : ts.Nodup) (ha : lit "<<" ∉ ts) : CanMerge es := by
  have hm : ∀ e ∈ es, ∃ t ∈ ts, e.1 = .str t := by
    intro e he
    have := List.mem_map_of_mem (f := (·.1)) he
    rw [hk] at this
    obtain ⟨t, ht, h⟩ := List.mem_map.1 this
    exact ⟨t, ht, h.symm⟩
  refine .mk _ ⟨?_, ?_⟩ ?_
  · intro e he
    obtain ⟨t, ht, h⟩ := hm e he
    exact .inr ⟨t, h, fun h' => ha (h' ▸ ht)⟩
  · have : (es.map (·.1)).Pairwise (· ≠ ·) := by
      rw [hk, List.pairwise_map]
      exact hd.imp fun h h' => h (MYaml.str.inj h')
    exact List.pairwise_map.1 this
  · intro y hy
    obtain ⟨t, _, h⟩ := hm _ hy
    cases h

/-- The sample meets the conditions. -/
theorem merge_sample_fine : mergeSample.Fine := by
  have hs : CanMerge [(MYaml.str (lit "ignore_missing"), MYaml.plain (lit "true") (.bool true)), (.str (lit "field"), .str (lit "a"))] := canMerge_of (ts := [lit "ignore_missing", lit "field"]) rfl (by decide) (by decide)
  have h1 : CanMerge [(MYaml.merge, sharedOptions), (.str (lit "field"), .str (lit "b"))] := by
    refine .mk _ ⟨?_, ?_⟩ ?_
    · intro e he
      simp only [List.mem_cons, List.not_mem_nil, or_false] at he
      rcases he with rfl | rfl
      · exact .inl rfl
      · exact .inr ⟨_, rfl, by decide⟩
    · simp
    · intro y hy
      simp only [List.mem_cons, Prod.mk.injEq, List.not_mem_nil, or_false, reduceCtorEq, false_and, true_and] at hy
      subst hy
      exact .map _ hs
  have h2 : CanMerge [(MYaml.str (lit "id"), MYaml.str (lit "u")), (.merge, .seq [.map [(.str (lit "field"), .str (lit "c"))], sharedOptions, .map [(.str (lit "if"), .str (lit "x"))]])] := by
    refine .mk _ ⟨?_, ?_⟩ ?_
    · intro e he
      simp only [List.mem_cons, List.not_mem_nil, or_false] at he
      rcases he with rfl | rfl
      · exact .inr ⟨_, rfl, by decide⟩
      · exact .inl rfl
    · simp
    · intro y hy
      simp only [List.mem_cons, Prod.mk.injEq, List.not_mem_nil, or_false, reduceCtorEq, false_and, true_and, false_or] at hy
      subst hy
      refine .seq _ ?_ ?_
      · intro y hy
        simp only [List.mem_cons, List.not_mem_nil, or_false] at hy
        rcases hy with rfl | rfl | rfl <;> exact ⟨_, rfl⟩
      · intro es he
        simp only [sharedOptions, List.mem_cons, MYaml.map.injEq, List.not_mem_nil, or_false] at he
        rcases he with rfl | rfl | rfl
        · exact canMerge_of (ts := [lit "field"]) rfl (by decide) (by decide)
        · exact hs
        · exact canMerge_of (ts := [lit "if"]) rfl (by decide) (by decide)
  simp [mergeSample, sharedOptions, MYaml.Fine, MYaml.FineL, MYaml.FineE] at h1 h2 ⊢
  exact ⟨h1, h2⟩

end Sawmill
