import Verif.Props.ProcessBeside
/-! # What Process may change (C116) -/

namespace Sawmill
open Wire ATree

/-- **C116.** What `Process` of a pipeline of the repository's processors, configured to set the values `vs` (at most), changes of what was in memory: lists, which may have got more elements at their end, and the maps of objects to which one gets by names from the event, or from one of the values `vs`. The rest, in particular every scalar
and the maps of all other objects, is as it was, whether `Process` fails or not, and whatever is shared. -/
theorem process_changes (cv : Conv) (p : Pipeline Builtin (Option Err)) {vs : List Nat} {h h' : Heap} {e e' : Event} {counts counts' : Counters} {log log' : List Invocation} {r : Option Unit × Option Err} (hp : Proper h) (hw : MapsAreMaps h e)
    (hv : p.Calls fun b => ∀ v copyFrom target, b = .set v copyFrom target → v < h.length ∧ v ∈ vs) (hs : p.process (builtinCall cv) () ⟨(h, e), counts, log⟩ = .ok (⟨(h', e'), counts', log'⟩, r)) :
    Proper h' ∧ MapsAreMaps h' e' ∧ ∀ a, a < h.length → h'[a]? = h[a]? ∨
      (∃ c items, h[a]? = some (.cell c) ∧ c.type = .array ∧ h'[a]? = some (.cell { c with array := some (c.array.getD [] ++ items) })) ∨
      (∃ es es', h[a]? = some (.map es) ∧ h'[a]? = some (.map es') ∧ ((∃ path, Reaches h e path (some a)) ∨ ∃ v c path, v ∈ vs ∧ deref h (some v) = some c ∧ Reaches h c.object path (some a))) := by
  let V : Option Nat → Prop := fun m => m = none ∨ ∃ v c, v ∈ vs ∧ deref h (some v) = some c ∧ m = c.object
  have hvals : p.Calls fun b => ∀ v x t, b = .set v x t → v < h.length ∧ ∀ c, deref h (some v) = some c → V c.object :=
    pipeline_calls_mono (fun b hb v x t hbv => ⟨(hb v x t hbv).1, fun c hc => .inr ⟨v, c, (hb v x t hbv).2, hc, rfl⟩⟩) hv
  have each : ∀ m, (V m ∨ m = e) → MapsAreMaps h m := by
    rintro m ((rfl | ⟨v, c, _, h2, rfl⟩) | rfl)
    · exact ⟨fun m hm => (by cases hm), hp.2⟩
    · exact mapsAreMaps_below hw h2
    · exact hw
  -- any set of maps to which one does not get is kept
  have goes : ∀ T : Nat → Prop, (∀ x, T x → ∃ es, h[x]? = some (.map es)) → (∀ x, T x → ¬ Owned (fun m => V m ∨ m = e) h (some x)) → GoesBeside V T h h' e' := fun T h1 h2 =>
    process_goes cv p hvals (.inl rfl) ⟨⟨hp, .inl (.inl rfl), each, h1, h2⟩, .refl, Nat.le_refl _⟩ hs
  have g0 := goes (fun _ => False) (fun _ h => h.elim) (fun _ h => h.elim)
  refine ⟨g0.roots.proper, g0.roots.each _ (.inr rfl), fun a ha => ?_⟩
  have hin : InMemory h (some a) := by intro x hx; cases hx; exact ha
  cases ho : h[a]? with
  | none => rw [List.getElem?_eq_none_iff] at ho; omega
  | some o =>
    cases o with
    | cell c =>
      obtain ⟨c', d1, d2⟩ := g0.kept.vals (some a) c hin (by simp [deref, ho])
      have hc' : h'[a]? = some (.cell c') := by
        simp only [deref] at d1
        split at d1
        · rename_i x hx; cases d1; exact hx
        · cases d1
      rcases d2 with rfl | ⟨ht, items, rfl⟩
      · exact .inl hc'
      · exact .inr (.inl ⟨c, items, rfl, ht, hc'⟩)
    | map es =>
      by_cases hown : Owned (fun m => V m ∨ m = e) h (some a)
      · refine .inr (.inr ?_)
        have hm : ∃ es', h'[a]? = some (.map es') := by
          have d := g0.kept.none (some a) hin (by simp [deref, ho])
          have hlt : a < h'.length := Nat.lt_of_lt_of_le ha g0.grow
          cases hx : h'[a]? with
          | none => rw [List.getElem?_eq_none_iff] at hx; omega
          | some o' =>
            cases o' with
            | cell c => simp [deref, hx] at d
            | map es' => exact ⟨es', rfl⟩
        obtain ⟨es', he'⟩ := hm
        refine ⟨es, es', rfl, he', ?_⟩
        obtain ⟨r, path, (rfl | ⟨v, c, h1, h2, rfl⟩) | rfl, hr⟩ := hown
        · cases path with
          | nil => cases hr
          | cons y ys => obtain ⟨q, c, k1, _⟩ := hr; simp [mapOf] at k1
        · exact .inr ⟨v, c, path, h1, h2, hr⟩
        · exact .inl ⟨path, hr⟩
      · have g := goes (fun x => x = a) (by rintro x rfl; exact ⟨es, ho⟩) (by rintro x rfl; exact hown)
        exact .inl (by rw [g.kept.same a rfl, ho])

/-- A case: the memory of `process_beside_kept_sample`, with a second value to set: the object 6 around the map 2, to which one gets from no event (from the list 4, by an item, one does, but not by names). The pipeline sets `c` to that object, and then `c.y` to the string: this changes the map 0 of the event, and the map 2 of the configured
object, which stays changed when the next event is processed. -/
theorem process_changes_sample (cv : Conv) : ∃ (h h' : Heap) (p : Pipeline Builtin (Option Err)) (counts : Counters) (log : List Invocation),
    h = [.map [(lit "a", some 4)], .map [(lit "b", some 4)], .map [(lit "x", some 5)], .cell (objCell (some 2)), .cell (arrCell (some [some 3])), .cell (strCell (lit "v")), .cell (objCell (some 2))] ∧
    Proper h ∧ MapsAreMaps h (some 0) ∧ p.Calls (fun b => ∀ v copyFrom target, b = .set v copyFrom target → v < h.length ∧ v ∈ [5, 6]) ∧
    p.process (builtinCall cv) () ⟨(h, some 0), noCounts, []⟩ = .ok (⟨(h', some 0), counts, log⟩, some (), none) ∧
    (∀ a, a < 7 → h'[a]? = h[a]? ∨ a = 0 ∨ a = 2) ∧ mapOf h' (some 2) = [(lit "x", some 5), (lit "y", some 5)] ∧ ¬ ∃ path, Reaches h (some 0) path (some 2) := by
  refine ⟨_, _, ⟨lit "p", [.mk (lit "1") [] false false [] (Builtin.set 6 [] (lit "c")).prog, .mk (lit "2") [] false false [] (Builtin.set 5 [] (lit "c.y")).prog], []⟩, _, _, rfl, ⟨⟨?_, ?_⟩, ?_⟩, ⟨?_, ?_⟩, ?_, rfl, ?_, ?_, ?_⟩
  · intro a c ps ha hc q hq
    rcases a with _ | _ | _ | _ | _ | _ | _ | a <;> simp at ha
    · subst ha; cases hc
    · subst ha; simp only [arrCell, Option.some.injEq] at hc; subst hc; simp at hq; subst hq; intro a ha; cases ha; decide
    · subst ha; cases hc
    · subst ha; cases hc
  · intro a es ha k q hq
    rcases a with _ | _ | _ | _ | _ | _ | _ | a <;> simp at ha
    all_goals (subst ha; simp at hq; rw [hq.2]; intro a ha; cases ha; decide)
  · intro a c m ha hm
    rcases a with _ | _ | _ | _ | _ | _ | _ | a <;> simp at ha
    · subst ha; cases hm; exact ⟨_, rfl⟩
    · subst ha; cases hm
    · subst ha; cases hm
    · subst ha; cases hm; exact ⟨_, rfl⟩
  · intro m hm; cases hm; exact ⟨_, rfl⟩
  · intro a c m ha hm
    rcases a with _ | _ | _ | _ | _ | _ | _ | a <;> simp at ha
    · subst ha; cases hm; exact ⟨_, rfl⟩
    · subst ha; cases hm
    · subst ha; cases hm
    · subst ha; cases hm; exact ⟨_, rfl⟩
  · refine ⟨⟨⟨⟨?_, fun _ => trivial⟩, trivial⟩, ⟨⟨?_, fun _ => trivial⟩, trivial⟩, trivial⟩, trivial⟩
    all_goals (intro v x t hb; cases hb; exact ⟨by decide, by simp⟩)
  · intro a ha
    rcases a with _ | _ | _ | _ | _ | _ | _ | a
    all_goals first | exact .inl rfl | exact .inr (.inl rfl) | exact .inr (.inr rfl)
  · rfl
  · rintro ⟨path, hr⟩
    match path with
    | [] => cases hr
    | y :: ys =>
      obtain ⟨q, c, h1, h2, h3⟩ := hr
      simp only [mapOf] at h1
      simp only [AMap.lookup, List.getElem?_cons_zero] at h1
      split at h1
      · cases h1
        simp only [deref] at h2
        cases h2
        cases ys with
        | nil => cases h3
        | cons z zs => obtain ⟨q, c, k1, _⟩ := h3; simp [arrCell, mapOf] at k1
      · cases h1

end Sawmill
