import Verif.Props.WorksToo
import Verif.Spec.ByTurns
/-! # Two events worked on by turns (C119) -/

namespace Sawmill
open Wire ATree

theorem noCommon_symm {h : Heap} {e e2 : Event} (hn : NoCommon h e e2) : NoCommon h e2 e := fun x a b => hn x b a

theorem turns_keep {cv : Conv} {h h' : Heap} {e1 e2 a1 a2 : Event} (i : Beside2 h e1 e2) (hw : ByTurns cv h e1 e2 h' a1 a2) : Beside2 h' a1 a2 := by
  induction hw with
  | nothing => exact i
  | first _ hc ih => exact (worksToo_beside (ih i) hc).1
  | second _ hc ih =>
    have j := ih i
    obtain ⟨k, -, -⟩ := worksToo_beside ⟨j.proper, j.map2, j.map1, noCommon_symm j.no⟩ hc
    exact ⟨k.proper, k.map2, k.map1, noCommon_symm k.no⟩

/-- **C119.** Two programs work by turns on two events without a common map, any number of turns and of calls in a turn: no turn of one disturbs the event of the other, and the events never have a common map. -/
theorem turns_beside {cv : Conv} {h h1 : Heap} {e1 e2 a1 a2 : Event} (hp : Proper h) (hw : MapsAreMaps h e1) (hw2 : MapsAreMaps h e2) (hno : NoCommon h e1 e2) (turns : ByTurns cv h e1 e2 h1 a1 a2) :
    NoCommon h1 a1 a2 ∧
    (∀ h2 a1', WorksToo cv a2 h1 a1 h2 a1' → Undisturbed h1 h2 a2) ∧
    (∀ h2 a2', WorksToo cv a1 h1 a2 h2 a2' → Undisturbed h1 h2 a1) := by
  have i := turns_keep ⟨hp, hw, hw2, hno⟩ turns
  exact ⟨i.no, fun _ _ w => (all_work_beside i.proper i.map1 i.map2 i.no w).1, fun _ _ w => (all_work_beside i.proper i.map2 i.map1 (noCommon_symm i.no) w).1⟩

/-- A case: two events with a common list `[v]`. The first program appends `v` to it, the second deletes the field in which it has the list, the first appends the list to itself. -/
theorem turns_sample (cv : Conv) : ∃ (h h1 : Heap), Proper h ∧ MapsAreMaps h (some 0) ∧ MapsAreMaps h (some 1) ∧ NoCommon h (some 0) (some 1) ∧ ByTurns cv h (some 0) (some 1) h1 (some 0) (some 1) ∧
    (apiGet h (some 0) (lit "a") = .ok (h, some 4) ∧ apiGet h (some 1) (lit "b") = .ok (h, some 4) ∧ deref h (some 4) = some (arrCell (some [some 3]))) ∧
    apiGet h1 (some 1) (lit "b") = .ok (h1, none) ∧ apiGet h1 (some 0) (lit "a") = .ok (h1, some 4) ∧ deref h1 (some 4) = some (arrCell (some [some 3, some 5, some 3, some 5])) := by
  obtain ⟨h, _, rfl, hp, hno, _⟩ := no_common_sample
  refine ⟨_, _, hp, mapsAreMaps_of hp ?_, mapsAreMaps_of hp ?_, hno,
    .first (.second (.first .nothing (.append (key := lit "a") (item := some 5) (err := none) .nothing ?_ rfl)) (.calls .nothing (.delete (key := lit "b") (p := some 4) .nothing rfl))) (.append (key := lit "a") (item := some 4) (err := none) .nothing ?_ rfl), ⟨rfl, rfl, rfl⟩, rfl, rfl, rfl⟩
  · intro b hb; cases hb; exact ⟨_, rfl⟩
  · intro b hb; cases hb; exact ⟨_, rfl⟩
  · intro x hx; cases hx; decide
  · intro x hx; cases hx; decide

theorem reaches_newEvent {h : Heap} {d : Nat} : ∀ (path : List Bytes), ¬ Reaches h newEvent path (some d)
  | [], hr => by cases hr
  | y :: ys, hr => by obtain ⟨q, c, h1, _⟩ := hr; simp [newEvent, mapOf] at h1

theorem noCommon_new {h : Heap} {e : Event} : NoCommon h e newEvent := fun _ _ ⟨path, hr⟩ => reaches_newEvent path hr

/-- In one memory, events of which no two have a common map. -/
def Apart {W : Type} (h : Heap) (ev : W → Event) : Prop := ∀ j k, j ≠ k → Beside2 h (ev j) (ev k)

theorem Beside2.new {h : Heap} {e e2 : Event} (i : Beside2 h e e2) : Beside2 h e newEvent := ⟨i.proper, i.map1, mapsAreMaps_of i.proper fun b hb => (by cases hb), noCommon_new⟩
theorem Beside2.symm {h : Heap} {e e2 : Event} (i : Beside2 h e e2) : Beside2 h e2 e := ⟨i.proper, i.map2, i.map1, noCommon_symm i.no⟩

theorem Apart.renew {W : Type} [DecidableEq W] {h : Heap} {ev : W → Event} (a : Apart h ev) (i : W) : Apart h (fun k => if k = i then newEvent else ev k) := by
  intro j k hjk
  dsimp only
  by_cases hj : j = i
  · have hk : k ≠ i := fun hk => hjk (hj.trans hk.symm)
    rw [if_pos hj, if_neg hk]
    exact (a k j fun hh => hjk hh.symm).new.symm
  · rw [if_neg hj]
    by_cases hk : k = i
    · rw [if_pos hk]; exact (a j k hjk).new
    · rw [if_neg hk]; exact a j k hjk

theorem many_keep {cv : Conv} {W : Type} [DecidableEq W] {h h' : Heap} {ev ev' : W → Event} (a : Apart h ev) (hw : ManyTurns cv h ev h' ev') : Apart h' ev' := by
  induction hw with
  | nothing => exact a
  | @work h1 h2 ev ev1 e' i _ hc ih =>
    have b := ih a
    intro j k hjk
    dsimp only
    by_cases hj : j = i
    · subst hj
      have hk : k ≠ j := fun hk => hjk hk.symm
      rw [if_pos rfl, if_neg hk]
      exact (worksToo_beside (b j k hjk) (hc k hk)).1
    · rw [if_neg hj]
      obtain ⟨r, kj, -⟩ := worksToo_beside (b i j fun hh => hj hh.symm) (hc j hj)
      by_cases hk : k = i
      · rw [if_pos hk]; exact r.symm
      · rw [if_neg hk]
        obtain ⟨r2, kk, -⟩ := worksToo_beside (b i k fun hh => hk hh.symm) (hc k hk)
        have p := (b j k hjk).proper.1
        exact ⟨r.proper, r.map2, r2.map2, fun d ⟨p1, h1⟩ ⟨p2, h2⟩ => (b j k hjk).no d ⟨p1, kj.back p p1 h1⟩ ⟨p2, kk.back p p2 h2⟩⟩
  | renew i _ ih => exact (ih a).renew i
  | @take h1 ev ev1 i j _ ih =>
    have b := ih a
    -- the event of `i` is thrown away, then `i` and `j` change places
    intro k l hkl
    dsimp only
    by_cases hij : i = j
    · subst hij
      have := b.renew i k l hkl
      dsimp only at this
      by_cases hk : k = i <;> by_cases hl : l = i <;> simp_all
    · let f : W → W := fun k => if k = i then j else if k = j then i else k
      have hf : ∀ k, (if k = j then newEvent else if k = i then ev1 j else ev1 k) = (if f k = i then newEvent else ev1 (f k)) := by
        intro k
        simp only [f]
        by_cases hk : k = i
        · subst hk; rw [if_neg hij, if_pos rfl, if_pos rfl, if_neg (Ne.symm hij)]
        · by_cases hk2 : k = j
          · subst hk2; rw [if_pos rfl, if_neg hk, if_pos rfl, if_pos rfl]
          · rw [if_neg hk2, if_neg hk, if_neg hk2, if_neg hk]; simp [hk]
      have hne : f k ≠ f l := by
        simp only [f]
        intro hh
        by_cases hk : k = i <;> by_cases hl : l = i <;> by_cases hk2 : k = j <;> by_cases hl2 : l = j <;> simp_all
      rw [hf, hf]
      exact b.renew i (f k) (f l) hne

/-- **C119**, for any number of workers: no turn of a worker disturbs the event of another, and no two events ever have a common map. -/
theorem many_turns_beside {cv : Conv} {W : Type} [DecidableEq W] {h h1 : Heap} {ev ev1 : W → Event} (hp : Proper h) (hw : ∀ i, MapsAreMaps h (ev i)) (hno : ∀ i j, i ≠ j → NoCommon h (ev i) (ev j)) (turns : ManyTurns cv h ev h1 ev1) :
    (∀ i j, i ≠ j → NoCommon h1 (ev1 i) (ev1 j)) ∧
    ∀ i h2 e', (∀ j, j ≠ i → WorksToo cv (ev1 j) h1 (ev1 i) h2 e') → ∀ j, j ≠ i → Undisturbed h1 h2 (ev1 j) := by
  have a := many_keep (fun j k hjk => ⟨hp, hw j, hw k, hno j k hjk⟩) turns
  refine ⟨fun i j hij => (a i j hij).no, fun i h2 e' w j hj => ?_⟩
  have b := a i j fun hh => hj hh.symm
  exact (all_work_beside b.proper b.map1 b.map2 b.no (w j hj)).1

/-- A case with three workers. Worker 0 appends to the list that it has in common with worker 1, who throws its event away and puts `v` into a new one; worker 2 takes the event of worker 0. -/
theorem many_turns_sample (cv : Conv) : ∃ (h h1 : Heap) (ev ev1 : Fin 3 → Event) (b : Nat), Proper h ∧ (∀ i, MapsAreMaps h (ev i)) ∧ (∀ i j, i ≠ j → NoCommon h (ev i) (ev j)) ∧ ManyTurns cv h ev h1 ev1 ∧
    (ev 0 = some 0 ∧ ev 1 = some 1 ∧ ev 2 = newEvent) ∧ (ev1 0 = newEvent ∧ ev1 1 = some b ∧ 1 < b ∧ ev1 2 = some 0) ∧
    (∃ p, apiGet h1 (ev1 1) (lit "x") = .ok (h1, some p) ∧ deref h1 (some p) = some (arrCell (some [some 5]))) ∧
    apiGet h1 (ev1 2) (lit "a") = .ok (h1, some 4) ∧ deref h1 (some 4) = some (arrCell (some [some 3, some 5])) := by
  obtain ⟨h, _, rfl, hp, hno, _⟩ := no_common_sample
  refine ⟨_, _, fun k => if k = 0 then some 0 else if k = 1 then some 1 else newEvent, _, _, hp, ?_, ?_,
    .take 2 0 (.work 1 (.renew 1 (.work 0 .nothing fun j hj => .append (key := lit "a") (item := some 5) (err := none) .nothing ?_ rfl)) fun j hj => .append (key := lit "x") (item := some 5) (err := none) .nothing ?_ rfl),
    ⟨rfl, rfl, rfl⟩, ⟨rfl, rfl, ?_, rfl⟩, ⟨_, rfl, rfl⟩, rfl, rfl⟩
  · intro i
    refine mapsAreMaps_of hp fun b hb => ?_
    dsimp only at hb
    split at hb
    · cases hb; exact ⟨_, rfl⟩
    · split at hb
      · cases hb; exact ⟨_, rfl⟩
      · cases hb
  · intro i j hij
    match i, j, hij with
    | 0, 0, h => exact absurd rfl h
    | 0, 1, _ => exact hno
    | 0, 2, _ => exact noCommon_new
    | 1, 0, _ => exact noCommon_symm hno
    | 1, 1, h => exact absurd rfl h
    | 1, 2, _ => exact noCommon_new
    | 2, 0, _ => exact noCommon_symm noCommon_new
    | 2, 1, _ => exact noCommon_symm noCommon_new
    | 2, 2, h => exact absurd rfl h
  · intro x hx; cases hx; decide
  · intro x hx; cases hx; decide
  · decide

end Sawmill
