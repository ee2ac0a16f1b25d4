import Verif.Props.StepChange
import Verif.Props.Reuse
import Verif.Spec.AppendShared
/-! # eventutil.Append when values are shared (C117) -/

namespace Sawmill
open Wire ATree

/-- What `Get` finds at the end of a path is under the name that is left where one gets on the way. -/
theorem getLoop_at {h : Heap} {k : Bytes} {rest : List Bytes} {d p : Nat} : ∀ (pre : List Bytes) {m : Option Nat}, Reaches h m pre (some d) → getLoop h m (pre ++ k :: rest) = .ok (some p) →
    ∃ q, (mapOf h (some d)).lookup k = some q ∧ (rest = [] → q = some p)
  | [], m, hr, hg => by
    cases hr
    cases rest with
    | nil =>
      simp only [List.nil_append, getLoop, Res.ok.injEq] at hg
      cases hl : (mapOf h (some d)).lookup k with
      | none => rw [hl] at hg; cases hg
      | some q => rw [hl] at hg; exact ⟨q, rfl, fun _ => hg⟩
    | cons y ys =>
      simp only [List.nil_append, getLoop] at hg
      cases hl : (mapOf h (some d)).lookup k with
      | none => rw [hl] at hg; cases hg
      | some q => exact ⟨q, rfl, fun h => by cases h⟩
  | x :: xs, m, hr, hg => by
    obtain ⟨q, c, h1, h2, h3⟩ := hr
    obtain ⟨y, ys, hy⟩ : ∃ y ys, xs ++ k :: rest = y :: ys := by cases xs <;> exact ⟨_, _, rfl⟩
    rw [List.cons_append, hy] at hg
    simp only [getLoop, h1, h2] at hg
    split at hg
    · cases hg
    · exact getLoop_at xs h3 (by rw [hy]; exact hg)

/-- The two memories have the same entries everywhere, and the same objects in the values. -/
structure SameLook (h h' : Heap) : Prop where
  look : ∀ m, (∀ b, m = some b → b < h.length) → (∀ x, (mapOf h' m).lookup x = (mapOf h m).lookup x) ∧ ((mapOf h' m).length = 0 ↔ (mapOf h m).length = 0)
  none : ∀ q, InMemory h q → deref h q = none → deref h' q = none
  some : ∀ q c, InMemory h q → deref h q = some c → ∃ c', deref h' q = some c' ∧ c'.object = c.object

theorem SameLook.getLoop {h h' : Heap} (s : SameLook h h') (hp : Proper h) : ∀ (path : List Bytes) {m : Option Nat}, MapsAreMaps h m → getLoop h' m path = Sawmill.getLoop h m path
  | [], _, _ => rfl
  | [x], m, hw => by simp only [Sawmill.getLoop, (s.look m (mapsAreMaps_lt hw)).1]
  | x :: y :: xs, m, hw => by
    simp only [Sawmill.getLoop, (s.look m (mapsAreMaps_lt hw)).1]
    cases hq : (mapOf h m).lookup x with
    | none => rfl
    | some q =>
      dsimp only
      have hin := lookup_inMemory hp.1 hq
      cases hd : deref h q with
      | none => rw [s.none q hin hd]
      | some c =>
        obtain ⟨c', d1, d2⟩ := s.some q c hin hd
        rw [d1]
        dsimp only
        have hwc := mapsAreMaps_below hw hd
        have hl := (s.look c.object (mapsAreMaps_lt hwc)).2
        rw [d2, s.getLoop hp (y :: xs) hwc]
        simp only [hl]

theorem insert_length_ne {es : AMap Ptr} {k : Bytes} {v : Ptr} : (AMap.insert es k v).length ≠ 0 := by
  cases es with
  | nil => simp [AMap.insert]
  | cons e t =>
    obtain ⟨k', v'⟩ := e
    simp only [AMap.insert]
    split
    · simp
    · split <;> simp

theorem lookup_length_ne {es : AMap Ptr} {k : Bytes} {v : Ptr} (h : es.lookup k = some v) : es.length ≠ 0 := by
  cases es with
  | nil => cases h
  | cons e t => simp

theorem append_step {h h' : Heap} {t : Nat} {c : Cell} {items : List Ptr} (hp : Proper h) (hc : h[t]? = some (.cell c)) (hi : ∀ q ∈ items, InMemory h q) (ha : (if items = [] then Res.ok h else appendTo h t items) = .ok h') :
    h' = h.set t (.cell (withItems c items)) ∧ Proper h' := by
  by_cases hn : items = []
  · rw [if_pos hn] at ha
    cases ha
    refine ⟨?_, hp⟩
    rw [withItems, if_pos hn]
    apply List.ext_getElem?
    intro b
    by_cases hb : t = b
    · subst hb; rw [List.getElem?_set_self (lt_of_getElem? hc), hc]
    · rw [List.getElem?_set_ne hb]
  · rw [if_neg hn] at ha
    obtain ⟨c', hc', rfl⟩ := appendTo_is ha
    rw [hc] at hc'
    cases hc'
    rw [withItems, if_neg hn]
    exact ⟨rfl, hp.setArray hc hi⟩

/-- **C117.** `eventutil.Append` to a list that `Get` finds, whatever is shared: the list gets the item, or its items, at its end, for everyone who has the list; nothing else changes (the entry is written again as it is); and `Get` finds the same list. -/
theorem append_to_list {h h' : Heap} {e e' : Event} {key : Bytes} {i a : Nat} {ca c : Cell} {err : Option PutErr} (hp : Proper h) (hw : MapsAreMaps h e) (hg : apiGet h e key = .ok (h, some a)) (hca : deref h (some a) = some ca) (hty : ca.type = .array)
    (hc : deref h (some i) = some c) (hs : utilAppend h e key (some i) = .ok (h', e', err)) :
    e' = e ∧ h.length ≤ h'.length ∧ h'[a]? = some (.cell (withItems ca (appendItems i c))) ∧ SameBut h h' a ∧ apiGet h' e' key = .ok (h', some a) ∧ Proper h' ∧ MapsAreMaps h' e' := by
  have hcell : h[a]? = some (.cell ca) := by
    simp only [deref] at hca
    split at hca
    · rename_i x hx; cases hca; exact hx
    · cases hca
  have hic : h[i]? = some (.cell c) := by
    simp only [deref] at hc
    split at hc
    · rename_i x hx; cases hc; exact hx
    · cases hc
  have hi : ∀ q ∈ appendItems i c, InMemory h q := by
    intro q hq
    unfold appendItems at hq
    split at hq
    · cases har : c.array with
      | none => rw [har] at hq; cases hq
      | some ps => rw [har] at hq; exact hp.1.1 i c ps hic har q hq
    · simp at hq; subst hq; intro x hx; cases hx; exact lt_of_getElem? hic
  have hk : keyToPath key ≠ [] := by
    intro hk
    unfold apiGet Sawmill.get at hg
    rw [hk] at hg
    split at hg
    · simp at hg
    · simp [Heap.alloc] at hg
  have hloop : getLoop h e (keyToPath key) = .ok (some a) := by
    unfold apiGet at hg
    rw [get_loop h e hk] at hg
    cases hx : getLoop h e (keyToPath key) with
    | panic => rw [hx] at hg; cases hg
    | ok q => rw [hx] at hg; simp only [Res.map_ok, Res.ok.injEq, Prod.mk.injEq, true_and] at hg; rw [hg]
  unfold utilAppend at hs
  rw [hg] at hs
  simp only [hca, hty, ne_eq, not_true, if_false, hc] at hs
  rw [show (if c.type = .array then c.array.getD [] else [some i]) = appendItems i c from rfl] at hs
  cases hap : (if appendItems i c = [] then Res.ok h else appendTo h a (appendItems i c)) with
  | panic => rw [hap] at hs; cases hs
  | ok h2 =>
    rw [hap] at hs
    dsimp only at hs
    obtain ⟨hh2, hp2⟩ := append_step hp hcell hi hap
    have hobj : (withItems ca (appendItems i c)).object = ca.object := by unfold withItems; split <;> rfl
    have hmap : ∀ m, mapOf h2 m = mapOf h m := fun m => by
      rw [hh2]
      cases m with
      | none => rfl
      | some b =>
        by_cases hb : a = b
        · subst hb; simp only [mapOf, List.getElem?_set_self (lt_of_getElem? hcell), hcell]
        · simp only [mapOf, List.getElem?_set_ne hb]
    have s2 : SameLook h h2 := by
      have at' : ∀ b, b ≠ a → deref h2 (some b) = deref h (some b) := fun b hb => by rw [hh2]; simp only [deref, List.getElem?_set_ne (Ne.symm hb)]
      refine ⟨fun m _ => by rw [hmap]; exact ⟨fun _ => rfl, Iff.rfl⟩, fun q hq hd => ?_, fun q d hq hd => ?_⟩
      · cases q with
        | none => rfl
        | some b =>
          by_cases hb : b = a
          · subst hb; rw [hca] at hd; cases hd
          · rw [at' b hb]; exact hd
      · cases q with
        | none => simp [deref] at hd
        | some b =>
          by_cases hb : b = a
          · subst hb
            rw [hca] at hd
            cases hd
            exact ⟨withItems ca (appendItems i c), by rw [hh2]; simp [deref, List.getElem?_set_self (lt_of_getElem? hcell)], hobj⟩
          · exact ⟨d, by rw [at' b hb]; exact hd, rfl⟩
    have hw2 : MapsAreMaps h2 e := by rw [hh2]; exact set_cell_map hw hcell (by rw [← hh2]; exact hp2)
    have hl2 : h2.length = h.length := by rw [hh2]; simp
    have ha2 : h2[a]? = some (.cell (withItems ca (appendItems i c))) := by rw [hh2, List.getElem?_set_self (lt_of_getElem? hcell)]
    have so2 : ∀ b, b ≠ a → h2[b]? = h[b]? := fun b hb => by rw [hh2, List.getElem?_set_ne (Ne.symm hb)]
    -- what is left of the call: Put
    cases hput : apiPut h2 e key (some a) with
    | panic => rw [hput] at hs; cases hs
    | ok r =>
      obtain ⟨h3, e3, old, er⟩ := r
      rw [hput] at hs
      simp only [Res.map_ok, Res.ok.injEq, Prod.mk.injEq] at hs
      obtain ⟨rfl, rfl, rfl⟩ := hs
      have done : ∀ {g : Heap}, SameLook h g → apiGet g e key = .ok (g, some a) := fun {g} s => by
        unfold apiGet
        rw [get_loop g e hk, s.getLoop hp _ hw, hloop]
        rfl
      cases er with
      | some er =>
        have := put_error_atomic (fun a c m' ha hm' => by obtain ⟨es, he⟩ := hp2.2 a c m' ha hm'; exact lt_of_getElem? he) (fun b hb => mapsAreMaps_lt hw2 b hb) hput
        obtain ⟨rfl, rfl⟩ := this
        exact ⟨rfl, Nat.le_of_eq hl2.symm, ha2, fun b _ hb => .inl (so2 b hb), done s2, hp2, hw2⟩
      | none =>
        cases e with
        | none =>
          have : ∀ path, path ≠ [] → getLoop h none path = .ok none := by
            intro path hpath
            match path with
            | [] => exact absurd rfl hpath
            | [x] => rfl
            | x :: y :: xs => rfl
          rw [this _ hk] at hloop
          cases hloop
        | some m =>
          obtain ⟨rfl, pre, k, rest, d, es, q, h1, h3', h4, h5, h6, h7, h8⟩ := put_changes_loop hw2 hput
          obtain ⟨q', g1, g2⟩ := getLoop_at pre (rest := rest) (k := k) (objects_reach h3') (by rw [← h1, s2.getLoop hp _ hw]; exact hloop)
          simp only [mapOf, h4] at g1
          have hr : rest = [] := by
            by_cases hr : rest = []
            · exact hr
            · rw [h5 hr] at g1; cases g1
          subst hr
          have hq : q = some a := by simpa only [Chain] using h7
          subst hq
          rw [g2 rfl] at g1
          have hda : d ≠ a := by rintro rfl; rw [ha2] at h4; cases h4
          have hlook : ∀ x, AMap.lookup (AMap.insert es k (some a)) x = AMap.lookup es x := fun x => by
            rw [AMap.lookup_insert]
            split
            · rename_i hx; subst hx; exact g1.symm
            · rfl
          have hc3 := insert_changedAt h4 h6 h8
          obtain ⟨-, hne, hl⟩ := Sawmill.put_some hput
          obtain ⟨hp3, hlen⟩ := hp2.putLoop _ (by intro x hx; cases hx; rw [hl2]; exact lt_of_getElem? hcell) (hl hne)
          have s3 : SameLook h2 h3 := by
            refine ⟨fun m' hm' => ?_, fun q hq hd => by rw [hc3.deref hq]; exact hd, fun q c hq hd => ⟨c, by rw [hc3.deref hq]; exact hd, rfl⟩⟩
            cases m' with
            | none => exact ⟨fun _ => rfl, Iff.rfl⟩
            | some b =>
              by_cases hb : b = d
              · subst hb
                simp only [mapOf, h4, h6]
                exact ⟨hlook, fun hx => absurd hx insert_length_ne, fun hx => absurd hx (lookup_length_ne g1)⟩
              · simp only [mapOf, h8 b (hm' b rfl) hb]
                exact ⟨fun _ => trivial, trivial⟩
          have s : SameLook h h3 := by
            refine ⟨fun m' hm' => ?_, fun q hq hd => s3.none q (by intro x hx; rw [hl2]; exact hq x hx) (s2.none q hq hd), fun q c hq hd => ?_⟩
            · obtain ⟨a1, a2⟩ := s2.look m' hm'
              obtain ⟨b1, b2⟩ := s3.look m' (fun b hb => by rw [hl2]; exact hm' b hb)
              exact ⟨fun x => by rw [b1, a1], b2.trans a2⟩
            · obtain ⟨c1, d1, d2⟩ := s2.some q c hq hd
              obtain ⟨c2, d3, d4⟩ := s3.some q c1 (by intro x hx; rw [hl2]; exact hq x hx) d1
              exact ⟨c2, d3, d4.trans d2⟩
          refine ⟨rfl, by omega, by rw [h8 a (lt_of_getElem? ha2) (Ne.symm hda), ha2], fun b hb hba => ?_, done s, hp3, mapsAreMaps_of hp3 fun b hb => ?_⟩
          · by_cases hbd : b = d
            · subst hbd
              exact .inr ⟨es, _, by rw [← so2 b hba]; exact h4, h6, hlook⟩
            · exact .inl (by rw [h8 b (by rw [hl2]; exact hb) hbd, so2 b hba])
          · obtain ⟨es, he⟩ := hw2.1 b hb
            exact changedAt_map hc3 he

theorem Straight.kept {h h' : Heap} {e : Event} {path : List Bytes} (hn : NoDangling h) (k : KeptAt h h' e) (s : Straight h e path) : Straight h' e path := by
  intro pre x rest d hpath hr ⟨pre', rest', h1, h2⟩
  exact s pre x rest d hpath (k.back hn pre hr) ⟨pre', rest', h1, k.back hn pre' h2⟩

/-- **C117.** `eventutil.Append` where `Get` finds no list, whatever is shared: all old lists and all other old values are as they were, and at most one entry of one object has changed, to a new list; if it fails, nothing old has changed. If it succeeds, `Get` returns that new list, of the value that was there, if any, and the item, or its
items (provided the path never asks one object twice for one name, as in every event without cycles). -/
theorem append_new_list {h h1 h' : Heap} {e e' : Event} {key : Bytes} {i : Nat} {p : Ptr} {c : Cell} {err : Option PutErr} (hp : Proper h) (hw : MapsAreMaps h e) (hg : apiGet h e key = .ok (h1, p)) (hno : ∀ cp, deref h1 p = some cp → cp.type ≠ .array)
    (hc : deref h (some i) = some c) (hs : utilAppend h e key (some i) = .ok (h', e', err)) :
    Proper h' ∧ MapsAreMaps h' e' ∧ StepChange h h' e ∧ (∀ (b : Nat) (d : Cell), h[b]? = some (.cell d) → h'[b]? = some (.cell d)) ∧ (err ≠ none → e' = e ∧ ∀ b, b < h.length → h'[b]? = h[b]?) ∧
    (err = none → Straight h e (keyToPath key) → ∃ t ar, h.length ≤ t ∧ apiGet h' e' key = .ok (h', some t) ∧ deref h' (some t) = some (arrCell ar) ∧ ar.getD [] = before p ++ appendItems i c) := by
  obtain ⟨a0, m0, -⟩ := get_after hp hw hg
  have hic : h[i]? = some (.cell c) := by
    simp only [deref] at hc
    split at hc
    · rename_i x hx; cases hc; exact hx
    · cases hc
  have hil := lt_of_getElem? hic
  have hi : ∀ q ∈ appendItems i c, InMemory h q := by
    intro q hq
    unfold appendItems at hq
    split at hq
    · cases har : c.array with
      | none => rw [har] at hq; cases hq
      | some ps => rw [har] at hq; exact hp.1.1 i c ps hic har q hq
    · simp at hq; subst hq; intro x hx; cases hx; exact hil
  -- from the new list on
  have main : ∀ ar : Option (List Ptr), ar.getD [] = before p → (∀ ps, ar = some ps → ∀ q ∈ ps, InMemory h1 q) →
      (match (if appendItems i c = [] then Res.ok (h1 ++ [HObj.cell (arrCell ar)]) else appendTo (h1 ++ [HObj.cell (arrCell ar)]) h1.length (appendItems i c)) with
        | Res.panic => (Res.panic : Res (Heap × Event × Option PutErr))
        | Res.ok h => (apiPut h e key (some h1.length)).map fun (x : Heap × Event × Ptr × Option PutErr) => (x.1, x.2.1, x.2.2.2)) = .ok (h', e', err) →
      Proper h' ∧ MapsAreMaps h' e' ∧ StepChange h h' e ∧ (∀ (b : Nat) (d : Cell), h[b]? = some (.cell d) → h'[b]? = some (.cell d)) ∧ (err ≠ none → e' = e ∧ ∀ b, b < h.length → h'[b]? = h[b]?) ∧
      (err = none → Straight h e (keyToPath key) → ∃ t ar, h.length ≤ t ∧ apiGet h' e' key = .ok (h', some t) ∧ deref h' (some t) = some (arrCell ar) ∧ ar.getD [] = before p ++ appendItems i c) := by
    intro ar har hps hs
    have a1 := after_alloc (c := arrCell ar) a0.proper a0.map (fun ps hh => hps ps hh) (by intro m hm; cases hm)
    have hcell : (h1 ++ [HObj.cell (arrCell ar)])[h1.length]? = some (.cell (arrCell ar)) := by simp
    cases hap : (if appendItems i c = [] then Res.ok (h1 ++ [HObj.cell (arrCell ar)]) else appendTo (h1 ++ [HObj.cell (arrCell ar)]) h1.length (appendItems i c)) with
    | panic => rw [hap] at hs; cases hs
    | ok h2 =>
      rw [hap] at hs
      dsimp only at hs
      obtain ⟨hh2, hp2⟩ := append_step a1.proper hcell (fun q hq => inMemory_mono (hi q hq) (by have := a0.grow; simp; omega)) hap
      obtain ⟨ar2, hw2, har2⟩ : ∃ ar2, withItems (arrCell ar) (appendItems i c) = arrCell ar2 ∧ ar2.getD [] = before p ++ appendItems i c := by
        unfold withItems
        split
        · rename_i hn; exact ⟨ar, rfl, by rw [hn, har, List.append_nil]⟩
        · exact ⟨_, rfl, by simp only [arrCell, Option.getD_some, har]⟩
      have hm2 : MapsAreMaps h2 e := by rw [hh2]; exact set_cell_map a1.map hcell (by rw [← hh2]; exact hp2)
      have a2 : After0 h h2 e := ⟨hp2, hm2, by rw [hh2]; have := a0.grow; simp; omega, fun b hb => by
        have := a0.grow
        rw [hh2, List.getElem?_set_ne (by omega), a1.same b (by omega), a0.same b hb]⟩
      have h2l : h1.length < h2.length := by rw [hh2]; simp
      have ht : h2[h1.length]? = some (.cell (arrCell ar2)) := by rw [hh2, List.getElem?_set_self (by simp), hw2]
      have hin : InMemory h2 (some h1.length) := by intro x hx; cases hx; exact h2l
      cases hput : apiPut h2 e key (some h1.length) with
      | panic => rw [hput] at hs; cases hs
      | ok r =>
        obtain ⟨h3, e3, old, er⟩ := r
        rw [hput] at hs
        simp only [Res.map_ok, Res.ok.injEq, Prod.mk.injEq] at hs
        obtain ⟨rfl, rfl, rfl⟩ := hs
        obtain ⟨b1, b2⟩ := put_after hp2 hm2 hin hput
        have b3 := a2.then hp hw b1
        have kp := keeps_put (Q := fun _ => True) hput
        refine ⟨b3.proper, b3.map, b3.change, fun b d hb => kp.same b d (by rw [a2.same b (lt_of_getElem? hb)]; exact hb) trivial, fun hne => ?_, fun hn hst => ?_⟩
        · obtain ⟨rfl, rfl⟩ := b2 hne
          exact ⟨rfl, a2.same⟩
        · subst hn
          refine ⟨h1.length, ar2, a0.grow, get_after_put_straight hm2 hp2.1 (hst.kept hp.1 (a2.kept hp hw)) (by simp) (.inl hput), ?_, har2⟩
          simp only [deref, kp.same h1.length _ ht trivial]
  have hc1 : deref h1 (some i) = some c := by simp only [deref, a0.same i hil, hic]
  unfold utilAppend at hs
  rw [hg] at hs
  cases p with
  | none =>
    simp only [Heap.alloc] at hs
    have hc2 : deref (h1 ++ [HObj.cell (arrCell none)]) (some i) = some c := by
      simp only [deref, List.getElem?_append_left (Nat.lt_of_lt_of_le hil a0.grow), a0.same i hil, hic]
    simp only [hc2] at hs
    exact main none rfl (by intro ps hh; cases hh) hs
  | some a =>
    cases hd : deref h1 (some a) with
    | none => simp only [hd] at hs; cases hs
    | some cp =>
      simp only [hd, ne_eq, hno cp hd, not_false_eq_true, if_true, Heap.alloc] at hs
      have hc2 : deref (h1 ++ [HObj.cell (arrCell (some [some a]))]) (some i) = some c := by
        simp only [deref, List.getElem?_append_left (Nat.lt_of_lt_of_le hil a0.grow), a0.same i hil, hic]
      simp only [hc2] at hs
      exact main (some [some a]) rfl (by intro ps hh q hq; cases hh; simp at hq; subst hq; exact m0) hs

/-- **C117.** A nil item changes nothing. -/
theorem append_nil (h : Heap) (e : Event) (key : Bytes) : utilAppend h e key none = .ok (h, e, none) := rfl

/-- Cases, in the memory of `step_changes_sample`, where events 0 and 1 share the list 4: appendItems to itself it becomes twice as long, for event 1 too; the string 5 that is appendItems where nothing is, or where a string is, is in a new list. -/
theorem append_shared_sample : ∃ (h h1 h2 h3 : Heap), h = [.map [(lit "a", some 4)], .map [(lit "b", some 4)], .map [(lit "x", some 5)], .cell (objCell (some 2)), .cell (arrCell (some [some 3])), .cell (strCell (lit "v"))] ∧ apiGet h (some 0) (lit "a") = .ok (h, some 4) ∧
    utilAppend h (some 0) (lit "a") (some 4) = .ok (h1, some 0, none) ∧ apiGet h1 (some 1) (lit "b") = .ok (h1, some 4) ∧ deref h1 (some 4) = some (arrCell (some [some 3, some 3])) ∧
    utilAppend h (some 0) (lit "c.d") (some 5) = .ok (h2, some 0, none) ∧ Straight h (some 0) (keyToPath (lit "c.d")) ∧ (apiGet h2 (some 0) (lit "c.d") = .ok (h2, some 6) ∧ deref h2 (some 6) = some (arrCell (some [some 5]))) ∧
    utilAppend h (some 2) (lit "x") (some 4) = .ok (h3, some 2, none) ∧ (apiGet h3 (some 2) (lit "x") = .ok (h3, some 6) ∧ deref h3 (some 6) = some (arrCell (some [some 5, some 3]))) := by
  refine ⟨_, _, _, _, rfl, rfl, rfl, rfl, rfl, rfl, ?_, ⟨rfl, rfl⟩, rfl, ⟨rfl, rfl⟩⟩
  have hk : keyToPath (lit "c.d") = [lit "c", lit "d"] := by decide +kernel
  have hne : ¬ lit "a" = lit "c" := by decide +kernel
  rw [hk]
  rintro pre k rest d hpre hr ⟨pre', rest', h1, h2⟩
  match pre with
  | [] => cases pre' <;> cases h1
  | [y] =>
    simp only [List.cons_append, List.nil_append, List.cons.injEq] at hpre
    obtain ⟨q, c, k1, _⟩ := hr
    simp only [mapOf, List.getElem?_cons_zero, AMap.lookup, ← hpre.1, hne, if_false] at k1
    cases k1
  | y :: z :: zs =>
    simp only [List.cons_append, List.cons.injEq] at hpre
    have := congrArg List.length hpre.2.2
    simp at this

end Sawmill
