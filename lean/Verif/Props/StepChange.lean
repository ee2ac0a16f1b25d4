import Verif.Props.NoCommon
import Verif.Spec.StepChange
/-! # What one run of a processor may change (C114) -/

namespace Sawmill
open Wire ATree

/-- The state after a call: memory in order, and what has changed since. -/
structure After1 (h h' : Heap) (e e' : Event) : Prop where
  proper : Proper h'
  map : MapsAreMaps h' e'
  grow : h.length ≤ h'.length
  change : StepChange h h' e

/-- The same if nothing old has changed. -/
structure After0 (h h' : Heap) (e' : Event) : Prop where
  proper : Proper h'
  map : MapsAreMaps h' e'
  grow : h.length ≤ h'.length
  same : ∀ a, a < h.length → h'[a]? = h[a]?

theorem After0.toAfter1 {h h' : Heap} {e e' : Event} (a : After0 h h' e') : After1 h h' e e' := ⟨a.proper, a.map, a.grow, .nothing a.same⟩

theorem After0.kept {h h' : Heap} {e m : Event} (a : After0 h h' e) (hp : Proper h) (hw : MapsAreMaps h m) : KeptAt h h' m := by
  refine ⟨fun q hq => ?_, fun path b hr => a.same b (reaches_lt hp path hw hr)⟩
  cases q with
  | none => rfl
  | some x => simp only [deref, a.same x (hq x rfl)]

theorem after_alloc {h : Heap} {e : Event} (hp : Proper h) (hw : MapsAreMaps h e) {c : Cell} (ha : ∀ ps, c.array = some ps → ∀ q ∈ ps, InMemory h q) (hm : ∀ m, c.object = some m → ∃ es, h[m]? = some (.map es)) :
    After0 h (h ++ [.cell c]) e := by
  have hp' : Proper (h ++ [.cell c]) := hp.alloc (o := .cell c) ⟨by intro c' ps hc; cases hc; exact ha ps, by simp⟩ (by intro c' m hc; cases hc; exact hm m)
  refine ⟨hp', mapsAreMaps_of hp' fun b hb => ?_, by simp, fun a ha => List.getElem?_append_left ha⟩
  obtain ⟨es, he⟩ := hw.1 b hb
  exact ⟨es, by rw [List.getElem?_append_left (lt_of_getElem? he)]; exact he⟩

theorem get_after {h h1 : Heap} {e : Event} (hp : Proper h) (hw : MapsAreMaps h e) {key : Bytes} {p : Ptr} (hg : apiGet h e key = .ok (h1, p)) :
    After0 h h1 e ∧ InMemory h1 p ∧ (h1 = h ∨ ∃ m, e = some m ∧ p = some h.length ∧ h1 = h ++ [.cell (objCell e)]) := by
  refine ⟨?_, (NoDangling.get hp.1 hg).2.2, ?_⟩
  all_goals
    unfold apiGet at hg
    by_cases hk : keyToPath key = []
    · rw [hk] at hg
      unfold Sawmill.get at hg
      split at hg
      · simp only [Res.ok.injEq, Prod.mk.injEq] at hg
        obtain ⟨rfl, _⟩ := hg
        first
        | exact ⟨hp, hw, Nat.le_refl _, fun _ _ => rfl⟩
        | exact .inl rfl
      · rename_i hne
        simp only [Heap.alloc, Res.ok.injEq, Prod.mk.injEq] at hg
        obtain ⟨rfl, rfl⟩ := hg
        first
        | exact after_alloc hp hw (by intro ps hc; cases hc) (fun m hm => hw.1 m hm)
        | (cases e with
          | none => simp [mapOf] at hne
          | some m => exact .inr ⟨m, rfl, rfl, rfl⟩)
    · rw [get_loop h e hk] at hg
      cases hx : Sawmill.getLoop h e (keyToPath key) with
      | panic => rw [hx] at hg; cases hg
      | ok q =>
        rw [hx] at hg; simp only [Res.map_ok, Res.ok.injEq, Prod.mk.injEq] at hg
        obtain ⟨rfl, _⟩ := hg
        first
        | exact ⟨hp, hw, Nat.le_refl _, fun _ _ => rfl⟩
        | exact .inl rfl

theorem put_after_some {h h' : Heap} {m : Nat} {e' : Event} (hp : Proper h) (hw : MapsAreMaps h (some m)) {path : List Bytes} {v old : Ptr} {ow : Bool} {err : Option PutErr} (hv : InMemory h v)
    (hput : put h (some m) path v ow = .ok (h', e', old, err)) : After1 h h' (some m) e' ∧ (err ≠ none → h' = h ∧ e' = some m) := by
  have same : h' = h → e' = some m → After1 h h' (some m) e' ∧ (err ≠ none → h' = h ∧ e' = some m) := by
    rintro rfl rfl
    exact ⟨⟨hp, hw, Nat.le_refl _, .nothing fun _ _ => rfl⟩, fun _ => ⟨rfl, rfl⟩⟩
  cases err with
  | some err =>
    have := put_error_atomic (fun a c m' ha hm' => by obtain ⟨es, he⟩ := hp.2 a c m' ha hm'; exact lt_of_getElem? he) (fun b hb => mapsAreMaps_lt hw b hb) hput
    exact same this.1 this.2
  | none =>
    cases v with
    | none =>
      simp only [Sawmill.put] at hput
      split at hput
      · simp at hput
      · simp only [if_true, Res.ok.injEq, Prod.mk.injEq] at hput
        exact same hput.1.symm hput.2.1.symm
    | some a =>
      obtain ⟨rfl, pre, k, rest, d, es, q, h1, h2, h3, h4, h5, h6, h7⟩ := put_changes_loop hw hput
      have hc := insert_changedAt h3 h5 h7
      obtain ⟨-, hne, hloop⟩ := Sawmill.put_some hput
      obtain ⟨hp', hl⟩ := hp.putLoop path hv (hloop hne)
      refine ⟨⟨hp', mapsAreMaps_of hp' fun b hb => ?_, hl, .entry (objects_reach h2) hc⟩, fun hx => absurd rfl hx⟩
      obtain ⟨es, he⟩ := hw.1 b hb
      exact changedAt_map hc he

theorem put_after {h h' : Heap} {e e' : Event} (hp : Proper h) (hw : MapsAreMaps h e) {path : List Bytes} {v old : Ptr} {ow : Bool} {err : Option PutErr} (hv : InMemory h v)
    (hput : put h e path v ow = .ok (h', e', old, err)) : After1 h h' e e' ∧ (err ≠ none → h' = h ∧ e' = e) := by
  cases e with
  | some m => exact put_after_some hp hw hv hput
  | none =>
    have same : h' = h → e' = none → After1 h h' none e' ∧ (err ≠ none → h' = h ∧ e' = none) := by
      rintro rfl rfl
      exact ⟨⟨hp, hw, Nat.le_refl _, .nothing fun _ _ => rfl⟩, fun _ => ⟨rfl, rfl⟩⟩
    by_cases hpath : path = []
    · subst hpath
      simp only [Sawmill.put, List.length_nil, if_true, Res.ok.injEq, Prod.mk.injEq] at hput
      exact same hput.1.symm hput.2.1.symm
    · by_cases hvn : v = none
      · subst hvn
        have : path.length ≠ 0 := by simpa using hpath
        simp only [Sawmill.put, this, if_false, if_true, Res.ok.injEq, Prod.mk.injEq] at hput
        exact same hput.1.symm hput.2.1.symm
      · rw [put_eq_none hpath hvn] at hput
        have hp1 : Proper (h ++ [HObj.map []]) := hp.alloc ⟨by simp, by intro es he k q hk; simp only [HObj.map.injEq] at he; subst he; simp at hk⟩ (by simp)
        have hm : (h ++ [HObj.map []])[h.length]? = some (.map []) := by simp
        have herr : err = none := by
          obtain ⟨x, hx⟩ := putLoop_fresh (p := v) path hm
          rw [put_eq_some hpath hvn, get_empty (by simp [mapOf])] at hput
          simp [hx] at hput
          exact hput.2.2.2.symm
        subst herr
        obtain ⟨a1, -⟩ := put_after_some hp1 (mapsAreMaps_of hp1 fun b hb => by cases hb; exact ⟨[], hm⟩) (inMemory_mono hv (by simp)) hput
        refine ⟨⟨a1.proper, a1.map, by have := a1.grow; simp at this; omega, ?_⟩, fun hx => absurd rfl hx⟩
        -- the only map that changed is the new one
        have low : ∀ a, a < h.length → h'[a]? = (h ++ [HObj.map []])[a]? := by
          intro a ha
          cases v with
          | none => exact absurd rfl hvn
          | some av =>
            obtain ⟨-, pre, k, rest, d, es, q, h1, h2, h3, h4, h5, h6, h7⟩ := put_changes_loop (mapsAreMaps_of hp1 fun b hb => by cases hb; exact ⟨[], hm⟩) hput
            have hd : d = h.length := by
              cases pre with
              | nil => simp only [Through, Option.some.injEq] at h2; exact h2.symm
              | cons x xs =>
                obtain ⟨q, c, i1, _⟩ := h2
                simp [mapOf] at i1
            exact h7 a (by simp; omega) (by omega)
        exact .nothing fun a ha => by rw [low a ha, List.getElem?_append_left ha]

/-- Something new, then a call. -/
theorem After0.then {h h1 h2 : Heap} {e e2 : Event} (hp : Proper h) (hw : MapsAreMaps h e) (a : After0 h h1 e) (b : After1 h1 h2 e e2) : After1 h h2 e e2 := by
  refine ⟨b.proper, b.map, Nat.le_trans a.grow b.grow, ?_⟩
  have hk := a.kept hp hw
  cases b.change with
  | nothing hs => exact .nothing fun x hx => by rw [hs x (Nat.lt_of_lt_of_le hx a.grow), a.same x hx]
  | entry hr hc =>
    have hr' := hk.back hp.1 _ hr
    obtain ⟨c1, es, es', c2, c3, c4⟩ := hc
    exact .entry hr' ⟨fun x hx hne => by rw [c1 x (Nat.lt_of_lt_of_le hx a.grow) hne, a.same x hx], es, es', by rw [← a.same _ (reaches_lt hp _ hw hr')]; exact c2, c3, c4⟩
  | @longer key x c item hg hc ht hl ho =>
    have hne : keyToPath key ≠ [] := by
      intro hk
      unfold apiGet at hg
      rw [hk] at hg
      unfold Sawmill.get at hg
      split at hg
      · cases hg
      · simp only [Heap.alloc, Res.ok.injEq, Prod.mk.injEq, Option.some.injEq] at hg
        have := congrArg List.length hg.1
        simp at this
    have hg' : apiGet h e key = .ok (h, some x) := by
      unfold apiGet at hg ⊢
      rw [get_loop h1 e hne, hk.getLoop hp.1] at hg
      rw [get_loop h e hne]
      cases hx : Sawmill.getLoop h e (keyToPath key) with
      | panic => rw [hx] at hg; cases hg
      | ok q => rw [hx] at hg; simp only [Res.map_ok, Res.ok.injEq, Prod.mk.injEq, true_and] at hg; rw [hg]; rfl
    have hx := (NoDangling.get hp.1 hg').2.2 x rfl
    exact .longer hg' (by rw [← a.same x hx]; exact hc) ht hl fun y hy hne => by rw [ho y (Nat.lt_of_lt_of_le hy a.grow) hne, a.same y hy]

/-- A call, then changes behind what was there. -/
theorem StepChange.then {h h1 h2 : Heap} {e : Event} (b : StepChange h h1 e) (hs : ∀ a, a < h.length → h2[a]? = h1[a]?) : StepChange h h2 e := by
  cases b with
  | nothing h1 => exact .nothing fun a ha => by rw [hs a ha, h1 a ha]
  | entry hr hc =>
    obtain ⟨c1, es, es', c2, c3, c4⟩ := hc
    exact .entry hr ⟨fun x hx hne => by rw [hs x hx, c1 x hx hne], es, es', c2, by rw [hs _ (lt_of_getElem? c2)]; exact c3, c4⟩
  | longer hg hc ht hl ho => exact .longer hg hc ht (by rw [hs _ (lt_of_getElem? hc)]; exact hl) fun b hb hne => by rw [hs b hb, ho b hb hne]

theorem putThen_after {h h' : Heap} {e e' : Event} (hp : Proper h) (hw : MapsAreMaps h e) {key : Bytes} {v : Ptr} {err : Option Err} (hv : InMemory h v) (hput : putThen h e key v = .ok (h', e', err)) :
    After1 h h' e e' ∧ (err ≠ none → h' = h ∧ e' = e) := by
  unfold putThen apiPut at hput
  cases hx : put h e (keyToPath key) v true with
  | panic => rw [hx] at hput; cases hput
  | ok r =>
    obtain ⟨h1, e1, old, err1⟩ := r
    rw [hx] at hput
    simp only [Res.map_ok, Res.ok.injEq, Prod.mk.injEq] at hput
    obtain ⟨rfl, rfl, rfl⟩ := hput
    obtain ⟨a1, a2⟩ := put_after hp hw hv hx
    exact ⟨a1, fun hne => a2 fun hn => hne (by rw [hn]; rfl)⟩

theorem Proper.setArray {h : Heap} (hp : Proper h) {a : Nat} {c : Cell} (hc : h[a]? = some (.cell c)) {items : List Ptr} (hi : ∀ q ∈ items, InMemory h q) :
    Proper (h.set a (.cell { c with array := some (c.array.getD [] ++ items) })) := by
  have hal := lt_of_getElem? hc
  have mono : ∀ {q : Ptr}, InMemory h q → InMemory (h.set a (.cell { c with array := some (c.array.getD [] ++ items) })) q := fun hq x hx => by simpa using hq x hx
  refine ⟨⟨?_, ?_⟩, ?_⟩
  · intro b c' ps hb ha q hq
    by_cases hab : a = b
    · subst hab
      rw [List.getElem?_set_self hal] at hb
      cases hb
      simp only [Option.some.injEq] at ha
      subst ha
      rcases List.mem_append.mp hq with hq | hq
      · have key : InMemory h q := by
          cases hca : c.array with
          | none => rw [hca] at hq; cases hq
          | some ps => rw [hca] at hq; exact hp.1.1 a c ps hc hca q hq
        exact mono key
      · exact mono (hi q hq)
    · rw [List.getElem?_set_ne hab] at hb
      exact mono (hp.1.1 b c' ps hb ha q hq)
  · intro b es hb k q hq
    have hab : a ≠ b := by rintro rfl; rw [List.getElem?_set_self hal] at hb; cases hb
    rw [List.getElem?_set_ne hab] at hb
    exact mono (hp.1.2 b es hb k q hq)
  · intro b c' m hb hm
    have key : ∃ es, h[m]? = some (.map es) := by
      by_cases hab : a = b
      · subst hab
        rw [List.getElem?_set_self hal] at hb
        cases hb
        exact hp.2 a c m hc hm
      · rw [List.getElem?_set_ne hab] at hb
        exact hp.2 b c' m hb hm
    obtain ⟨es, he⟩ := key
    have ham : a ≠ m := by rintro rfl; rw [hc] at he; cases he
    exact ⟨es, by rw [List.getElem?_set_ne ham]; exact he⟩

theorem appendTo_is {h h' : Heap} {a : Nat} {items : List Ptr} (hw : appendTo h a items = .ok h') : ∃ c, h[a]? = some (.cell c) ∧ h' = h.set a (.cell { c with array := some (c.array.getD [] ++ items) }) := by
  unfold appendTo at hw
  cases hd : deref h (some a) with
  | none => rw [hd] at hw; cases hw
  | some c =>
    rw [hd] at hw
    simp only [Res.ok.injEq] at hw
    refine ⟨c, ?_, hw.symm⟩
    simp only [deref] at hd
    split at hd
    · rename_i c' hx; cases hd; exact hx
    · cases hd

theorem set_cell_map {h : Heap} {e : Event} (hw : MapsAreMaps h e) {a : Nat} {c c' : Cell} (hc : h[a]? = some (.cell c)) (hp' : Proper (h.set a (.cell c'))) : MapsAreMaps (h.set a (.cell c')) e :=
  mapsAreMaps_of hp' fun b hb => by
    obtain ⟨es, he⟩ := hw.1 b hb
    have : a ≠ b := by rintro rfl; rw [hc] at he; cases he
    exact ⟨es, by rw [List.getElem?_set_ne this]; exact he⟩

/-- **C114.** One run of one of the processors (`lowercase`, `uppercase`, `set`, `append`, `remove`, `community_id`), whatever its configuration, on any event, whatever that shares with other events, with configured values or within itself. -/
theorem step_changes (cv : Conv) (b : Builtin) {h h' : Heap} {e e' : Event} {err : Option Err} (hp : Proper h) (hw : MapsAreMaps h e) (hs : b.step cv h e = .ok (h', e', err)) :
    Proper h' ∧ MapsAreMaps h' e' ∧ h.length ≤ h'.length ∧ StepChange h h' e ∧ (err ≠ none → e' = e ∧ ∀ a, a < h.length → h'[a]? = h[a]?) := by
  have none0 : h' = h → e' = e → After1 h h' e e' ∧ (err ≠ none → e' = e ∧ ∀ a, a < h.length → h'[a]? = h[a]?) := by
    rintro rfl rfl
    exact ⟨⟨hp, hw, Nat.le_refl _, .nothing fun _ _ => rfl⟩, fun _ => ⟨rfl, fun _ _ => rfl⟩⟩
  have old : ∀ {h1}, After0 h h1 e → h' = h1 → e' = e → After1 h h' e e' ∧ (err ≠ none → e' = e ∧ ∀ a, a < h.length → h'[a]? = h[a]?) := by
    rintro h1 a rfl rfl
    exact ⟨a.toAfter1, fun _ => ⟨rfl, a.same⟩⟩
  have put : ∀ {h1 key v}, After0 h h1 e → InMemory h1 v → putThen h1 e key v = .ok (h', e', err) → After1 h h' e e' ∧ (err ≠ none → e' = e ∧ ∀ a, a < h.length → h'[a]? = h[a]?) := by
    intro h1 key v a hv hput
    obtain ⟨b1, b2⟩ := putThen_after a.proper a.map hv hput
    refine ⟨a.then hp hw b1, fun hne => ?_⟩
    obtain ⟨rfl, rfl⟩ := b2 hne
    exact ⟨rfl, a.same⟩
  have conv : ∀ f msg field target, convProcess f msg field target h e = .ok (h', e', err) → After1 h h' e e' ∧ (err ≠ none → e' = e ∧ ∀ a, a < h.length → h'[a]? = h[a]?) := by
    intro f msg field target hs
    unfold convProcess at hs
    cases hg : apiGet h e field with
    | panic => rw [hg] at hs; cases hs
    | ok r =>
      obtain ⟨h1, p⟩ := r
      rw [hg] at hs
      obtain ⟨a0, -, -⟩ := get_after hp hw hg
      cases p with
      | none => simp only [Res.ok.injEq, Prod.mk.injEq] at hs; exact old a0 hs.1.symm hs.2.1.symm
      | some a =>
        dsimp only at hs
        cases hd : deref h1 (some a) with
        | none => rw [hd] at hs; cases hs
        | some c =>
          rw [hd] at hs
          dsimp only at hs
          split at hs
          · simp only [Res.ok.injEq, Prod.mk.injEq] at hs; exact old a0 hs.1.symm hs.2.1.symm
          · have a1 := after_alloc (c := strCell (f c.string)) a0.proper a0.map (by intro ps hc; cases hc) (by intro m hm; cases hm)
            refine put ⟨a1.proper, a1.map, Nat.le_trans a0.grow a1.grow, fun x hx => by rw [a1.same x (Nat.lt_of_lt_of_le hx a0.grow), a0.same x hx]⟩ ?_ hs
            intro x hx; cases hx; simp [Heap.alloc]
  have main : After1 h h' e e' ∧ (err ≠ none → e' = e ∧ ∀ a, a < h.length → h'[a]? = h[a]?) := by
    have start : After0 h h e := ⟨hp, hw, Nat.le_refl _, fun _ _ => rfl⟩
    cases b with
    | lowercase f t => exact conv _ _ _ _ hs
    | uppercase f t => exact conv _ _ _ _ hs
    | remove fs => simp only [Builtin.step, removeProcess, Res.ok.injEq, Prod.mk.injEq] at hs; exact none0 hs.1.symm hs.2.1.symm
    | communityId => simp only [Builtin.step, communityIdProcess, Res.ok.injEq, Prod.mk.injEq] at hs; exact none0 hs.1.symm hs.2.1.symm
    | set value copyFrom target =>
      simp only [Builtin.step, setProcess] at hs
      cases hd : deref h (some value) with
      | none => rw [hd] at hs; cases hs
      | some c =>
        rw [hd] at hs
        dsimp only at hs
        have hval : InMemory h (some value) := by
          intro x hx; cases hx
          simp only [deref] at hd
          split at hd
          · exact lt_of_getElem? ‹_›
          · cases hd
        split at hs
        · exact put start hval hs
        · split at hs
          · cases hg : apiGet h e copyFrom with
            | panic => rw [hg] at hs; cases hs
            | ok r =>
              obtain ⟨h1, p⟩ := r
              rw [hg] at hs
              obtain ⟨a0, a1, -⟩ := get_after hp hw hg
              cases p with
              | none => simp only [Res.ok.injEq, Prod.mk.injEq] at hs; exact old a0 hs.1.symm hs.2.1.symm
              | some a => exact put a0 a1 hs
          · exact put start (by intro x hx; cases hx) hs
    | append field value dup =>
      simp only [Builtin.step, appendProcess] at hs
      cases hg : apiGet h e field with
      | panic => rw [hg] at hs; cases hs
      | ok r =>
        obtain ⟨h1, p⟩ := r
        rw [hg] at hs
        obtain ⟨a0, a1, a2⟩ := get_after hp hw hg
        cases p with
        | none =>
          have hh : h1 = h := by
            rcases a2 with a2 | ⟨m, _, hx, _⟩
            · exact a2
            · cases hx
          subst hh
          simp only [Heap.alloc] at hs
          have b0 := after_alloc (c := arrCell none) hp hw (by intro ps hc; cases hc) (by intro m hm; cases hm)
          cases hput : apiPut (h1 ++ [HObj.cell (arrCell none)]) e field (some h1.length) with
          | panic => rw [hput] at hs; cases hs
          | ok r =>
            obtain ⟨h2, e2, old2, err2⟩ := r
            rw [hput] at hs
            dsimp only at hs
            obtain ⟨b1, -⟩ := put_after b0.proper b0.map (by intro x hx; cases hx; simp) hput
            have b2 := b0.then hp hw b1
            have b3 := after_alloc (c := strCell value) b2.proper b2.map (by intro ps hc; cases hc) (by intro m hm; cases hm)
            cases ha : appendTo (h2 ++ [HObj.cell (strCell value)]) h1.length [some h2.length] with
            | panic => rw [ha] at hs; cases hs
            | ok h3 =>
              rw [ha] at hs
              simp only [Res.map_ok, Res.ok.injEq, Prod.mk.injEq] at hs
              obtain ⟨rfl, rfl, rfl⟩ := hs
              obtain ⟨c, hc, rfl⟩ := appendTo_is ha
              have hp3 := b3.proper.setArray hc (items := [some h2.length]) (by intro q hq; simp at hq; subst hq; intro x hx; cases hx; simp)
              refine ⟨⟨hp3, set_cell_map b3.map hc hp3, ?_, b2.change.then fun x hx => ?_⟩, fun hne => absurd rfl hne⟩
              · have := b2.grow; simp; omega
              · rw [List.getElem?_set_ne (by omega), b3.same x (Nat.lt_of_lt_of_le hx b2.grow)]
        | some a =>
          dsimp only at hs
          cases hd : deref h1 (some a) with
          | none => rw [hd] at hs; cases hs
          | some c =>
            rw [hd] at hs
            dsimp only at hs
            have hca : h1[a]? = some (.cell c) := by
              simp only [deref] at hd
              split at hd
              · rename_i c' hx; cases hd; exact hx
              · cases hd
            split at hs
            · -- a string: the list is never put anywhere
              simp only [Heap.alloc] at hs
              have b0 := after_alloc (c := arrCell (some [some a])) a0.proper a0.map (by intro ps hc; cases hc; intro q hq; simp at hq; subst hq; exact a1) (by intro m hm; cases hm)
              have b1 := after_alloc (c := strCell value) b0.proper b0.map (by intro ps hc; cases hc) (by intro m hm; cases hm)
              cases ha : appendTo (h1 ++ [HObj.cell (arrCell (some [some a]))] ++ [HObj.cell (strCell value)]) h1.length [some (h1 ++ [HObj.cell (arrCell (some [some a]))]).length] with
              | panic => rw [ha] at hs; cases hs
              | ok h3 =>
                rw [ha] at hs
                simp only [Res.map_ok, Res.ok.injEq, Prod.mk.injEq] at hs
                obtain ⟨rfl, rfl, rfl⟩ := hs
                obtain ⟨c, hc, rfl⟩ := appendTo_is ha
                have hp3 := b1.proper.setArray hc (items := [some (h1 ++ [HObj.cell (arrCell (some [some a]))]).length]) (by intro q hq; simp at hq; subst hq; intro x hx; cases hx; simp)
                refine ⟨⟨hp3, set_cell_map b1.map hc hp3, ?_, .nothing fun x hx => ?_⟩, fun hne => absurd rfl hne⟩
                · have := a0.grow; simp; omega
                · have hx1 := Nat.lt_of_lt_of_le hx a0.grow
                  rw [List.getElem?_set_ne (by omega), b1.same x (by simp; omega), b0.same x hx1, a0.same x hx]
            · split at hs
              · simp only [Res.ok.injEq, Prod.mk.injEq] at hs; exact old a0 hs.1.symm hs.2.1.symm
              · rename_i hty
                have hty : c.type = .array := Classical.not_not.mp hty
                have hh : h1 = h := by
                  rcases a2 with a2 | ⟨m, rfl, hx, hy⟩
                  · exact a2
                  · cases hx
                    subst hy
                    simp at hca
                    subst hca
                    cases hty
                subst hh
                simp only [Heap.alloc] at hs
                have b1 := after_alloc (c := strCell value) hp hw (by intro ps hc; cases hc) (by intro m hm; cases hm)
                cases ha : appendTo (h1 ++ [HObj.cell (strCell value)]) a [some h1.length] with
                | panic => rw [ha] at hs; cases hs
                | ok h3 =>
                  rw [ha] at hs
                  simp only [Res.map_ok, Res.ok.injEq, Prod.mk.injEq] at hs
                  obtain ⟨rfl, rfl, rfl⟩ := hs
                  obtain ⟨c', hc, rfl⟩ := appendTo_is ha
                  have hal := lt_of_getElem? hca
                  have : c' = c := by
                    rw [b1.same a hal, hca] at hc
                    cases hc; rfl
                  subst this
                  have hp3 := b1.proper.setArray hc (items := [some h1.length]) (by intro q hq; simp at hq; subst hq; intro x hx; cases hx; simp)
                  refine ⟨⟨hp3, set_cell_map b1.map hc hp3, by simp, .longer hg hca hty (List.getElem?_set_self (lt_of_getElem? hc)) fun x hx hne => ?_⟩, fun hne => absurd rfl hne⟩
                  rw [List.getElem?_set_ne (fun h => hne h.symm), b1.same x hx]
  exact ⟨main.1.proper, main.1.map, main.1.grow, main.1.change, main.2⟩

/-- A case: events 0 and 1 share the list 4, whose only element is the object 3. `append` to `a` of event 0 makes that list longer, and `b` of event 1 with it: of the old objects only the list has changed. `set` of `c.d` in event 0 changes the entry `c` of event 0 only, and `lowercase` of the list reports an error and changes nothing. -/
theorem step_changes_sample (cv : Conv) : ∃ h h1 h2 : Heap, h = [.map [(lit "a", some 4)], .map [(lit "b", some 4)], .map [(lit "x", some 5)], .cell (objCell (some 2)), .cell (arrCell (some [some 3])), .cell (strCell (lit "v"))] ∧
    Proper h ∧ MapsAreMaps h (some 0) ∧
    (Builtin.append (lit "a") (lit "w") false).step cv h (some 0) = .ok (h1, some 0, none) ∧ h1[4]? = some (.cell (arrCell (some [some 3, some 6]))) ∧ apiGet h1 (some 1) (lit "b") = .ok (h1, some 4) ∧ (∀ a, a < 6 → a ≠ 4 → h1[a]? = h[a]?) ∧
    (Builtin.set 5 [] (lit "c.d")).step cv h (some 0) = .ok (h2, some 0, none) ∧ ChangedAt h h2 0 (lit "c") ∧ apiGet h2 (some 0) (lit "c.d") = .ok (h2, some 5) ∧
    (∃ err, (Builtin.lowercase (lit "a") []).step cv h (some 0) = .ok (h, some 0, some err)) := by
  refine ⟨_, _, _, rfl, ⟨⟨?_, ?_⟩, ?_⟩, ⟨?_, ?_⟩, rfl, rfl, rfl, ?_, rfl, ?_, rfl, _, rfl⟩
  · intro a c ps ha hc q hq
    rcases a with _ | _ | _ | _ | _ | _ | a <;> simp at ha
    · subst ha; cases hc
    · subst ha; simp only [arrCell, Option.some.injEq] at hc; subst hc; simp at hq; subst hq; intro a ha; cases ha; decide
    · subst ha; cases hc
  · intro a es ha k q hq
    rcases a with _ | _ | _ | _ | _ | _ | a <;> simp at ha
    all_goals (subst ha; simp at hq; rw [hq.2]; intro a ha; cases ha; decide)
  · intro a c m ha hm
    rcases a with _ | _ | _ | _ | _ | _ | a <;> simp at ha
    · subst ha; cases hm; exact ⟨_, rfl⟩
    · subst ha; cases hm
    · subst ha; cases hm
  · intro m hm; cases hm; exact ⟨_, rfl⟩
  · intro a c m ha hm
    rcases a with _ | _ | _ | _ | _ | _ | a <;> simp at ha
    · subst ha; cases hm; exact ⟨_, rfl⟩
    · subst ha; cases hm
    · subst ha; cases hm
  · intro a ha hne
    rcases a with _ | _ | _ | _ | _ | _ | a
    all_goals first | rfl | omega
  · refine ⟨?_, [(lit "a", some 4)], AMap.insert [(lit "a", some 4)] (lit "c") (some 7), rfl, rfl, ?_⟩
    · intro a ha hne
      rcases a with _ | _ | _ | _ | _ | _ | a
      all_goals first | rfl | exact absurd rfl hne | (simp at ha; omega)
    · intro k' hk
      exact AMap.lookup_insert_of_ne _ _ (fun h => hk h.symm)

end Sawmill
