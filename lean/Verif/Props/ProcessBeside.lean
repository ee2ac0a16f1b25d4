import Verif.Props.StepChange
import Verif.Props.Reuse
import Verif.Props.NoNils
import Verif.Spec.ProcessBeside
/-! # Processing one of two events (C115) -/

namespace Sawmill
open Wire ATree

theorem Longer.trans {c c' c'' : Cell} (a : Longer c c') (b : Longer c' c'') : Longer c c'' := by
  rcases a with rfl | ⟨ht, items, rfl⟩
  · exact b
  · rcases b with rfl | ⟨_, items', rfl⟩
    · exact .inr ⟨ht, items, rfl⟩
    · exact .inr ⟨ht, items ++ items', by simp⟩

theorem Longer.object {c c' : Cell} (a : Longer c c') : c'.object = c.object := by
  rcases a with rfl | ⟨_, items, rfl⟩ <;> rfl

/-- The memory `h'` has everything that can be got at by names from `m`, as it is in `h`, and the values of `h`, of which lists may have become longer. -/
structure KeptGrow (h h' : Heap) (m : Option Nat) : Prop where
  none : ∀ q, InMemory h q → deref h q = none → deref h' q = none
  vals : ∀ q c, InMemory h q → deref h q = some c → ∃ c', deref h' q = some c' ∧ Longer c c'
  maps : ∀ path b, Reaches h m path (some b) → h'[b]? = h[b]?

theorem KeptAt.grow {h h' : Heap} {m : Option Nat} (k : KeptAt h h' m) : KeptGrow h h' m :=
  ⟨fun q hq hd => by rw [k.1 q hq]; exact hd, fun q c hq hd => ⟨c, by rw [k.1 q hq]; exact hd, .inl rfl⟩, k.2⟩

theorem KeptGrow.below {h h' : Heap} {m : Option Nat} (hk : KeptGrow h h' m) {x : Bytes} {q : Ptr} {c : Cell} (hl : (mapOf h m).lookup x = some q) (hd : deref h q = some c) : KeptGrow h h' c.object :=
  ⟨hk.none, hk.vals, fun path b hr => hk.maps (x :: path) b ⟨q, c, hl, hd, hr⟩⟩

theorem KeptGrow.map {h h' : Heap} {m : Option Nat} (hk : KeptGrow h h' m) : mapOf h' m = mapOf h m := by
  cases m with
  | none => rfl
  | some b => simp only [mapOf, hk.maps [] b rfl]

theorem KeptGrow.there {h h' : Heap} (hn : NoDangling h) {x : Option Nat} : ∀ (path : List Bytes) {m : Option Nat}, KeptGrow h h' m → Reaches h m path x → Reaches h' m path x
  | [], _, _, hr => hr
  | y :: ys, m, hk, hr => by
    obtain ⟨q, c, h1, h2, h3⟩ := hr
    obtain ⟨c', d1, d2⟩ := hk.vals q c (lookup_inMemory hn h1) h2
    exact ⟨q, c', by rw [hk.map]; exact h1, d1, by rw [d2.object]; exact KeptGrow.there hn ys (hk.below h1 h2) h3⟩

theorem KeptGrow.getLoop {h h' : Heap} (hn : NoDangling h) : ∀ (path : List Bytes) {m : Option Nat}, KeptGrow h h' m → getLoop h' m path = Sawmill.getLoop h m path
  | [], _, _ => rfl
  | [x], m, hk => by simp only [Sawmill.getLoop, hk.map]
  | x :: y :: xs, m, hk => by
    simp only [Sawmill.getLoop, hk.map]
    cases hq : (mapOf h m).lookup x with
    | none => rfl
    | some q =>
      dsimp only
      cases hd : deref h q with
      | none => rw [hk.none q (lookup_inMemory hn hq) hd]
      | some c =>
        obtain ⟨c', d1, d2⟩ := hk.vals q c (lookup_inMemory hn hq) hd
        rw [d1]
        dsimp only
        rw [d2.object, KeptGrow.getLoop hn (y :: xs) (hk.below hq hd), (hk.below hq hd).map]

theorem KeptGrow.trans {h h1 h2 : Heap} {m : Option Nat} (hn : NoDangling h) (hl : h.length ≤ h1.length) (a : KeptGrow h h1 m) (b : KeptGrow h1 h2 m) : KeptGrow h h2 m := by
  refine ⟨fun q hq hd => b.none q (inMemory_mono hq hl) (a.none q hq hd), fun q c hq hd => ?_, fun path d hr => by rw [b.maps path d (a.there hn path hr), a.maps path d hr]⟩
  obtain ⟨c1, d1, l1⟩ := a.vals q c hq hd
  obtain ⟨c2, d2, l2⟩ := b.vals q c1 (inMemory_mono hq hl) d1
  exact ⟨c2, d2, l1.trans l2⟩

theorem KeptGrow.back {h h' : Heap} (hn : NoDangling h) {x : Option Nat} : ∀ (path : List Bytes) {m : Option Nat}, KeptGrow h h' m → Reaches h' m path x → Reaches h m path x
  | [], _, _, hr => hr
  | y :: ys, m, hk, hr => by
    obtain ⟨q, c', h1, h2, h3⟩ := hr
    rw [hk.map] at h1
    have hq := lookup_inMemory hn h1
    cases hd : deref h q with
    | none => rw [hk.none q hq hd] at h2; cases h2
    | some c =>
      obtain ⟨c1, d1, d2⟩ := hk.vals q c hq hd
      rw [h2] at d1
      cases d1
      rw [d2.object] at h3
      exact ⟨q, c, h1, hd, KeptGrow.back hn ys (hk.below h1 hd) h3⟩

/-! ## Maps one owns -/

/-- One gets to the map from one of `R`. -/
def Owned (R : Option Nat → Prop) (h : Heap) (m : Option Nat) : Prop := ∃ r p, R r ∧ Reaches h r p m

theorem Owned.below {R : Option Nat → Prop} {h : Heap} {m : Option Nat} (o : Owned R h m) {y : Bytes} {q : Ptr} {c : Cell} (h1 : (mapOf h m).lookup y = some q) (h2 : deref h q = some c) : Owned R h c.object := by
  obtain ⟨r, p, hr, hp⟩ := o
  exact ⟨r, p ++ [y], hr, reaches_snoc h1 h2 p hp⟩

/-- After a `Put`, one gets only to new maps and to owned ones. -/
theorem owned_after_put {R : Option Nat → Prop} {h h' : Heap} {v : Ptr} {d : Nat} {k : Bytes} {es : AMap Ptr} {q : Ptr} {rest : List Bytes} (hp : Proper h) (hv : InMemory h v) (hd : h[d]? = some (.map es)) (hd' : h'[d]? = some (.map (AMap.insert es k q)))
    (hch : Chain h.length h' q v rest) (hold : ∀ b, b < h.length → b ≠ d → h'[b]? = h[b]?) (hnv : ∀ c, deref h v = some c → Owned R h c.object) {x : Nat} :
    ∀ (n : Nat) (path : List Bytes) (m : Option Nat), path.length ≤ n → MapsAreMaps h m → Owned R h m → Reaches h' m path (some x) → h.length ≤ x ∨ Owned R h (some x) := by
  have hc := insert_changedAt hd hd' hold
  intro n
  induction n with
  | zero =>
    intro path m hl hw hs hr
    have : path = [] := List.length_eq_zero_iff.mp (by omega)
    subst this
    cases hr
    exact .inr hs
  | succ n ih =>
    intro path m hl hw hs hr
    cases path with
    | nil => cases hr; exact .inr hs
    | cons y ys =>
      obtain ⟨q1, c1, h1, h2, h3⟩ := hr
      simp at hl
      by_cases hx : m = some d ∧ y = k
      · obtain ⟨rfl, rfl⟩ := hx
        simp only [mapOf, hd', AMap.lookup_insert_self, Option.some.injEq] at h1
        subst h1
        rcases reaches_chain rest hch h2 h3 with j | ⟨cv, p, j1, j2, j3⟩
        · exact .inl j
        · rw [hc.deref hv] at j1
          exact ih p cv.object (by omega) (mapsAreMaps_below hw j1) (hnv cv j1) j3
      · rw [hc.lookup (mapsAreMaps_lt hw) hx] at h1
        rw [hc.deref (lookup_inMemory hp.1 h1)] at h2
        exact ih ys c1.object hl (mapsAreMaps_below hw h2) (hs.below h1 h2) h3

theorem Owned.mono {R R' : Option Nat → Prop} {h : Heap} {m : Option Nat} (hr : ∀ m, R m → R' m) (o : Owned R h m) : Owned R' h m := by
  obtain ⟨r, p, h1, h2⟩ := o
  exact ⟨r, p, hr r h1, h2⟩

/-- The maps `R` from which the work on one event may start: one gets from them to none of the maps `T`. -/
structure Roots (R : Option Nat → Prop) (T : Nat → Prop) (h : Heap) : Prop where
  proper : Proper h
  nil : R none
  each : ∀ m, R m → MapsAreMaps h m
  maps : ∀ x, T x → ∃ es, h[x]? = some (.map es)
  apart : ∀ x, T x → ¬ Owned R h (some x)

/-- The maps `T` are as they were, and all values, but lists may have become longer. -/
structure KeptMaps (T : Nat → Prop) (h h' : Heap) : Prop where
  none : ∀ q, InMemory h q → deref h q = none → deref h' q = none
  vals : ∀ q c, InMemory h q → deref h q = some c → ∃ c', deref h' q = some c' ∧ Longer c c'
  same : ∀ x, T x → h'[x]? = h[x]?

theorem KeptMaps.trans {T : Nat → Prop} {h h1 h2 : Heap} (hl : h.length ≤ h1.length) (a : KeptMaps T h h1) (b : KeptMaps T h1 h2) : KeptMaps T h h2 := by
  refine ⟨fun q hq hd => b.none q (inMemory_mono hq hl) (a.none q hq hd), fun q c hq hd => ?_, fun x hx => by rw [b.same x hx, a.same x hx]⟩
  obtain ⟨c1, d1, l1⟩ := a.vals q c hq hd
  obtain ⟨c2, d2, l2⟩ := b.vals q c1 (inMemory_mono hq hl) d1
  exact ⟨c2, d2, l1.trans l2⟩

theorem KeptMaps.refl {T : Nat → Prop} {h : Heap} : KeptMaps T h h := ⟨fun _ _ hd => hd, fun _ c _ hd => ⟨c, hd, .inl rfl⟩, fun _ _ => rfl⟩

/-- What one has after some work: the same maps and the event's own, and the maps `T` are kept. -/
structure GoesBeside (R : Option Nat → Prop) (T : Nat → Prop) (h h' : Heap) (e' : Event) : Prop where
  roots : Roots (fun m => R m ∨ m = e') T h'
  kept : KeptMaps T h h'
  grow : h.length ≤ h'.length

theorem Roots.mono {R R' : Option Nat → Prop} {T : Nat → Prop} {h : Heap} (i : Roots R T h) (hr : ∀ m, R' m → R m) (hn : R' none) : Roots R' T h :=
  ⟨i.proper, hn, fun m hm => i.each m (hr m hm), i.maps, fun x hx o => i.apart x hx (o.mono hr)⟩

theorem Roots.stay {R : Option Nat → Prop} {T : Nat → Prop} {h : Heap} {e : Event} (i : Roots R T h) (he : R e) : GoesBeside R T h h e :=
  ⟨i.mono (by rintro m (hm | rfl); exacts [hm, he]) (.inl i.nil), .refl, Nat.le_refl _⟩

theorem Roots.alloc {R : Option Nat → Prop} {T : Nat → Prop} {h : Heap} (i : Roots R T h) {o : HObj} (hp : Proper (h ++ [o])) : Roots R T (h ++ [o]) ∧ KeptMaps T h (h ++ [o]) := by
  have low : ∀ x, T x → (h ++ [o])[x]? = h[x]? := fun x hx => by
    obtain ⟨es, he⟩ := i.maps x hx
    rw [List.getElem?_append_left (lt_of_getElem? he)]
  have dr : ∀ q, InMemory h q → deref (h ++ [o]) q = deref h q := fun q hq => by
    cases q with
    | none => rfl
    | some a => simp only [deref, List.getElem?_append_left (hq a rfl)]
  refine ⟨⟨hp, i.nil, fun m hm => mapsAreMaps_of hp fun b hb => ?_, fun x hx => by rw [low x hx]; exact i.maps x hx, ?_⟩, fun q hq hd => by rw [dr q hq]; exact hd, fun q c hq hd => ⟨c, by rw [dr q hq]; exact hd, .inl rfl⟩, low⟩
  · obtain ⟨es, he⟩ := (i.each m hm).1 b hb
    exact ⟨es, by rw [List.getElem?_append_left (lt_of_getElem? he)]; exact he⟩
  · rintro x hx ⟨r, p, hr, hpp⟩
    exact i.apart x hx ⟨r, p, hr, (keptAt_alloc i.proper (i.each r hr) o).back i.proper.1 p hpp⟩

theorem Roots.put_some {R : Option Nat → Prop} {T : Nat → Prop} {h h' : Heap} {m : Nat} {e' : Event} (i : Roots R T h) (he : R (some m)) {path : List Bytes} {v old : Ptr} {ow : Bool} {err : Option PutErr} (hv : InMemory h v)
    (hnv : ∀ c, deref h v = some c → Owned R h c.object) (hput : put h (some m) path v ow = .ok (h', e', old, err)) : GoesBeside R T h h' e' := by
  have same : h' = h → e' = some m → GoesBeside R T h h' e' := by
    rintro rfl rfl
    exact i.stay he
  have hw := i.each _ he
  cases err with
  | some err =>
    have := put_error_atomic (fun a c m' ha hm' => by obtain ⟨es, he⟩ := i.proper.2 a c m' ha hm'; exact lt_of_getElem? he) (fun b hb => mapsAreMaps_lt hw b hb) hput
    exact same this.1 this.2
  | none =>
    cases v with
    | none =>
      simp only [Sawmill.put] at hput
      split at hput
      · simp at hput
      · simp only [if_true, Res.ok.injEq, Prod.mk.injEq] at hput
        exact same hput.1.symm hput.2.1.symm
    | some a =>
      obtain ⟨rfl, pre, k, rest, d, es, q, h1, h2, h3, h4, h5, h6, h7⟩ := put_changes_loop hw hput
      have hc := insert_changedAt h3 h5 h7
      have hd := objects_reach h2
      have low : ∀ x, T x → h'[x]? = h[x]? := fun x hx => by
        obtain ⟨es, hes⟩ := i.maps x hx
        exact h7 x (lt_of_getElem? hes) (by rintro rfl; exact i.apart _ hx ⟨some m, pre, he, hd⟩)
      obtain ⟨-, hne, hloop⟩ := Sawmill.put_some hput
      obtain ⟨hp', hl⟩ := i.proper.putLoop path hv (hloop hne)
      have new : Roots R T h' := by
        refine ⟨hp', i.nil, fun m' hm' => mapsAreMaps_of hp' fun b hb => ?_, fun x hx => by rw [low x hx]; exact i.maps x hx, ?_⟩
        · obtain ⟨es, he⟩ := (i.each m' hm').1 b hb
          exact changedAt_map hc he
        · rintro x hx ⟨r, p, hr, hpp⟩
          rcases owned_after_put i.proper hv h3 h5 h6 h7 hnv _ p r (Nat.le_refl _) (i.each r hr) ⟨r, [], hr, rfl⟩ hpp with j | j
          · obtain ⟨es, hes⟩ := i.maps x hx
            have := lt_of_getElem? hes
            omega
          · exact i.apart x hx j
      exact ⟨new.mono (by rintro m (hm | rfl); exacts [hm, he]) (.inl i.nil), ⟨fun q hq hd => by rw [hc.deref hq]; exact hd, fun q c hq hd => ⟨c, by rw [hc.deref hq]; exact hd, .inl rfl⟩, low⟩, hl⟩

theorem Owned.alloc {R : Option Nat → Prop} {T : Nat → Prop} {h : Heap} (i : Roots R T h) (o : HObj) {m : Option Nat} (w : Owned R h m) : Owned R (h ++ [o]) m := by
  obtain ⟨r, p, hr, hp⟩ := w
  exact ⟨r, p, hr, (keptAt_alloc i.proper (i.each r hr) o).there i.proper.1 p hp⟩

theorem Roots.put {R : Option Nat → Prop} {T : Nat → Prop} {h h' : Heap} {e e' : Event} (i : Roots R T h) (he : R e) {path : List Bytes} {v old : Ptr} {ow : Bool} {err : Option PutErr} (hv : InMemory h v)
    (hnv : ∀ c, deref h v = some c → Owned R h c.object) (hput : put h e path v ow = .ok (h', e', old, err)) : GoesBeside R T h h' e' := by
  cases e with
  | some m => exact i.put_some he hv hnv hput
  | none =>
    have same : h' = h → e' = none → GoesBeside R T h h' e' := by
      rintro rfl rfl
      exact i.stay he
    by_cases hpath : path = []
    · subst hpath
      simp only [Sawmill.put, List.length_nil, if_true, Res.ok.injEq, Prod.mk.injEq] at hput
      exact same hput.1.symm hput.2.1.symm
    · by_cases hvn : v = none
      · subst hvn
        have : path.length ≠ 0 := by simpa using hpath
        simp only [Sawmill.put, this, if_false, if_true, Res.ok.injEq, Prod.mk.injEq] at hput
        exact same hput.1.symm hput.2.1.symm
      · rw [put_eq_none hpath hvn] at hput
        have hp1 : Proper (h ++ [HObj.map []]) := i.proper.alloc ⟨by simp, by intro es he k q hk; simp only [HObj.map.injEq] at he; subst he; simp at hk⟩ (by simp)
        obtain ⟨j1, j2⟩ := i.alloc hp1
        have hv1 : InMemory (h ++ [HObj.map []]) v := inMemory_mono hv (by simp)
        have i1 : Roots (fun m => R m ∨ m = some h.length) T (h ++ [HObj.map []]) := by
          refine ⟨hp1, .inl i.nil, ?_, j1.maps, ?_⟩
          · rintro m (hm | rfl)
            · exact j1.each m hm
            · exact mapsAreMaps_of hp1 fun b hb => by cases hb; exact ⟨[], by simp⟩
          · rintro x hx ⟨r, p, hr | rfl, hpp⟩
            · exact j1.apart x hx ⟨r, p, hr, hpp⟩
            · cases p with
              | nil =>
                cases hpp
                obtain ⟨es, hes⟩ := i.maps _ hx
                have := lt_of_getElem? hes
                omega
              | cons y ys =>
                obtain ⟨q, c, k1, _⟩ := hpp
                simp [mapOf] at k1
        have g := i1.put_some (.inr rfl) hv1 (fun c hc => by
          rw [(keptAt_alloc i.proper (i.each none i.nil) (HObj.map [])).1 v hv] at hc
          exact ((hnv c hc).alloc i _).mono fun m hm => .inl hm) hput
        exact ⟨g.roots.mono (by rintro m (hm | hm); exacts [.inl (.inl hm), .inr hm]) (.inl i.nil), j2.trans (by simp) g.kept, Nat.le_trans (by simp) g.grow⟩

/-- What `Get` finds belongs to the event. -/
theorem getLoop_owned {h : Heap} : ∀ (path : List Bytes) {m : Option Nat} {p : Ptr} {c : Cell}, getLoop h m path = .ok p → deref h p = some c → ∃ path', Reaches h m path' c.object
  | [], m, p, c, hg, hd => by simp only [Sawmill.getLoop, Res.ok.injEq] at hg; subst hg; simp [deref] at hd
  | [x], m, p, c, hg, hd => by
    simp only [Sawmill.getLoop, Res.ok.injEq] at hg
    cases hl : (mapOf h m).lookup x with
    | none => rw [hl] at hg; subst hg; simp [deref] at hd
    | some q => rw [hl] at hg; simp at hg; subst hg; exact ⟨[x], q, c, hl, hd, rfl⟩
  | x :: y :: xs, m, p, c, hg, hd => by
    simp only [Sawmill.getLoop] at hg
    cases hl : (mapOf h m).lookup x with
    | none => rw [hl] at hg; simp at hg; subst hg; simp [deref] at hd
    | some q =>
      rw [hl] at hg
      dsimp only at hg
      cases hq : deref h q with
      | none => rw [hq] at hg; cases hg
      | some cq =>
        rw [hq] at hg
        dsimp only at hg
        split at hg
        · simp at hg; subst hg; simp [deref] at hd
        · obtain ⟨path', hr⟩ := getLoop_owned (y :: xs) hg hd
          exact ⟨x :: path', q, cq, hl, hq, hr⟩

theorem Roots.get {R : Option Nat → Prop} {T : Nat → Prop} {h h' : Heap} {e : Event} (i : Roots R T h) (he : R e) {key : Bytes} {p : Ptr} (hg : apiGet h e key = .ok (h', p)) :
    Roots R T h' ∧ KeptMaps T h h' ∧ h.length ≤ h'.length ∧ InMemory h' p ∧ ∀ c, deref h' p = some c → Owned R h' c.object := by
  have hin := (NoDangling.get i.proper.1 hg).2.2
  unfold apiGet at hg
  by_cases hk : keyToPath key = []
  · rw [hk] at hg
    unfold Sawmill.get at hg
    split at hg
    · simp only [Res.ok.injEq, Prod.mk.injEq] at hg
      obtain ⟨rfl, rfl⟩ := hg
      exact ⟨i, .refl, Nat.le_refl _, hin, fun c hc => by simp [deref] at hc⟩
    · simp only [Heap.alloc, Res.ok.injEq, Prod.mk.injEq] at hg
      obtain ⟨rfl, rfl⟩ := hg
      obtain ⟨j1, j2⟩ := i.alloc (o := .cell (objCell e)) (i.proper.alloc ⟨by (intro c ps hc ha; cases hc; cases ha), by simp⟩ (by intro c m hc hm; cases hc; exact (i.each _ he).1 m hm))
      refine ⟨j1, j2, by simp, hin, fun c hc => ?_⟩
      simp [deref] at hc
      subst hc
      exact ⟨e, [], he, rfl⟩
  · rw [get_loop h e hk] at hg
    cases hx : Sawmill.getLoop h e (keyToPath key) with
    | panic => rw [hx] at hg; cases hg
    | ok q =>
      rw [hx] at hg; simp only [Res.map_ok, Res.ok.injEq, Prod.mk.injEq] at hg
      obtain ⟨rfl, rfl⟩ := hg
      refine ⟨i, .refl, Nat.le_refl _, hin, fun c hc => ?_⟩
      obtain ⟨p, hr⟩ := getLoop_owned _ hx hc
      exact ⟨e, p, he, hr⟩

/-! ## Longer lists -/

theorem deref_set {h : Heap} {a : Nat} {c c' : Cell} (hc : h[a]? = some (.cell c)) (q : Ptr) : deref (h.set a (.cell c')) q = if q = some a then some c' else deref h q := by
  cases q with
  | none => rfl
  | some b =>
    by_cases hb : a = b
    · subst hb; simp [deref, List.getElem?_set_self (lt_of_getElem? hc)]
    · have : ¬ (some b : Ptr) = some a := fun h => hb (Option.some.inj h).symm
      rw [if_neg this]
      simp only [deref, List.getElem?_set_ne hb]

theorem mapOf_set {h : Heap} {a : Nat} {c c' : Cell} (hc : h[a]? = some (.cell c)) (m : Option Nat) : mapOf (h.set a (.cell c')) m = mapOf h m := by
  cases m with
  | none => rfl
  | some b =>
    by_cases hb : a = b
    · subst hb; simp only [mapOf, List.getElem?_set_self (lt_of_getElem? hc), hc]
    · simp only [mapOf, List.getElem?_set_ne hb]

theorem reaches_set {h : Heap} {a : Nat} {c c' : Cell} (hc : h[a]? = some (.cell c)) (ho : c'.object = c.object) {x : Option Nat} : ∀ (path : List Bytes) {m : Option Nat}, Reaches (h.set a (.cell c')) m path x → Reaches h m path x
  | [], _, hr => hr
  | y :: ys, m, hr => by
    obtain ⟨q, d, h1, h2, h3⟩ := hr
    rw [mapOf_set hc] at h1
    rw [deref_set hc] at h2
    have h3 := reaches_set hc ho ys h3
    split at h2
    · rename_i hq
      cases h2
      subst hq
      exact ⟨some a, c, h1, by simp [deref, hc], by rw [← ho]; exact h3⟩
    · exact ⟨q, d, h1, h2, h3⟩

theorem Roots.longer {R : Option Nat → Prop} {T : Nat → Prop} {h : Heap} (i : Roots R T h) {a : Nat} {c : Cell} (hc : h[a]? = some (.cell c)) (ht : c.type = .array) {items : List Ptr} (hi : ∀ q ∈ items, InMemory h q) :
    Roots R T (h.set a (.cell { c with array := some (c.array.getD [] ++ items) })) ∧ KeptMaps T h (h.set a (.cell { c with array := some (c.array.getD [] ++ items) })) := by
  have hp := i.proper.setArray hc hi
  have low : ∀ x, T x → (h.set a (.cell { c with array := some (c.array.getD [] ++ items) }))[x]? = h[x]? := fun x hx => by
    obtain ⟨es, he⟩ := i.maps x hx
    rw [List.getElem?_set_ne (by rintro rfl; rw [hc] at he; cases he)]
  refine ⟨⟨hp, i.nil, fun m hm => set_cell_map (i.each m hm) hc hp, fun x hx => by rw [low x hx]; exact i.maps x hx, ?_⟩, ⟨fun q _ hd => ?_, fun q d _ hd => ?_, low⟩⟩
  · rintro x hx ⟨r, p, hr, hpp⟩
    exact i.apart x hx ⟨r, p, hr, reaches_set (c' := { c with array := some (c.array.getD [] ++ items) }) hc rfl p hpp⟩
  · rw [deref_set hc]
    split
    · rename_i hq; subst hq; simp [deref, hc] at hd
    · exact hd
  · rw [deref_set hc]
    split
    · rename_i hq
      subst hq
      simp only [deref, hc, Option.some.injEq] at hd
      subst hd
      exact ⟨_, rfl, .inr ⟨ht, items, rfl⟩⟩
    · exact ⟨d, hd, .inl rfl⟩

/-! ## One processor -/

theorem Roots.cell {R : Option Nat → Prop} {T : Nat → Prop} {h : Heap} (i : Roots R T h) {c : Cell} (ha : ∀ ps, c.array = some ps → ∀ q ∈ ps, InMemory h q) (ho : c.object = none) : Roots R T (h ++ [.cell c]) ∧ KeptMaps T h (h ++ [.cell c]) :=
  i.alloc (i.proper.alloc (o := .cell c) ⟨by intro c' ps hc; cases hc; exact ha ps, by simp⟩ (by intro c' m hc hm; cases hc; rw [ho] at hm; cases hm))

theorem Roots.putThen {R : Option Nat → Prop} {T : Nat → Prop} {h h' : Heap} {e e' : Event} (i : Roots R T h) (he : R e) {key : Bytes} {v : Ptr} {err : Option Err} (hv : InMemory h v) (hnv : ∀ c, deref h v = some c → Owned R h c.object)
    (hput : Sawmill.putThen h e key v = .ok (h', e', err)) : GoesBeside R T h h' e' := by
  simp only [Sawmill.putThen, apiPut] at hput
  cases hp : Sawmill.put h e (keyToPath key) v true with
  | panic => rw [hp] at hput; cases hput
  | ok r =>
    obtain ⟨g, f, old, er⟩ := r
    rw [hp] at hput
    simp only [Res.map_ok, Res.ok.injEq, Prod.mk.injEq] at hput
    obtain ⟨rfl, rfl, -⟩ := hput
    exact i.put he hv hnv hp

theorem GoesBeside.after {R : Option Nat → Prop} {T : Nat → Prop} {h h1 h' : Heap} {e' : Event} (k : KeptMaps T h h1) (l : h.length ≤ h1.length) (g : GoesBeside R T h1 h' e') : GoesBeside R T h h' e' :=
  ⟨g.roots, k.trans l g.kept, Nat.le_trans l g.grow⟩

theorem roots_step (cv : Conv) (b : Builtin) {R : Option Nat → Prop} {T : Nat → Prop} {h h' : Heap} {e e' : Event} {err : Option Err} (i : Roots R T h) (he : R e) (hv : ∀ v x t, b = .set v x t → ∀ c, deref h (some v) = some c → R c.object)
    (hs : b.step cv h e = .ok (h', e', err)) : GoesBeside R T h h' e' := by
  have same : h' = h → e' = e → GoesBeside R T h h' e' := by
    rintro rfl rfl
    exact i.stay he
  have conv : ∀ f msg field target, convProcess f msg field target h e = .ok (h', e', err) → GoesBeside R T h h' e' := by
    intro f msg field target hs
    unfold convProcess at hs
    cases hg : apiGet h e field with
    | panic => rw [hg] at hs; cases hs
    | ok r =>
      obtain ⟨h1, p⟩ := r
      rw [hg] at hs
      obtain ⟨i1, k1, l1, -, -⟩ := i.get he hg
      have old : h' = h1 → e' = e → GoesBeside R T h h' e' := by
        rintro rfl rfl
        exact (i1.stay he).after k1 l1
      cases p with
      | none => simp only [Res.ok.injEq, Prod.mk.injEq] at hs; exact old hs.1.symm hs.2.1.symm
      | some a =>
        dsimp only at hs
        cases hd : deref h1 (some a) with
        | none => rw [hd] at hs; cases hs
        | some c =>
          rw [hd] at hs
          dsimp only at hs
          split at hs
          · simp only [Res.ok.injEq, Prod.mk.injEq] at hs; exact old hs.1.symm hs.2.1.symm
          · obtain ⟨i2, k2⟩ := i1.cell (c := strCell (f c.string)) (by intro ps hc; cases hc) rfl
            refine ((i2.putThen he (v := some h1.length) (by intro x hx; cases hx; simp) ?_ hs).after k2 (by simp)).after k1 l1
            intro d hd
            simp [deref] at hd
            subst hd
            exact ⟨none, [], i2.nil, rfl⟩
  cases b with
  | lowercase f t => exact conv _ _ _ _ hs
  | uppercase f t => exact conv _ _ _ _ hs
  | remove fs => simp only [Builtin.step, removeProcess, Res.ok.injEq, Prod.mk.injEq] at hs; exact same hs.1.symm hs.2.1.symm
  | communityId => simp only [Builtin.step, communityIdProcess, Res.ok.injEq, Prod.mk.injEq] at hs; exact same hs.1.symm hs.2.1.symm
  | set value copyFrom target =>
    simp only [Builtin.step, setProcess] at hs
    cases hd : deref h (some value) with
    | none => rw [hd] at hs; cases hs
    | some c =>
      rw [hd] at hs
      dsimp only at hs
      have hval : InMemory h (some value) := by
        intro x hx; cases hx
        simp only [deref] at hd
        split at hd
        · exact lt_of_getElem? ‹_›
        · cases hd
      split at hs
      · exact i.putThen he hval (fun c' hc' => ⟨c'.object, [], hv value copyFrom target rfl c' hc', rfl⟩) hs
      · split at hs
        · cases hg : apiGet h e copyFrom with
          | panic => rw [hg] at hs; cases hs
          | ok r =>
            obtain ⟨h1, p⟩ := r
            rw [hg] at hs
            obtain ⟨i1, k1, l1, m1, o1⟩ := i.get he hg
            cases p with
            | none =>
              simp only [Res.ok.injEq, Prod.mk.injEq] at hs
              obtain ⟨rfl, rfl, -⟩ := hs
              exact (i1.stay he).after k1 l1
            | some a => exact (i1.putThen he m1 o1 hs).after k1 l1
        · exact i.putThen he (by intro x hx; cases hx) (by intro c hc; simp [deref] at hc) hs
  | append field value dup =>
    simp only [Builtin.step, appendProcess] at hs
    cases hg : apiGet h e field with
    | panic => rw [hg] at hs; cases hs
    | ok r =>
      obtain ⟨h1, p⟩ := r
      rw [hg] at hs
      obtain ⟨i1, k1, l1, m1, o1⟩ := i.get he hg
      -- a new string, appended to the list at `a`
      have last : ∀ {g : Heap} {f : Event} {R' : Option Nat → Prop}, Roots R' T g → (∀ m, R m ∨ m = f → R' m) → KeptMaps T h g → h.length ≤ g.length → ∀ {a : Nat} {c : Cell}, g[a]? = some (.cell c) → c.type = .array →
          (appendTo (g ++ [.cell (strCell value)]) a [some g.length]).map (fun h => (h, f, (none : Option Err))) = .ok (h', e', err) → GoesBeside R T h h' e' := by
        intro g f R' ig hR kg lg a c hc ht hs
        obtain ⟨i2, k2⟩ := ig.cell (c := strCell value) (by intro ps hc; cases hc) rfl
        cases ha : appendTo (g ++ [.cell (strCell value)]) a [some g.length] with
        | panic => rw [ha] at hs; cases hs
        | ok h3 =>
          rw [ha] at hs
          simp only [Res.map_ok, Res.ok.injEq, Prod.mk.injEq] at hs
          obtain ⟨rfl, rfl, -⟩ := hs
          obtain ⟨c', hc', rfl⟩ := appendTo_is ha
          have : c' = c := by
            rw [List.getElem?_append_left (lt_of_getElem? hc), hc] at hc'
            cases hc'; rfl
          subst this
          obtain ⟨i3, k3⟩ := i2.longer hc' ht (items := [some g.length]) (by intro q hq; simp at hq; subst hq; intro x hx; cases hx; simp)
          exact ⟨i3.mono hR (.inl i.nil), (kg.trans lg k2).trans (by simp; omega) k3, by simp; omega⟩
      cases p with
      | none =>
        simp only [Heap.alloc] at hs
        obtain ⟨i2, k2⟩ := i1.cell (c := arrCell none) (by intro ps hc; cases hc) rfl
        cases hput : apiPut (h1 ++ [HObj.cell (arrCell none)]) e field (some h1.length) with
        | panic => rw [hput] at hs; cases hs
        | ok r =>
          obtain ⟨h2, f, old, er⟩ := r
          rw [hput] at hs
          dsimp only at hs
          have hin : InMemory (h1 ++ [HObj.cell (arrCell none)]) (some h1.length) := by intro x hx; cases hx; simp
          have hdn : deref (h1 ++ [HObj.cell (arrCell none)]) (some h1.length) = some (arrCell none) := by simp [deref]
          have g := i2.put he hin (by intro c hc; rw [hdn] at hc; cases hc; exact ⟨none, [], i2.nil, rfl⟩) hput
          obtain ⟨c', d1, d2⟩ := g.kept.vals _ _ hin hdn
          have ht : c'.type = .array := by
            rcases d2 with rfl | ⟨_, _, rfl⟩ <;> rfl
          have hc' : h2[h1.length]? = some (.cell c') := by
            simp only [deref] at d1
            split at d1
            · rename_i x hx; cases d1; exact hx
            · cases d1
          refine last g.roots (fun m hm => hm) ((k1.trans l1 k2).trans (by simp; omega) g.kept) (by have := g.grow; simp at this; omega) hc' ht hs
      | some a =>
        dsimp only at hs
        cases hd : deref h1 (some a) with
        | none => rw [hd] at hs; cases hs
        | some c =>
          rw [hd] at hs
          dsimp only at hs
          have hca : h1[a]? = some (.cell c) := by
            simp only [deref] at hd
            split at hd
            · rename_i c' hx; cases hd; exact hx
            · cases hd
          split at hs
          · simp only [Heap.alloc] at hs
            obtain ⟨i2, k2⟩ := i1.cell (c := arrCell (some [some a])) (by intro ps hc; cases hc; intro q hq; simp at hq; subst hq; exact m1) rfl
            exact last i2 (by rintro m (hm | rfl); exacts [hm, he]) (k1.trans l1 k2) (by simp; omega) (a := h1.length) (c := arrCell (some [some a])) (by simp) rfl hs
          · split at hs
            · simp only [Res.ok.injEq, Prod.mk.injEq] at hs
              obtain ⟨rfl, rfl, -⟩ := hs
              exact (i1.stay he).after k1 l1
            · rename_i hty
              exact last i1 (by rintro m (hm | rfl); exacts [hm, he]) k1 l1 hca (Classical.not_not.mp hty) hs

/-! ## Whole pipelines -/

/-- What the calls that a program makes preserve, `Process` preserves. -/
theorem process_keeps_calls {A R Ev W : Type} (call : Ev → W → A → Res (W × R)) (P : A → Prop) (I : W → Prop) (hcall : ∀ ev w a w' r, P a → I w → call ev w a = .ok (w', r) → I w') (p : Pipeline A R) (hP : p.Calls P) (evt : Ev) {w w' : PWorld W}
    {r : Option Ev × Option Err} (hI : I w.world) (hp : p.process call evt w = .ok (w', r)) : I w'.world := by
  have := pipelineProcess_sim call (fun w1 w2 => w1 = w2 ∧ I w1) P (by
    rintro ev w1 w2 a ha ⟨rfl, hi⟩
    cases x : call ev w1 a with
    | panic => trivial
    | ok r => exact ⟨⟨rfl, hcall ev w1 a r.1 r.2 ha hi x⟩, rfl⟩) p hP evt (w1 := w) (w2 := w) ⟨rfl, hI⟩
  simp only [hp, ResSim] at this
  exact this.1.2

theorem reaches_is_map {h : Heap} {x : Nat} : ∀ (path : List Bytes) {m : Option Nat}, MapsAreMaps h m → Reaches h m path (some x) → ∃ es, h[x]? = some (.map es)
  | [], m, hw, hr => by cases hr; exact hw.1 x rfl
  | y :: ys, m, hw, hr => by
    obtain ⟨q, c, h1, h2, h3⟩ := hr
    exact reaches_is_map ys (mapsAreMaps_below hw h2) h3

/-- A whole pipeline. `V` are the maps of the configured values. -/
theorem process_goes (cv : Conv) (p : Pipeline Builtin (Option Err)) {V : Option Nat → Prop} {T : Nat → Prop} {h h' : Heap} {e e' : Event} {counts counts' : Counters} {log log' : List Invocation} {r : Option Unit × Option Err}
    (hv : p.Calls fun b => ∀ v x t, b = .set v x t → v < h.length ∧ ∀ c, deref h (some v) = some c → V c.object) (hn : V none) (start : GoesBeside V T h h e) (hs : p.process (builtinCall cv) () ⟨(h, e), counts, log⟩ = .ok (⟨(h', e'), counts', log'⟩, r)) :
    GoesBeside V T h h' e' := by
  refine process_keeps_calls (builtinCall cv) _ (fun w => GoesBeside V T h w.1 w.2) ?_ p hv () start hs
  rintro _ ⟨g, f⟩ b ⟨g', f'⟩ er hb hg hc
  simp only [builtinCall] at hc
  cases hx : b.step cv g f with
  | panic => rw [hx] at hc; cases hc
  | ok x =>
    obtain ⟨g1, f1, er1⟩ := x
    rw [hx] at hc
    simp only [Res.map_ok, Res.ok.injEq, Prod.mk.injEq] at hc
    obtain ⟨⟨rfl, rfl⟩, -⟩ := hc
    have s := roots_step cv b hg.roots (.inr rfl) (fun v x t hbv c hc => ?_) hx
    · have s := s.after hg.kept hg.grow
      exact ⟨s.roots.mono (by rintro m (hm | hm); exacts [.inl (.inl hm), .inr hm]) (.inl hn), s.kept, s.grow⟩
    · obtain ⟨hlt, hV⟩ := hb v x t hbv
      refine .inl ?_
      cases hd : deref h (some v) with
      | none => rw [hg.kept.none (some v) (by intro x hx; cases hx; exact hlt) hd] at hc; cases hc
      | some c0 =>
        obtain ⟨c', d1, d2⟩ := hg.kept.vals (some v) c0 (by intro x hx; cases hx; exact hlt) hd
        rw [hc] at d1
        cases d1
        rw [d2.object]
        exact hV c0 hd

theorem KeptGrow.get {h h' : Heap} {e2 : Event} (hn : NoDangling h) (kept : KeptGrow h h' e2) : ∀ key, keyToPath key ≠ [] → (apiGet h e2 key = .panic ∧ apiGet h' e2 key = .panic) ∨ ∃ q, apiGet h e2 key = .ok (h, q) ∧ apiGet h' e2 key = .ok (h', q) ∧ ∀ c, deref h q = some c → ∃ c', deref h' q = some c' ∧ Longer c c' := by
  intro key hk
  unfold apiGet
  rw [get_loop h e2 hk, get_loop h' e2 hk, kept.getLoop hn]
  cases hg : Sawmill.getLoop h e2 (keyToPath key) with
  | panic => exact .inl ⟨rfl, rfl⟩
  | ok q =>
    refine .inr ⟨q, rfl, rfl, fun c hc => kept.vals q c ?_ hc⟩
    have hg' : Sawmill.get h e2 (keyToPath key) = .ok (h, q) := by rw [get_loop h e2 hk, hg]; rfl
    exact (NoDangling.get hn hg').2.2

theorem process_beside_grow (cv : Conv) (p : Pipeline Builtin (Option Err)) {h h' : Heap} {e e' e2 : Event} {counts counts' : Counters} {log log' : List Invocation} {r : Option Unit × Option Err} (hp : Proper h) (hw : MapsAreMaps h e) (hw2 : MapsAreMaps h e2)
    (hno : NoCommon h e e2) (hv : p.Calls (Builtin.ValueApart h e2)) (hs : p.process (builtinCall cv) () ⟨(h, e), counts, log⟩ = .ok (⟨(h', e'), counts', log'⟩, r)) :
    KeptGrow h h' e2 ∧ h.length ≤ h'.length ∧ Proper h' ∧ MapsAreMaps h' e' ∧ MapsAreMaps h' e2 ∧ NoCommon h' e' e2 ∧ p.Calls (Builtin.ValueApart h' e2) := by
  -- the maps of the configured values
  let V : Option Nat → Prop := fun m => m = none ∨ ∃ v c, v < h.length ∧ deref h (some v) = some c ∧ NoCommonValue h (some v) e2 ∧ m = c.object
  let T : Nat → Prop := fun x => ∃ path, Reaches h e2 path (some x)
  have vals : ∀ m, V m → MapsAreMaps h m ∧ NoCommon h m e2 := by
    rintro m (rfl | ⟨v, c, _, h2, h3, rfl⟩)
    · refine ⟨⟨fun m hm => (by cases hm), hp.2⟩, ?_⟩
      rintro d ⟨path, hr⟩
      cases path with
      | nil => cases hr
      | cons y ys => obtain ⟨q, c, h1, _⟩ := hr; simp [mapOf] at h1
    · exact ⟨mapsAreMaps_below hw2 h2, h3 c h2⟩
  have start : GoesBeside V T h h e := by
    refine ⟨⟨hp, .inl (.inl rfl), ?_, fun x ⟨path, hx⟩ => reaches_is_map path hw2 hx, ?_⟩, .refl, Nat.le_refl _⟩
    · rintro m (hm | rfl); exacts [(vals m hm).1, hw]
    · rintro x hx ⟨r, path, hr | rfl, hpp⟩; exacts [(vals r hr).2 x ⟨path, hpp⟩ hx, hno x ⟨path, hpp⟩ hx]
  have all : GoesBeside V T h h' e' := process_goes cv p (by
    refine pipeline_calls_mono (fun b hb v x t hbv => ?_) hv
    obtain ⟨hlt, hnc⟩ := hb v x t hbv
    exact ⟨hlt, fun c hc => .inr ⟨v, c, hlt, hc, hnc, rfl⟩⟩) (.inl rfl) start hs
  have kept : KeptGrow h h' e2 := ⟨all.kept.none, all.kept.vals, fun path b hr => all.kept.same b ⟨path, hr⟩⟩
  have free : ∀ m, (V m ∨ m = e') → NoCommon h' m e2 := fun m hm x ⟨p1, r1⟩ ⟨p2, r2⟩ => all.roots.apart x ⟨p2, kept.back hp.1 p2 r2⟩ ⟨m, p1, hm, r1⟩
  refine ⟨kept, all.grow, all.roots.proper, all.roots.each _ (.inr rfl), mapsAreMaps_of all.roots.proper fun b hb => ?_, free _ (.inr rfl), ?_⟩
  · rw [all.kept.same b ⟨[], hb⟩]
    exact hw2.1 b hb
  · refine pipeline_calls_mono (fun b hb v x t hbv => ?_) hv
    obtain ⟨hlt, hnc⟩ := hb v x t hbv
    refine ⟨Nat.lt_of_lt_of_le hlt all.grow, fun c hc => ?_⟩
    have hin : InMemory h (some v) := by intro x hx; cases hx; exact hlt
    cases hd : deref h (some v) with
    | none => rw [all.kept.none (some v) hin hd] at hc; cases hc
    | some c0 =>
      obtain ⟨c', d1, d2⟩ := all.kept.vals (some v) c0 hin hd
      rw [hc] at d1
      cases d1
      rw [d2.object]
      exact free _ (.inl (.inr ⟨v, c0, hlt, hd, hnc, rfl⟩))

/-- **C115.** `Process` of a pipeline of the repository's processors on the event `e`, beside an event `e2` with which `e` has no map in common, and with which the configured values have none: `Get` on `e2` does what it did before (a list that both had may have got more elements), and the two events and the configured
values still have no map in common, so that one can go on: whether `Process` fails or not, and whatever else is shared. -/
theorem process_beside_kept (cv : Conv) (p : Pipeline Builtin (Option Err)) {h h' : Heap} {e e' e2 : Event} {counts counts' : Counters} {log log' : List Invocation} {r : Option Unit × Option Err} (hp : Proper h) (hw : MapsAreMaps h e) (hw2 : MapsAreMaps h e2)
    (hno : NoCommon h e e2) (hv : p.Calls (Builtin.ValueApart h e2)) (hs : p.process (builtinCall cv) () ⟨(h, e), counts, log⟩ = .ok (⟨(h', e'), counts', log'⟩, r)) :
    (∀ key, keyToPath key ≠ [] → (apiGet h e2 key = .panic ∧ apiGet h' e2 key = .panic) ∨ ∃ q, apiGet h e2 key = .ok (h, q) ∧ apiGet h' e2 key = .ok (h', q) ∧ ∀ c, deref h q = some c → ∃ c', deref h' q = some c' ∧ Longer c c') ∧
    Proper h' ∧ MapsAreMaps h' e' ∧ MapsAreMaps h' e2 ∧ NoCommon h' e' e2 ∧ p.Calls (Builtin.ValueApart h' e2) := by
  obtain ⟨kept, -, rest⟩ := process_beside_grow cv p hp hw hw2 hno hv hs
  exact ⟨kept.get hp.1, rest⟩

/-- A case: event 0 has the list 4, of the object 3, as `a`, and event 1 has it as `b`. The pipeline appends to `a`, and sets `c.d` to the string 5, which is also in the object 3. Event 1 still finds the list 4 as `b`; it has one element more. -/
theorem process_beside_kept_sample (cv : Conv) : ∃ (h h' : Heap) (p : Pipeline Builtin (Option Err)) (counts : Counters) (log : List Invocation), h = [.map [(lit "a", some 4)], .map [(lit "b", some 4)], .map [(lit "x", some 5)], .cell (objCell (some 2)), .cell (arrCell (some [some 3])), .cell (strCell (lit "v"))] ∧
    Proper h ∧ MapsAreMaps h (some 0) ∧ MapsAreMaps h (some 1) ∧ NoCommon h (some 0) (some 1) ∧ p.Calls (Builtin.ValueApart h (some 1)) ∧
    p.process (builtinCall cv) () ⟨(h, some 0), noCounts, []⟩ = .ok (⟨(h', some 0), counts, log⟩, some (), none) ∧
    apiGet h' (some 1) (lit "b") = .ok (h', some 4) ∧ deref h' (some 4) = some (arrCell (some [some 3, some 6])) ∧ apiGet h' (some 0) (lit "c.d") = .ok (h', some 5) := by
  obtain ⟨h, _, rfl, hp, hno, _⟩ := no_common_sample
  refine ⟨_, _, ⟨lit "p", [.mk (lit "1") [] false false [] (Builtin.append (lit "a") (lit "w") false).prog, .mk (lit "2") [] false false [] (Builtin.set 5 [] (lit "c.d")).prog], []⟩, _, _, rfl, hp, mapsAreMaps_of hp ?_, mapsAreMaps_of hp ?_, hno, ?_, rfl, rfl, rfl, rfl⟩
  · intro b hb; cases hb; exact ⟨_, rfl⟩
  · intro b hb; cases hb; exact ⟨_, rfl⟩
  · refine ⟨⟨⟨⟨?_, fun _ => trivial⟩, trivial⟩, ⟨⟨?_, fun _ => trivial⟩, trivial⟩, trivial⟩, trivial⟩
    · intro v x t hb; cases hb
    · intro v x t hb
      cases hb
      refine ⟨by decide, fun c hc d ⟨path, hr⟩ => ?_⟩
      cases hc
      cases path with
      | nil => cases hr
      | cons y ys => obtain ⟨q, c, h1, _⟩ := hr; simp [strCell, mapOf] at h1

end Sawmill
