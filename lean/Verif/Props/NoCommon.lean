import Verif.Props.PutEffect
import Verif.Spec.NoCommon
/-! # Events that share no objects (C113) -/

namespace Sawmill
open Wire ATree

theorem Proper.alloc {h : Heap} (hp : Proper h) {o : HObj} (ho : (∀ c ps, o = .cell c → c.array = some ps → ∀ q ∈ ps, InMemory h q) ∧ (∀ es, o = .map es → ∀ k q, (k, q) ∈ es → InMemory h q))
    (hm : ∀ c m, o = .cell c → c.object = some m → ∃ es, h[m]? = some (.map es)) : Proper (h ++ [o]) := by
  refine ⟨hp.1.alloc ho, fun b c m hb hc => ?_⟩
  have key : ∃ es, h[m]? = some (.map es) := by
    by_cases hbl : b < h.length
    · rw [List.getElem?_append_left hbl] at hb
      exact hp.2 b c m hb hc
    · have : b = h.length := by
        have := lt_of_getElem? hb
        simp at this; omega
      subst this
      simp at hb
      exact hm c m hb hc
  obtain ⟨es, hes⟩ := key
  exact ⟨es, by rw [List.getElem?_append_left (lt_of_getElem? hes)]; exact hes⟩

theorem Proper.setMap {h : Heap} (hp : Proper h) {d : Nat} {es es' : AMap Ptr} (hd : h[d]? = some (.map es)) (he : ∀ k q, (k, q) ∈ es' → InMemory h q) : Proper (h.set d (.map es')) := by
  refine ⟨hp.1.setMap he, fun b c m hb hc => ?_⟩
  have hbd : d ≠ b := by
    rintro rfl
    rw [List.getElem?_set_self (lt_of_getElem? hd)] at hb
    cases hb
  rw [List.getElem?_set_ne hbd] at hb
  obtain ⟨fs, hf⟩ := hp.2 b c m hb hc
  by_cases hmd : d = m
  · subst hmd; exact ⟨es', List.getElem?_set_self (lt_of_getElem? hd)⟩
  · exact ⟨fs, by rw [List.getElem?_set_ne hmd]; exact hf⟩

theorem inMemory_mono {h h' : Heap} {p : Ptr} (hp : InMemory h p) (hl : h.length ≤ h'.length) : InMemory h' p := fun a ha => Nat.lt_of_lt_of_le (hp a ha) hl

theorem Proper.mapWrite {h h' : Heap} (hp : Proper h) {m : Option Nat} {k : Bytes} {p : Ptr} (hv : InMemory h p) (hw : mapWrite h m k p = .ok h') : Proper h' ∧ h'.length = h.length := by
  obtain ⟨a, es, rfl, ha, rfl⟩ := mapWrite_ok hw
  refine ⟨hp.setMap ha fun k' q hq => ?_, by simp⟩
  rcases mem_insert_or hq with h1 | h1
  · simp only [Prod.mk.injEq] at h1
    rw [h1.2]; exact hv
  · exact hp.1.2 a _ ha k' q h1

theorem Proper.putLoop {p : Ptr} : ∀ (path : List Bytes) {h h' : Heap} {m : Option Nat} {b : Bool}, Proper h → InMemory h p → putLoop h m path p = .ok (h', b) → Proper h' ∧ h.length ≤ h'.length
  | [], h, h', m, b, hn, hp, hw => by
    simp only [Sawmill.putLoop, Res.ok.injEq, Prod.mk.injEq] at hw
    rw [← hw.1]; exact ⟨hn, Nat.le_refl _⟩
  | [k], h, h', m, b, hn, hp, hw => by
    simp only [Sawmill.putLoop] at hw
    cases hx : Sawmill.mapWrite h m k p with
    | panic => simp [hx] at hw
    | ok h1 =>
      simp only [hx, Res.map_ok, Res.ok.injEq, Prod.mk.injEq] at hw
      have := hn.mapWrite hp hx
      rw [← hw.1]; exact ⟨this.1, by omega⟩
  | k :: k2 :: ks, h, h', m, b, hn, hp, hw => by
    simp only [Sawmill.putLoop] at hw
    cases hl : (mapOf h m).lookup k with
    | some q =>
      simp only [hl] at hw
      cases hd : deref h q with
      | none => simp [hd] at hw
      | some c =>
        simp only [hd] at hw
        split at hw
        · simp only [Res.ok.injEq, Prod.mk.injEq] at hw
          rw [← hw.1]; exact ⟨hn, Nat.le_refl _⟩
        · exact Proper.putLoop (k2 :: ks) hn hp hw
    | none =>
      simp only [hl, Heap.alloc] at hw
      have h1 : Proper (h ++ [HObj.map []]) := hn.alloc ⟨by simp, by intro es he k q hk; simp only [HObj.map.injEq] at he; subst he; simp at hk⟩ (by simp)
      have h2 : Proper (h ++ [HObj.map []] ++ [HObj.cell (objCell (some h.length))]) := h1.alloc ⟨by intro c ps hc ha; simp only [HObj.cell.injEq] at hc; subst hc; simp [objCell] at ha, by simp⟩
        (by intro c m hc hm; simp only [HObj.cell.injEq] at hc; subst hc; simp only [objCell, Option.some.injEq] at hm; subst hm; exact ⟨[], by simp⟩)
      split at hw
      · simp at hw
      · rename_i h3 hx
        have i2 := h2.mapWrite (by intro a ha; simp at ha; simp; omega) hx
        have i3 := Proper.putLoop (k2 :: ks) i2.1 (by
          intro a ha
          have := hp a ha
          rw [i2.2]; simp; omega) hw
        refine ⟨i3.1, ?_⟩
        have := i3.2
        rw [i2.2] at this
        simp at this
        omega

/-! Going the same way in two memories. -/

/-- The memory `h'` has everything that can be got at by names from `m`, as it is in `h`, and the values of `h`. -/
def KeptAt (h h' : Heap) (m : Option Nat) : Prop :=
  (∀ q, InMemory h q → deref h' q = deref h q) ∧ ∀ path b, Reaches h m path (some b) → h'[b]? = h[b]?

theorem KeptAt.below {h h' : Heap} {m : Option Nat} (hk : KeptAt h h' m) {x : Bytes} {q : Ptr} {c : Cell} (hl : (mapOf h m).lookup x = some q) (hd : deref h q = some c) : KeptAt h h' c.object :=
  ⟨hk.1, fun path b hr => hk.2 (x :: path) b ⟨q, c, hl, hd, hr⟩⟩

theorem KeptAt.map {h h' : Heap} {m : Option Nat} (hk : KeptAt h h' m) : mapOf h' m = mapOf h m := by
  cases m with
  | none => rfl
  | some b => simp only [mapOf, hk.2 [] b rfl]

theorem KeptAt.back {h h' : Heap} (hn : NoDangling h) {x : Option Nat} : ∀ (path : List Bytes) {m : Option Nat}, KeptAt h h' m → Reaches h' m path x → Reaches h m path x
  | [], _, _, hr => hr
  | y :: ys, m, hk, hr => by
    obtain ⟨q, c, h1, h2, h3⟩ := hr
    rw [hk.map] at h1
    rw [hk.1 q (lookup_inMemory hn h1)] at h2
    exact ⟨q, c, h1, h2, KeptAt.back hn ys (hk.below h1 h2) h3⟩

theorem KeptAt.getLoop {h h' : Heap} (hn : NoDangling h) : ∀ (path : List Bytes) {m : Option Nat}, KeptAt h h' m → getLoop h' m path = Sawmill.getLoop h m path
  | [], _, _ => rfl
  | [x], m, hk => by simp only [Sawmill.getLoop, hk.map]
  | x :: y :: xs, m, hk => by
    simp only [Sawmill.getLoop, hk.map]
    cases hq : (mapOf h m).lookup x with
    | none => rfl
    | some q =>
      dsimp only
      rw [hk.1 q (lookup_inMemory hn hq)]
      cases hd : deref h q with
      | none => rfl
      | some c =>
        dsimp only
        rw [KeptAt.getLoop hn (y :: xs) (hk.below hq hd), (hk.below hq hd).map]

theorem KeptAt.trans {h h1 h2 : Heap} {m : Option Nat} (hn : NoDangling h) (hl : h.length ≤ h1.length) (a : KeptAt h h1 m) (b : KeptAt h1 h2 m) (hf : ∀ path x, Reaches h m path x → Reaches h1 m path x) : KeptAt h h2 m :=
  ⟨fun q hq => by rw [b.1 q (inMemory_mono hq hl), a.1 q hq], fun path d hr => by rw [b.2 path d (hf path _ hr), a.2 path d hr]⟩

theorem KeptAt.there {h h' : Heap} (hn : NoDangling h) {x : Option Nat} : ∀ (path : List Bytes) {m : Option Nat}, KeptAt h h' m → Reaches h m path x → Reaches h' m path x
  | [], _, _, hr => hr
  | y :: ys, m, hk, hr => by
    obtain ⟨q, c, h1, h2, h3⟩ := hr
    exact ⟨q, c, by rw [hk.map]; exact h1, by rw [hk.1 q (lookup_inMemory hn h1)]; exact h2, KeptAt.there hn ys (hk.below h1 h2) h3⟩

theorem reaches_lt {h : Heap} (hp : Proper h) : ∀ (path : List Bytes) {m : Option Nat} {d : Nat}, MapsAreMaps h m → Reaches h m path (some d) → d < h.length
  | [], m, d, hw, hr => by cases hr; exact mapsAreMaps_lt hw d rfl
  | y :: ys, m, d, hw, hr => by
    obtain ⟨q, c, h1, h2, h3⟩ := hr
    exact reaches_lt hp ys (mapsAreMaps_below hw h2) h3

theorem keptAt_alloc {h : Heap} (hp : Proper h) {m : Option Nat} (hw : MapsAreMaps h m) (o : HObj) : KeptAt h (h ++ [o]) m := by
  refine ⟨fun q hq => ?_, fun path b hr => ?_⟩
  · cases q with
    | none => rfl
    | some a => simp only [deref, List.getElem?_append_left (hq a rfl)]
  · rw [List.getElem?_append_left (reaches_lt hp path hw hr)]

theorem reaches_snoc {h : Heap} {k : Bytes} {x : Option Nat} {q : Ptr} {c : Cell} (h1 : (mapOf h x).lookup k = some q) (h2 : deref h q = some c) : ∀ (path : List Bytes) {m : Option Nat}, Reaches h m path x → Reaches h m (path ++ [k]) c.object
  | [], _, hr => by cases hr; exact ⟨q, c, h1, h2, rfl⟩
  | y :: ys, m, hr => by
    obtain ⟨q', c', i1, i2, i3⟩ := hr
    exact ⟨q', c', i1, i2, reaches_snoc h1 h2 ys i3⟩

/-- From the entry that `Put` has set one gets to new maps and to what one gets to from the value. -/
theorem reaches_chain {s : Nat} {h : Heap} {v : Ptr} {d : Nat} : ∀ (rest : List Bytes) {q : Ptr} {c : Cell} {path : List Bytes}, Chain s h q v rest → deref h q = some c → Reaches h c.object path (some d) →
    s ≤ d ∨ ∃ cv path', deref h v = some cv ∧ path'.length ≤ path.length ∧ Reaches h cv.object path' (some d)
  | [], q, c, path, hc, hd, hr => by
    simp only [Chain] at hc
    subst hc
    exact .inr ⟨c, path, hd, Nat.le_refl _, hr⟩
  | k :: ks, q, c, path, hc, hd, hr => by
    obtain ⟨a, m, q', rfl, h1, h2, h3, h4, h5⟩ := hc
    have : c = objCell (some m) := by
      simp only [deref, h2, Option.some.injEq] at hd
      exact hd.symm
    subst this
    cases path with
    | nil => simp only [objCell, Reaches, Option.some.injEq] at hr; subst hr; exact .inl h3
    | cons y ys =>
      obtain ⟨q2, c2, i1, i2, i3⟩ := hr
      simp only [objCell, mapOf, h4, AMap.lookup] at i1
      split at i1
      · simp only [Option.some.injEq] at i1
        subst i1
        rcases reaches_chain ks h5 i2 i3 with j | ⟨cv, p, j1, j2, j3⟩
        · exact .inl j
        · exact .inr ⟨cv, p, j1, by simp; omega, j3⟩
      · cases i1

/-- After a `Put`, one gets from the event only to new maps, and to those one got to from the event or from the value before. -/
theorem reaches_after_put {h h' : Heap} {e : Event} {v : Ptr} {d : Nat} {k : Bytes} {es : AMap Ptr} {q : Ptr} {rest : List Bytes} (hp : Proper h) (hv : InMemory h v) (hd : h[d]? = some (.map es)) (hd' : h'[d]? = some (.map (AMap.insert es k q)))
    (hch : Chain h.length h' q v rest) (hold : ∀ b, b < h.length → b ≠ d → h'[b]? = h[b]?) {x : Nat} :
    ∀ (n : Nat) (path : List Bytes) (m : Option Nat), path.length ≤ n → MapsAreMaps h m →
      ((∃ p, Reaches h e p m) ∨ ∃ cv, deref h v = some cv ∧ ∃ p, Reaches h cv.object p m) → Reaches h' m path (some x) →
      h.length ≤ x ∨ (∃ p, Reaches h e p (some x)) ∨ ∃ cv, deref h v = some cv ∧ ∃ p, Reaches h cv.object p (some x) := by
  have hc := insert_changedAt hd hd' hold
  intro n
  induction n with
  | zero =>
    intro path m hl hw hs hr
    have : path = [] := List.length_eq_zero_iff.mp (by omega)
    subst this
    cases hr
    exact .inr hs
  | succ n ih =>
    intro path m hl hw hs hr
    cases path with
    | nil => cases hr; exact .inr hs
    | cons y ys =>
      obtain ⟨q1, c1, h1, h2, h3⟩ := hr
      simp at hl
      by_cases hx : m = some d ∧ y = k
      · obtain ⟨rfl, rfl⟩ := hx
        simp only [mapOf, hd', AMap.lookup_insert_self, Option.some.injEq] at h1
        subst h1
        rcases reaches_chain rest hch h2 h3 with j | ⟨cv, p, j1, j2, j3⟩
        · exact .inl j
        · rw [hc.deref hv] at j1
          exact ih p cv.object (by omega) (mapsAreMaps_below hw j1) (.inr ⟨cv, j1, [], rfl⟩) j3
      · rw [hc.lookup (mapsAreMaps_lt hw) hx] at h1
        rw [hc.deref (lookup_inMemory hp.1 h1)] at h2
        refine ih ys c1.object hl (mapsAreMaps_below hw h2) ?_ h3
        rcases hs with ⟨p, hs⟩ | ⟨cv, j1, p, hs⟩
        · exact .inl ⟨p ++ [y], reaches_snoc h1 h2 p hs⟩
        · exact .inr ⟨cv, j1, p ++ [y], reaches_snoc h1 h2 p hs⟩

/-! One call. -/

/-- What is true at every moment of the work on `e` beside `e2`. -/
structure Beside2 (h : Heap) (e e2 : Event) : Prop where
  proper : Proper h
  map1 : MapsAreMaps h e
  map2 : MapsAreMaps h e2
  no : NoCommon h e e2

theorem mapsAreMaps_of {h : Heap} (hp : Proper h) {m : Option Nat} (hm : ∀ b, m = some b → ∃ es, h[b]? = some (.map es)) : MapsAreMaps h m := ⟨hm, hp.2⟩

theorem Beside2.alloc {h : Heap} {e e2 : Event} (i : Beside2 h e e2) {o : HObj} (hp : Proper (h ++ [o])) : Beside2 (h ++ [o]) e e2 ∧ KeptAt h (h ++ [o]) e2 ∧ h.length ≤ (h ++ [o]).length := by
  have up : ∀ {m}, MapsAreMaps h m → MapsAreMaps (h ++ [o]) m := fun hw => mapsAreMaps_of hp fun b hb => by
    obtain ⟨es, he⟩ := hw.1 b hb
    exact ⟨es, by rw [List.getElem?_append_left (lt_of_getElem? he)]; exact he⟩
  refine ⟨⟨hp, up i.map1, up i.map2, ?_⟩, keptAt_alloc i.proper i.map2 o, by simp⟩
  rintro d ⟨p1, r1⟩ ⟨p2, r2⟩
  exact i.no d ⟨p1, (keptAt_alloc i.proper i.map1 o).back i.proper.1 p1 r1⟩ ⟨p2, (keptAt_alloc i.proper i.map2 o).back i.proper.1 p2 r2⟩

/-- A change at a map to which one gets from `e`. -/
theorem keptAt_change {h h' : Heap} {e e2 : Event} (i : Beside2 h e e2) {d : Nat} {k : Bytes} (hc : ChangedAt h h' d k) {pre : List Bytes} (hr : Reaches h e pre (some d)) : KeptAt h h' e2 :=
  ⟨fun _ hq => hc.deref hq, fun path b hb => hc.1 b (reaches_lt i.proper path i.map2 hb) fun he => i.no d ⟨pre, hr⟩ ⟨path, he ▸ hb⟩⟩

theorem changedAt_map {h h' : Heap} {d : Nat} {k : Bytes} (hc : ChangedAt h h' d k) {b : Nat} {es : AMap Ptr} (hb : h[b]? = some (.map es)) : ∃ es', h'[b]? = some (.map es') := by
  obtain ⟨h1, fs, fs', h2, h3, _⟩ := hc
  by_cases hd : b = d
  · subst hd; exact ⟨fs', h3⟩
  · exact ⟨es, by rw [h1 b (lt_of_getElem? hb) hd]; exact hb⟩

theorem Beside2.put_some {h h' : Heap} {m : Nat} {e2 e' : Event} (i : Beside2 h (some m) e2) {path : List Bytes} {v old : Ptr} {ow : Bool} {err : Option PutErr} (hv : InMemory h v) (hnv : NoCommonValue h v e2)
    (hput : put h (some m) path v ow = .ok (h', e', old, err)) : Beside2 h' e' e2 ∧ KeptAt h h' e2 ∧ h.length ≤ h'.length := by
  have same : h' = h → e' = some m → Beside2 h' e' e2 ∧ KeptAt h h' e2 ∧ h.length ≤ h'.length := by
    rintro rfl rfl
    exact ⟨i, ⟨fun _ _ => rfl, fun _ _ _ => rfl⟩, Nat.le_refl _⟩
  cases err with
  | some err =>
    have := put_error_atomic (fun a c m' ha hm' => by obtain ⟨es, he⟩ := i.proper.2 a c m' ha hm'; exact lt_of_getElem? he) (fun b hb => mapsAreMaps_lt i.map1 b hb) hput
    exact same this.1 this.2
  | none =>
    cases v with
    | none =>
      simp only [Sawmill.put] at hput
      split at hput
      · simp at hput
      · simp only [if_true, Res.ok.injEq, Prod.mk.injEq] at hput
        exact same hput.1.symm hput.2.1.symm
    | some a =>
      obtain ⟨rfl, pre, k, rest, d, es, q, h1, h2, h3, h4, h5, h6, h7⟩ := put_changes_loop i.map1 hput
      have hc := insert_changedAt h3 h5 h7
      have hd := objects_reach h2
      have hk := keptAt_change i hc hd
      obtain ⟨-, hne, hloop⟩ := Sawmill.put_some hput
      obtain ⟨hp', hl⟩ := i.proper.putLoop path hv (hloop hne)
      have up : ∀ {x}, MapsAreMaps h x → MapsAreMaps h' x := fun hw => mapsAreMaps_of hp' fun b hb => by
        obtain ⟨es, he⟩ := hw.1 b hb
        exact changedAt_map hc he
      refine ⟨⟨hp', up i.map1, up i.map2, ?_⟩, hk, hl⟩
      rintro x ⟨p1, r1⟩ ⟨p2, r2⟩
      have r2 := hk.back i.proper.1 p2 r2
      rcases reaches_after_put i.proper hv h3 h5 h6 h7 _ p1 (some m) (Nat.le_refl _) i.map1 (.inl ⟨[], rfl⟩) r1 with j | ⟨p, j⟩ | ⟨cv, j1, p, j⟩
      · have := reaches_lt i.proper p2 i.map2 r2
        omega
      · exact i.no x ⟨p, j⟩ ⟨p2, r2⟩
      · exact hnv cv j1 x ⟨p, j⟩ ⟨p2, r2⟩

theorem Beside2.put {h h' : Heap} {e e2 e' : Event} (i : Beside2 h e e2) {path : List Bytes} {v old : Ptr} {ow : Bool} {err : Option PutErr} (hv : InMemory h v) (hnv : NoCommonValue h v e2)
    (hput : put h e path v ow = .ok (h', e', old, err)) : Beside2 h' e' e2 ∧ KeptAt h h' e2 ∧ h.length ≤ h'.length := by
  cases e with
  | some m => exact i.put_some hv hnv hput
  | none =>
    have same : h' = h → e' = none → Beside2 h' e' e2 ∧ KeptAt h h' e2 ∧ h.length ≤ h'.length := by
      rintro rfl rfl
      exact ⟨i, ⟨fun _ _ => rfl, fun _ _ _ => rfl⟩, Nat.le_refl _⟩
    by_cases hpath : path = []
    · subst hpath
      simp only [Sawmill.put, List.length_nil, if_true, Res.ok.injEq, Prod.mk.injEq] at hput
      exact same hput.1.symm hput.2.1.symm
    · by_cases hvn : v = none
      · subst hvn
        have : path.length ≠ 0 := by simpa using hpath
        simp only [Sawmill.put, this, if_false, if_true, Res.ok.injEq, Prod.mk.injEq] at hput
        exact same hput.1.symm hput.2.1.symm
      · rw [put_eq_none hpath hvn] at hput
        have hp1 : Proper (h ++ [HObj.map []]) := i.proper.alloc ⟨by simp, by intro es he k q hk; simp only [HObj.map.injEq] at he; subst he; simp at hk⟩ (by simp)
        obtain ⟨j1, j2, j3⟩ := i.alloc hp1
        have hv1 : InMemory (h ++ [HObj.map []]) v := inMemory_mono hv j3
        have hdv : deref (h ++ [HObj.map []]) v = deref h v := j2.1 v hv
        have i1 : Beside2 (h ++ [HObj.map []]) (some h.length) e2 := by
          refine ⟨hp1, mapsAreMaps_of hp1 fun b hb => by cases hb; exact ⟨[], by simp⟩, j1.map2, ?_⟩
          rintro d ⟨p1, r1⟩ ⟨p2, r2⟩
          have hlt := reaches_lt i.proper p2 i.map2 (j2.back i.proper.1 p2 r2)
          cases p1 with
          | nil => cases r1; omega
          | cons y ys =>
            obtain ⟨q, c, k1, _⟩ := r1
            simp [mapOf, AMap.lookup] at k1
        have hnv1 : NoCommonValue (h ++ [HObj.map []]) v e2 := by
          intro c hc d hd1 hd2
          rw [hdv] at hc
          have hw : MapsAreMaps h c.object := by
            cases v with
            | none => exact absurd rfl hvn
            | some a => exact mapsAreMaps_below i.map2 hc
          obtain ⟨p1, r1⟩ := hd1
          obtain ⟨p2, r2⟩ := hd2
          exact hnv c hc d ⟨p1, (keptAt_alloc i.proper hw _).back i.proper.1 p1 r1⟩ ⟨p2, j2.back i.proper.1 p2 r2⟩
        obtain ⟨k1, k2, k3⟩ := i1.put_some hv1 hnv1 hput
        exact ⟨k1, j2.trans i.proper.1 j3 k2 fun path x hr => j2.there i.proper.1 path hr, Nat.le_trans j3 k3⟩

theorem Beside2.get {h h' : Heap} {e e2 : Event} (i : Beside2 h e e2) {key : Bytes} {p : Ptr} (hg : apiGet h e key = .ok (h', p)) : Beside2 h' e e2 ∧ KeptAt h h' e2 ∧ h.length ≤ h'.length := by
  have same : h' = h → Beside2 h' e e2 ∧ KeptAt h h' e2 ∧ h.length ≤ h'.length := by
    rintro rfl
    exact ⟨i, ⟨fun _ _ => rfl, fun _ _ _ => rfl⟩, Nat.le_refl _⟩
  unfold apiGet at hg
  by_cases hk : keyToPath key = []
  · rw [hk] at hg
    unfold Sawmill.get at hg
    split at hg
    · simp only [Res.ok.injEq, Prod.mk.injEq] at hg; exact same hg.1.symm
    · simp only [Heap.alloc, Res.ok.injEq, Prod.mk.injEq] at hg
      obtain ⟨rfl, _⟩ := hg
      refine i.alloc (i.proper.alloc ⟨?_, by simp⟩ ?_)
      · intro c ps hc ha; cases hc; cases ha
      · intro c m hc hm; cases hc; exact i.map1.1 m hm
  · rw [get_loop h e hk] at hg
    cases hx : Sawmill.getLoop h e (keyToPath key) with
    | panic => rw [hx] at hg; cases hg
    | ok q => rw [hx] at hg; simp only [Res.map_ok, Res.ok.injEq, Prod.mk.injEq] at hg; exact same hg.1.symm

theorem Beside2.delete {h h' : Heap} {e e2 : Event} (i : Beside2 h e e2) {key : Bytes} {p : Ptr} (hg : apiDelete h e key = .ok (h', p)) : Beside2 h' e e2 ∧ KeptAt h h' e2 ∧ h.length ≤ h'.length := by
  rcases delete_changes i.map1 hg with rfl | ⟨-, k, rest, d, es, h1, rfl, h3, h4, hc⟩
  · exact ⟨i, ⟨fun _ _ => rfl, fun _ _ _ => rfl⟩, Nat.le_refl _⟩
  · have hk := keptAt_change i hc (pre := []) rfl
    have hp' : Proper h' := by
      rw [h4]
      exact i.proper.setMap h3 fun k' q hq => i.proper.1.2 d es h3 k' q (mem_erase_of hq)
    have up : ∀ {x}, MapsAreMaps h x → MapsAreMaps h' x := fun hw => mapsAreMaps_of hp' fun b hb => by
      obtain ⟨es, he⟩ := hw.1 b hb
      exact changedAt_map hc he
    refine ⟨⟨hp', up i.map1, up i.map2, ?_⟩, hk, by rw [h4]; simp⟩
    rintro x ⟨p1, r1⟩ ⟨p2, r2⟩
    refine i.no x ?_ ⟨p2, hk.back i.proper.1 p2 r2⟩
    -- an entry less: one gets to nothing new
    have hd' : h'[d]? = some (.map (AMap.erase es k)) := by rw [h4, List.getElem?_set_self (lt_of_getElem? h3)]
    have back : ∀ (p : List Bytes) (m : Option Nat), MapsAreMaps h m → Reaches h' m p (some x) → Reaches h m p (some x) := by
      intro p
      induction p with
      | nil => intro m _ hr; exact hr
      | cons y ys ih =>
        intro m hw hr
        obtain ⟨q, c, k1, k2, k3⟩ := hr
        have hl : (mapOf h m).lookup y = some q := by
          by_cases hx : m = some d ∧ y = k
          · obtain ⟨rfl, rfl⟩ := hx
            simp [mapOf, hd'] at k1
          · rw [← hc.lookup (mapsAreMaps_lt hw) hx]; exact k1
        rw [hc.deref (lookup_inMemory i.proper.1 hl)] at k2
        exact ⟨q, c, hl, k2, ih c.object (mapsAreMaps_below hw k2) k3⟩
    exact ⟨p1, back p1 (some d) i.map1 r1⟩

/-! The whole work. -/

theorem works_beside {h h' : Heap} {e e' e2 : Event} (i : Beside2 h e e2) (hw : Works e2 h e h' e') : Beside2 h' e' e2 ∧ KeptAt h h' e2 ∧ h.length ≤ h'.length := by
  induction hw with
  | nothing => exact ⟨i, ⟨fun _ _ => rfl, fun _ _ _ => rfl⟩, Nat.le_refl _⟩
  | @value _ _ _ c _ ha ho ih =>
    obtain ⟨i1, k1, l1⟩ := ih i
    obtain ⟨i2, k2, l2⟩ := i1.alloc (i1.proper.alloc (o := .cell c) ⟨by intro c' ps hc; cases hc; exact ha ps, by simp⟩ (by intro c' m hc; cases hc; exact ho m))
    exact ⟨i2, k1.trans i.proper.1 l1 k2 fun path x hr => k1.there i.proper.1 path hr, Nat.le_trans l1 l2⟩
  | @map _ _ _ es _ hm ih =>
    obtain ⟨i1, k1, l1⟩ := ih i
    obtain ⟨i2, k2, l2⟩ := i1.alloc (i1.proper.alloc (o := .map es) ⟨by simp, by intro es' he; cases he; exact hm⟩ (by simp))
    exact ⟨i2, k1.trans i.proper.1 l1 k2 fun path x hr => k1.there i.proper.1 path hr, Nat.le_trans l1 l2⟩
  | put _ hv hnv hc ih =>
    obtain ⟨i1, k1, l1⟩ := ih i
    obtain ⟨i2, k2, l2⟩ := i1.put hv hnv hc
    exact ⟨i2, k1.trans i.proper.1 l1 k2 fun path x hr => k1.there i.proper.1 path hr, Nat.le_trans l1 l2⟩
  | tryPut _ hv hnv hc ih =>
    obtain ⟨i1, k1, l1⟩ := ih i
    obtain ⟨i2, k2, l2⟩ := i1.put hv hnv hc
    exact ⟨i2, k1.trans i.proper.1 l1 k2 fun path x hr => k1.there i.proper.1 path hr, Nat.le_trans l1 l2⟩
  | get _ hc ih =>
    obtain ⟨i1, k1, l1⟩ := ih i
    obtain ⟨i2, k2, l2⟩ := i1.get hc
    exact ⟨i2, k1.trans i.proper.1 l1 k2 fun path x hr => k1.there i.proper.1 path hr, Nat.le_trans l1 l2⟩
  | delete _ hc ih =>
    obtain ⟨i1, k1, l1⟩ := ih i
    obtain ⟨i2, k2, l2⟩ := i1.delete hc
    exact ⟨i2, k1.trans i.proper.1 l1 k2 fun path x hr => k1.there i.proper.1 path hr, Nat.le_trans l1 l2⟩

/-- **C113.** Whatever a program does with an event `e` that shares no objects with the event `e2` (lists and scalars they may share), as long as it puts nothing into it that shares objects with `e2`: `Get` on `e2` does what it did before for every key with a name in it. It panics if it did, else it returns the same
pointer, to a value of the same type, with the same scalar, list or map. And the events still share no objects. -/
theorem no_common_no_effect {h h' : Heap} {e e' e2 : Event} (hp : Proper h) (h1 : ∀ b, e = some b → ∃ es, h[b]? = some (.map es)) (h2 : ∀ b, e2 = some b → ∃ es, h[b]? = some (.map es)) (hno : NoCommon h e e2) (hw : Works e2 h e h' e') :
    Proper h' ∧ NoCommon h' e' e2 ∧ mapOf h' e2 = mapOf h e2 ∧
      ∀ key, keyToPath key ≠ [] → (apiGet h e2 key = .panic ∧ apiGet h' e2 key = .panic) ∨ ∃ q, apiGet h e2 key = .ok (h, q) ∧ apiGet h' e2 key = .ok (h', q) ∧ deref h' q = deref h q := by
  obtain ⟨i, k, -⟩ := works_beside ⟨hp, ⟨h1, hp.2⟩, ⟨h2, hp.2⟩, hno⟩ hw
  refine ⟨i.proper, i.no, k.map, fun key hk => ?_⟩
  unfold apiGet
  rw [get_loop h e2 hk, get_loop h' e2 hk, k.getLoop hp.1]
  cases hg : Sawmill.getLoop h e2 (keyToPath key) with
  | panic => exact .inl ⟨rfl, rfl⟩
  | ok q =>
    refine .inr ⟨q, rfl, rfl, k.1 q ?_⟩
    have hg' : Sawmill.get h e2 (keyToPath key) = .ok (h, q) := by rw [get_loop h e2 hk, hg]; rfl
    exact (NoDangling.get hp.1 hg').2.2

/-- A case: event 0 has the list 4, of the object 3, as `a`, and event 1 has it as `b`: they share it, but no map can be reached by names from both. Into event 0 the string of that object is put, and read, and deleted. -/
theorem no_common_sample : ∃ h h', h = [.map [(lit "a", some 4)], .map [(lit "b", some 4)], .map [(lit "x", some 5)], .cell (objCell (some 2)), .cell (arrCell (some [some 3])), .cell (strCell (lit "v"))] ∧
    Proper h ∧ NoCommon h (some 0) (some 1) ∧ Works (some 1) h (some 0) h' (some 0) ∧ h' ≠ h ∧ apiGet h' (some 1) (lit "b") = .ok (h', some 4) := by
  refine ⟨_, _, rfl, ⟨⟨?_, ?_⟩, ?_⟩, ?_, .delete (key := lit "a") (p := some 4) (.put (key := lit "c.d") (v := some 5) (old := none) (err := none) .nothing (by intro a ha; cases ha; decide) ?_ rfl) rfl, by decide, rfl⟩
  · intro a c ps ha hc q hq
    rcases a with _ | _ | _ | _ | _ | _ | a <;> simp at ha
    · subst ha; cases hc
    · subst ha; simp only [arrCell, Option.some.injEq] at hc; subst hc; simp at hq; subst hq; intro a ha; cases ha; decide
    · subst ha; cases hc
  · intro a es ha k q hq
    rcases a with _ | _ | _ | _ | _ | _ | a <;> simp at ha
    all_goals (subst ha; simp at hq; rw [hq.2]; intro a ha; cases ha; decide)
  · intro a c m ha hm
    rcases a with _ | _ | _ | _ | _ | _ | a <;> simp at ha
    · subst ha; cases hm; exact ⟨_, rfl⟩
    · subst ha; cases hm
    · subst ha; cases hm
  · have only : ∀ (m d : Nat) (k : Bytes) (path : List Bytes), mapOf [.map [(lit "a", some 4)], .map [(lit "b", some 4)], .map [(lit "x", some 5)], .cell (objCell (some 2)), .cell (arrCell (some [some 3])), .cell (strCell (lit "v"))] (some m) = [(k, some 4)] →
        Reaches [.map [(lit "a", some 4)], .map [(lit "b", some 4)], .map [(lit "x", some 5)], .cell (objCell (some 2)), .cell (arrCell (some [some 3])), .cell (strCell (lit "v"))] (some m) path (some d) → m = d := by
      intro m d k path hm hr
      match path with
      | [] => cases hr; rfl
      | [y] =>
        obtain ⟨q, c, h1, h2, h3⟩ := hr
        rw [hm] at h1
        simp only [AMap.lookup] at h1
        split at h1
        · cases h1; simp only [deref] at h2; cases h2; cases h3
        · cases h1
      | y :: z :: zs =>
        obtain ⟨q, c, h1, h2, h3⟩ := hr
        rw [hm] at h1
        simp only [AMap.lookup] at h1
        split at h1
        · cases h1; simp only [deref] at h2; cases h2
          obtain ⟨q, c, k1, _⟩ := h3
          simp [arrCell, mapOf, AMap.lookup] at k1
        · cases h1
    rintro d ⟨p1, r1⟩ ⟨p2, r2⟩
    have e1 := only 0 d _ p1 rfl r1
    have e2 := only 1 d _ p2 rfl r2
    omega
  · intro c hc d ⟨p, r⟩
    cases hc
    cases p with
    | nil => cases r
    | cons y ys =>
      obtain ⟨q, c, h1, _⟩ := r
      simp [strCell, mapOf, AMap.lookup] at h1

end Sawmill
