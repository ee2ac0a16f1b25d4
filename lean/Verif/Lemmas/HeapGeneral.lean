import Verif.Lemmas.TreeLaws
/-!
# Facts about the event API on arbitrary heaps (sharing allowed)
-/

namespace Sawmill

/-- No dangling map references (always true of a Go heap). -/
def Closed (h : Heap) : Prop := ∀ (a : Nat) (c : Cell) (m : Nat), h[a]? = some (.cell c) → c.object = some m → m < h.length

def Event.In (e : Event) (h : Heap) : Prop := ∀ m, e = some m → m < h.length

/-- No map contains itself, directly or through objects stored in it: there is a rank that decreases from each map to the maps of the objects stored in it. -/
def Ranked (rank : Nat → Nat) (h : Heap) : Prop :=
  ∀ (m : Nat) (es : AMap Ptr) (k : Bytes) (p : Ptr) (c : Cell) (m' : Nat), h[m]? = some (.map es) → es.lookup k = some p → deref h p = some c → c.object = some m' → rank m' < rank m

theorem deref_eq {h : Heap} {p : Ptr} {c : Cell} (hd : deref h p = some c) : ∃ a, p = some a ∧ h[a]? = some (.cell c) := by
  cases p with
  | none => simp [deref] at hd
  | some a =>
    simp only [deref] at hd
    split at hd
    · simp at hd; subst hd; exact ⟨a, rfl, by assumption⟩
    · simp at hd

theorem mapWrite_ok {h h' : Heap} {m : Option Nat} {k : Bytes} {p : Ptr} (hw : mapWrite h m k p = .ok h') :
    ∃ a es, m = some a ∧ h[a]? = some (.map es) ∧ h' = h.set a (.map (es.insert k p)) := by
  cases m with
  | none => simp [mapWrite] at hw
  | some a =>
    simp only [mapWrite] at hw
    split at hw
    · simp at hw; exact ⟨a, _, rfl, by assumption, hw.symm⟩
    · simp at hw

theorem closed_alloc2 {h : Heap} (hc : Closed h) :
    Closed (h ++ [HObj.map [], HObj.cell (objCell (some h.length))]) := by
  intro a c m ha hm
  simp only [List.length_append, List.length_cons, List.length_nil]
  rcases Nat.lt_or_ge a h.length with hl | hl
  · rw [List.getElem?_append_left hl] at ha
    have := hc a c m ha hm
    omega
  · rw [List.getElem?_append_right hl] at ha
    have : a - h.length = 0 ∨ a - h.length = 1 ∨ 2 ≤ a - h.length := by omega
    rcases this with h1 | h1 | h1
    · simp [h1] at ha
    · simp [h1] at ha; subst ha; simp [objCell] at hm; omega
    · rw [List.getElem?_eq_none (by simpa using h1)] at ha; simp at ha

theorem closed_set {h : Heap} {a : Nat} {es : AMap Ptr} (hc : Closed h) : Closed (h.set a (.map es)) := by
  intro b c m hb hm
  by_cases hab : a = b
  · subst hab
    rcases Nat.lt_or_ge a h.length with hl | hl
    · rw [List.getElem?_set_self hl] at hb; simp at hb
    · rw [List.getElem?_eq_none (by simpa using hl)] at hb; simp at hb
  · rw [List.getElem?_set_ne hab] at hb
    simpa using hc b c m hb hm

/-- Walking on from an empty map never meets a non-object. -/
theorem putLoop_empty {val : Ptr} (path : List Bytes) {h h' : Heap} {m : Nat} (hm : h[m]? = some (.map [])) :
    putLoop h (some m) path val ≠ .ok (h', false) := by
  induction path generalizing h m with
  | nil => simp [putLoop]
  | cons k ks ih =>
    cases ks with
    | nil => simp [putLoop, mapWrite, hm]
    | cons k2 ks =>
      simp only [putLoop, mapOf, hm, AMap.lookup_nil, Heap.alloc]
      split
      · simp
      · next h3 hw =>
        obtain ⟨a, es, h1, h2, h4⟩ := mapWrite_ok hw
        cases h1
        subst h4
        have hml := lt_of_getElem? hm
        apply ih
        rw [List.getElem?_set_ne (by omega)]
        simp

theorem putLoop_false {val : Ptr} (path : List Bytes) {h h' : Heap} {m : Option Nat} (hc : Closed h) (hm : ∀ a, m = some a → a < h.length)
    (hp : putLoop h m path val = .ok (h', false)) : h' = h := by
  induction path generalizing m with
  | nil => simp [putLoop] at hp
  | cons k ks ih =>
    cases ks with
    | nil =>
      simp only [putLoop] at hp
      cases hw : mapWrite h m k val with
      | panic => simp [hw] at hp
      | ok x => simp [hw] at hp
    | cons k2 ks =>
      simp only [putLoop] at hp
      split at hp
      · split at hp
        · simp at hp
        · next c hd =>
          split at hp
          · simp at hp; exact hp.symm
          · obtain ⟨a, _, ha⟩ := deref_eq hd
            exact ih (fun b hb => hc a c b ha hb) hp
      · next hl =>
        simp only [Heap.alloc] at hp
        split at hp
        · simp at hp
        · next h3 hw =>
          exfalso
          obtain ⟨a, es, h1, h2, h4⟩ := mapWrite_ok hw
          have hal := hm a h1
          subst h4
          exact putLoop_empty (k2 :: ks) (by rw [List.getElem?_set_ne (by omega)]; simp) hp

theorem get_ok_heap {h h1 : Heap} {e : Event} {path : List Bytes} {p : Ptr} (hp : path ≠ []) (hg : get h e path = .ok (h1, p)) :
    h1 = h := by
  simp only [get] at hg
  split at hg
  · simp at hg; exact hg.1.symm
  · cases path with
    | nil => exact absurd rfl hp
    | cons k ks =>
      cases hl : getLoop h e (k :: ks) with
      | panic => simp [hl] at hg
      | ok x => simp [hl] at hg; exact hg.1.symm

theorem get_empty {h : Heap} {e : Event} {path : List Bytes} (he : mapOf h e = []) : get h e path = .ok (h, none) := by
  simp [get, he]

theorem put_eq_some {h : Heap} {m : Nat} {path : List Bytes} {val : Ptr} {ow : Bool} (hp : path ≠ []) (hv : val ≠ none) :
    put h (some m) path val ow = match get h (some m) path with
    | .panic => .panic
    | .ok (h, old) =>
      if old ≠ none ∧ ow = false then .ok (h, some m, old, some (.keyExists path))
      else match putLoop h (some m) path val with
        | .panic => .panic
        | .ok (h', true) => .ok (h', some m, old, none)
        | .ok (h', false) => .ok (h', some m, none, some (.notObject path)) := by
  have : path.length ≠ 0 := by simpa using hp
  simp [put, this, hv]
  rfl

theorem put_eq_none {h : Heap} {path : List Bytes} {val : Ptr} {ow : Bool} (hp : path ≠ []) (hv : val ≠ none) :
    put h none path val ow = put (h ++ [HObj.map []]) (some h.length) path val ow := by
  have : path.length ≠ 0 := by simpa using hp
  simp [put, this, hv, Heap.alloc]

/-- Get after Put at pointer level, on heaps without cycles. -/
theorem putLoop_get {val : Ptr} (path : List Bytes) (hp : path ≠ []) {h h' : Heap} {m : Nat} {rank : Nat → Nat}
    (hc : Closed h) (hr : Ranked rank h) (hm : m < h.length)
    (hput : putLoop h (some m) path val = .ok (h', true)) :
    (∀ a, a < h.length → a ≠ m → rank m ≤ rank a → h'[a]? = h[a]?) ∧
    (∀ (a : Nat) (c : Cell), h[a]? = some (.cell c) → h'[a]? = some (.cell c)) ∧
    getLoop h' (some m) path = .ok val ∧ mapOf h' (some m) ≠ [] := by
  induction path generalizing h m rank with
  | nil => exact absurd rfl hp
  | cons k ks ih =>
    cases ks with
    | nil =>
      simp only [putLoop] at hput
      cases hw : mapWrite h (some m) k val with
      | panic => simp [hw] at hput
      | ok x =>
        simp [hw] at hput
        subst hput
        obtain ⟨a, es, h1, h2, h4⟩ := mapWrite_ok hw
        cases h1
        subst h4
        have hne := AMap.insert_ne_nil es k val
        refine ⟨fun b hb hbm _ => List.getElem?_set_ne (Ne.symm hbm), fun b c hb => ?_, ?_, ?_⟩
        · rw [List.getElem?_set_ne]
          · exact hb
          · rintro rfl; rw [h2] at hb; simp at hb
        · simp [getLoop, mapOf, List.getElem?_set_self hm]
        · simp [mapOf, List.getElem?_set_self hm, hne]
    | cons k2 ks =>
      simp only [putLoop] at hput
      split at hput
      · next inner hl =>
        split at hput
        · simp at hput
        · next c hd =>
          split at hput
          · simp at hput
          · cases hco : c.object with
            | none =>
              -- a nil map: the walk panics
              exfalso
              rw [hco] at hput
              cases ks <;> simp [putLoop, mapWrite, mapOf] at hput
            | some m' =>
              rw [hco] at hput
              obtain ⟨ia, rfl, hia⟩ := deref_eq hd
              have hm' := hc ia c m' hia hco
              have hes : ∃ es, h[m]? = some (.map es) := by
                simp only [mapOf] at hl
                split at hl
                · exact ⟨_, by assumption⟩
                · simp at hl
              obtain ⟨es, hes⟩ := hes
              have hl' : es.lookup k = some (some ia) := by simpa [mapOf, hes] using hl
              have hrk := hr m es k (some ia) c m' hes hl' hd hco
              obtain ⟨i1, i2, i3, i4⟩ := ih (by simp) hc hr hm' hput
              have hme : h'[m]? = some (.map es) := by
                rw [i1 m hm (by rintro rfl; omega) (by omega), hes]
              refine ⟨fun b hb hbm hrb => i1 b hb (by rintro rfl; omega) (by omega), i2, ?_, ?_⟩
              · simp only [getLoop]
                rw [show mapOf h' (some m) = es by simp [mapOf, hme]]
                simp only [hl']
                have : deref h' (some ia) = some c := by simp [deref, i2 ia c hia]
                simp only [this, hco]
                have hne : ¬ (mapOf h' (some m')).length = 0 := by simpa using i4
                rw [if_neg hne, i3]
              · simp only [mapOf, hme]
                intro e
                subst e
                simp at hl'
      · next hl =>
        simp only [Heap.alloc] at hput
        split at hput
        · simp at hput
        · next h3 hw =>
          obtain ⟨a, es, h1, h2, h4⟩ := mapWrite_ok hw
          cases h1
          have e2 : h ++ [HObj.map []] ++ [HObj.cell (objCell (some h.length))] = h ++ [HObj.map [], HObj.cell (objCell (some h.length))] := by simp
          rw [e2] at h2 h4
          have hes : h[m]? = some (.map es) := by rw [List.getElem?_append_left hm] at h2; exact h2
          subst h4
          -- rank for the enlarged heap
          let rank' : Nat → Nat := fun x => if x < h.length then rank x + 1 else 0
          have hget : ∀ b, b < h.length → b ≠ m →
              ((h ++ [HObj.map [], HObj.cell (objCell (some h.length))]).set m (HObj.map (AMap.insert es k (some (h ++ [HObj.map []]).length))))[b]? = h[b]? := by
            intro b hb hbm
            rw [List.getElem?_set_ne (Ne.symm hbm), List.getElem?_append_left hb]
          have hnm : ((h ++ [HObj.map [], HObj.cell (objCell (some h.length))]).set m (HObj.map (AMap.insert es k (some (h ++ [HObj.map []]).length))))[h.length]? = some (.map []) := by
            rw [List.getElem?_set_ne (by omega)]; simp
          have hna : ((h ++ [HObj.map [], HObj.cell (objCell (some h.length))]).set m (HObj.map (AMap.insert es k (some (h ++ [HObj.map []]).length))))[h.length + 1]? = some (.cell (objCell (some h.length))) := by
            rw [List.getElem?_set_ne (by omega)]; simp
          have hmm : ((h ++ [HObj.map [], HObj.cell (objCell (some h.length))]).set m (HObj.map (AMap.insert es k (some (h ++ [HObj.map []]).length))))[m]? = some (HObj.map (AMap.insert es k (some (h ++ [HObj.map []]).length))) := by
            rw [List.getElem?_set_self (by simp; omega)]
          have hlen3 : ((h ++ [HObj.map [], HObj.cell (objCell (some h.length))]).set m (HObj.map (AMap.insert es k (some (h ++ [HObj.map []]).length)))).length = h.length + 2 := by simp
          generalize (h ++ [HObj.map [], HObj.cell (objCell (some h.length))]).set m (HObj.map (AMap.insert es k (some (h ++ [HObj.map []]).length))) = h3 at *
          have hcl : Closed h3 := by
            intro b c x hb hx
            by_cases hbl : b < h.length
            · by_cases hbm : b = m
              · subst hbm; rw [hmm] at hb; simp at hb
              · rw [hget b hbl hbm] at hb
                have := hc b c x hb hx
                omega
            · have : b = h.length ∨ b = h.length + 1 := by
                have := lt_of_getElem? hb
                omega
              rcases this with rfl | rfl
              · rw [hnm] at hb; simp at hb
              · rw [hna] at hb; simp at hb; subst hb; simp [objCell] at hx; omega
          have hold : ∀ (b : Nat) (c : Cell), h[b]? = some (.cell c) → h3[b]? = some (.cell c) := by
            intro b c hb
            have hbl := lt_of_getElem? hb
            by_cases hbm : b = m
            · subst hbm; rw [hes] at hb; simp at hb
            · rw [hget b hbl hbm, hb]
          have hrk' : Ranked rank' h3 := by
            intro x xs kk p c y hx hxl hd hy
            obtain ⟨pa, rfl, hpa⟩ := deref_eq hd
            by_cases hpa' : pa = h.length + 1
            · subst hpa'
              rw [hna] at hpa
              simp at hpa
              subst hpa
              simp [objCell] at hy
              subst hy
              -- only `m` can refer to the new object; in any case rank' of the new map is 0
              by_cases hxm : x < h.length
              · simp [rank', hxm]
              · exfalso
                have : x = h.length ∨ x = h.length + 1 := by
                  have := lt_of_getElem? hx
                  omega
                rcases this with rfl | rfl
                · rw [hnm] at hx; simp at hx; subst hx; simp at hxl
                · rw [hna] at hx; simp at hx
            · have hpl : pa < h.length := by
                have := lt_of_getElem? hpa
                have : pa ≠ h.length := by rintro rfl; rw [hnm] at hpa; simp at hpa
                omega
              have hpa0 : h[pa]? = some (.cell c) := by
                by_cases hpm : pa = m
                · subst hpm; rw [hmm] at hpa; simp at hpa
                · rw [hget pa hpl hpm] at hpa; exact hpa
              have hyl := hc pa c y hpa0 hy
              have hxl' : x < h.length := by
                have := lt_of_getElem? hx
                have : x ≠ h.length := by rintro rfl; rw [hnm] at hx; simp at hx; subst hx; simp at hxl
                have : x ≠ h.length + 1 := by rintro rfl; rw [hna] at hx; simp at hx
                omega
              have hd0 : deref h (some pa) = some c := by simp [deref, hpa0]
              have : rank y < rank x := by
                by_cases hxm : x = m
                · subst hxm
                  rw [hmm] at hx
                  simp at hx
                  subst hx
                  rw [AMap.lookup_insert] at hxl
                  split at hxl
                  · simp at hxl; omega
                  · exact hr x es kk (some pa) c y hes hxl hd0 hy
                · rw [hget x hxl' hxm] at hx
                  exact hr x xs kk (some pa) c y hx hxl hd0 hy
              simp [rank', hxl', hyl, this]
          obtain ⟨i1, i2, i3, i4⟩ := ih (by simp) hcl hrk' (by omega) hput
          have hr0 : rank' h.length = 0 := by simp [rank']
          have hm' : h'[m]? = some (HObj.map (AMap.insert es k (some (h ++ [HObj.map []]).length))) := by
            rw [i1 m (by omega) (by omega) (by omega), hmm]
          refine ⟨fun b hb hbm _ => ?_, fun b c hb => i2 b c (hold b c hb), ?_, ?_⟩
          · rw [i1 b (by omega) (by omega) (by omega), hget b hb hbm]
          · simp only [getLoop]
            rw [show mapOf h' (some m) = AMap.insert es k (some (h ++ [HObj.map []]).length) by simp [mapOf, hm']]
            simp only [AMap.lookup_insert_self]
            have : deref h' (some (h ++ [HObj.map []]).length) = some (objCell (some h.length)) := by
              have := i2 _ _ hna
              simp [deref, this]
            simp only [this, objCell]
            have hne : ¬ (mapOf h' (some h.length)).length = 0 := by simpa using i4
            simp only [hne, if_false, i3]
          · rw [show mapOf h' (some m) = AMap.insert es k (some (h ++ [HObj.map []]).length) by simp [mapOf, hm']]
            exact AMap.insert_ne_nil _ _ _

end Sawmill
