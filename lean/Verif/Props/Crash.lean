import Verif.Spec.Crash
import Verif.Props.PipelineCounts
import Verif.Props.PipelineNew
import Verif.Props.PutAny
import Verif.Lemmas.Goro
import Verif.Props.Convert
import Verif.Props.ProgSamples
/-!
# C106: what a panic leaves behind
-/

namespace Sawmill

/-! ## Running alone, with what a panic leaves -/

namespace Mem
variable {α β : Type}

theorem alone_then (t : Mem α) (f : α → Mem β) (h : Heap) (cs : Counters) :
    (t.bind f).alone h cs = match t.alone h cs with
      | (g, c, none) => (g, c, none)
      | (g, c, some x) => (f x).alone g c := by
  induction t generalizing h cs with
  | ret x => rfl
  | crash => rfl
  | readCell p k ih => simp only [bind, alone]; cases deref h p with
    | none => rfl
    | some c => exact ih c h cs
  | readMap m k ih => exact ih _ h cs
  | writeMap m key p k ih => simp only [bind, alone]; cases mapWrite h m key p with
    | panic => rfl
    | ok h' => exact ih h' cs
  | alloc o k ih => exact ih _ _ cs
  | append a items k ih => simp only [bind, alone]; cases appendTo h a items with
    | panic => rfl
    | ok h' => exact ih h' cs
  | count id kind k ih => exact ih h _
  | peek p k ih => exact ih _ h cs
  | eraseMap m key k ih => exact ih _ cs

/-- Running alone is the run of the other model, if that does not panic; and panics if that does. -/
theorem alone_solo (t : Mem α) (h : Heap) (cs : Counters) :
    match t.solo h with
    | .panic => (t.alone h cs).2.2 = none
    | .ok (g, l, _, x) => t.alone h cs = (g, cs.incAll l, some x) := by
  have pass : ∀ (inc : List (Bytes × Kind)) {r : Res (Heap × List (Bytes × Kind) × Nat × α)} {q : Heap × Counters × Option α} {cs0 : Counters},
      (match r with
        | .panic => q.2.2 = none
        | .ok (g, l, _, x) => q = (g, (cs0.incAll inc).incAll l, some x)) →
      match r.map fun (g, l, n, x) => (g, inc ++ l, n + 1, x) with
        | .panic => q.2.2 = none
        | .ok (g, l, _, x) => q = (g, cs0.incAll l, some x) := by
    intro inc r q cs0
    cases r with
    | panic => exact id
    | ok r => obtain ⟨g, l, n, x⟩ := r; intro hq; simpa [Res.map, incAll_append] using hq
  induction t generalizing h cs with
  | ret x => rfl
  | crash => rfl
  | readCell p k ih => simp only [solo, alone]; cases deref h p with
    | none => rfl
    | some c => exact pass [] (ih c h cs)
  | readMap m k ih => exact pass [] (ih _ h cs)
  | writeMap m key p k ih => simp only [solo, alone]; cases mapWrite h m key p with
    | panic => rfl
    | ok h' => exact pass [] (ih h' cs)
  | alloc o k ih => exact pass [] (ih _ _ cs)
  | append a items k ih => simp only [solo, alone]; cases appendTo h a items with
    | panic => rfl
    | ok h' => exact pass [] (ih h' cs)
  | count id kind k ih => exact pass [(id, kind)] (ih h _)
  | peek p k ih => exact pass [] (ih _ h cs)
  | eraseMap m key k ih => exact pass [] (ih _ cs)

theorem first_step {X : Type} {s s1 : Shared X} (hs : Shared.Step s s1) : ∀ {n : Nat} {s2 : Shared X}, Shared.Steps n s1 s2 → Shared.Steps (n + 1) s s2
  | 0, _, .refl => .step .refl hs
  | _ + 1, _, .step h1 h2 => .step (first_step hs h1) h2

/-- **C106.** It is the run of one goroutine, step by step, until it has returned or is about to panic. -/
theorem alone_steps (t : Mem α) (h : Heap) (cs : Counters) :
    ∃ (n : Nat) (t' : Mem α), Shared.Steps n ⟨h, cs, [t]⟩ ⟨(t.alone h cs).1, (t.alone h cs).2.1, [t']⟩ ∧
      match (t.alone h cs).2.2 with
      | some x => t' = .ret x
      | none => t'.step (t.alone h cs).1 = .crash := by
  have more : ∀ {t t1 : Mem α} {h h1 : Heap} {cs : Counters} {inc : Option (Bytes × Kind)} {q : Heap × Counters × Option α},
      t.step h = .next h1 inc t1 →
      (∃ (n : Nat) (t' : Mem α), Shared.Steps n ⟨h1, cs.incOpt inc, [t1]⟩ ⟨q.1, q.2.1, [t']⟩ ∧ match q.2.2 with | some x => t' = .ret x | none => t'.step q.1 = .crash) →
      ∃ (n : Nat) (t' : Mem α), Shared.Steps n ⟨h, cs, [t]⟩ ⟨q.1, q.2.1, [t']⟩ ∧ match q.2.2 with | some x => t' = .ret x | none => t'.step q.1 = .crash := by
    intro t t1 h h1 cs inc q hs ⟨n, t', h2, h3⟩
    have h4 : Shared.Step ⟨h, cs, [t]⟩ ⟨h1, cs.incOpt inc, [t1]⟩ := .mk (s := ⟨h, cs, [t]⟩) (i := 0) (t := t) rfl hs
    exact ⟨n + 1, t', first_step h4 h2, h3⟩
  induction t generalizing h cs with
  | ret x => exact ⟨0, .ret x, .refl, rfl⟩
  | crash => exact ⟨0, .crash, .refl, rfl⟩
  | readCell p k ih =>
    cases hd : deref h p with
    | none => exact ⟨0, .readCell p k, by simp only [alone, hd]; exact .refl, by simp only [alone, hd, step]⟩
    | some c =>
      have he : (Mem.readCell p k).alone h cs = (k c).alone h cs := by simp only [alone, hd]
      rw [he]; exact more (inc := none) (by simp only [step, hd]) (ih c h cs)
  | readMap m k ih => exact more (inc := none) (by simp only [step]) (ih _ h cs)
  | writeMap m key p k ih =>
    cases hd : mapWrite h m key p with
    | panic => exact ⟨0, .writeMap m key p k, by simp only [alone, hd]; exact .refl, by simp only [alone, hd, step]⟩
    | ok c =>
      have he : (Mem.writeMap m key p k).alone h cs = k.alone c cs := by simp only [alone, hd]
      rw [he]; exact more (inc := none) (by simp only [step, hd]) (ih c cs)
  | alloc o k ih => exact more (inc := none) (by simp only [step]) (ih _ _ cs)
  | append a items k ih =>
    cases hd : appendTo h a items with
    | panic => exact ⟨0, .append a items k, by simp only [alone, hd]; exact .refl, by simp only [alone, hd, step]⟩
    | ok c =>
      have he : (Mem.append a items k).alone h cs = k.alone c cs := by simp only [alone, hd]
      rw [he]; exact more (inc := none) (by simp only [step, hd]) (ih c cs)
  | count id kind k ih => exact more (inc := some (id, kind)) (by simp only [step]) (ih h (cs.inc id kind))
  | peek p k ih => exact more (inc := none) (by simp only [step]) (ih _ h cs)
  | eraseMap m key k ih => exact more (inc := none) (by simp only [step]) (ih _ cs)
end Mem

open Mem
open Goro (deleteM deleteM_runs)

/-! ## All or nothing -/

namespace AllOrNothing
variable {α β : Type}

/-- It panics without having changed what was there, or returns, whatever it did. -/
def Spares (t : Mem α) (h : Heap) : Prop := ∀ cs, (t.alone h cs).2.2 = none → ∃ junk, t.alone h cs = (h ++ junk, cs, none)

/-- It changes nothing that was there. -/
def Mild (t : Mem α) (h : Heap) : Prop := ∀ cs, ∃ junk o, t.alone h cs = (h ++ junk, cs, o)

theorem of_runs {t : Mem α} {h : Heap} {r : Res (Heap × α)} (hr : Runs t h r) (hs : Spares t h) : AllOrNothing t h r := by
  intro cs
  have h1 := alone_solo t h cs
  cases r with
  | panic =>
    simp only [Runs] at hr
    rw [hr] at h1
    exact hs cs h1
  | ok q =>
    obtain ⟨g, x⟩ := q
    obtain ⟨n, hn⟩ := hr
    rw [hn] at h1
    exact h1

theorem alone_ok {t : Mem α} {h g : Heap} {x : α} (hr : Runs t h (.ok (g, x))) (cs : Counters) : t.alone h cs = (g, cs, some x) := by
  obtain ⟨n, hn⟩ := hr
  have h1 := alone_solo t h cs
  rw [hn] at h1
  exact h1

/-- The other way round, for what makes no increments. -/
theorem ok_alone {t : Mem α} {h : Heap} {r : Res (Heap × α)} (hr : Runs t h r) {cs c : Counters} {g : Heap} {x : α} (ha : t.alone h cs = (g, c, some x)) : r = .ok (g, x) ∧ c = cs := by
  cases r with
  | panic =>
    have h1 := alone_solo t h cs
    simp only [Runs] at hr
    rw [hr, ha] at h1
    simp at h1
  | ok q =>
    rw [alone_ok hr cs] at ha
    simp only [Prod.mk.injEq, Option.some.injEq] at ha
    obtain ⟨h1, h2, h3⟩ := ha
    exact ⟨by rw [← h1, ← h3], h2.symm⟩

theorem Spares.of_ok {t : Mem α} {h g : Heap} {x : α} (hr : Runs t h (.ok (g, x))) : Spares t h := by
  intro cs hc
  obtain ⟨n, hn⟩ := hr
  have h1 := alone_solo t h cs
  rw [hn] at h1
  rw [h1] at hc
  exact absurd hc (by simp)

theorem Mild.spares {t : Mem α} {h : Heap} (hm : Mild t h) : Spares t h := by
  intro cs hc
  obtain ⟨junk, o, h1⟩ := hm cs
  rw [h1] at hc
  exact ⟨junk, by rw [h1]; simp only at hc; rw [hc]⟩

theorem Mild.ret (x : α) (h : Heap) : Mild (.ret x) h := fun cs => ⟨[], some x, by simp [alone]⟩
theorem Spares.ret (x : α) (h : Heap) : Spares (.ret x) h := (Mild.ret x h).spares

theorem Mild.readMap {m : Option Nat} {k : AMap Ptr → Mem α} {h : Heap} (hk : Mild (k (mapOf h m)) h) : Mild (.readMap m k) h := hk
theorem Spares.readMap {m : Option Nat} {k : AMap Ptr → Mem α} {h : Heap} (hk : Spares (k (mapOf h m)) h) : Spares (.readMap m k) h := hk

theorem Mild.readCell {p : Ptr} {k : Cell → Mem α} {h : Heap} (hk : ∀ c, deref h p = some c → Mild (k c) h) : Mild (.readCell p k) h := by
  intro cs
  simp only [alone]
  cases hd : deref h p with
  | none => exact ⟨[], none, by simp⟩
  | some c => exact hk c hd cs

theorem Spares.readCell {p : Ptr} {k : Cell → Mem α} {h : Heap} (hk : ∀ c, deref h p = some c → Spares (k c) h) : Spares (.readCell p k) h := by
  intro cs
  simp only [alone]
  cases hd : deref h p with
  | none => exact fun _ => ⟨[], by simp⟩
  | some c => exact hk c hd cs

theorem Mild.alloc {o : HObj} {k : Nat → Mem α} {h : Heap} (hk : Mild (k h.length) (h ++ [o])) : Mild (.alloc o k) h := by
  intro cs
  obtain ⟨junk, r, h1⟩ := hk cs
  exact ⟨o :: junk, r, by simp only [Mem.alone, h1]; simp⟩

theorem Spares.alloc {o : HObj} {k : Nat → Mem α} {h : Heap} (hk : Spares (k h.length) (h ++ [o])) : Spares (.alloc o k) h := by
  intro cs hc
  obtain ⟨junk, h1⟩ := hk cs hc
  exact ⟨o :: junk, by simp only [Mem.alone, h1]; simp⟩

/-- Something mild, and then something that spares. -/
theorem Mild.bind {t : Mem α} {f : α → Mem β} {h : Heap} (hm : Mild t h) (hf : ∀ junk x cs, t.alone h cs = (h ++ junk, cs, some x) → Spares (f x) (h ++ junk)) : Spares (t.bind f) h := by
  intro cs hc
  obtain ⟨junk, o, h1⟩ := hm cs
  rw [alone_then, h1] at hc ⊢
  cases o with
  | none => exact ⟨junk, rfl⟩
  | some x =>
    obtain ⟨junk', h2⟩ := hf junk x cs h1 cs hc
    exact ⟨junk ++ junk', by simp only [h2, List.append_assoc]⟩

/-- Something that spares, and then something that does not panic. -/
theorem Spares.bind {t : Mem α} {f : α → Mem β} {h : Heap} (hs : Spares t h) (hf : ∀ g c x cs, t.alone h cs = (g, c, some x) → ((f x).alone g c).2.2 ≠ none) : Spares (t.bind f) h := by
  intro cs hc
  rw [alone_then] at hc ⊢
  rcases h1 : t.alone h cs with ⟨g, c, o⟩
  rw [h1] at hc
  cases o with
  | none => have := hs cs (by rw [h1]); simpa [h1] using this
  | some x => exact absurd hc (hf g c x cs h1)

theorem getLoop_mild (path : List Bytes) (m : Option Nat) (h : Heap) : Mild (getLoopM m path) h := by
  induction path generalizing m with
  | nil => exact .ret _ _
  | cons k ks ih =>
    cases ks with
    | nil => exact .readMap (.ret _ _)
    | cons k2 ks =>
      refine .readMap ?_
      cases (mapOf h m).lookup k with
      | none => exact .ret _ _
      | some inner =>
        refine .readCell fun c _ => .readMap ?_
        split
        · exact .ret _ _
        · exact ih _

theorem get_mild (path : List Bytes) (e : Event) (h : Heap) : Mild (getM e path) h := by
  refine .readMap ?_
  split
  · exact .ret _ _
  · cases path with
    | nil => exact .alloc (.ret _ _)
    | cons k ks => exact getLoop_mild _ _ _

/-- A map that contains nothing but an object with this very map. -/
theorem putLoop_own {p : Ptr} {k : Bytes} : ∀ (path : List Bytes) {h : Heap} {m a : Nat}, h[m]? = some (.map [(k, some a)]) → h[a]? = some (.cell (objCell (some m))) →
    ∃ r, putLoop h (some m) path p = .ok r
  | [], h, m, a, _, _ => ⟨_, rfl⟩
  | [x], h, m, a, hm, _ => ⟨_, by simp only [putLoop, mapWrite, hm]; rfl⟩
  | x :: y :: path, h, m, a, hm, ha => by
    have hml := lt_of_getElem? hm
    by_cases hx : x = k
    · subst hx
      obtain ⟨r, hr⟩ := putLoop_own (y :: path) hm ha (p := p)
      exact ⟨r, by simp only [putLoop, mapOf, hm, AMap.lookup, if_true, deref, ha, objCell]; simpa using hr⟩
    · have h2m : (h ++ [HObj.map []] ++ [HObj.cell (objCell (some h.length))])[m]? = some (.map [(k, some a)]) := by
        rw [List.getElem?_append_left (by simp; omega), List.getElem?_append_left hml, hm]
      have hl : AMap.lookup [(k, some a)] x = none := by simp [AMap.lookup, Ne.symm hx, hx]
      simp only [putLoop, mapOf, hm, hl, Heap.alloc, mapWrite, h2m]
      obtain ⟨g, hg⟩ := putLoop_fresh (p := p) (y :: path) (m := h.length) (h := (h ++ [HObj.map []] ++ [HObj.cell (objCell (some h.length))]).set m (.map (AMap.insert [(k, some a)] x (some (h ++ [HObj.map []]).length))))
        (by rw [List.getElem?_set_ne (by omega)]; simp)
      exact ⟨_, hg⟩

theorem putLoop_spares (path : List Bytes) (m : Option Nat) (val : Ptr) (h : Heap) : Spares (putLoopM m path val) h := by
  induction path generalizing m h with
  | nil => exact .ret _ _
  | cons k ks ih =>
    cases ks with
    | nil =>
      intro cs hc
      simp only [putLoopM, alone] at hc ⊢
      cases hw : mapWrite h m k val with
      | panic => exact ⟨[], by simp⟩
      | ok h' => rw [hw] at hc; exact absurd hc (by simp)
    | cons k2 ks =>
      refine .readMap ?_
      cases hl : (mapOf h m).lookup k with
      | some inner =>
        refine .readCell fun c _ => ?_
        split
        · exact .ret _ _
        · exact ih _ _
      | none =>
        refine .alloc (.alloc ?_)
        intro cs hc
        simp only [alone] at hc ⊢
        cases hw : mapWrite (h ++ [HObj.map []] ++ [HObj.cell (objCell (some h.length))]) m k (some (h ++ [HObj.map []]).length) with
        | panic => exact ⟨[], by simp⟩
        | ok h3 =>
          rw [hw] at hc
          obtain ⟨a, es, h1, h2, rfl⟩ := mapWrite_ok hw
          have never : ∃ r, putLoop ((h ++ [HObj.map []] ++ [HObj.cell (objCell (some h.length))]).set a (.map (es.insert k (some (h ++ [HObj.map []]).length)))) (some h.length) (k2 :: ks) val = .ok r := by
            by_cases ha : a = h.length
            · subst ha
              have : es = [] := by simpa [List.append_assoc] using h2.symm
              subst this
              refine putLoop_own (k := k) (a := (h ++ [HObj.map []]).length) _ ?_ ?_
              · rw [List.getElem?_set_self (by simp)]; rfl
              · rw [List.getElem?_set_ne (by simp)]; simp
            · obtain ⟨g, hg⟩ := putLoop_fresh (p := val) (k2 :: ks) (m := h.length) (h := (h ++ [HObj.map []] ++ [HObj.cell (objCell (some h.length))]).set a (.map (es.insert k (some (h ++ [HObj.map []]).length))))
                (by rw [List.getElem?_set_ne ha]; simp)
              exact ⟨_, hg⟩
          obtain ⟨⟨g, b⟩, hr⟩ := never
          have h5 := putLoopM_runs (k2 :: ks) (some h.length) val ((h ++ [HObj.map []] ++ [HObj.cell (objCell (some h.length))]).set a (.map (es.insert k (some (h ++ [HObj.map []]).length))))
          rw [hr] at h5
          simp only at hc
          rw [alone_ok h5 cs] at hc
          exact absurd hc (by simp)

theorem putRest_spares (e : Event) (path : List Bytes) (val : Ptr) (ow : Bool) (h : Heap) : Spares (putM' e path val ow) h := by
  refine (get_mild path e h).bind fun junk old cs _ => ?_
  split
  · exact .ret _ _
  · refine (putLoop_spares path e val _).bind fun g c ok cs' _ => ?_
    cases ok <;> simp [alone]

theorem put_spares (e : Event) (path : List Bytes) (val : Ptr) (ow : Bool) (h : Heap) : Spares (putM e path val ow) h := by
  simp only [putM]
  split
  · exact .ret _ _
  · split
    · exact .ret _ _
    · cases e with
      | none => exact .alloc (putRest_spares _ _ _ _ _)
      | some m => exact putRest_spares _ _ _ _ _

theorem putThen_spares (e : Event) (key : Bytes) (v : Ptr) (h : Heap) : Spares (putThenM e key v) h :=
  (put_spares e _ v true h).bind fun g c x cs _ => by simp [alone]

theorem delete_spares (path : List Bytes) (e : Event) (h : Heap) : Spares (deleteM e path) h := by
  cases path with
  | nil => exact .ret _ _
  | cons k ks =>
    refine .readMap ?_
    split
    · exact .ret _ _
    · refine (get_mild _ e h).bind fun junk v cs _ => ?_
      split
      · intro cs hc; exact absurd hc (by simp [alone])
      · exact .ret _ _

/-- Appending, and nothing else. -/
theorem append_spares (a : Nat) (items : List Ptr) (x : α) (h : Heap) : Spares (.append a items (.ret x)) h := by
  intro cs hc
  simp only [alone] at hc ⊢
  cases hw : appendTo h a items with
  | panic => exact ⟨[], by simp⟩
  | ok h' => rw [hw] at hc; exact absurd hc (by simp)

/-- Storing into maps changes no `Value`. -/
theorem putLoop_cells : ∀ (path : List Bytes) {m : Option Nat} {val : Ptr} {h g : Heap} {b : Bool} {a : Nat} {c : Cell},
    putLoop h m path val = .ok (g, b) → h[a]? = some (.cell c) → g[a]? = some (.cell c)
  | [], m, val, h, g, b, a, c, hp, ha => by simp only [putLoop, Res.ok.injEq, Prod.mk.injEq] at hp; rw [← hp.1]; exact ha
  | [x], m, val, h, g, b, a, c, hp, ha => by
    simp only [putLoop] at hp
    cases hw : mapWrite h m x val with
    | panic => rw [hw] at hp; simp [Res.map] at hp
    | ok h' =>
      rw [hw] at hp
      simp only [Res.map, Res.ok.injEq, Prod.mk.injEq] at hp
      obtain ⟨i, es, h1, h2, rfl⟩ := mapWrite_ok hw
      rw [← hp.1, List.getElem?_set_ne (by rintro rfl; rw [h2] at ha; simp at ha)]
      exact ha
  | x :: y :: path, m, val, h, g, b, a, c, hp, ha => by
    simp only [putLoop] at hp
    cases hl : (mapOf h m).lookup x with
    | some inner =>
      rw [hl] at hp
      simp only at hp
      split at hp
      · cases hp
      · split at hp
        · simp only [Res.ok.injEq, Prod.mk.injEq] at hp; rw [← hp.1]; exact ha
        · exact putLoop_cells (y :: path) hp ha
    | none =>
      rw [hl] at hp
      simp only [Heap.alloc] at hp
      split at hp
      · cases hp
      · rename_i h3 hw
        obtain ⟨i, es, h1, h2, rfl⟩ := mapWrite_ok hw
        refine putLoop_cells (y :: path) hp ?_
        have hal := lt_of_getElem? ha
        have ha2 : (h ++ [HObj.map []] ++ [HObj.cell (objCell (some h.length))])[a]? = some (.cell c) := by
          rw [List.getElem?_append_left (by simp; omega), List.getElem?_append_left hal, ha]
        rw [List.getElem?_set_ne (by rintro rfl; rw [h2] at ha2; simp at ha2)]
        exact ha2

theorem get_cells {h g : Heap} {e : Event} {path : List Bytes} {p : Ptr} (hg : get h e path = .ok (g, p)) : ∃ junk, g = h ++ junk := by
  simp only [get] at hg
  split at hg
  · simp only [Res.ok.injEq, Prod.mk.injEq] at hg; exact ⟨[], by simp [hg.1]⟩
  · split at hg
    · simp only [Heap.alloc, Res.ok.injEq, Prod.mk.injEq] at hg; exact ⟨_, hg.1.symm⟩
    · cases hl : getLoop h e path with
      | panic => rw [hl] at hg; simp [Res.map] at hg
      | ok q => rw [hl] at hg; simp only [Res.map, Res.ok.injEq, Prod.mk.injEq] at hg; exact ⟨[], by simp [hg.1]⟩

theorem put_cells {h g : Heap} {e e' : Event} {path : List Bytes} {val old : Ptr} {ow : Bool} {err : Option PutErr} {a : Nat} {c : Cell}
    (hp : put h e path val ow = .ok (g, e', old, err)) (ha : h[a]? = some (.cell c)) : g[a]? = some (.cell c) := by
  have hal := lt_of_getElem? ha
  simp only [put] at hp
  split at hp
  · simp only [Res.ok.injEq, Prod.mk.injEq] at hp; rw [← hp.1]; exact ha
  split at hp
  · simp only [Res.ok.injEq, Prod.mk.injEq] at hp; rw [← hp.1]; exact ha
  have fin : ∀ {h1 : Heap} {e1 : Event}, h1[a]? = some (.cell c) → (match get h1 e1 path with
      | .panic => Res.panic
      | .ok (h, old) =>
        if old ≠ none ∧ ow = false then .ok (h, e1, old, some (PutErr.keyExists path))
        else match putLoop h e1 path val with
          | .panic => .panic
          | .ok (h', true) => .ok (h', e1, old, none)
          | .ok (h', false) => .ok (h', e1, none, some (PutErr.notObject path))) = .ok (g, e', old, err) → g[a]? = some (.cell c) := by
    intro h1 e1 h1a hp
    cases hg : get h1 e1 path with
    | panic => rw [hg] at hp; cases hp
    | ok q =>
      obtain ⟨g1, o1⟩ := q
      obtain ⟨junk, rfl⟩ := get_cells hg
      have h2a : (h1 ++ junk)[a]? = some (.cell c) := by rw [List.getElem?_append_left (lt_of_getElem? h1a), h1a]
      rw [hg] at hp
      simp only at hp
      split at hp
      · simp only [Res.ok.injEq, Prod.mk.injEq] at hp; rw [← hp.1]; exact h2a
      · split at hp
        · cases hp
        · rename_i hw; simp only [Res.ok.injEq, Prod.mk.injEq] at hp; rw [← hp.1]; exact putLoop_cells path hw h2a
        · rename_i hw; simp only [Res.ok.injEq, Prod.mk.injEq] at hp; rw [← hp.1]; exact putLoop_cells path hw h2a
  cases e with
  | none =>
    simp only [Heap.alloc] at hp
    exact fin (h1 := h ++ [.map []]) (by rw [List.getElem?_append_left hal, ha]) hp
  | some m => exact fin ha hp

theorem conv_spares (conv : Bytes → Bytes) (msg field target : Bytes) (e : Event) (h : Heap) : Spares (convM conv msg field target e) h := by
  refine (get_mild _ e h).bind fun junk p cs _ => ?_
  cases p with
  | none => exact .ret _ _
  | some a =>
    refine .readCell fun c _ => ?_
    split
    · exact .ret _ _
    · exact .alloc (putThen_spares _ _ _ _)

theorem set_spares (value : Nat) (copyFrom target : Bytes) (e : Event) (h : Heap) : Spares (setM value copyFrom target e) h := by
  refine .readCell fun c _ => ?_
  split
  · exact putThen_spares _ _ _ _
  · split
    · refine (get_mild _ e h).bind fun junk p cs _ => ?_
      cases p with
      | none => exact .ret _ _
      | some a => exact putThen_spares _ _ _ _
    · exact putThen_spares _ _ _ _

theorem append_proc_spares (field value : Bytes) (e : Event) (h : Heap) : Spares (appendM field value e) h := by
  refine (get_mild _ e h).bind fun junk p cs _ => ?_
  cases p with
  | none =>
    refine .alloc ((put_spares e _ _ true _).bind fun g c r cs' ha => ?_)
    have h1 := (ok_alone (putM_runs (keyToPath field) e (some (h ++ junk).length) true (h ++ junk ++ [.cell (arrCell none)])) ha).1
    have h2 := put_cells h1 (a := (h ++ junk).length) (c := arrCell none) (by simp)
    have h3 : (g ++ [HObj.cell (strCell value)])[(h ++ junk).length]? = some (.cell (arrCell none)) := by rw [List.getElem?_append_left (lt_of_getElem? h2), h2]
    simp only [alone, appendTo, deref]
    rw [h3]
    simp
  | some a =>
    refine .readCell fun c _ => ?_
    split
    · exact .alloc (.alloc (append_spares _ _ _ _))
    · split
      · exact .ret _ _
      · exact .alloc (append_spares _ _ _ _)

theorem builtin_spares (cv : Conv) (b : Builtin) (e : Event) (h : Heap) : Spares (b.mem cv e) h := by
  cases b with
  | lowercase f t => exact conv_spares _ _ _ _ _ _
  | uppercase f t => exact conv_spares _ _ _ _ _ _
  | set v c t => exact set_spares _ _ _ _ _
  | append f v d => exact append_proc_spares _ _ _ _
  | remove fs => exact .ret _ _
  | communityId => exact .ret _ _

end AllOrNothing

open AllOrNothing

/-! ## The theorems about single calls -/

/-- **C106.** `Get`. -/
theorem get_all_or_nothing (h : Heap) (e : Event) (key : Bytes) : AllOrNothing (getM e (keyToPath key)) h (apiGet h e key) :=
  of_runs (getM_runs _ e h) (get_mild _ e h).spares

/-- **C106.** `Put` and `TryPut`. -/
theorem put_all_or_nothing (h : Heap) (e : Event) (key : Bytes) (v : Ptr) (overwrite : Bool) : AllOrNothing (putM e (keyToPath key) v overwrite) h (put h e (keyToPath key) v overwrite) :=
  of_runs (putM_runs _ e v overwrite h) (put_spares e _ v overwrite h)

/-- **C106.** `Delete`. -/
theorem delete_all_or_nothing (h : Heap) (e : Event) (key : Bytes) : AllOrNothing (deleteM e (keyToPath key)) h (apiDelete h e key) :=
  of_runs (deleteM_runs _ e h) (delete_spares _ e h)

/-- **C106.** The configured processors. -/
theorem builtin_all_or_nothing (cv : Conv) (b : Builtin) (h : Heap) (e : Event) : AllOrNothing (b.mem cv e) h (b.step cv h e) :=
  of_runs (builtin_runs cv b e h) (builtin_spares cv b e h)

/-! ### `eventutil.Append` -/

/-- From the reading of the item on. -/
def utilRestM (e : Event) (key : Bytes) (i t : Nat) : Mem (Event × Option PutErr) :=
  .readCell (some i) fun c =>
    Mem.bind (if (if c.type = .array then c.array.getD [] else [some i]) = [] then .ret () else .append t (if c.type = .array then c.array.getD [] else [some i]) (.ret ())) fun _ =>
    (putM e (keyToPath key) (some t) true).bind fun r => .ret (r.1, r.2.2)

/-- The same, of the function. -/
def utilRest (h : Heap) (e : Event) (key : Bytes) (i t : Nat) : Res (Heap × Event × Option PutErr) :=
  match deref h (some i) with
  | none => .panic
  | some c =>
    match (if (if c.type = .array then c.array.getD [] else [some i]) = [] then .ok h else appendTo h t (if c.type = .array then c.array.getD [] else [some i])) with
    | .panic => .panic
    | .ok h => (apiPut h e key (some t)).map fun (h, e, _, err) => (h, e, err)

theorem put_rest (h : Heap) (e : Event) (key : Bytes) (t : Nat) :
    AllOrNothing ((putM e (keyToPath key) (some t) true).bind fun r => .ret (r.1, r.2.2)) h ((apiPut h e key (some t)).map fun (h, e, _, err) => (h, e, err)) := by
  intro cs
  have h1 := put_all_or_nothing h e key (some t) true cs
  simp only [apiPut]
  cases hp : put h e (keyToPath key) (some t) true with
  | panic =>
    rw [hp] at h1
    obtain ⟨junk, h2⟩ := h1
    exact ⟨junk, by rw [alone_then, h2]⟩
  | ok q =>
    obtain ⟨g, e', old, err⟩ := q
    rw [hp] at h1
    simp only [EndsAs] at h1
    simp only [Res.map, EndsAs]
    rw [alone_then, h1]
    rfl

/-- With a new array as the target. -/
theorem util_fresh (h : Heap) (init : Option (List Ptr)) (e : Event) (key : Bytes) (i : Nat) (cs : Counters) :
    EndsAs (.alloc (.cell (arrCell init)) (utilRestM e key i)) h cs (utilRest (h ++ [.cell (arrCell init)]) e key i h.length) := by
  have fin : ∀ init' (t : Mem (Event × Option PutErr)), t.alone h cs = ((putM e (keyToPath key) (some h.length) true).bind fun r => .ret (r.1, r.2.2)).alone (h ++ [.cell (arrCell init')]) cs →
      EndsAs t h cs ((apiPut (h ++ [.cell (arrCell init')]) e key (some h.length)).map fun (h, e, _, err) => (h, e, err)) := by
    intro init' t ht
    have h1 := put_rest (h ++ [.cell (arrCell init')]) e key h.length cs
    cases hp : (apiPut (h ++ [.cell (arrCell init')]) e key (some h.length)).map fun (h, e, _, err) => (h, e, err) with
    | panic =>
      rw [hp] at h1
      obtain ⟨junk, h2⟩ := h1
      exact ⟨.cell (arrCell init') :: junk, by rw [ht, h2]; simp⟩
    | ok q => rw [hp] at h1; exact ht.trans h1
  simp only [utilRest]
  cases hd : deref (h ++ [.cell (arrCell init)]) (some i) with
  | none => exact ⟨_, by simp only [alone, utilRestM, hd]; rfl⟩
  | some c =>
    simp only
    by_cases hi : (if c.type = .array then c.array.getD [] else [some i]) = []
    · simp only [hi, if_true]
      refine fin init _ ?_
      simp only [alone, utilRestM, hd, hi, if_true, alone_then]
    · simp only [hi, if_false]
      have h2 : appendTo (h ++ [HObj.cell (arrCell init)]) h.length (if c.type = .array then c.array.getD [] else [some i]) =
          .ok (h ++ [.cell (arrCell (some (init.getD [] ++ (if c.type = .array then c.array.getD [] else [some i]))))]) := by
        simp [appendTo, deref, arrCell]
      rw [h2]
      refine fin _ _ ?_
      simp only [alone, utilRestM, hd, hi, if_false, alone_then, h2]

/-- A `Value` that is an array stays an object of the same type, with the same map, when elements are appended. -/
theorem appendTo_mapOf {h g : Heap} {a : Nat} {items : List Ptr} (ha : appendTo h a items = .ok g) (m : Option Nat) : mapOf g m = mapOf h m := by
  simp only [appendTo] at ha
  cases hd : deref h (some a) with
  | none => rw [hd] at ha; cases ha
  | some c =>
    rw [hd] at ha
    simp only [Res.ok.injEq] at ha
    subst ha
    obtain ⟨b, hb, hc⟩ := deref_eq hd
    cases hb
    cases m with
    | none => rfl
    | some m =>
      simp only [mapOf]
      by_cases hm : a = m
      · subst hm
        rw [hc, List.getElem?_set_self (lt_of_getElem? hc)]
      · rw [List.getElem?_set_ne hm]

theorem appendTo_map {h g : Heap} {a : Nat} {items : List Ptr} (ha : appendTo h a items = .ok g) {m : Nat} {es : AMap Ptr} (hm : h[m]? = some (.map es)) : g[m]? = some (.map es) := by
  simp only [appendTo] at ha
  cases hd : deref h (some a) with
  | none => rw [hd] at ha; cases ha
  | some c =>
    rw [hd] at ha
    simp only [Res.ok.injEq] at ha
    subst ha
    obtain ⟨b, hb, hc⟩ := deref_eq hd
    cases hb
    rw [List.getElem?_set_ne (by rintro rfl; rw [hc] at hm; simp at hm)]
    exact hm

theorem appendTo_deref {h g : Heap} {a : Nat} {items : List Ptr} (ha : appendTo h a items = .ok g) {p : Ptr} {c : Cell} (hp : deref h p = some c) :
    ∃ c', deref g p = some c' ∧ c'.type = c.type ∧ c'.object = c.object := by
  simp only [appendTo] at ha
  cases hd : deref h (some a) with
  | none => rw [hd] at ha; cases ha
  | some d =>
    rw [hd] at ha
    simp only [Res.ok.injEq] at ha
    subst ha
    obtain ⟨b, hb, hc⟩ := deref_eq hd
    cases hb
    obtain ⟨p, rfl, hq⟩ := deref_eq hp
    by_cases hm : a = p
    · subst hm
      rw [hc] at hq
      simp only [Option.some.injEq, HObj.cell.injEq] at hq
      subst hq
      exact ⟨{ d with array := some (d.array.getD [] ++ items) }, by simp only [deref]; rw [List.getElem?_set_self (lt_of_getElem? hc)], rfl, rfl⟩
    · exact ⟨c, by simp only [deref]; rw [List.getElem?_set_ne hm, hq], rfl, rfl⟩

/-- Where `Get` found something, `Put` does not panic, although elements were appended somewhere in between. -/
theorem found_then_put {h g : Heap} {b : Nat} {items : List Ptr} (hb : appendTo h b items = .ok g) (v : Ptr) : ∀ (path : List Bytes) {m : Option Nat} {a : Nat},
    getLoop h m path = .ok (some a) → getLoop g m path = .ok (some a) ∧ putLoop g m path v ≠ .panic
  | [], m, a, hg => by simp [getLoop] at hg
  | [x], m, a, hg => by
    simp only [getLoop] at hg ⊢
    refine ⟨by rw [appendTo_mapOf hb]; exact hg, ?_⟩
    simp only [putLoop]
    cases m with
    | none => simp [mapOf, AMap.lookup] at hg
    | some m =>
      simp only [mapOf] at hg
      split at hg
      · rename_i es hm
        simp [mapWrite, appendTo_map hb hm, Res.map]
      · simp [AMap.lookup] at hg
  | x :: y :: path, m, a, hg => by
    simp only [getLoop] at hg
    cases hl : (mapOf h m).lookup x with
    | none => rw [hl] at hg; simp at hg
    | some inner =>
      rw [hl] at hg
      simp only at hg
      cases hd : deref h inner with
      | none => rw [hd] at hg; simp at hg
      | some c =>
        rw [hd] at hg
        simp only at hg
        split at hg
        · simp at hg
        · rename_i hne
          obtain ⟨c', h1, h2, h3⟩ := appendTo_deref hb hd
          obtain ⟨h4, h5⟩ := found_then_put hb v (y :: path) hg
          simp only [getLoop, putLoop, appendTo_mapOf hb, hl, h1, h3, hne, if_false]
          refine ⟨h4, ?_⟩
          split
          · simp
          · exact h5

/-- With the array that is in the event as the target. -/
theorem util_there {h : Heap} {e : Event} {key : Bytes} {i a : Nat} {c0 : Cell} (hg : apiGet h e key = .ok (h, some a)) (hc0 : deref h (some a) = some c0) : AllOrNothing (utilRestM e key i a) h (utilRest h e key i a) := by
  intro cs
  simp only [utilRest]
  cases hd : deref h (some i) with
  | none => exact ⟨[], by simp [alone, utilRestM, hd]⟩
  | some c =>
    simp only
    by_cases hi : (if c.type = .array then c.array.getD [] else [some i]) = []
    · simp only [hi, if_true]
      have h1 := put_rest h e key a cs
      have ht : (utilRestM e key i a).alone h cs = ((putM e (keyToPath key) (some a) true).bind fun r => .ret (r.1, r.2.2)).alone h cs := by
        simp only [alone, utilRestM, hd, hi, if_true, alone_then]
      revert h1
      cases (apiPut h e key (some a)).map fun (h, e, _, err) => (h, e, err) with
      | panic => rintro ⟨junk, h2⟩; exact ⟨junk, ht.trans h2⟩
      | ok q => exact fun h1 => ht.trans h1
    · simp only [hi, if_false]
      cases hap : appendTo h a (if c.type = .array then c.array.getD [] else [some i]) with
      | panic => simp [appendTo, hc0] at hap
      | ok g =>
        have h1 := put_rest g e key a cs
        have ht : (utilRestM e key i a).alone h cs = ((putM e (keyToPath key) (some a) true).bind fun r => .ret (r.1, r.2.2)).alone g cs := by
          simp only [alone, utilRestM, hd, hi, if_false, alone_then, hap]
        simp only
        cases hp : (apiPut g e key (some a)).map fun (h, e, _, err) => (h, e, err) with
        | ok q => rw [hp] at h1; exact ht.trans h1
        | panic =>
          exfalso
          simp only [apiPut, put] at hp
          simp only [apiGet, get] at hg
          split at hp
          · simp [Res.map] at hp
          · rename_i hne
            simp only [reduceCtorEq, if_false] at hp
            split at hg
            · simp at hg
            · rename_i hl
              cases hk : keyToPath key with
              | nil => simp [hk] at hne
              | cons k ks =>
                cases e with
                | none => simp [mapOf] at hl
                | some m =>
                  rw [hk] at hp hg
                  have hg : (getLoop h (some m) (k :: ks)).map (h, ·) = .ok (h, some a) := hg
                  cases hgl : getLoop h (some m) (k :: ks) with
                  | panic => rw [hgl] at hg; simp [Res.map] at hg
                  | ok p =>
                    rw [hgl] at hg
                    simp only [Res.map, Res.ok.injEq, Prod.mk.injEq, true_and] at hg
                    subst hg
                    obtain ⟨h4, h5⟩ := found_then_put hap (some a) (k :: ks) hgl
                    simp only [get, appendTo_mapOf hap, hl, if_false, h4, Res.map] at hp
                    cases hpl : putLoop g (some m) (k :: ks) (some a) with
                    | panic => exact h5 hpl
                    | ok r => obtain ⟨g', b⟩ := r; rw [hpl] at hp; cases b <;> simp at hp

theorem utilAppend_none {h g : Heap} {e : Event} {key : Bytes} (i : Nat) (hg : apiGet h e key = .ok (g, none)) :
    utilAppend h e key (some i) = utilRest (g ++ [.cell (arrCell none)]) e key i g.length := by
  simp only [utilAppend, hg, Heap.alloc, utilRest]
  cases deref (g ++ [.cell (arrCell none)]) (some i) <;> rfl

theorem utilAppend_some {h g : Heap} {e : Event} {key : Bytes} {a : Nat} (i : Nat) (hg : apiGet h e key = .ok (g, some a)) :
    utilAppend h e key (some i) = match deref g (some a) with
      | none => .panic
      | some c => if c.type ≠ .array then utilRest (g ++ [.cell (arrCell (some [some a]))]) e key i g.length else utilRest g e key i a := by
  simp only [utilAppend, hg]
  cases deref g (some a) with
  | none => rfl
  | some c =>
    by_cases hc : c.type ≠ .array
    · simp only [hc, ite_true, Heap.alloc, utilRest, ne_eq, not_false_eq_true]
      cases deref (g ++ [.cell (arrCell (some [some a]))]) (some i) <;> rfl
    · simp only [hc, ite_false, utilRest]
      cases deref g (some i) <;> rfl

theorem utilAppend_panic {h : Heap} {e : Event} {key : Bytes} (i : Nat) (hg : apiGet h e key = .panic) : utilAppend h e key (some i) = .panic := by
  simp only [utilAppend, hg]

/-- **C106.** `eventutil.Append`. -/
theorem util_all_or_nothing (h : Heap) (e : Event) (key : Bytes) (item : Ptr) : AllOrNothing (utilAppendM e key item) h (utilAppend h e key item) := by
  intro cs
  cases item with
  | none => rfl
  | some i =>
    have hg := get_all_or_nothing h e key cs
    cases hget : apiGet h e key with
    | panic =>
      rw [hget] at hg
      obtain ⟨junk, hj⟩ := hg
      rw [utilAppend_panic i hget]
      exact ⟨junk, by simp only [utilAppendM, alone_then, hj]⟩
    | ok q =>
      obtain ⟨g, old⟩ := q
      rw [hget] at hg
      simp only [EndsAs] at hg
      obtain ⟨junk, rfl⟩ := get_cells hget
      have lift : ∀ {t : Mem (Event × Option PutErr)} {r : Res (Heap × Event × Option PutErr)}, (utilAppendM e key (some i)).alone h cs = t.alone (h ++ junk) cs → EndsAs t (h ++ junk) cs r → EndsAs (utilAppendM e key (some i)) h cs r := by
        intro t r ht hr
        cases r with
        | panic => obtain ⟨j, hj⟩ := hr; exact ⟨junk ++ j, by rw [ht, hj, List.append_assoc]⟩
        | ok q => exact ht.trans hr
      cases old with
      | none =>
        rw [utilAppend_none i hget]
        refine lift ?_ (util_fresh (h ++ junk) none e key i cs)
        simp only [utilAppendM, alone_then, hg, Mem.bind]
        rfl
      | some a =>
        rw [utilAppend_some i hget]
        cases hd : deref (h ++ junk) (some a) with
        | none => exact ⟨junk, by simp only [utilAppendM, alone_then, hg, Mem.bind, alone, hd]⟩
        | some c =>
          by_cases hc : c.type ≠ .array
          · simp only [hc, ite_true, ne_eq, not_false_eq_true]
            refine lift ?_ (util_fresh (h ++ junk) (some [some a]) e key i cs)
            simp only [utilAppendM, alone_then, hg, Mem.bind, alone, hd, hc, ite_true, ne_eq, not_false_eq_true, utilRestM]
          · simp only [hc, ite_false]
            have hsame : h ++ junk = h := by
              simp only [apiGet, get] at hget
              split at hget
              · simp at hget
              · cases hk : keyToPath key with
                | nil =>
                  rw [hk] at hget
                  simp only [Heap.alloc, Res.ok.injEq, Prod.mk.injEq, List.append_cancel_left_eq, Option.some.injEq] at hget
                  obtain ⟨h1, h2⟩ := hget
                  subst h1 h2
                  simp [deref] at hd
                  subst hd
                  simp [objCell] at hc
                | cons k ks =>
                  rw [hk] at hget
                  have hget : (getLoop h e (k :: ks)).map (h, ·) = .ok (h ++ junk, some a) := hget
                  cases hl : getLoop h e (k :: ks) with
                  | panic => rw [hl] at hget; simp [Res.map] at hget
                  | ok p => rw [hl] at hget; simp only [Res.map, Res.ok.injEq, Prod.mk.injEq] at hget; exact hget.1.symm
            rw [hsame] at hget hd hg ⊢
            have h1 := util_there (i := i) hget hd cs
            have ht : (utilAppendM e key (some i)).alone h cs = (utilRestM e key i a).alone h cs := by
              simp only [utilAppendM, alone_then, hg, Mem.bind, alone, hd, hc, ite_false, utilRestM]
            revert h1
            cases utilRest h e key i a with
            | panic => rintro ⟨j, hj⟩; exact ⟨j, ht.trans hj⟩
            | ok q => exact fun h1 => ht.trans h1

/-! ## A whole pipeline -/

/-- **C106.** When a call of a pipeline of the configured processors panics, it leaves what the processors that had finished did, and nothing of the one that panicked. -/
theorem pipeline_crash (cv : Conv) {X : Type} (t : Thr Builtin (Option Err) X) (h : Heap) (e : Event) (cs : Counters) :
    match t.attempt (builtinCall cv) (fun _ w _ => w) () (h, e) cs with
    | (w, cs', none) => ∃ junk, (t.mem cv e).alone h cs = (w.1 ++ junk, cs', none)
    | (w, cs', some x) => (t.mem cv e).alone h cs = (w.1, cs', some (w.2, x)) := by
  induction t generalizing h e cs with
  | ret x => rfl
  | inc id k next ih => exact ih h e (cs.inc id k)
  | call b next ih =>
    have hb := builtin_all_or_nothing cv b h e cs
    simp only [Thr.attempt, Thr.mem, alone_then, builtinCall]
    cases hs : b.step cv h e with
    | panic =>
      rw [hs] at hb
      obtain ⟨junk, hj⟩ := hb
      exact ⟨junk, by rw [hj]⟩
    | ok q =>
      obtain ⟨g, e', r⟩ := q
      rw [hs] at hb
      simp only [EndsAs] at hb
      rw [hb]
      exact ih r g e' cs

section
variable {A R Ev W X : Type} {call : Ev → W → A → Res (W × R)} {left : Ev → W → A → W}

theorem thr_attempt_run (t : Thr A R X) (ev : Ev) (w : W) (cs : Counters) :
    match t.run call ev w cs with
    | .panic => (t.attempt call left ev w cs).2.2 = none
    | .ok (w', cs', x) => t.attempt call left ev w cs = (w', cs', some x) := by
  induction t generalizing w cs with
  | ret x => rfl
  | inc id k next ih => exact ih w (cs.inc id k)
  | call a next ih =>
    simp only [Thr.run, Thr.attempt]
    cases call ev w a with
    | panic => rfl
    | ok q => exact ih q.2 q.1 cs

/-- **C106.** A call that does not panic is the call of the other theorems; no `on_failure` and no `ignore_failure` turns a panic into something else. -/
theorem attempt_process (p : Pipeline A R) (evt : Ev) (w : W) (cs : Counters) (log : List Invocation) :
    match p.process call evt ⟨w, cs, log⟩ with
    | .panic => (p.attempt call left evt w cs).2.2 = none
    | .ok (w', r) => p.attempt call left evt w cs = (w'.world, w'.counts, some r) := by
  have h1 := thr_attempt_run (call := call) (left := left) (p.thr evt) evt w cs
  rw [pipeline_thr_run p evt w cs log] at h1
  unfold Pipeline.attempt
  cases hp : p.process call evt ⟨w, cs, log⟩ with
  | panic => rw [hp] at h1; exact h1
  | ok q => rw [hp] at h1; exact h1

/-! ### The counters -/

theorem Ended.refl (cs : Counters) : Ended cs cs [] := fun id => ⟨0, 0, by simp⟩

theorem Ended.trans {a b c : Counters} {l m : List Bytes} (h1 : Ended a b l) (h2 : Ended b c m) : Ended a c (l ++ m) := by
  intro id
  obtain ⟨s, e, hb⟩ := h1 id
  obtain ⟨s', e', hc⟩ := h2 id
  refine ⟨s + s', e + e', ?_⟩
  rw [hc, hb, List.count_append]
  simp only [Counts.mk.injEq]
  refine ⟨?_, ?_, ?_, trivial⟩ <;> omega

theorem Ended.received (cs : Counters) (i : Bytes) : Ended cs (cs.inc i .received) [i] := by
  intro id
  refine ⟨0, 0, ?_⟩
  by_cases h : id = i
  · subst h; simp [Counters.inc, Counts.inc]
  · simp [Counters.inc, h, Ne.symm h]

/-- The end of an invocation. -/
theorem Ended.close {a b : Counters} {i : Bytes} {k : Kind} (h : Ended (a.inc i .received) b []) (hk : k = .sent ∨ k = .errors) : Ended a (b.inc i k) [] := by
  intro id
  obtain ⟨s, e, hb⟩ := h id
  by_cases hi : id = i
  · subst hi
    rcases hk with rfl | rfl
    · exact ⟨s + 1, e, by simp [Counters.inc, hb, Counts.inc]; omega⟩
    · exact ⟨s, e + 1, by simp [Counters.inc, hb, Counts.inc]; omega⟩
  · exact ⟨s, e, by simp [Counters.inc, hi, hb]⟩

theorem prog_attempt (p : Prog A R) (ev : PEvent Ev) (w : W) (cs : Counters) (k : PEvent Ev → Option Err → Thr A R X) :
    match p.run call ev w with
    | .panic => ∃ w', (p.thr ev k).attempt call left ev.data w cs = (w', cs, none)
    | .ok (ev', w', e) => (p.thr ev k).attempt call left ev.data w cs = (k ev' e).attempt call left ev.data w' cs := by
  induction p generalizing ev w with
  | done e => rfl
  | cancel p ih => exact ih ev.cancel w
  | drop p ih => exact ih ev.drop w
  | call a p ih =>
    simp only [Prog.run, Prog.thr, Thr.attempt]
    cases call ev.data w a with
    | panic => exact ⟨_, rfl⟩
    | ok q => exact ih q.2 ev q.1

theorem Opened.mono {ns ms : List (Node A R)} {path : List Bytes} (h : Opened call ns path) (hs : ∀ n ∈ ns, n ∈ ms) : Opened call ms path := by
  cases h with
  | here hn hp => exact .here (hs _ hn) hp
  | inside hn hp ho => exact .inside (hs _ hn) hp ho

/-- Either it panics inside, or goes on with `k`. -/
def Goes (call : Ev → W → A → Res (W × R)) (left : Ev → W → A → W) (ns : List (Node A R)) (t : Thr A R X) (ev : PEvent Ev) (w : W) (cs : Counters) (k : PEvent Ev → Option Err → Thr A R X) : Prop :=
  (∃ w' cs' path, t.attempt call left ev.data w cs = (w', cs', none) ∧ Opened call ns path ∧ Ended cs cs' path) ∨
  ∃ ev' w' cs' e, t.attempt call left ev.data w cs = (k ev' e).attempt call left ev.data w' cs' ∧ Ended cs cs' [] ∧ ev'.dropped = ev.dropped ∧ ev'.data = ev.data

mutual
theorem node_goes (n : Node A R) (ev : PEvent Ev) (w : W) (cs : Counters) (k : PEvent Ev → Option Err → Thr A R X) (hd : ev.dropped = false) : Goes call left [n] (n.thr ev k) ev w cs k := by
  match n with
  | .mk id cond ignF ignM onF proc =>
    simp only [Goes, Node.thr, Thr.attempt]
    generalize hk' : (fun (ev : PEvent Ev) (err : Option Err) =>
      match err with
      | none => Thr.inc id .sent (k ev none)
      | some err =>
        if ev.dropped then .inc id .discarded (k ev none)
        else if ignM && err.isMissing then .inc id .sent (k ev none)
        else Node.thrAll onF ev (some err) fun ev err' =>
          if ignF && err'.isSome then .inc id .sent (k ev none)
          else .inc id .errors (k ev err')) = k'
    have h1 := prog_attempt (call := call) (left := left) proc ev w (cs.inc id .received) k'
    cases hr : proc.run call ev w with
    | panic =>
      rw [hr] at h1
      obtain ⟨w', h2⟩ := h1
      exact .inl ⟨w', _, [id], h2, .here (n := .mk id cond ignF ignM onF proc) (by simp) hr, Ended.received cs id⟩
    | ok q =>
      obtain ⟨ev1, w1, e1⟩ := q
      rw [hr] at h1
      simp only at h1
      obtain ⟨hd1, hda1⟩ := run_dropped hr
      rw [hd] at hd1
      rw [h1, ← hk']
      have hre : Ended (cs.inc id .received) (cs.inc id .received) [] := .refl _
      cases e1 with
      | none => exact .inr ⟨ev1, w1, _, none, rfl, hre.close (.inl rfl), by rw [hd1, hd], hda1⟩
      | some err =>
        simp only [hd1]
        by_cases hm : (ignM && err.isMissing) = true
        · rw [if_neg (by decide), if_pos hm]
          exact .inr ⟨ev1, w1, _, none, rfl, hre.close (.inl rfl), by rw [hd1, hd], hda1⟩
        · rw [if_neg (by decide), if_neg hm]
          have h2 := thrAll_goes onF ev1 (some err) w1 (cs.inc id .received) (fun ev err' => if ignF && err'.isSome then Thr.inc id .sent (k ev none) else Thr.inc id .errors (k ev err')) hd1
          simp only [Goes, hda1] at h2
          rcases h2 with ⟨w', cs', path, h3, h4, h5⟩ | ⟨ev2, w2, cs2, e2, h3, h4, h5, h6⟩
          · refine .inl ⟨w', cs', id :: path, h3, .inside (n := .mk id cond ignF ignM onF proc) (by simp) hr h4, ?_⟩
            exact (Ended.received cs id).trans h5
          · rw [h3]
            by_cases hf : (ignF && e2.isSome) = true
            · rw [if_pos hf]
              exact .inr ⟨ev2, w2, _, none, rfl, h4.close (.inl rfl), by rw [h5, hd1, hd], h6⟩
            · rw [if_neg hf]
              exact .inr ⟨ev2, w2, _, e2, rfl, h4.close (.inr rfl), by rw [h5, hd1, hd], h6⟩
theorem thrAll_goes (ns : List (Node A R)) (ev : PEvent Ev) (e : Option Err) (w : W) (cs : Counters) (k : PEvent Ev → Option Err → Thr A R X) (hd : ev.dropped = false) : Goes call left ns (Node.thrAll ns ev e k) ev w cs k := by
  match ns with
  | [] => exact .inr ⟨ev, w, cs, e, rfl, .refl _, rfl, rfl⟩
  | n :: ns =>
    simp only [Goes, Node.thrAll]
    rcases node_goes n ev w cs (fun ev err => match err with
      | some err => k ev (some err)
      | none => Node.thrAll ns ev none k) hd with ⟨w', cs', path, h3, h4, h5⟩ | ⟨ev2, w2, cs2, e2, h3, h4, h5, h6⟩
    · exact .inl ⟨w', cs', path, h3, h4.mono (by simp), h5⟩
    · cases e2 with
      | some err => exact .inr ⟨ev2, w2, cs2, some err, h3, h4, h5, h6⟩
      | none =>
        have h7 := thrAll_goes ns ev2 none w2 cs2 k (h5.trans hd)
        simp only [Goes, h6] at h7
        rcases h7 with ⟨w', cs', path, h8, h9, h10⟩ | ⟨ev3, w3, cs3, e3, h8, h9, h10, h11⟩
        · exact .inl ⟨w', cs', path, h3.trans h8, h9.mono (fun m hm => by simp [hm]), by simpa using h4.trans h10⟩
        · exact .inr ⟨ev3, w3, cs3, e3, h3.trans h8, by simpa using h4.trans h9, h10.trans h5, h11⟩
end

theorem attempt_counters (p : Pipeline A R) (evt : Ev) (w : W) (cs : Counters) :
    (∃ w' cs' path, p.attempt call left evt w cs = (w', cs', none) ∧ (Opened call p.processors path ∨ Opened call p.onFailure path) ∧ Ended cs cs' path) ∨
    ∃ w' cs' r, p.attempt call left evt w cs = (w', cs', some r) ∧ Ended cs cs' [] := by
  unfold Pipeline.attempt Pipeline.thr
  have fin : ∀ (ev : PEvent Ev) (w : W) (cs : Counters) (e : Option Err), ∃ r, (finish (A := A) (R := R) ev e).attempt call left evt w cs = (w, cs, some r) := by
    intro ev w cs e
    cases e <;> exact ⟨_, rfl⟩
  rcases thrAll_goes (call := call) (left := left) p.processors ({ data := evt } : PEvent Ev) none w cs p.afterProcessors rfl with ⟨w', cs', path, h3, h4, h5⟩ | ⟨ev2, w2, cs2, e2, h3, h4, h5, h6⟩
  · exact .inl ⟨w', cs', path, h3, .inl h4, h5⟩
  · simp only at h3 h5 h6
    rw [h3]
    cases e2 with
    | none =>
      obtain ⟨r, hr⟩ := fin ev2 w2 cs2 none
      exact .inr ⟨w2, cs2, r, hr, h4⟩
    | some err =>
      simp only [Pipeline.afterProcessors]
      by_cases hl : p.onFailure.length > 0
      · simp only [hl, if_true]
        have h7 := thrAll_goes (call := call) (left := left) p.onFailure ev2 (some err) w2 cs2 finish h5
        simp only [Goes, h6] at h7
        rcases h7 with ⟨w', cs', path, h8, h9, h10⟩ | ⟨ev3, w3, cs3, e3, h8, h9, h10, h11⟩
        · exact .inl ⟨w', cs', path, h8, .inr h9, by simpa using h4.trans h10⟩
        · obtain ⟨r, hr⟩ := fin ev3 w3 cs3 e3
          exact .inr ⟨w3, cs3, r, by rw [h8, hr], by simpa using h4.trans h9⟩
      · simp only [hl, if_false]
        obtain ⟨r, hr⟩ := fin ev2 w2 cs2 (some err)
        exact .inr ⟨w2, cs2, r, hr, h4⟩

/-- **C106.** Over any history of calls, some of which panicked (and the caller went on): each panic leaves open one invocation of the processor that panicked and one of each processor whose `on_failure` was running, and everything else that was
received has been sent or has failed. -/
theorem attempts_counters (p : Pipeline A R) (es : List Ev) (w : W) (cs : Counters) : ∃ (w' : W) (cs' : Counters) (rs : List (Option (Option Ev × Option Err))) (opens : List (List Bytes)),
    p.attempts call left es w cs = (w', cs', rs) ∧ rs.length = es.length ∧ opens.length = rs.countP Option.isNone ∧
    (∀ path ∈ opens, Opened call p.processors path ∨ Opened call p.onFailure path) ∧ Ended cs cs' opens.flatten := by
  induction es generalizing w cs with
  | nil => exact ⟨w, cs, [], [], rfl, rfl, rfl, by simp, .refl _⟩
  | cons e es ih =>
    simp only [Pipeline.attempts]
    rcases attempt_counters (call := call) (left := left) p e w cs with ⟨w1, cs1, path, h1, h2, h3⟩ | ⟨w1, cs1, r, h1, h2⟩
    · rw [h1]
      obtain ⟨w2, cs2, rs, opens, h4, h5, h6, h7, h8⟩ := ih w1 cs1
      simp only [h4]
      refine ⟨w2, cs2, none :: rs, path :: opens, rfl, by simp [h5], by simp [h6], ?_, ?_⟩
      · intro q hq
        rcases List.mem_cons.mp hq with rfl | hq
        · exact h2
        · exact h7 q hq
      · simpa using h3.trans h8
    · rw [h1]
      obtain ⟨w2, cs2, rs, opens, h4, h5, h6, h7, h8⟩ := ih w1 cs1
      simp only [h4]
      refine ⟨w2, cs2, some r :: rs, opens, rfl, by simp [h5], ?_, h7, ?_⟩
      · simp [h6]
      · simpa using h2.trans h8

theorem visit_sublist {n : Node A R} : ∀ {ns : List (Node A R)}, n ∈ ns → (n.visit.map Node.id).Sublist ((Node.visitAll ns).map Node.id)
  | m :: ns, hn => by
    simp only [Node.visitAll, List.map_append]
    rcases List.mem_cons.mp hn with rfl | hn
    · exact List.sublist_append_left _ _
    · exact (visit_sublist hn).trans (List.sublist_append_right _ _)

theorem Opened.sublist {ns : List (Node A R)} {path : List Bytes} (h : Opened call ns path) : path.Sublist ((Node.visitAll ns).map Node.id) := by
  induction h with
  | @here ns n ev w hn hp =>
    refine List.Sublist.trans ?_ (visit_sublist hn)
    obtain ⟨id, c, f, m, o, p⟩ := n
    simp [Node.visit, Node.id]
  | @inside ns n path ev ev' w w' err hn hp ho ih =>
    refine List.Sublist.trans ?_ (visit_sublist hn)
    obtain ⟨id, c, f, m, o, p⟩ := n
    simp only [Node.visit, Node.id, List.map_cons]
    exact List.Sublist.cons_cons _ ih

/-- **C106.** In a pipeline made by `New` each panic counts at most once for a processor: what it received is what it sent, what failed, and at most as many as there were panics. -/
theorem attempts_built {C : Type} {F : Factory A R C} {c : Config C} {p : Pipeline A R} (hn : Pipeline.new F c = .ok (.ok p)) (es : List Ev) (w : W) (cs : Counters) (id : Bytes) :
    ∃ sent errors stuck : Nat, stuck ≤ (p.attempts call left es w cs).2.2.countP Option.isNone ∧
      (p.attempts call left es w cs).2.1 id = ⟨(cs id).received + sent + errors + stuck, (cs id).sent + sent, (cs id).errors + errors, (cs id).discarded⟩ := by
  obtain ⟨w', cs', rs, opens, h1, _, h3, h4, h5⟩ := attempts_counters (call := call) (left := left) p es w cs
  obtain ⟨sent, errors, h6⟩ := h5 id
  refine ⟨sent, errors, opens.flatten.count id, ?_, by rw [h1]; exact h6⟩
  rw [h1]
  simp only
  rw [← h3]
  have hu := component_ids_unique hn
  rw [List.map_append, List.nodup_append] at hu
  have one : ∀ path ∈ opens, path.count id ≤ 1 := by
    intro path hp
    rcases h4 path hp with ho | ho
    · exact List.nodup_iff_count.mp (hu.1.sublist ho.sublist) id
    · exact List.nodup_iff_count.mp (hu.2.1.sublist ho.sublist) id
  clear h1 h3 h4 h5 h6
  induction opens with
  | nil => simp
  | cons path opens ih =>
    have h1 := one path (by simp)
    have h2 := ih fun q hq => one q (by simp [hq])
    simp only [List.flatten_cons, List.count_append, List.length_cons]
    omega

end

/-! ## What stays -/

/-- **C106.** After a panic every event that owned its contents owns them still, and every event holds what it held; so all that is proved about them applies to what is done next. -/
theorem crash_keeps {α : Type} {t : Mem α} {h : Heap} {cs : Counters} (ha : EndsAs t h cs .panic) :
    ∃ g, t.alone h cs = (g, cs, none) ∧ (∀ (a : Nat) o, h[a]? = some o → g[a]? = some o) ∧ (∀ f, Owns h f → Owns g f) ∧ ∀ e F, Holds h e F → Holds g e F := by
  obtain ⟨junk, hj⟩ := ha
  refine ⟨h ++ junk, hj, fun a o ho => by rw [List.getElem?_append_left (lt_of_getElem? ho), ho], fun f o => o.frame (frame_alloc h junk) (by simp), fun e F hF => ?_⟩
  cases F with
  | none => exact hF
  | some es =>
    obtain ⟨m, ps, rfl, hm, hr⟩ := hF
    exact ⟨m, ps, rfl, by rw [List.getElem?_append_left (lt_of_getElem? hm), hm], reads_appendE es hr⟩

/-- **C106.** The first `Put` into an event from `event.New` never panics: an event that a call panics on keeps its map. -/
theorem put_new_returns (h : Heap) (path : List Bytes) (v : Ptr) (overwrite : Bool) : put h none path v overwrite ≠ .panic := by
  simp only [put]
  split
  · simp
  split
  · simp
  simp only [Heap.alloc]
  have hm : (h ++ [HObj.map []])[h.length]? = some (.map []) := by simp
  have hg : get (h ++ [HObj.map []]) (some h.length) path = .ok (h ++ [HObj.map []], none) := by
    simp [get, mapOf]
  obtain ⟨g, hp⟩ := putLoop_fresh (p := v) path hm
  rw [hg]
  simp [hp]

/-! ## Samples -/

/-- `m` is a string, `a` a nil `*Value`. -/
def crashHeap : Heap := [.cell (strCell (lit "X")), .map [(lit "a", none), (lit "m", some 0)]]

/-- Lowercases `m`, then fails for `z`, whose `on_failure` writes to `a.b`. -/
def crashPipeline : Pipeline Builtin (Option Err) where
  id := lit "p"
  processors := [
    .mk (lit "p0") [] false false [] (Builtin.lowercase (lit "m") []).prog,
    .mk (lit "p1") [] false false [.mk (lit "p2") [] false false [] (Builtin.lowercase (lit "m") (lit "a.b")).prog] (Builtin.lowercase (lit "z") []).prog,
    .mk (lit "p3") [] false false [] (Builtin.lowercase (lit "m") []).prog]
  onFailure := []

/-- The first processor has finished, the second one and its `on_failure` are open, the last one has not begun; the call leaves a new string that nothing refers to. -/
theorem crash_sample :
    ((crashPipeline.thr ()).mem asciiConv (some 1)).alone crashHeap noCounts =
      ([.cell (strCell (lit "X")), .map [(lit "a", none), (lit "m", some 2)], .cell (strCell (lit "x")), .cell (strCell (lit "x"))], (crashPipeline.attempt (builtinCall asciiConv) (fun _ w _ => w) () (crashHeap, some 1) noCounts).2.1, none) ∧
    (crashPipeline.attempt (builtinCall asciiConv) (fun _ w _ => w) () (crashHeap, some 1) noCounts).1 = ([.cell (strCell (lit "X")), .map [(lit "a", none), (lit "m", some 2)], .cell (strCell (lit "x"))], some 1) ∧
    ([lit "p0", lit "p1", lit "p2", lit "p3"].map (crashPipeline.attempt (builtinCall asciiConv) (fun _ w _ => w) () (crashHeap, some 1) noCounts).2.1) = [⟨1, 1, 0, 0⟩, ⟨1, 0, 0, 0⟩, ⟨1, 0, 0, 0⟩, ⟨0, 0, 0, 0⟩] := by
  refine ⟨?_, ?_, ?_⟩ <;> rfl

end Sawmill
