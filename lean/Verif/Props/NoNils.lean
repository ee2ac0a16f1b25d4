import Verif.Spec.NoNils
import Verif.Props.Cost
import Verif.Props.Cycle
import Verif.Props.Plan
import Verif.Props.PipelineNew
import Verif.Props.ProgSamples
/-!
# C104: memory without nil values never makes anything crash
-/

namespace Sawmill

theorem isValue_iff {h : Heap} {p : Ptr} : IsValue h p ↔ ∃ a c, p = some a ∧ h[a]? = some (.cell c) := by
  constructor
  · rintro ⟨c, hc⟩
    cases p with
    | none => simp [deref] at hc
    | some a =>
      refine ⟨a, c, rfl, ?_⟩
      simp only [deref] at hc
      split at hc <;> simp_all
  · rintro ⟨a, c, rfl, hc⟩; exact ⟨c, by simp [deref, hc]⟩

theorem newest (h : Heap) (c : Cell) : IsValue (h ++ [.cell c]) (some h.length) := isValue_iff.mpr ⟨h.length, c, rfl, by simp⟩

theorem Later.refl (h : Heap) : Later h h := ⟨fun _ h => h, fun _ h => h⟩

theorem Later.trans {a b c : Heap} (h1 : Later a b) (h2 : Later b c) : Later a c := ⟨fun p h => h2.values p (h1.values p h), fun m h => h2.maps m (h1.maps m h)⟩

theorem getElem?_left {h : Heap} {a : Nat} {o o' : HObj} (ha : h[a]? = some o) : (h ++ [o'])[a]? = some o := by
  rw [List.getElem?_append_left]; · exact ha
  · exact (List.getElem?_eq_some_iff.mp ha).1

theorem Later.alloc (h : Heap) (o : HObj) : Later h (h ++ [o]) := by
  refine ⟨fun p hp => ?_, fun m ⟨es, hm⟩ => ⟨es, getElem?_left hm⟩⟩
  obtain ⟨a, c, rfl, hc⟩ := isValue_iff.mp hp
  exact isValue_iff.mpr ⟨a, c, rfl, getElem?_left hc⟩

theorem Later.setCell {h : Heap} {a : Nat} {c c' : Cell} (ha : h[a]? = some (.cell c)) : Later h (h.set a (.cell c')) := by
  have hlt := (List.getElem?_eq_some_iff.mp ha).1
  refine ⟨fun p hp => ?_, fun m ⟨es, hm⟩ => ⟨es, ?_⟩⟩
  · obtain ⟨b, d, rfl, hd⟩ := isValue_iff.mp hp
    by_cases hab : a = b
    · subst hab; exact isValue_iff.mpr ⟨a, c', rfl, by simp [hlt]⟩
    · exact isValue_iff.mpr ⟨b, d, rfl, by rw [List.getElem?_set_ne hab]; exact hd⟩
  · by_cases hab : a = m
    · subst hab; rw [ha] at hm; simp at hm
    · rw [List.getElem?_set_ne hab]; exact hm

theorem Later.setMap {h : Heap} {a : Nat} {es es' : AMap Ptr} (ha : h[a]? = some (.map es)) : Later h (h.set a (.map es')) := by
  have hlt := (List.getElem?_eq_some_iff.mp ha).1
  refine ⟨fun p hp => ?_, fun m ⟨fs, hm⟩ => ?_⟩
  · obtain ⟨b, d, rfl, hd⟩ := isValue_iff.mp hp
    by_cases hab : a = b
    · subst hab; rw [ha] at hd; simp at hd
    · exact isValue_iff.mpr ⟨b, d, rfl, by rw [List.getElem?_set_ne hab]; exact hd⟩
  · by_cases hab : a = m
    · subst hab; exact ⟨es', by simp [hlt]⟩
    · exact ⟨fs, by rw [List.getElem?_set_ne hab]; exact hm⟩

/-- What a new object must satisfy. -/
def Good (h : Heap) : HObj → Prop
  | .cell c => (∀ ps, c.array = some ps → ∀ q ∈ ps, IsValue h q) ∧ (c.type = .object → ∃ m, c.object = some m) ∧ (∀ m, c.object = some m → IsMap h m)
  | .map es => ∀ e ∈ es, IsValue h e.2

theorem Good.mono {h h' : Heap} (hl : Later h h') : ∀ {o : HObj}, Good h o → Good h' o
  | .cell _, ⟨h1, h2, h3⟩ => ⟨fun ps hp q hq => hl.values q (h1 ps hp q hq), h2, fun m hm => hl.maps m (h3 m hm)⟩
  | .map _, hg => fun e he => hl.values _ (hg e he)

theorem noNils_iff {h : Heap} : NoNils h ↔ ∀ (a : Nat) (o : HObj), h[a]? = some o → Good h o := by
  constructor
  · intro hn a o ho
    cases o with
    | cell c => exact ⟨fun ps hp => hn.items a c ps ho hp, hn.objects a c ho, fun m => hn.maps a c m ho⟩
    | map es => exact hn.entries a es ho
  · intro hg
    exact ⟨fun a c ps ha hp => (hg a _ ha).1 ps hp, fun m es hm => hg m _ hm, fun a c ha => (hg a _ ha).2.1, fun a c m ha => (hg a _ ha).2.2 m⟩

theorem NoNils.alloc {h : Heap} (hn : NoNils h) {o : HObj} (ho : Good (h ++ [o]) o) : NoNils (h ++ [o]) := by
  refine noNils_iff.mpr fun a o' ha => ?_
  by_cases hlt : a < h.length
  · rw [List.getElem?_append_left hlt] at ha
    exact (noNils_iff.mp hn a o' ha).mono (Later.alloc h o)
  · have hlen := (List.getElem?_eq_some_iff.mp ha).1
    simp at hlen
    have : a = h.length := by omega
    subst this
    simp at ha; subst ha; exact ho

theorem NoNils.set {h : Heap} (hn : NoNils h) {a : Nat} {o : HObj} (hl : Later h (h.set a o)) (ho : Good h o) : NoNils (h.set a o) := by
  refine noNils_iff.mpr fun b o' hb => ?_
  by_cases hab : a = b
  · subst hab
    have hlt := (List.getElem?_eq_some_iff.mp hb).1
    simp at hlt
    simp [hlt] at hb; subst hb; exact ho.mono hl
  · rw [List.getElem?_set_ne hab] at hb
    exact (noNils_iff.mp hn b o' hb).mono hl

theorem mapOf_values {h : Heap} (hn : NoNils h) {m : Option Nat} : ∀ e ∈ mapOf h m, IsValue h e.2 := by
  intro e he
  cases m with
  | none => simp [mapOf] at he
  | some m =>
    simp only [mapOf] at he
    split at he
    · rename_i es hm; exact hn.entries m es hm e he
    · simp at he

theorem insert_values {h : Heap} (es : AMap Ptr) {k : Bytes} {p : Ptr} (he : ∀ e ∈ es, IsValue h e.2) (hp : IsValue h p) : ∀ e ∈ es.insert k p, IsValue h e.2 := by
  induction es with
  | nil => intro e h1; simp [AMap.insert] at h1; subst h1; exact hp
  | cons x es ih =>
    obtain ⟨k', v'⟩ := x
    simp only [AMap.insert]
    have ih := ih fun e h1 => he e (by simp [h1])
    have hx := he (k', v') (by simp)
    intro e h1
    split at h1
    · simp only [List.mem_cons] at h1; rcases h1 with rfl | h1
      · exact hp
      · exact he e (by simp [h1])
    · split at h1
      · simp only [List.mem_cons] at h1; rcases h1 with rfl | rfl | h1
        · exact hp
        · exact hx
        · exact he e (by simp [h1])
      · simp only [List.mem_cons] at h1; rcases h1 with rfl | h1
        · exact hx
        · exact ih e h1

theorem erase_sub (es : AMap Ptr) (k : Bytes) : ∀ e ∈ es.erase k, e ∈ es := by
  induction es with
  | nil => simp [AMap.erase]
  | cons x es ih =>
    obtain ⟨k', v'⟩ := x
    simp only [AMap.erase]
    intro e he
    split at he
    · exact List.mem_cons_of_mem _ (ih e he)
    · simp only [List.mem_cons] at he ⊢; rcases he with rfl | he
      · left; rfl
      · right; exact ih e he

theorem lookup_mem {es : AMap Ptr} {k : Bytes} {p : Ptr} (h : es.lookup k = some p) : (k, p) ∈ es := by
  induction es with
  | nil => simp [AMap.lookup] at h
  | cons x es ih =>
    obtain ⟨k', v'⟩ := x
    simp only [AMap.lookup] at h
    split at h
    · rename_i hk; simp at h; subst h; subst hk; simp
    · exact List.mem_cons_of_mem _ (ih h)

/-- The memory afterwards: as good as before, and later. -/
def Fine (h h' : Heap) : Prop := NoNils h' ∧ Later h h'

theorem Fine.trans {a b c : Heap} (h1 : Fine a b) (h2 : Fine b c) : Fine a c := ⟨h2.1, h1.2.trans h2.2⟩

theorem NoNils.fine {h : Heap} (hn : NoNils h) : Fine h h := ⟨hn, Later.refl h⟩

theorem NoNils.allocFine {h : Heap} (hn : NoNils h) {o : HObj} (ho : Good (h ++ [o]) o) : Fine h (h ++ [o]) := ⟨hn.alloc ho, Later.alloc h o⟩

theorem mapWrite_fine {h : Heap} (hn : NoNils h) {m : Nat} (hm : IsMap h m) {k : Bytes} {p : Ptr} (hp : IsValue h p) : Returns (Fine h) (mapWrite h (some m) k p) := by
  obtain ⟨es, hes⟩ := hm
  simp only [mapWrite, hes, Returns]
  have hl : Later h (h.set m (.map (es.insert k p))) := Later.setMap hes
  exact ⟨hn.set hl (insert_values es (hn.entries m es hes) hp), hl⟩

theorem mapDelete_fine {h : Heap} (hn : NoNils h) {m : Option Nat} {k : Bytes} : Fine h (mapDelete h m k) := by
  cases m with
  | none => exact hn.fine
  | some m =>
    simp only [mapDelete]
    split
    · rename_i es hes
      have hl : Later h (h.set m (.map (es.erase k))) := Later.setMap hes
      exact ⟨hn.set hl fun e he => hn.entries m es hes e (erase_sub es k e he), hl⟩
    · exact hn.fine

theorem getLoop_fine {h : Heap} (hn : NoNils h) : ∀ (path : List Bytes) (m : Option Nat), Returns (fun p => p ≠ none → IsValue h p) (getLoop h m path)
  | [], m => by simp [getLoop, Returns]
  | [last], m => by
    simp only [getLoop, Returns]
    cases hl : (mapOf h m).lookup last with
    | none => simp
    | some p => intro _; exact mapOf_values hn _ (lookup_mem hl)
  | key :: k2 :: rest, m => by
    simp only [getLoop]
    split
    · simp [Returns]
    · rename_i inner hl
      obtain ⟨c, hc⟩ := mapOf_values hn _ (lookup_mem hl)
      simp only at hc
      simp only [hc]
      split
      · simp [Returns]
      · exact getLoop_fine hn (k2 :: rest) c.object

theorem get_fine {h : Heap} (hn : NoNils h) {e : Event} (he : IsEvent h e) (path : List Bytes) :
    Returns (fun r => Fine h r.1 ∧ (r.2 ≠ none → IsValue r.1 r.2) ∧ (path ≠ [] → r.1 = h)) (get h e path) := by
  unfold get
  split
  · exact ⟨hn.fine, by simp, fun _ => rfl⟩
  · rename_i hne
    split
    · have hg : Good (h ++ [.cell (objCell e)]) (.cell (objCell e)) := by
        refine ⟨by simp [objCell], fun _ => ?_, fun m hm => ?_⟩
        · cases e with
          | none => simp [mapOf] at hne
          | some m => exact ⟨m, rfl⟩
        · simp only [objCell] at hm; exact (Later.alloc h _).maps m (he m hm)
      refine ⟨hn.allocFine hg, fun _ => isValue_iff.mpr ⟨h.length, objCell e, rfl, by simp [Heap.alloc]⟩, fun hp => absurd rfl hp⟩
    · have := getLoop_fine hn path e
      cases hl : getLoop h e path with
      | panic => simp [hl, Returns] at this
      | ok p =>
        simp only [hl, Returns] at this
        exact ⟨hn.fine, this, fun _ => rfl⟩

theorem putLoop_fine {v : Ptr} : ∀ (path : List Bytes) {h : Heap} (_ : NoNils h) {m : Nat} (_ : IsMap h m) (_ : IsValue h v), Returns (fun r => Fine h r.1) (putLoop h (some m) path v)
  | [], h, hn, m, hm, hv => hn.fine
  | [last], h, hn, m, hm, hv => by
    have := mapWrite_fine hn hm (k := last) hv
    simp only [putLoop]
    cases hw : mapWrite h (some m) last v with
    | panic => simp [hw, Returns] at this
    | ok g => simp only [hw, Returns] at this; exact this
  | key :: k2 :: rest, h, hn, m, hm, hv => by
    simp only [putLoop]
    split
    · rename_i inner hl
      obtain ⟨c, hc⟩ := mapOf_values hn _ (lookup_mem hl)
      simp only at hc
      simp only [hc]
      split
      · exact hn.fine
      · rename_i ht
        simp only [ne_eq, Decidable.not_not] at ht
        obtain ⟨a, d, rfl, hd⟩ := isValue_iff.mp ⟨c, hc⟩
        have hcd : d = c := by simpa [deref, hd] using hc
        subst hcd
        obtain ⟨m', hm'⟩ := hn.objects a d hd ht
        rw [hm']
        exact putLoop_fine (k2 :: rest) hn (hn.maps a d m' hd hm') hv
    · have f1 : Fine h (h ++ [.map []]) := hn.allocFine (by intro e he; simp at he)
      have m1 : IsMap (h ++ [.map []]) h.length := ⟨[], by simp⟩
      have f2 : Fine (h ++ [.map []]) (h ++ [.map []] ++ [.cell (objCell (some h.length))]) := f1.1.allocFine (by
        refine ⟨by simp [objCell], fun _ => ⟨_, rfl⟩, fun k hk => ?_⟩
        simp only [objCell, Option.some.injEq] at hk; subst hk
        exact (Later.alloc _ _).maps _ m1)
      have v2 : IsValue (h ++ [.map []] ++ [.cell (objCell (some h.length))]) (some (h ++ [HObj.map []]).length) := isValue_iff.mpr ⟨_, objCell (some h.length), rfl, by simp⟩
      have f12 := f1.trans f2
      have := mapWrite_fine f12.1 (f12.2.maps m hm) (k := key) v2
      simp only [Heap.alloc]
      cases hw : mapWrite (h ++ [.map []] ++ [.cell (objCell (some h.length))]) (some m) key (some (h ++ [HObj.map []]).length) with
      | panic => rw [hw] at this; exact this.elim
      | ok h3 =>
        rw [hw] at this
        simp only [Returns] at this
        have f3 := f12.trans this
        have := putLoop_fine (k2 :: rest) f3.1 (this.2.maps _ (f2.2.maps _ m1)) (f3.2.values _ hv)
        simp only
        cases hp : putLoop h3 (some h.length) (k2 :: rest) v with
        | panic => simp [hp, Returns] at this
        | ok r => simp only [hp, Returns] at this ⊢; exact f3.trans this

theorem put_fine_some {h : Heap} (hn : NoNils h) {m : Nat} (hm : IsMap h m) {path : List Bytes} {v : Ptr} (hv : v ≠ none → IsValue h v) (ow : Bool) :
    Returns (fun r => Fine h r.1 ∧ IsEvent r.1 r.2.1 ∧ (r.2.2.1 ≠ none → IsValue r.1 r.2.2.1)) (put h (some m) path v ow) := by
  have he : ∀ {h'}, Fine h h' → IsEvent h' (some m) := fun hf k hk => by cases hk; exact hf.2.maps m hm
  unfold put
  split
  · exact ⟨hn.fine, he hn.fine, by simp⟩
  · rename_i hpath
    have hne : path ≠ [] := by intro hh; simp [hh] at hpath
    split
    · exact ⟨hn.fine, he hn.fine, by simp⟩
    · rename_i hv0
      have hv := hv hv0
      have hg := get_fine hn (he hn.fine) path
      simp only
      cases hget : get h (some m) path with
      | panic => simp [hget, Returns] at hg
      | ok r =>
        obtain ⟨g, old⟩ := r
        simp only [hget, Returns] at hg
        obtain ⟨hf, hold, hgh⟩ := hg
        have hgh := hgh hne
        subst hgh
        simp only
        split
        · exact ⟨hf, he hf, hold⟩
        · have hp := putLoop_fine path hn hm hv
          cases hput : putLoop g (some m) path v with
          | panic => simp [hput, Returns] at hp
          | ok r =>
            obtain ⟨h', b⟩ := r
            simp only [hput, Returns] at hp
            cases b with
            | true => exact ⟨hp, he hp, fun hh => hp.2.values _ (hold hh)⟩
            | false => exact ⟨hp, he hp, by simp⟩

theorem put_fine {h : Heap} (hn : NoNils h) {e : Event} (he : IsEvent h e) {path : List Bytes} {v : Ptr} (hv : v ≠ none → IsValue h v) (ow : Bool) :
    Returns (fun r => Fine h r.1 ∧ IsEvent r.1 r.2.1 ∧ (r.2.2.1 ≠ none → IsValue r.1 r.2.2.1)) (put h e path v ow) := by
  cases e with
  | some m => exact put_fine_some hn (he m rfl) hv ow
  | none =>
    have f1 : Fine h (h ++ [.map []]) := hn.allocFine (by intro e he; simp at he)
    by_cases hpath : path = []
    · subst hpath; simp only [put, List.length_nil, if_true]; exact ⟨hn.fine, he, by simp⟩
    · by_cases hv0 : v = none
      · subst hv0; simp only [put, List.length_eq_zero_iff, hpath, if_false, if_true]; exact ⟨hn.fine, he, by simp⟩
      · have heq : put h none path v ow = put (h ++ [.map []]) (some h.length) path v ow := by simp [put, hpath, hv0, Heap.alloc]
        rw [heq]
        have := put_fine_some (path := path) f1.1 (m := h.length) ⟨[], by simp⟩ (v := v) (fun hh => f1.2.values _ (hv hh)) ow
        cases hp : put (h ++ [.map []]) (some h.length) path v ow with
        | panic => simp [hp, Returns] at this
        | ok r => simp only [hp, Returns] at this ⊢; exact ⟨f1.trans this.1, this.2⟩

theorem delete_fine {h : Heap} (hn : NoNils h) {e : Event} (he : IsEvent h e) (path : List Bytes) : Returns (fun r => Fine h r.1 ∧ (r.2 ≠ none → IsValue r.1 r.2)) (delete h e path) := by
  unfold delete
  split
  · exact ⟨hn.fine, by simp⟩
  · rename_i first rest
    split
    · exact ⟨hn.fine, by simp⟩
    · have hg := get_fine hn he (first :: rest)
      cases hget : get h e (first :: rest) with
      | panic => rw [hget] at hg; exact hg.elim
      | ok r =>
        obtain ⟨g, v⟩ := r
        rw [hget] at hg
        obtain ⟨hf, hv, _⟩ := hg
        simp only at hf hv ⊢
        split
        · have := mapDelete_fine hf.1 (m := e) (k := first)
          exact ⟨hf.trans this, fun hh => this.2.values _ (hv hh)⟩
        · exact ⟨hf, hv⟩

theorem Returns.bind {α β : Type} {P : α → Prop} {Q : β → Prop} {x : Res α} {f : α → Res β} (hx : Returns P x) (hf : ∀ a, P a → Returns Q (f a)) :
    Returns Q (match (generalizing := false) x with
      | .panic => .panic
      | .ok a => f a) := by
  cases x with
  | panic => exact hx.elim
  | ok a => exact hf a hx

theorem Returns.mono {α : Type} {P Q : α → Prop} {x : Res α} (hx : Returns P x) (hf : ∀ a, P a → Q a) : Returns Q x := by
  cases x with
  | panic => exact hx
  | ok a => exact hf a hx

theorem Returns.map {α β : Type} {P : α → Prop} {Q : β → Prop} {x : Res α} {f : α → β} (hx : Returns P x) (hf : ∀ a, P a → Q (f a)) : Returns Q (x.map f) := by
  cases x with
  | panic => exact hx
  | ok a => exact hf a hx

/-- A value that is not an object, and without items. -/
theorem plain_good {h : Heap} {c : Cell} (ha : c.array = none) (ho : c.object = none) (ht : c.type ≠ .object) : Good h (.cell c) :=
  ⟨by simp [ha], fun hh => absurd hh ht, by simp [ho]⟩

theorem plain_fine {h : Heap} (hn : NoNils h) {c : Cell} (ha : c.array = none) (ho : c.object = none) (ht : c.type ≠ .object) :
    Fine h (h ++ [.cell c]) ∧ IsValue (h ++ [.cell c]) (some h.length) :=
  ⟨hn.allocFine (plain_good ha ho ht), isValue_iff.mpr ⟨h.length, c, rfl, by simp⟩⟩

theorem appendTo_fine {h : Heap} (hn : NoNils h) {a : Nat} (ha : IsValue h (some a)) {ps : List Ptr} (hps : ∀ p ∈ ps, IsValue h p) : Returns (Fine h) (appendTo h a ps) := by
  obtain ⟨b, c, hb, hc⟩ := isValue_iff.mp ha
  cases hb
  simp only [appendTo, deref, hc, Returns]
  have hl : Later h (h.set a (.cell { c with array := some (c.array.getD [] ++ ps) })) := Later.setCell hc
  have hg := noNils_iff.mp hn a _ hc
  refine ⟨hn.set hl ⟨fun qs hq q hm => ?_, hg.2.1, hg.2.2⟩, hl⟩
  simp only [Option.some.injEq] at hq; subst hq
  rcases List.mem_append.mp hm with hm | hm
  · cases hca : c.array with
    | none => simp [hca] at hm
    | some xs => simp only [hca, Option.getD_some] at hm; exact hg.1 xs hca q hm
  · exact hps q hm

/-! ## The event API -/

/-- What a call leaves: memory without nils in which everything is still there, and an event. -/
def Left (h h' : Heap) (e : Event) : Prop := NoNils h' ∧ Later h h' ∧ IsEvent h' e

theorem IsEvent.later {h h' : Heap} {e : Event} (he : IsEvent h e) (hl : Later h h') : IsEvent h' e := fun m hm => hl.maps m (he m hm)

/-- **C104.** In memory without nils, however values are shared and whether or not they contain themselves, `Get`, `Delete`, and `Put` and `TryPut` of a value (or of nil) return; what they return is nil or a value; and they leave memory without nils. -/
theorem api_returns {h : Heap} (hn : NoNils h) {e : Event} (he : IsEvent h e) (key : Bytes) {v : Ptr} (hv : v ≠ none → IsValue h v) :
    Returns (fun r => Left h r.1 e ∧ (r.2 ≠ none → IsValue r.1 r.2)) (apiGet h e key) ∧ Returns (fun r => Left h r.1 e ∧ (r.2 ≠ none → IsValue r.1 r.2)) (apiDelete h e key) ∧
    Returns (fun r => Left h r.1 r.2.1 ∧ (r.2.2.1 ≠ none → IsValue r.1 r.2.2.1)) (apiPut h e key v) ∧
    Returns (fun r => Left h r.1 r.2.1 ∧ (r.2.2.1 ≠ none → IsValue r.1 r.2.2.1)) (apiTryPut h e key v) :=
  ⟨(get_fine hn he _).mono fun _ hr => ⟨⟨hr.1.1, hr.1.2, he.later hr.1.2⟩, hr.2.1⟩, (delete_fine hn he _).mono fun _ hr => ⟨⟨hr.1.1, hr.1.2, he.later hr.1.2⟩, hr.2⟩,
   (put_fine hn he hv true).mono fun _ hr => ⟨⟨hr.1.1, hr.1.2, hr.2.1⟩, hr.2.2⟩, (put_fine hn he hv false).mono fun _ hr => ⟨⟨hr.1.1, hr.1.2, hr.2.1⟩, hr.2.2⟩⟩

theorem Left.trans {a b c : Heap} {e f : Event} (h1 : Left a b e) (h2 : Left b c f) : Left a c f := ⟨h2.1, h1.2.1.trans h2.2.1, h2.2.2⟩

theorem Fine.left {a b c : Heap} {f : Event} (h1 : Fine a b) (h2 : Left b c f) : Left a c f := ⟨h2.1, h1.2.trans h2.2.1, h2.2.2⟩

/-- **C104.** So does `eventutil.Append` of a value (or of nil). -/
theorem append_returns {h : Heap} (hn : NoNils h) {e : Event} (he : IsEvent h e) (key : Bytes) {v : Ptr} (hv : v ≠ none → IsValue h v) : Returns (fun r => Left h r.1 r.2.1) (utilAppend h e key v) := by
  cases v with
  | none => exact ⟨hn, Later.refl h, he⟩
  | some i =>
    have hv := hv (by simp)
    simp only [utilAppend]
    have hg := (api_returns hn he key (v := none) (by simp)).1
    cases hget : apiGet h e key with
    | panic => rw [hget] at hg; exact hg.elim
    | ok r =>
      obtain ⟨g, old⟩ := r
      rw [hget] at hg
      obtain ⟨⟨gn, gl, ge⟩, gv⟩ := hg
      simp only at gn gl ge gv ⊢
      -- the target
      suffices hs : ∀ (g' : Heap) (t : Nat), Fine g g' → IsValue g' (some t) →
          Returns (fun r => Left h r.1 r.2.1) (match some t, deref g' (some i) with
            | some t, some c =>
              let items := if c.type = .array then c.array.getD [] else [some i]
              match (if items = [] then .ok g' else appendTo g' t items) with
              | .panic => .panic
              | .ok h => (apiPut h e key (some t)).map fun (h, e, _, err) => (h, e, err)
            | _, _ => .panic) by
        cases old with
        | none =>
          have hp := plain_fine gn (c := arrCell none) rfl rfl (by simp [arrCell])
          exact hs _ _ hp.1 hp.2
        | some a =>
          have ha := gv (by simp)
          obtain ⟨c, hc⟩ := ha
          simp only [hc]
          by_cases ht : c.type = .array
          · simp only [ht, ne_eq, not_true_eq_false, if_false]
            exact hs _ _ gn.fine ⟨c, hc⟩
          · simp only [ne_eq, ht, not_false_eq_true, if_true]
            refine hs _ _ (gn.allocFine ⟨fun ps hp q hq => ?_, by simp [arrCell], by simp [arrCell]⟩) (newest g _)
            simp only [arrCell, Option.some.injEq] at hp; subst hp
            simp only [List.mem_singleton] at hq; subst hq
            exact (Later.alloc _ _).values _ ⟨c, hc⟩
      intro g' t hf ht
      have hi : IsValue g' (some i) := hf.2.values _ (gl.values _ hv)
      obtain ⟨c, hc⟩ := hi
      simp only [hc]
      have hitems : ∀ p ∈ (if c.type = .array then c.array.getD [] else [some i]), IsValue g' p := by
        intro p hp
        split at hp
        · obtain ⟨b, d, hb, hd⟩ := isValue_iff.mp ⟨c, hc⟩
          cases hb
          have : d = c := by simpa [deref, hd] using hc
          subst this
          cases hca : d.array with
          | none => simp [hca] at hp
          | some xs => simp only [hca, Option.getD_some] at hp; exact hf.1.items i d xs hd hca p hp
        · simp only [List.mem_singleton] at hp; subst hp; exact ⟨c, hc⟩
      have happ : Returns (Fine g') (if (if c.type = .array then c.array.getD [] else [some i]) = [] then .ok g' else appendTo g' t (if c.type = .array then c.array.getD [] else [some i])) := by
        generalize (if c.type = .array then c.array.getD [] else [some i]) = items at hitems
        by_cases hi0 : items = []
        · rw [if_pos hi0]; exact hf.1.fine
        · rw [if_neg hi0]; exact appendTo_fine hf.1 ht hitems
      cases hx : (if (if c.type = .array then c.array.getD [] else [some i]) = [] then .ok g' else appendTo g' t (if c.type = .array then c.array.getD [] else [some i]) : Res Heap) with
      | panic => rw [hx] at happ; exact happ.elim
      | ok g2 =>
        rw [hx] at happ
        simp only
        have hp := (api_returns happ.1 (ge.later (hf.2.trans happ.2)) key (v := some t) (fun _ => happ.2.values _ ht)).2.2.1
        exact hp.map fun r hr => ⟨hr.1.1, gl.trans (hf.2.trans (happ.2.trans hr.1.2.1)), hr.1.2.2⟩

/-! ## Processors -/

theorem putThen_returns {h : Heap} (hn : NoNils h) {e : Event} (he : IsEvent h e) (key : Bytes) {v : Ptr} (hv : v ≠ none → IsValue h v) : Returns (fun r => Left h r.1 r.2.1) (putThen h e key v) :=
  (api_returns hn he key hv).2.2.1.map fun _ hr => hr.1

theorem conv_returns {h : Heap} (hn : NoNils h) {e : Event} (he : IsEvent h e) (conv : Bytes → Bytes) (msg field target : Bytes) : Returns (fun r => Left h r.1 r.2.1) (convProcess conv msg field target h e) := by
  have hg := (api_returns hn he field (v := none) (by simp)).1
  unfold convProcess
  cases hget : apiGet h e field with
  | panic => rw [hget] at hg; exact hg.elim
  | ok r =>
    obtain ⟨g, old⟩ := r
    rw [hget] at hg
    obtain ⟨⟨gn, gl, ge⟩, gv⟩ := hg
    simp only at gn gl ge gv
    cases old with
    | none => exact ⟨gn, gl, ge⟩
    | some a =>
      obtain ⟨c, hc⟩ := gv (by simp)
      simp only [hc]
      split
      · exact ⟨gn, gl, ge⟩
      · have hp := plain_fine gn (c := strCell (conv c.string)) rfl rfl (by simp [strCell])
        refine (putThen_returns hp.1.1 (ge.later hp.1.2) _ (v := some g.length) fun _ => hp.2).mono fun r hr => ⟨hr.1, gl.trans (hp.1.2.trans hr.2.1), hr.2.2⟩

theorem step_returns {h : Heap} (hn : NoNils h) {e : Event} (he : IsEvent h e) (cv : Conv) {b : Builtin} (hb : b.Ready h) : Returns (fun r => Left h r.1 r.2.1) (b.step cv h e) := by
  cases b with
  | lowercase f t => exact conv_returns hn he _ _ _ _
  | uppercase f t => exact conv_returns hn he _ _ _ _
  | remove fs => exact ⟨hn, Later.refl h, he⟩
  | communityId => exact ⟨hn, Later.refl h, he⟩
  | set v cf t =>
    simp only [Builtin.Ready] at hb
    obtain ⟨c, hc⟩ := hb
    simp only [Builtin.step, setProcess, hc]
    split
    · exact putThen_returns hn he t fun _ => ⟨c, hc⟩
    · split
      · have hg := (api_returns hn he cf (v := none) (by simp)).1
        cases hget : apiGet h e cf with
        | panic => rw [hget] at hg; exact hg.elim
        | ok r =>
          obtain ⟨g, old⟩ := r
          rw [hget] at hg
          obtain ⟨⟨gn, gl, ge⟩, gv⟩ := hg
          simp only at gn gl ge gv
          cases old with
          | none => exact ⟨gn, gl, ge⟩
          | some a => exact (putThen_returns gn ge t gv).mono fun r hr => ⟨hr.1, gl.trans hr.2.1, hr.2.2⟩
      · exact putThen_returns hn he t (by simp)
  | append f value d =>
    simp only [Builtin.step, appendProcess]
    have hg := (api_returns hn he f (v := none) (by simp)).1
    cases hget : apiGet h e f with
    | panic => rw [hget] at hg; exact hg.elim
    | ok r =>
      obtain ⟨g, old⟩ := r
      rw [hget] at hg
      obtain ⟨⟨gn, gl, ge⟩, gv⟩ := hg
      simp only at gn gl ge gv
      -- the last two steps: a new string, added to the array at `v`
      have last : ∀ {g' : Heap} {e' : Event} {v : Nat}, Left h g' e' → IsValue g' (some v) →
          Returns (fun r => Left h r.1 r.2.1) ((appendTo (g' ++ [.cell (strCell value)]) v [some g'.length]).map (·, e', (none : Option Err))) := by
        intro g' e' v hl hv
        have hp := plain_fine hl.1 (c := strCell value) rfl rfl (by simp [strCell])
        refine (appendTo_fine hp.1.1 (hp.1.2.values _ hv) (ps := [some g'.length]) (by
          intro p hm; simp only [List.mem_singleton] at hm; subst hm; exact hp.2)).map fun x hx => ?_
        exact ⟨hx.1, hl.2.1.trans (hp.1.2.trans hx.2), hl.2.2.later (hp.1.2.trans hx.2)⟩
      cases old with
      | none =>
        simp only
        have hp := plain_fine gn (c := arrCell none) rfl rfl (by simp [arrCell])
        have hput := (api_returns hp.1.1 (ge.later hp.1.2) f (v := some g.length) fun _ => hp.2).2.2.1
        cases hput' : apiPut (g ++ [.cell (arrCell none)]) e f (some g.length) with
        | panic => rw [hput'] at hput; exact hput.elim
        | ok r =>
          obtain ⟨g2, e2, o, er⟩ := r
          rw [hput'] at hput
          obtain ⟨h2, _⟩ := hput
          simp only [Heap.alloc, hput']
          exact last ⟨h2.1, gl.trans (hp.1.2.trans h2.2.1), h2.2.2⟩ (h2.2.1.values _ hp.2)
      | some a =>
        obtain ⟨c, hc⟩ := gv (by simp)
        simp only [hc]
        split
        · have hf : Fine g (g ++ [.cell (arrCell (some [some a]))]) := gn.allocFine ⟨fun ps hp q hq => by
            simp only [arrCell, Option.some.injEq] at hp; subst hp
            simp only [List.mem_singleton] at hq; subst hq
            exact (Later.alloc _ _).values _ ⟨c, hc⟩, by simp [arrCell], by simp [arrCell]⟩
          exact last ⟨hf.1, gl.trans hf.2, ge.later hf.2⟩ (newest g _)
        · split
          · exact ⟨gn, gl, ge⟩
          · exact last ⟨gn, gl, ge⟩ ⟨c, hc⟩

/-! ## Pipelines: any processors -/

section
variable {A R Ev W : Type} {call : Ev → W → A → Res (W × R)} {I : W → Prop} {P : A → Prop}

theorem prog_returns (hc : ∀ ev w a, I w → P a → Returns (fun r => I r.1) (call ev w a)) : ∀ (pr : Prog A R), pr.Calls P → ∀ (ev : PEvent Ev) (w : W), I w → Returns (fun r => I r.2.1) (pr.run call ev w)
  | .done e, _, ev, w, hw => hw
  | .cancel k, hp, ev, w, hw => prog_returns hc k hp ev.cancel w hw
  | .drop k, hp, ev, w, hw => prog_returns hc k hp ev.drop w hw
  | .call a k, hp, ev, w, hw => by
    have h1 := hc ev.data w a hw hp.1
    simp only [Prog.run]
    cases hx : call ev.data w a with
    | panic => rw [hx] at h1; exact h1.elim
    | ok r =>
      obtain ⟨w', r⟩ := r
      rw [hx] at h1
      exact prog_returns hc (k r) (hp.2 r) ev w' h1

mutual
theorem node_returns (hc : ∀ ev w a, I w → P a → Returns (fun r => I r.1) (call ev w a)) : ∀ (n : Node A R), n.Calls P → ∀ (s : PState Ev W), I s.world → Returns (fun r => I r.1.world) (n.process call s)
  | .mk id c ignF ignM onF proc, hp, s, hw => by
    simp only [Node.Calls] at hp
    have h1 := prog_returns hc proc hp.1 s.ev s.world hw
    simp only [Node.process, PState.inc]
    cases hx : proc.run call s.ev s.world with
    | panic => rw [hx] at h1; exact h1.elim
    | ok r =>
      obtain ⟨ev, w, err⟩ := r
      rw [hx] at h1
      simp only [Returns] at h1
      cases err with
      | none => exact h1
      | some err =>
        simp only
        split
        · exact h1
        · split
          · exact h1
          · have h2 := nodes_returns hc onF hp.2 ⟨ev, w, s.counts.inc id .received, s.log⟩ (some err) h1
            cases hy : Node.processAll call onF ⟨ev, w, s.counts.inc id .received, s.log⟩ (some err) with
            | panic => rw [hy] at h2; exact h2.elim
            | ok r =>
              obtain ⟨s', err'⟩ := r
              rw [hy] at h2
              simp only [Returns] at h2
              simp only
              split <;> exact h2
theorem nodes_returns (hc : ∀ ev w a, I w → P a → Returns (fun r => I r.1) (call ev w a)) : ∀ (ns : List (Node A R)), Node.CallsAll P ns → ∀ (s : PState Ev W) (e0 : Option Err), I s.world →
    Returns (fun r => I r.1.world) (Node.processAll call ns s e0)
  | [], _, s, e0, hw => by simpa [Node.processAll, Returns] using hw
  | n :: ns, hp, s, e0, hw => by
    simp only [Node.CallsAll] at hp
    have h1 := node_returns hc n hp.1 s hw
    simp only [Node.processAll]
    cases hx : n.process call s with
    | panic => rw [hx] at h1; exact h1.elim
    | ok r =>
      obtain ⟨s', err⟩ := r
      rw [hx] at h1
      cases err with
      | some err => exact h1
      | none => exact nodes_returns hc ns hp.2 s' none h1
end

/-- **C104.** For processors of any kind: if each of their calls returns when `I` holds of the world, and `I` still holds afterwards, then `Process` returns and `I` still holds, whichever on_failure processors run. -/
theorem pipeline_returns (hc : ∀ ev w a, I w → P a → Returns (fun r => I r.1) (call ev w a)) {p : Pipeline A R} (hp : p.Calls P) (evt : Ev) (w : PWorld W) (hw : I w.world) :
    Returns (fun r => I r.1.world) (p.process call evt w) := by
  have hrun : Returns (fun r => I r.1.world) (p.run call ⟨{ data := evt }, w.world, w.counts, w.log⟩) := by
    unfold Pipeline.run
    have h1 := nodes_returns hc p.processors hp.1 ⟨{ data := evt }, w.world, w.counts, w.log⟩ none hw
    cases hx : Node.processAll call p.processors ⟨{ data := evt }, w.world, w.counts, w.log⟩ none with
    | panic => rw [hx] at h1; exact h1.elim
    | ok r =>
      obtain ⟨s, err⟩ := r
      rw [hx] at h1
      cases err with
      | none => exact h1
      | some err =>
        simp only
        split
        · exact nodes_returns hc p.onFailure hp.2 s (some err) h1
        · exact h1
  unfold Pipeline.process
  cases hx : p.run call ⟨{ data := evt }, w.world, w.counts, w.log⟩ with
  | panic => rw [hx] at hrun; exact hrun.elim
  | ok r =>
    obtain ⟨s, err⟩ := r
    rw [hx] at hrun
    cases err with
    | some err => exact hrun
    | none =>
      simp only
      split <;> exact hrun

end

/-! ## Pipelines of the repository's processors -/

theorem Builtin.Ready.later {h h' : Heap} (hl : Later h h') {b : Builtin} (hb : b.Ready h) : b.Ready h' := by
  cases b with
  | set v _ _ => exact hl.values _ hb
  | _ => trivial

/-- **C104.** In memory without nils, `Process` of a pipeline of the repository's processors returns, whatever is configured and whatever the event holds, and leaves memory without nils: it can be called again and again. -/
theorem process_no_panic {h : Heap} (hn : NoNils h) {e : Event} (he : IsEvent h e) (cv : Conv) {p : Pipeline Builtin (Option Err)} (hp : p.Calls (Builtin.Ready h)) (counts : Counters) (log : List Invocation) :
    Returns (fun r => Left h r.1.world.1 r.1.world.2) (p.process (builtinCall cv) () ⟨(h, e), counts, log⟩) := by
  refine pipeline_returns (I := fun w => Left h w.1 w.2) (P := Builtin.Ready h) ?_ hp () ⟨(h, e), counts, log⟩ ⟨hn, Later.refl h, he⟩
  intro _ w b hw hb
  exact (step_returns hw.1 hw.2.2 cv (hb.later hw.2.1)).map fun r hr => hw.trans hr

theorem prog_calls_mono {A R : Type} {P Q : A → Prop} (hpq : ∀ a, P a → Q a) : ∀ (pr : Prog A R), pr.Calls P → pr.Calls Q
  | .done _, _ => trivial
  | .cancel k, h => prog_calls_mono hpq k h
  | .drop k, h => prog_calls_mono hpq k h
  | .call a k, h => ⟨hpq a h.1, fun r => prog_calls_mono hpq (k r) (h.2 r)⟩

mutual
theorem node_calls_mono {A R : Type} {P Q : A → Prop} (hpq : ∀ a, P a → Q a) : ∀ (n : Node A R), n.Calls P → n.Calls Q
  | .mk _ _ _ _ onF proc, h => by
    simp only [Node.Calls] at h ⊢
    exact ⟨prog_calls_mono hpq proc h.1, nodes_calls_mono hpq onF h.2⟩
theorem nodes_calls_mono {A R : Type} {P Q : A → Prop} (hpq : ∀ a, P a → Q a) : ∀ (ns : List (Node A R)), Node.CallsAll P ns → Node.CallsAll Q ns
  | [], _ => by simp only [Node.CallsAll]
  | n :: ns, h => by
    simp only [Node.CallsAll] at h ⊢
    exact ⟨node_calls_mono hpq n h.1, nodes_calls_mono hpq ns h.2⟩
end

theorem pipeline_calls_mono {A R : Type} {P Q : A → Prop} (hpq : ∀ a, P a → Q a) {p : Pipeline A R} (h : p.Calls P) : p.Calls Q := ⟨nodes_calls_mono hpq _ h.1, nodes_calls_mono hpq _ h.2⟩

/-! ## Pipelines that `New` returns -/

section
variable {A R C : Type} {F : Factory A R C} {P : A → Prop}

mutual
theorem mirrors_calls (hF : ∀ name config b, F.newProcessor name config = .ok (.ok b) → b.proc.Calls P) : ∀ {base : Bytes} {i : Nat} {c : ProcCfg C} {n : Node A R}, Mirrors F base i c n → n.Calls P
  | _, _, _, _, .mk _ hb hm => by
    obtain ⟨m, h1, _⟩ := hb
    simp only [Node.Calls]
    exact ⟨hF _ _ _ h1, mirrorsAll_calls hF hm⟩
theorem mirrorsAll_calls (hF : ∀ name config b, F.newProcessor name config = .ok (.ok b) → b.proc.Calls P) : ∀ {base : Bytes} {i : Nat} {cs : List (ProcCfg C)} {ns : List (Node A R)}, MirrorsAll F base i cs ns → Node.CallsAll P ns
  | _, _, _, _, .nil => by simp only [Node.CallsAll]
  | _, _, _, _, .cons h1 h2 => by
    simp only [Node.CallsAll]
    exact ⟨mirrors_calls hF h1, mirrorsAll_calls hF h2⟩
end

theorem new_calls (hF : ∀ name config b, F.newProcessor name config = .ok (.ok b) → b.proc.Calls P) {c : Config C} {p : Pipeline A R} (hp : Pipeline.new F c = .ok (.ok p)) : p.Calls P := by
  obtain ⟨_, _, h1, h2⟩ := new_iff.mp hp
  exact ⟨mirrorsAll_calls hF h1, mirrorsAll_calls hF h2⟩
end

/-- **C104.** A pipeline that `New` makes of any configuration, with the repository's processors, never panics in memory without nils. (That the options are filled in, with a value for each `set`, is up to go-ucfg.) -/
theorem new_no_panic {C : Type} {kinds : List ProcKind} {fill : ProcKind → C → Except Err Opts} {nilConfig : C} {pr : Nat → Bool} {r : Registry Opts (Built Builtin (Option Err))} (hk : kinds.Nodup)
    (hr : registerKinds [] kinds = .ok r) {h : Heap} (hn : NoNils h) (typed : ∀ k ∈ kinds, ∀ c o, fill k c = .ok o → o.kind = k)
    (values : ∀ k ∈ kinds, ∀ c v x t i m, fill k c = .ok (.set v x t i m) → IsValue h (some v)) {c : Config C} {p : Pipeline Builtin (Option Err)} (hp : Pipeline.new (registryFactory pr fill nilConfig r) c = .ok (.ok p)) :
    p.Calls (Builtin.Ready h) ∧ ∀ {h' : Heap} {e : Event}, NoNils h' → Later h h' → IsEvent h' e → ∀ (cv : Conv) (counts : Counters) (log : List Invocation),
      Returns (fun w => Left h' w.1.world.1 w.1.world.2) (p.process (builtinCall cv) () ⟨(h', e), counts, log⟩) := by
  have hc : p.Calls (Builtin.Ready h) := by
    refine new_calls (fun name config b hb => ?_) hp
    obtain ⟨r', e1, e2⟩ := registerKinds_spec kinds [] hk (fun k _ => rfl)
    rw [hr] at e1
    obtain rfl : r = r' := by simpa using e1
    simp only [registryFactory, Registry.newProcessor, e2] at hb
    cases hx : kinds.find? fun k => k.name = name with
    | none => simp [hx] at hb
    | some k =>
      have hm := List.mem_of_find?_eq_some hx
      have hz : k.new.zero.kind = k := by cases k <;> rfl
      simp only [hx, hz] at hb
      cases hy : fill k config with
      | error e => simp [hy] at hb
      | ok o =>
        simp [hy, Ctor.newProc, ProcKind.new, typed k hm config o hy, RKind.nillable] at hb
        subst hb
        cases o with
        | set v x t i m =>
          simp only [Opts.built, Builtin.prog, Prog.Calls, Builtin.Ready, implies_true, and_true]
          exact values k hm config v x t i m hy
        | _ => simp [Opts.built, Builtin.prog, Prog.Calls, Builtin.Ready]
  refine ⟨hc, fun hn' hl he cv counts log => ?_⟩
  exact process_no_panic hn' he cv (pipeline_calls_mono (fun b hb => Builtin.Ready.later hl hb) hc) counts log

/-! ## Decoding -/

mutual
theorem decodePtr_fine {env : JEnv} : ∀ (j : Json) {h h' : Heap} {p : Ptr}, j.NoNull → NoNils h → decodePtr env j h = some (h', p) → Fine h h' ∧ IsValue h' p
  | .null, h, h', p, hj, hn, hd => by simp [Json.NoNull] at hj
  | .bool b, h, h', p, hj, hn, hd => by
    simp only [decodePtr, Option.some.injEq, Prod.mk.injEq] at hd; rw [← hd.1, ← hd.2]; exact plain_fine hn rfl rfl (by simp [boolCell])
  | .num t, h, h', p, hj, hn, hd => by
    simp only [decodePtr] at hd
    split at hd
    · simp at hd
    · simp only [Option.some.injEq, Prod.mk.injEq] at hd; rw [← hd.1, ← hd.2]; exact plain_fine hn rfl rfl (by simp [floatCell])
  | .str b, h, h', p, hj, hn, hd => by
    simp only [decodePtr, Option.some.injEq, Prod.mk.injEq] at hd; rw [← hd.1, ← hd.2]; exact plain_fine hn rfl rfl (by simp [strCell])
  | .arr js, h, h', p, hj, hn, hd => by
    simp only [Json.NoNull] at hj
    simp only [decodePtr] at hd
    split at hd
    · simp at hd
    · rename_i g ps hg
      have ih := decodeItems_fine js hj hn hg
      simp only [Option.some.injEq, Prod.mk.injEq] at hd; rw [← hd.1, ← hd.2]
      refine ⟨ih.1.trans (ih.1.1.allocFine ⟨fun qs hq q hm => ?_, by simp [arrCell], by simp [arrCell]⟩), newest g _⟩
      simp only [arrCell, Option.some.injEq] at hq; subst hq
      exact (Later.alloc _ _).values _ (ih.2 q hm)
  | .obj es, h, h', p, hj, hn, hd => by
    simp only [Json.NoNull] at hj
    simp only [decodePtr] at hd
    split at hd
    · simp at hd
    · rename_i g hg
      have f1 : Fine h (h ++ [.map []]) := hn.allocFine (by intro e he; simp at he)
      have m1 : IsMap (h ++ [.map []]) h.length := ⟨[], by simp⟩
      have ih := decodeEntries_fine es hj f1.1 m1 hg
      simp only [Option.some.injEq, Prod.mk.injEq] at hd; rw [← hd.1, ← hd.2]
      refine ⟨f1.trans (ih.trans (ih.1.allocFine ⟨by simp [objCell], fun _ => ⟨_, rfl⟩, fun k hk => ?_⟩)), newest g _⟩
      simp only [objCell, Option.some.injEq] at hk; subst hk
      exact (Later.alloc _ _).maps _ (ih.2.maps _ m1)
theorem decodeItems_fine {env : JEnv} : ∀ (js : List Json) {h h' : Heap} {ps : List Ptr}, Json.NoNullL js → NoNils h → decodeItems env js h = some (h', ps) → Fine h h' ∧ ∀ p ∈ ps, IsValue h' p
  | [], h, h', ps, hj, hn, hd => by
    simp only [decodeItems, Option.some.injEq, Prod.mk.injEq] at hd; rw [← hd.1, ← hd.2]; exact ⟨hn.fine, by simp⟩
  | j :: js, h, h', ps, hj, hn, hd => by
    simp only [Json.NoNullL] at hj
    simp only [decodeItems] at hd
    split at hd
    · simp at hd
    · rename_i g p hg
      have i1 := decodePtr_fine j hj.1 hn hg
      split at hd
      · simp at hd
      · rename_i g2 qs hg2
        have i2 := decodeItems_fine js hj.2 i1.1.1 hg2
        simp only [Option.some.injEq, Prod.mk.injEq] at hd; rw [← hd.1, ← hd.2]
        refine ⟨i1.1.trans i2.1, fun q hq => ?_⟩
        rcases List.mem_cons.mp hq with rfl | hq
        · exact i2.1.2.values _ i1.2
        · exact i2.2 q hq
theorem decodeEntries_fine {env : JEnv} : ∀ (es : List (Bytes × Json)) {m : Nat} {h h' : Heap}, Json.NoNullE es → NoNils h → IsMap h m → decodeEntries env m es h = some h' → Fine h h'
  | [], m, h, h', hj, hn, hm, hd => by
    simp only [decodeEntries, Option.some.injEq] at hd; rw [← hd]; exact hn.fine
  | (k, j) :: es, m, h, h', hj, hn, hm, hd => by
    simp only [Json.NoNullE] at hj
    simp only [decodeEntries] at hd
    split at hd
    · simp at hd
    · rename_i g p hg
      have i1 := decodePtr_fine j hj.1 hn hg
      have hw := mapWrite_fine i1.1.1 (i1.1.2.maps _ hm) (k := k) i1.2
      split at hd
      · simp at hd
      · rename_i g2 hg2
        rw [hg2] at hw
        exact i1.1.trans (hw.trans (decodeEntries_fine es hj.2 hw.1 (hw.2.maps _ (i1.1.2.maps _ hm)) hd))
end

/-- **C104.** Decoding a JSON object in which `null` does not occur, into memory without nils, leaves memory without nils. -/
theorem decoded_no_nils {env : JEnv} {bs : Bytes} {es : List (Bytes × Json)} (hd : parseDoc bs = some (.obj es)) (hj : Json.NoNullE es) {h h' : Heap} (hn : NoNils h) {e : Event}
    (hu : unmarshalEvent env bs h = some (h', e)) : Left h h' e := by
  simp only [unmarshalEvent, hd, Option.map_eq_some_iff, Prod.mk.injEq] at hu
  obtain ⟨g, hg, rfl, rfl⟩ := hu
  have f1 : Fine h (h ++ [.map []]) := hn.allocFine (by intro e he; simp at he)
  have m1 : IsMap (h ++ [.map []]) h.length := ⟨[], by simp⟩
  have ih := decodeEntries_fine es hj f1.1 m1 hg
  exact ⟨ih.1, f1.2.trans ih.2, fun m hm => by cases hm; exact ih.2.maps _ m1⟩

/-- **C104.** The C library does not panic on the JSON of an event without `null`: it returns, or the text of the processed event has no end. -/
theorem library_no_panic {env : JEnv} {n : Nat} {cv : Conv} {p : Pipeline Builtin (Option Err)} {w : PWorld Heap} (hn : NoNils w.world) (hp : p.Calls (Builtin.Ready w.world)) {input : Bytes} {es : List (Bytes × Json)}
    (hd : parseDoc input = some (.obj es)) (hj : Json.NoNullE es) :
    (∃ w' r, processText env n cv (some p) w input = .ok (w', r) ∧ NoNils w'.world ∧ p.Calls (Builtin.Ready w'.world)) ∨ processText env n cv (some p) w input = .error .overflow := by
  have mono : ∀ {h' : Heap}, Later w.world h' → p.Calls (Builtin.Ready h') := fun hl => pipeline_calls_mono (fun b hb => Builtin.Ready.later hl hb) hp
  unfold processText
  cases hu : unmarshalEvent env input w.world with
  | none => exact .inl ⟨_, _, rfl, hn, hp⟩
  | some r =>
    obtain ⟨h, evt⟩ := r
    have hl := decoded_no_nils hd hj hn hu
    cases evt with
    | none => simp only [unmarshalEvent, hd, Option.map_eq_some_iff, Prod.mk.injEq] at hu; obtain ⟨_, _, _, h3⟩ := hu; simp at h3
    | some m =>
      have hproc := process_no_panic hl.1 hl.2.2 cv (mono hl.2.1) w.counts w.log
      simp only
      cases hpr : p.process (builtinCall cv) () ⟨(h, some m), w.counts, w.log⟩ with
      | panic => rw [hpr] at hproc; exact hproc.elim
      | ok r =>
        obtain ⟨w', ret, err⟩ := r
        rw [hpr] at hproc
        obtain ⟨wn, wl, _⟩ := hproc
        have wl := hl.2.1.trans wl
        cases err with
        | some err => exact .inl ⟨_, _, rfl, wn, mono wl⟩
        | none =>
          cases ret with
          | none => exact .inl ⟨_, _, rfl, wn, mono wl⟩
          | some _ =>
            simp only
            split
            · exact .inr rfl
            · exact .inl ⟨_, _, rfl, wn, mono wl⟩
            · exact .inl ⟨_, _, rfl, wn, mono wl⟩

/-! ## Protobuf -/

open Wire in
theorem collect_all {α β : Type} {f : α → UOut β} {P : α → Prop} {Q : β → Prop} (hf : ∀ x y, P x → f x = .ok y → Q y) : ∀ {xs : List α} {ys : List β}, (∀ x ∈ xs, P x) → collect f xs = .ok ys → ∀ y ∈ ys, Q y
  | [], ys, _, h => by simp only [collect, UOut.ok.injEq] at h; subst h; simp
  | x :: xs, ys, hp, h => by
    simp only [collect] at h
    obtain ⟨y, h1, h2⟩ := ubind_eq_ok.mp h
    obtain ⟨ys', h3, h4⟩ := ubind_eq_ok.mp h2
    simp only [UOut.ok.injEq] at h4
    subst h4
    intro z hz
    rcases List.mem_cons.mp hz with rfl | hz
    · exact hf x z (hp x (by simp)) h1
    · exact collect_all hf (fun x hx => hp x (by simp [hx])) h3 z hz

open Wire in
theorem noNilItems_of {vs : List PValue} (h : ∀ v ∈ vs, NoNilValue v) : NoNilItems vs := by
  induction vs with
  | nil => simp only [NoNilItems]
  | cons v vs ih => simp only [NoNilItems]; exact ⟨h v (by simp), ih fun w hw => h w (by simp [hw])⟩

open Wire in
theorem noNilFields_of {es : List (Bytes × PValue)} (h : ∀ e ∈ es, NoNilValue e.2) : NoNilFields es := by
  induction es with
  | nil => simp only [NoNilFields]
  | cons e es ih => obtain ⟨k, v⟩ := e; simp only [NoNilFields]; exact ⟨.inr (h (k, v) (by simp)), ih fun w hw => h w (by simp [hw])⟩

open Wire in
theorem fromEventValue_noNil {h : Heap} (hn : NoNils h) : ∀ (n : Nat) {p : Ptr} {v : PValue}, IsValue h p → fromEventValue h n p = .ok v → NoNilValue v
  | 0, p, v, hp, hv => by simp [fromEventValue] at hv
  | n + 1, p, v, hp, hv => by
    have ih := fun {p v} => @fromEventValue_noNil h hn n p v
    obtain ⟨a, c, rfl, hc⟩ := isValue_iff.mp hp
    have hd : deref h (some a) = some c := by simp [deref, hc]
    simp only [fromEventValue, hd] at hv
    split at hv
    · obtain ⟨items, h1, h2⟩ := ubind_eq_ok.mp hv
      simp only [UOut.ok.injEq] at h2; subst h2
      simp only [NoNilValue, NoNilKind]
      refine noNilItems_of (collect_all (P := IsValue h) (fun x y hx hy => ih hx hy) (fun q hq => ?_) h1)
      cases hca : c.array with
      | none => simp [hca] at hq
      | some xs => simp only [hca, Option.getD_some] at hq; exact hn.items a c xs hc hca q hq
    case h_5 =>
      obtain ⟨o, h1, h2⟩ := ubind_eq_ok.mp hv
      simp only [UOut.ok.injEq] at h2; subst h2
      simp only [fromEventValueObject, hd] at h1
      split at h1
      · simp at h1
      · obtain ⟨fs, h3, h4⟩ := ubind_eq_ok.mp h1
        simp only [UOut.ok.injEq] at h4; subst h4
        simp only [NoNilValue, NoNilKind]
        refine noNilFields_of (collect_all (P := fun e : Bytes × Ptr => IsValue h e.2) (fun x y hx hy => ?_) (fun e he => mapOf_values hn e he) h3)
        obtain ⟨v, h5, h6⟩ := ubind_eq_ok.mp hy
        simp only [UOut.ok.injEq] at h6; subst h6
        exact ih hx h5
    all_goals first
      | (simp only [UOut.ok.injEq] at hv; subst hv; simp only [NoNilValue, NoNilKind])
      | simp at hv

open Wire in
/-- **C104.** The protobuf message made from an event in memory without nils can be marshalled. -/
theorem message_marshals {h : Heap} (hn : NoNils h) {e : Event} (he : IsEvent h e) {n : Nat} {m : PWrapper} (hm : fromEvent n h e = .ok m) : ∃ bs, marshal m = .ok bs := by
  suffices hs : NoNil m by
    obtain ⟨bs, hb, _⟩ := marshal_exact hs
    exact ⟨bs, hb⟩
  have hg := (api_returns hn he (lit ".") (v := none) (by simp)).1
  unfold fromEvent at hm
  cases hget : apiGet h e (lit ".") with
  | panic => rw [hget] at hg; exact hg.elim
  | ok r =>
    obtain ⟨g, p⟩ := r
    rw [hget] at hg
    obtain ⟨⟨gn, gl, ge⟩, gv⟩ := hg
    simp only at gn gl ge gv
    simp only [hget] at hm
    obtain ⟨o, h1, h2⟩ := ubind_eq_ok.mp hm
    simp only [UOut.ok.injEq] at h2; subst h2
    unfold fromEventValueObject at h1
    split at h1
    · simp only [UOut.ok.injEq] at h1; subst h1; simp [NoNil]
    · split at h1
      · simp at h1
      · obtain ⟨fs, h3, h4⟩ := ubind_eq_ok.mp h1
        simp only [UOut.ok.injEq] at h4; subst h4
        simp only [NoNil]
        refine noNilFields_of (collect_all (P := fun e : Bytes × Ptr => IsValue g e.2) (fun x y hx hy => ?_) (fun e he => mapOf_values gn e he) h3)
        obtain ⟨v, h5, h6⟩ := ubind_eq_ok.mp hy
        simp only [UOut.ok.injEq] at h6; subst h6
        exact fromEventValue_noNil gn n hx h5

/-! ## The command line tool -/

theorem lineEvent_returns {h : Heap} (hn : NoNils h) (number : Nat) (line : Bytes) : Returns (fun r => Left h r.1 r.2) (lineEvent h number line) := by
  have p1 := plain_fine hn (c := uintCell (BitVec.ofNat 64 number)) rfl rfl (by simp [uintCell])
  have h1 := (api_returns p1.1.1 (e := newEvent) (by simp [IsEvent, newEvent]) (lit "@metadata.line_number") (v := some h.length) fun _ => p1.2).2.2.1
  simp only [lineEvent, Heap.alloc]
  cases hput : apiPut (h ++ [.cell (uintCell (BitVec.ofNat 64 number))]) newEvent (lit "@metadata.line_number") (some h.length) with
  | panic => rw [hput] at h1; exact h1.elim
  | ok r =>
    obtain ⟨g, e, o, er⟩ := r
    rw [hput] at h1
    obtain ⟨⟨gn, gl, ge⟩, _⟩ := h1
    simp only at gn gl ge
    have p2 := plain_fine gn (c := strCell line) rfl rfl (by simp [strCell])
    have h2 := (api_returns p2.1.1 (ge.later p2.1.2) (lit "event.original") (v := some g.length) fun _ => p2.2).2.2.1
    simp only
    cases hput2 : apiPut (g ++ [.cell (strCell line)]) e (lit "event.original") (some g.length) with
    | panic => rw [hput2] at h2; exact h2.elim
    | ok r =>
      obtain ⟨g2, e2, o2, er2⟩ := r
      rw [hput2] at h2
      obtain ⟨⟨n2, l2, e2⟩, _⟩ := h2
      simp only at n2 l2 e2
      exact ⟨n2, p1.1.2.trans (gl.trans (p2.1.2.trans l2)), e2⟩

theorem line_returns {env : JEnv} {n : Nat} {cv : Conv} {p : Pipeline Builtin (Option Err)} {wr : Writer} {h : Heap} (hp : p.Calls (Builtin.Ready h)) {s : Cli} (hs : NoNils s.world.world) (hl : Later h s.world.world) (t : Bytes) :
    (∃ s', s.line env n cv p wr t = .ok s' ∧ NoNils s'.world.world ∧ Later h s'.world.world) ∨ s.line env n cv p wr t = .error .overflow := by
  unfold Cli.line
  simp only
  split
  · exact .inl ⟨_, rfl, hs, hl⟩
  · have hle := lineEvent_returns hs (s.number + 1) (trimSpace t)
    unfold handleLine
    cases he : lineEvent s.world.world (s.number + 1) (trimSpace t) with
    | panic => rw [he] at hle; exact hle.elim
    | ok we =>
      obtain ⟨g, e⟩ := we
      rw [he] at hle
      obtain ⟨gn, gl, ge⟩ := hle
      simp only at gn gl ge
      have hproc : Returns (fun r => Left h r.1.world.1 r.1.world.2) (p.process (builtinCall cv) () ⟨(g, e), s.world.counts, s.world.log⟩) := by
        refine (process_no_panic gn ge cv (pipeline_calls_mono (fun b hb => Builtin.Ready.later (hl.trans gl) hb) hp) s.world.counts s.world.log).mono fun r hr => ⟨hr.1, (hl.trans gl).trans hr.2.1, hr.2.2⟩
      simp only
      cases hpr : p.process (builtinCall cv) () ⟨(g, e), s.world.counts, s.world.log⟩ with
      | panic => rw [hpr] at hproc; exact hproc.elim
      | ok r =>
        obtain ⟨w', ret, err⟩ := r
        rw [hpr] at hproc
        obtain ⟨wn, wl, we⟩ := hproc
        simp only at wn wl we ⊢
        cases err with
        | some err => exact .inl ⟨_, rfl, wn, wl⟩
        | none =>
          simp only
          unfold Cli.encode
          split
          · exact .inl ⟨_, rfl, wn, wl⟩
          · split
            · exact .inr rfl
            · exact .inl ⟨_, rfl, wn, wl⟩
            · split
              · exact .inl ⟨_, rfl, wn, wl⟩
              · exact .inl ⟨_, rfl, wn, wl⟩

theorem lines_return {env : JEnv} {n : Nat} {cv : Conv} {p : Pipeline Builtin (Option Err)} {wr : Writer} {h : Heap} (hp : p.Calls (Builtin.Ready h)) (ts : List Bytes) (s : Cli) (hs : NoNils s.world.world) (hl : Later h s.world.world) :
    (Cli.lines env n cv p wr s ts).2 ≠ some .panic ∧ NoNils (Cli.lines env n cv p wr s ts).1.world.world := by
  induction ts generalizing s with
  | nil => exact ⟨by simp [Cli.lines], hs⟩
  | cons t ts ih =>
    simp only [Cli.lines]
    rcases line_returns (env := env) (n := n) (cv := cv) (wr := wr) hp hs hl t with ⟨s', h1, h2, h3⟩ | h1
    · simp only [h1]; exact ih s' h2 h3
    · simp only [h1]; exact ⟨by simp, hs⟩

/-- **C104.** With a pipeline whose configured values have no nils, the command line tool does not panic, whatever it reads and however reading and writing fail: the only way in which it can crash is that the text of an event has no end. -/
theorem cli_no_panic {env : JEnv} {n : Nat} {cv : Conv} {p : Pipeline Builtin (Option Err)} {wr : Writer} (i : Input) {w : PWorld Heap} (hn : NoNils w.world) (hp : p.Calls (Builtin.Ready w.world)) :
    (processInput env n cv p wr i w).2 ≠ .panic := by
  have := lines_return (env := env) (n := n) (cv := cv) (wr := wr) hp (scanAll i).1 { world := w } hn (Later.refl _)
  unfold processInput
  simp only
  split
  · rename_i s e hl
    rw [hl] at this
    intro hh
    exact this.1 (by simp at hh; simp [hh])
  · split <;> simp

/-! ## Samples -/

/-- A value that contains itself: an object with an entry a that is the object. -/
def loopHeap : Heap := [.cell (objCell (some 1)), .map [(lit "a", some 0)], .cell (strCell (lit "x"))]

theorem loopHeap_noNils : NoNils loopHeap ∧ IsEvent loopHeap (some 1) ∧ EndlessEvent loopHeap (some 1) := by
  refine ⟨noNils_iff.mpr fun a o ha => ?_, ?_, ?_⟩
  · have v0 : IsValue loopHeap (some 0) := ⟨objCell (some 1), rfl⟩
    have m1 : IsMap loopHeap 1 := ⟨[(lit "a", some 0)], rfl⟩
    rcases a with _ | _ | _ | a
    · simp [loopHeap] at ha; subst ha
      exact ⟨by simp [objCell], fun _ => ⟨1, rfl⟩, fun m hm => by simp only [objCell, Option.some.injEq] at hm; subst hm; exact m1⟩
    · simp [loopHeap] at ha; subst ha
      intro e he; simp at he; subst he; exact v0
    · simp [loopHeap] at ha; subst ha
      exact plain_good rfl rfl (by simp [strCell])
    · simp [loopHeap] at ha
  · intro m hm; cases hm; exact ⟨[(lit "a", some 0)], rfl⟩
  · exact ⟨lit "a", some 0, by simp [mapOf, loopHeap], fun _ => some 0, rfl, fun _ => .entry (c := objCell (some 1)) (k := lit "a") rfl rfl (by simp [mapOf, loopHeap, objCell])⟩

/-- The pipeline of C102, which has `set`, `lowercase` and `append` processors, with the value at 2, on the event that contains itself. -/
theorem no_nils_sample (cv : Conv) (counts : Counters) (log : List Invocation) :
    costPipeline.Calls (Builtin.Ready loopHeap) ∧ Returns (fun r => Left loopHeap r.1.world.1 r.1.world.2) (costPipeline.process (builtinCall cv) () ⟨(loopHeap, some 1), counts, log⟩) := by
  have hc : costPipeline.Calls (Builtin.Ready loopHeap) := by
    simp only [Pipeline.Calls, costPipeline, Node.CallsAll, Node.Calls, Builtin.prog, Prog.Calls, Builtin.Ready, and_true, true_and, implies_true]
    exact ⟨strCell (lit "x"), rfl⟩
  exact ⟨hc, process_no_panic loopHeap_noNils.1 loopHeap_noNils.2.1 cv hc counts log⟩

/-- With a nil it is different: the same pipeline on `{"a":null}`. -/
theorem nil_sample (cv : Conv) (counts : Counters) (log : List Invocation) : costPipeline.process (builtinCall cv) () ⟨([.map [(lit "a", none)], .map [], .cell (strCell (lit "x"))], some 0), counts, log⟩ = .panic := by
  have : apiGet [.map [(lit "a", none)], .map [], .cell (strCell (lit "x"))] (some 0) (lit "a.b") = .panic := by decide
  have hb : (Builtin.lowercase (lit "a.b") []).step cv [.map [(lit "a", none)], .map [], .cell (strCell (lit "x"))] (some 0) = .panic := by
    simp only [Builtin.step, convProcess, this]
  simp only [Pipeline.process, Pipeline.run, costPipeline, Node.processAll, Node.process, Builtin.prog, Prog.run, builtinCall, hb, Res.map, PState.inc]

theorem leaf_noNils (s : Scalar) : NoNils [.cell (scalarCell s)] := by
  refine noNils_iff.mpr fun a o ha => ?_
  rcases a with _ | a
  · simp at ha; subst ha
    cases s <;> exact plain_good rfl rfl (by simp [scalarCell, nullCell, boolCell, intCell, uintCell, floatCell, strCell, tsCell])
  · simp at ha

/-- A configuration that `New` accepts: the command line tool with its pipeline does not panic on any input. -/
theorem no_nils_new (env : JEnv) (n : Nat) (wr : Writer) (i : Input) (counts : Counters) (log : List Invocation) :
    ∃ r p, registerKinds [] cliKinds = .ok r ∧ Pipeline.new (registryFactory (fun _ => false) sampleFill none r) abConfig = .ok (.ok p) ∧
      p.Calls (Builtin.Ready [.cell (strCell (lit "m"))]) ∧ (processInput env n asciiConv p wr i ⟨[.cell (strCell (lit "m"))], counts, log⟩).2 ≠ .panic := by
  obtain ⟨r, p, hr, hp⟩ := sample_accepted
  have hf := sampleFill_cli (.str (lit "m"))
  have hn := leaf_noNils (.str (lit "m"))
  have := (new_no_panic (pr := fun _ => false) (nilConfig := (none : JCfg)) (by decide) hr hn hf.typed (fun k hk c v x t i m ho => by
    obtain ⟨s, hs⟩ := hf.leaf k hk c _ ho v x t i m rfl
    exact isValue_iff.mpr ⟨v, _, rfl, hs⟩) hp).1
  exact ⟨r, p, hr, hp, this, cli_no_panic i hn this⟩

end Sawmill
