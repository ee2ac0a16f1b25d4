import Verif.Lemmas.Reflect
import Verif.Props.Convert
import Verif.Props.Time
/-!
# C46, C47: Go values as events
-/

namespace Sawmill
open ATree Spec

/-! ## C47: which Go values can be converted -/

/-- C47. `ReflectValue` on any Go value: it returns an event value exactly when there is nothing unsupported and nothing that panics inside; the value is the one that the Go value stands for, in new memory, and
existing memory is unchanged. It returns an error only if something inside is unsupported, and panics only if something inside panics. -/
theorem reflectValue_outcome {env : REnv} {h : Heap} (hn : IsNull h env.nul) (x : GIface) :
    match ifaceToValue env x h with
    | .ok (h', p) => (∃ t : ATree, p = t.ptr ∧ Rep h' t ∧ t.erase = valI env x ∧ t.fp.Nodup ∧ (∀ a ∈ t.fp, h.length ≤ a) ∧ Frame [] h h') ∧
        ∀ n, Inside (.iface x) n → ¬ Unsupported n ∧ ¬ Panicky n
    | .unsupported _ => ∃ n, Inside (.iface x) n ∧ Unsupported n
    | .panic => ∃ n, Inside (.iface x) n ∧ Panicky n := by
  have := iface_spec x h hn
  cases hr : ifaceToValue env x h with
  | ok r =>
    rw [hr] at this
    obtain ⟨⟨t, h1, h2⟩, h3⟩ := this
    exact ⟨⟨t, h1, h2.rep, h2.erase, h2.nodup, h2.fresh, h2.frame⟩, h3⟩
  | unsupported => rw [hr] at this; exact this.has
  | panic => rw [hr] at this; exact this

/-- C47, the error contract: if nothing inside panics, there is an error exactly when something inside is unsupported, and no panic. -/
theorem reflectValue_error_iff {env : REnv} {h : Heap} (hn : IsNull h env.nul) {x : GIface} (hp : ∀ n, Inside (.iface x) n → ¬ Panicky n) :
    ((∃ e, ifaceToValue env x h = .unsupported e) ↔ ∃ n, Inside (.iface x) n ∧ Unsupported n) ∧ ifaceToValue env x h ≠ .panic := by
  have := reflectValue_outcome hn x
  cases hr : ifaceToValue env x h with
  | ok r =>
    rw [hr] at this
    refine ⟨⟨by simp, ?_⟩, by simp⟩
    rintro ⟨n, h1, h2⟩
    exact absurd h2 (this.2 n h1).1
  | unsupported => rw [hr] at this; exact ⟨⟨fun _ => this, fun _ => ⟨_, rfl⟩⟩, by simp⟩
  | panic =>
    rw [hr] at this
    obtain ⟨n, h1, h2⟩ := this
    exact absurd h2 (hp n h1)

/-! ## Examples -/

def sampleEnv : REnv := ⟨some 0, id, fun f => f.setWidth 64⟩

/-- A value of a struct type with a pointer, a slice with a channel in it, and fields that are not part of the data. -/
def sampleStruct (bad : GData) : GVal := .mk false {} (.struct [
  .mk (lit "A") true [] false (.val (.mk false {} (.ptr (.to (.val (.mk true {} (.int .int8 5))))))),
  .mk (lit "b") false [] false (.val (.mk false {} (.other (lit "chan int")))),
  .mk (lit "C") true (lit "-") false (.iface (lit "interface {}") false .nil),
  .mk (lit "D") true (lit "x,omitempty") true (.iface (lit "interface {}") false .nil),
  .mk (lit "E") true (lit "e,omitempty") false (.val (.mk false {} (.list true [.nil, .val (.mk true {} bad)])))])

/-- The unexported, excluded and omitted fields do no harm. -/
example : valV sampleEnv true (sampleStruct (.uintptr (lit "uintptr") 7)) = .obj [(lit "A", .scalar (.int 5)), (lit "e", .arr [.scalar .null, .scalar (.uint 7)])] ∧
    (∃ h' p, toValue sampleEnv true (sampleStruct (.uintptr (lit "uintptr") 7)) [.cell nullCell] = .ok (h', p)) ∧ toValue sampleEnv true (sampleStruct (.other (lit "func()"))) [.cell nullCell] = .unsupported (.unsupportedType (lit "func()")) := by
  refine ⟨?_, ⟨_, _, rfl⟩, rfl⟩
  rfl

/-- What the documentation does not say: a struct field of an interface type is not supported whatever it holds, and neither is a uintptr in a field (although one in a map or slice is); a nil error in a field
makes the conversion panic. -/
theorem interface_field_unsupported (env : REnv) (h : Heap) (m : Methods) (hm : m.error = none) (name type : Bytes) (x : GIface) (u : BitVec 64) :
    toValue env true (.mk false m (.struct [.mk name true [] false (.iface type false x)])) h = .unsupported (.unsupportedType type) ∧
    toValue env true (.mk false m (.struct [.mk name true [] false (.val (.mk true {} (.uintptr type u)))])) h = .unsupported (.unsupportedType type) ∧
    toValue env true (.mk false m (.struct [.mk name true [] false (.iface type true .nil)])) h = .panic := by
  refine ⟨?_, ?_, ?_⟩ <;> simp [toValue, orError, hm, structFields, slotToValue, parseTag, splitComma, tagHas]

/-- What the documentation does not say: the option `string` drops a field whose type has no `String` method. -/
theorem string_option_drops (env : REnv) (i : BitVec 64) :
    valV env true (.mk false {} (.struct [.mk (lit "N") true (lit "n,string") false (.val (.mk true {} (.int .int i)))])) = .obj [] := by
  rfl

/-! ## C46: ToEvent -/

theorem perm_map {α β : Type} {f : α → β} {l : List β} {ts : List α} (h : l.Perm (ts.map f)) : ∃ ts' : List α, ts'.Perm ts ∧ l = ts'.map f := by
  generalize hm : ts.map f = l' at h
  induction h generalizing ts with
  | nil => simp at hm; subst hm; exact ⟨[], .nil, rfl⟩
  | cons x h ih =>
    cases ts with
    | nil => simp at hm
    | cons t ts =>
      simp only [List.map_cons, List.cons.injEq] at hm
      obtain ⟨ts', h1, rfl⟩ := ih hm.2
      exact ⟨t :: ts', h1.cons t, by simp [hm.1]⟩
  | swap x y l =>
    match ts, hm with
    | t1 :: t2 :: ts, hm =>
      simp only [List.map_cons, List.cons.injEq] at hm
      exact ⟨t2 :: t1 :: ts, .swap .., by simp [hm]⟩
  | trans h1 h2 ih1 ih2 =>
    obtain ⟨ts1, p1, rfl⟩ := ih2 hm
    obtain ⟨ts2, p2, rfl⟩ := ih1 rfl
    exact ⟨ts2, p2.trans p1, rfl⟩

theorem fpE_perm {ts ts' : List (Bytes × ATree)} (h : ts.Perm ts') : (fpE ts).Perm (fpE ts') := by
  induction h with
  | nil => exact .refl _
  | cons x h ih => obtain ⟨k, t⟩ := x; simp only [fpE]; exact ih.append_left _
  | swap x y l =>
    obtain ⟨k, t⟩ := x; obtain ⟨k', t'⟩ := y
    simp only [fpE]
    rw [← List.append_assoc, ← List.append_assoc]
    exact List.perm_append_comm.append_right _
  | trans _ _ h1 h2 => exact h1.trans h2

theorem repE_perm {h : Heap} {ts ts' : List (Bytes × ATree)} (hp : ts.Perm ts') (hr : RepE h ts) : RepE h ts' := by
  rw [repE_iff] at *
  exact fun e he => hr e (hp.mem_iff.2 he)

theorem insert_perm {α : Type} {m : AMap α} {k : Bytes} {v : α} (h : k ∉ m.map (·.1)) : (AMap.insert m k v).Perm ((k, v) :: m) := by
  induction m with
  | nil => exact .refl _
  | cons e m ih =>
    obtain ⟨k', v'⟩ := e
    simp only [List.map_cons, List.mem_cons, not_or] at h
    simp only [AMap.insert]
    split
    · next e => exact absurd e.symm h.1
    · split
      · exact .refl _
      · exact ((ih h.2).cons _).trans (.swap ..)

theorem ofEntries_perm_self {α : Type} (es : List (Bytes × α)) (m : AMap α) (hn : ((es ++ m).map (·.1)).Nodup) : (AMap.ofEntries es m).Perm (es ++ m) := by
  induction es generalizing m with
  | nil => exact .refl _
  | cons e es ih =>
    obtain ⟨k, v⟩ := e
    rw [AMap.ofEntries_cons]
    have hk : k ∉ m.map (·.1) := by
      simp only [List.cons_append, List.map_cons, List.nodup_cons, List.map_append, List.mem_append, not_or] at hn
      exact hn.1.2
    have hp : (es ++ AMap.insert m k v).Perm ((k, v) :: es ++ m) := ((insert_perm hk).append_left es).trans List.perm_middle
    exact (ih _ ((hp.map _).nodup_iff.2 hn)).trans hp

theorem topName_escapeKey (k : Bytes) : topName (escapeKey k) = topName k := by
  unfold topName escapeKey
  split
  · clear * -
    induction k with
    | nil => rfl
    | cons c k ih =>
      rw [List.flatMap_cons, List.filter_append, ih]
      by_cases hc : c = dot
      · subst hc; simp [bsl, dot]
      · simp [hc, List.filter_cons]
        split <;> simp
  · rfl

/-- The loop of `ToEvent` over freshly built values. -/
theorem toEventLoop_spec : ∀ (ts : List (Bytes × ATree)) {h0 h : Heap} {f : AFields}, Owns h f → RepE h ts → (fpE ts).Nodup → (∀ a ∈ fpE ts, a ∉ f.fp) → (∀ e ∈ ts, e.2 ≠ .nilp) → Frame [] h0 h →
    (∀ a ∈ f.fp, h0.length ≤ a) → (∀ a ∈ fpE ts, h0.length ≤ a) →
    ∃ h' f', toEventLoop (ts.map fun e => (e.1, e.2.ptr)) h f.event = .ok (h', AFields.event f') ∧ Owns h' f' ∧
      f'.erase = putAll ((ts.map fun e => (topName e.1, e.2.erase)).filter (·.1 ≠ [])) f.erase ∧ (∀ a ∈ f'.fp, h0.length ≤ a) ∧ Frame [] h0 h'
  | [], h0, h, f, o, hr, hd, hdis, hnil, fr, hf, hts => ⟨h, f, rfl, o, rfl, hf, fr⟩
  | (k, t) :: ts, h0, h, f, o, hr, hd, hdis, hnil, fr, hf, hts => by
    simp only [RepE] at hr
    simp only [fpE, List.nodup_append] at hd
    simp only [fpE, List.mem_append] at hdis hts
    obtain ⟨h2, f2, old, err, e2, o2, q1, fr2, q2⟩ := put_name o hr.1 hd.1 (fun a ha => hdis a (.inl ha)) (hnil (k, t) (by simp)) k
    have hr2 : RepE h2 ts := repE_frame fr2 _ hr.2 (fun a ha => hdis a (.inr ha))
    obtain ⟨h', f', e3, o3, q3, q4, q5⟩ := toEventLoop_spec ts (h0 := h0) o2 hr2 hd.2.1 (fun a ha hc => by
        rcases q2 a hc with hc | hc | hc
        · exact hdis a (.inr ha) hc
        · exact hd.2.2 a hc a ha rfl
        · have := fpE_lt _ hr.2 a ha
          omega) (fun e he => hnil e (by simp [he])) (fr.trans fr2 (fun a ha => .inr (hf a ha))) (fun a ha => by
        rcases q2 a ha with ha | ha | ha
        · exact hf a ha
        · exact hts a (.inl ha)
        · exact Nat.le_trans fr.len ha) (fun a ha => hts a (.inr ha))
    refine ⟨h', f', ?_, o3, ?_, q4, q5⟩
    · simp only [List.map_cons, toEventLoop, e2]
      exact e3
    · rw [q3, q1]
      by_cases hk : topName k = []
      · simp [hk]
      · simp [hk, putAll]

theorem putAll_putContents (es : List (Bytes × Val)) : putAll ((es.map fun e => (topName e.1, e.2)).filter (·.1 ≠ [])) none = putContents es := by
  unfold putContents
  dsimp only
  cases h : (es.map fun e => (topName e.1, e.2)).filter (·.1 ≠ []) with
  | nil => simp [putAll]
  | cons e r => obtain ⟨k, v⟩ := e; simp [putAll, putAll_some]

theorem valE_eq (env : REnv) (b : Bool) (es : List (Bytes × GIface)) : valE env b es = es.map fun e => (if b then escapeKey e.1 else e.1, valI env e.2) := by
  induction es with
  | nil => simp [valE]
  | cons e es ih => obtain ⟨k, x⟩ := e; simp [valE, ih]

mutual
theorem clean_not_nilI {env : REnv} : ∀ (x : GIface), Clean (.iface x) → valI env x ≠ .nilp
  | .nil, _ => by simp [valI]
  | .val (.mk e m d), hc => by
    simp only [valI]
    by_cases hb : (e && d.basic) = false
    · rw [valV_unmatched hb]
      exact clean_not_nilV (.mk e m d) (fun n hn => hc n (.part (.value _ _ _ hb) hn))
    · simp only [Bool.not_eq_false, Bool.and_eq_true] at hb
      obtain ⟨rfl, hb⟩ := hb
      simp only [valV, hb, Bool.and_self, Bool.true_eq_false, false_and, if_false]
      cases d <;> simp [GData.basic] at hb <;> simp [valD]
theorem clean_not_nilV {env : REnv} : ∀ (v : GVal), Clean (.slot (.val v)) → valV env false v ≠ .nilp
  | .mk e ⟨some (.ok s), str⟩ d, hc => by simp [valV, textVal]
  | .mk e ⟨some .panic, str⟩ d, hc => ((hc _ (.here _)).2 (.error _ _ _)).elim
  | .mk e ⟨none, str⟩ (.bool _), hc => by simp [valV, valD]
  | .mk e ⟨none, str⟩ (.int _ _), hc => by simp [valV, valD]
  | .mk e ⟨none, str⟩ (.uint _ _), hc => by simp [valV, valD]
  | .mk e ⟨none, str⟩ (.uintptr _ _), hc => ((hc _ (.here _)).1 (.uintptr _ _ _ _)).elim
  | .mk e ⟨none, str⟩ (.float32 _), hc => by simp [valV, valD]
  | .mk e ⟨none, str⟩ (.float64 _), hc => by simp [valV, valD]
  | .mk e ⟨none, str⟩ (.string _), hc => by simp [valV, valD]
  | .mk e ⟨none, str⟩ (.time _ _), hc => by simp [valV, valD]
  | .mk e ⟨none, str⟩ (.ptr .nil), hc => by simp [valV, valD]
  | .mk e ⟨none, str⟩ (.ptr (.to s)), hc => by
    simp only [valV, valD, Option.isSome_none, Bool.false_eq_true, and_false, if_false]
    exact clean_not_nilS s (fun n hn => hc n (.part (.target _ _ _) hn))
  | .mk e ⟨none, str⟩ (.list _ _), hc => by simp [valV, valD]
  | .mk e ⟨none, str⟩ (.map _), hc => by simp [valV, valD]
  | .mk e ⟨none, str⟩ (.struct _), hc => by simp [valV, valD]
  | .mk e ⟨none, str⟩ (.other _), hc => ((hc _ (.here _)).1 (.other _ _ _)).elim
theorem clean_not_nilS {env : REnv} : ∀ (s : GSlot), Clean (.slot s) → valS env s ≠ .nilp
  | .val v, hc => by simp only [valS]; exact clean_not_nilV v hc
  | .iface t false x, hc => ((hc _ (.here _)).1 (.iface _ _)).elim
  | .iface t true .nil, hc => ((hc _ (.here _)).2 (.nilError _)).elim
  | .iface t true (.val (.mk e ⟨some (.ok s), str⟩ d)), hc => by simp [valS, GVal.methods, textVal]
  | .iface t true (.val (.mk e ⟨some .panic, str⟩ d)), hc => ((hc _ (.here _)).2 (.ifaceError _ _ _ _)).elim
  | .iface t true (.val (.mk e ⟨none, str⟩ d)), hc => ((hc _ (.here _)).2 (.ifaceNoError _ _ _ _)).elim
end

/-- C46/C47. `ToEvent` on any map of Go values (its keys are distinct), in whatever order Go iterates over the intermediate object: it returns an event exactly when nothing inside is unsupported and nothing inside
panics; the event owns its contents, all in new memory, and existing memory is unchanged. The contents are the result of putting every entry with the value it stands for, in some order. -/
theorem mapToEvent_outcome {env : REnv} {h : Heap} (hn : IsNull h env.nul) {order : List (Bytes × Ptr) → List (Bytes × Ptr)} (ho : ∀ l, (order l).Perm l) (m : List (Bytes × GIface))
    (hm : (m.map (·.1)).Nodup) :
    match mapToEvent env order m h with
    | .ok (h', e) => (∃ f es, e = AFields.event f ∧ Owns h' f ∧ es.Perm (m.map fun e => (e.1, valI env e.2)) ∧ Holds h' e (putContents es) ∧ (∀ a ∈ f.fp, h.length ≤ a) ∧ Frame [] h h') ∧
        ∀ x ∈ m, ∀ n, Inside (.iface x.2) n → ¬ Unsupported n ∧ ¬ Panicky n
    | .unsupported _ => ∃ x ∈ m, ∃ n, Inside (.iface x.2) n ∧ Unsupported n
    | .panic => ∃ x ∈ m, ∃ n, Inside (.iface x.2) n ∧ Panicky n := by
  have hin : ∀ n, Inside (.iface (.val (.mk true {} (.map m)))) n → n = .iface (.val (.mk true {} (.map m))) ∨ ∃ x ∈ m, Inside (.iface x.2) n := by
    intro n hi
    cases hi with
    | here => exact .inl rfl
    | part hp hs =>
      cases hp with
      | value _ _ _ h => simp [GData.basic] at h
      | entry _ _ k x hx => exact .inr ⟨_, hx, hs⟩
  have hi := iface_spec (.val (.mk true {} (.map m))) h hn
  unfold mapToEvent
  cases hr : ifaceToValue env (.val (.mk true {} (.map m))) h with
  | unsupported =>
    rw [hr] at hi
    obtain ⟨n, h1, h2⟩ := hi.has
    rcases hin n h1 with rfl | ⟨x, hx, h3⟩
    · cases h2
    · exact ⟨x, hx, n, h3, h2⟩
  | panic =>
    rw [hr] at hi
    obtain ⟨n, h1, h2⟩ := hi
    rcases hin n h1 with rfl | ⟨x, hx, h3⟩
    · cases h2
    · exact ⟨x, hx, n, h3, h2⟩
  | ok r =>
    obtain ⟨h1, p⟩ := r
    rw [hr] at hi
    obtain ⟨⟨t, rfl, ft⟩, hcl⟩ := hi
    have hclean : ∀ x ∈ m, Clean (.iface x.2) := fun x hx n hn => hcl n (.part (.entry _ _ x.1 x.2 hx) hn)
    have her : t.erase = .obj (AMap.ofEntries (valE env true m) []) := by rw [ft.erase]; simp [valI, valV, GData.basic, valD]
    match t, her, ft with
    | .obj a b ts, her, ft =>
      have hrep := ft.rep
      simp only [Rep] at hrep
      obtain ⟨r1, r2, r3, r4⟩ := hrep
      have hd : deref h1 (ATree.obj a b ts).ptr = some (objCell (some b)) := by simp [ATree.ptr, deref, r1]
      have hmo : mapOf h1 (objCell (some b)).object = ptrMap ts := by simp [objCell, mapOf, r2]
      simp only [hd, hmo]
      obtain ⟨ts', hp, hl⟩ := perm_map (ho (ptrMap ts))
      have hnd := ft.nodup
      have hfr := ft.fresh
      simp only [fp, List.nodup_cons, List.mem_cons] at hnd hfr
      simp only [ATree.erase, Val.obj.injEq] at her
      have hts : (ts.map fun e => (e.1, e.2.erase)) = AMap.ofEntries (valE env true m) [] := by rw [← her, eraseE_eq]; rfl
      have hkeys : ((valE env true m).map (·.1)).Nodup := by
        rw [valE_eq, List.map_map]
        have : ((fun e : Bytes × Val => e.1) ∘ fun e : Bytes × GIface => (if true = true then escapeKey e.1 else e.1, valI env e.2)) = escapeKey ∘ (·.1) := by funext e; simp
        rw [this, ← List.map_map]
        exact nodup_map_inj (fun a b => escapeKey_inj) hm
      have hperm : (ts'.map fun e => (e.1, e.2.erase)).Perm (valE env true m) := by
        have h1 := hp.map (fun e => (e.1, e.2.erase))
        rw [hts] at h1
        have h2 := ofEntries_perm_self (valE env true m) [] (by simpa using hkeys)
        simpa using h1.trans h2
      have hnil : ∀ e ∈ ts', e.2 ≠ .nilp := by
        intro e he h0
        have : (e.1, e.2.erase) ∈ valE env true m := hperm.mem_iff.1 (List.mem_map_of_mem (f := fun e : Bytes × ATree => (e.1, e.2.erase)) he)
        rw [valE_eq] at this
        obtain ⟨x, hx, hxe⟩ := List.mem_map.1 this
        simp only [Prod.mk.injEq] at hxe
        exact clean_not_nilI x.2 (hclean x hx) (by rw [hxe.2, h0]; rfl)
      have hfp := fpE_perm hp
      obtain ⟨h', f', e1, o1, q1, q2, q3⟩ := toEventLoop_spec ts' (h0 := h) (h := h1) (f := none) (by simp [Owns]) (repE_perm hp.symm r4) (hfp.nodup_iff.2 hnd.2)
        (by simp [AFields.fp]) hnil ft.frame (by simp [AFields.fp]) (fun a ha => hfr a (.inr (hfp.mem_iff.1 ha)))
      rw [hl, show newEvent = AFields.event none from rfl, e1]
      dsimp only
      refine ⟨?_, hclean⟩
      obtain ⟨es, hes1, hes2⟩ : ∃ es : List (Bytes × GIface), es.Perm m ∧ (ts'.map fun e => (e.1, e.2.erase)) = es.map fun e => (escapeKey e.1, valI env e.2) := by
        rw [valE_eq] at hperm
        simp only [if_true] at hperm
        exact perm_map hperm
      refine ⟨f', es.map fun e => (e.1, valI env e.2), rfl, o1, hes1.map _, ?_, q2, q3⟩
      have : f'.erase = putContents (es.map fun e => (e.1, valI env e.2)) := by
        rw [q1, ← putAll_putContents]
        have : (ts'.map fun e => (topName e.1, e.2.erase)) = (ts'.map fun e => (e.1, e.2.erase)).map fun e => (topName e.1, e.2) := by simp [List.map_map, Function.comp_def]
        rw [this, hes2]
        simp [List.map_map, Function.comp_def, topName_escapeKey, AFields.erase]
      rw [← this]
      exact o1.holds

/-- Names without backslashes, not empty: the event has exactly the entries of the map (an empty map gives an event that has no fields). -/
theorem putContents_good {m : List (Bytes × Val)} (hg : ∀ e ∈ m, GoodName e.1) (hm : (m.map (·.1)).Nodup) {es : List (Bytes × Val)} (hp : es.Perm m) :
    putContents es = if m = [] then none else some (AMap.ofEntries m []) := by
  have h1 : (es.map fun e => (topName e.1, e.2)) = es := by
    conv => rhs; rw [← List.map_id es]
    refine List.map_congr_left fun e he => ?_
    have := (hg e (hp.mem_iff.1 he)).2
    have : topName e.1 = e.1 := by
      simp only [topName, List.filter_eq_self]
      intro b hb
      simp only [ne_eq, decide_not, Bool.not_eq_eq_eq_not, Bool.not_true, decide_eq_false_iff_not]
      rintro rfl
      exact this hb
    simp [this]
  have h2 : es.filter (fun x => decide (x.1 ≠ [])) = es := by
    rw [List.filter_eq_self]
    intro e he
    simpa using (hg e (hp.mem_iff.1 he)).1
  unfold putContents
  simp only [h1, h2]
  by_cases hm0 : m = []
  · subst hm0; simp [hp.eq_nil]
  · have : es ≠ [] := fun h => hm0 (by subst h; exact hp.symm.eq_nil)
    simp only [this, hm0, if_false, Option.some.injEq]
    exact ofEntries_congr hp ((hp.map _).nodup_iff.2 hm)

/-! ## C46: FromEvent -/

mutual
theorem goValue_spec {text : GoTime → Bytes} {h : Heap} : ∀ (v : Val) {p : Ptr}, Reads h p v → ∀ (n : Nat), v.depth ≤ n → goValue text h n p = some (.ok (goOf text v))
  | .nilp, p, hr, n, hn => by
    simp only [Val.depth] at hn
    obtain ⟨n, rfl⟩ : ∃ k, n = k + 1 := ⟨n - 1, by omega⟩
    simp only [Reads] at hr
    subst hr
    simp [goValue, deref, goOf]
  | .scalar s, p, hr, n, hn => by
    simp only [Val.depth] at hn
    obtain ⟨n, rfl⟩ : ∃ k, n = k + 1 := ⟨n - 1, by omega⟩
    simp only [Reads] at hr
    simp only [goValue, hr]
    cases s <;> simp [scalarCell, nullCell, boolCell, intCell, uintCell, floatCell, strCell, tsCell, goOf]
  | .arrNil, p, hr, n, hn => by
    simp only [Val.depth] at hn
    obtain ⟨n, rfl⟩ : ∃ k, n = k + 1 := ⟨n - 1, by omega⟩
    simp only [Reads] at hr
    simp [goValue, hr, arrCell, goOf, collectG]
  | .objNil, p, hr, n, hn => by
    simp only [Val.depth] at hn
    obtain ⟨n, rfl⟩ : ∃ k, n = k + 1 := ⟨n - 1, by omega⟩
    simp only [Reads] at hr
    simp [goValue, goFields, hr, objCell, goOf, collectG, mapOf]
  | .arr vs, p, hr, n, hn => by
    simp only [Val.depth] at hn
    obtain ⟨n, rfl⟩ : ∃ k, n = k + 1 := ⟨n - 1, by omega⟩
    simp only [Reads] at hr
    obtain ⟨ps, h1, h2⟩ := hr
    simp [goValue, h1, arrCell, goOf, goItems_spec vs h2 n (by omega)]
  | .obj es, p, hr, n, hn => by
    simp only [Val.depth] at hn
    obtain ⟨n, rfl⟩ : ∃ k, n = k + 1 := ⟨n - 1, by omega⟩
    simp only [Reads] at hr
    obtain ⟨m, ps, h1, h2, h3⟩ := hr
    simp [goValue, h1, objCell, goOf, mapOf, h2, goFields_spec es h3 n (by omega)]
theorem goItems_spec {text : GoTime → Bytes} {h : Heap} : ∀ (vs : List Val) {ps : List Ptr}, ReadsL h ps vs → ∀ (n : Nat), Val.depthL vs ≤ n →
    collectG (goValue text h n) ps = some (.ok (goOfL text vs))
  | [], ps, hr, n, hn => by
    cases ps <;> simp [ReadsL] at hr
    simp [collectG, goOfL]
  | v :: vs, ps, hr, n, hn => by
    cases ps with
    | nil => simp [ReadsL] at hr
    | cons p ps =>
      simp only [ReadsL] at hr
      simp only [Val.depthL] at hn
      simp [collectG, goOfL, goValue_spec v hr.1 n (by omega), goItems_spec vs hr.2 n (by omega)]
theorem goFields_spec {text : GoTime → Bytes} {h : Heap} : ∀ (es : List (Bytes × Val)) {ps : List (Bytes × Ptr)}, ReadsE h ps es → ∀ (n : Nat), Val.depthE es ≤ n →
    goFields (goValue text h n) ps = some (.ok (goOfE text es))
  | [], ps, hr, n, hn => by
    cases ps <;> simp [ReadsE] at hr
    simp [goFields, collectG, goOfE]
  | (k, v) :: vs, ps, hr, n, hn => by
    cases ps with
    | nil => simp [ReadsE] at hr
    | cons p ps =>
      obtain ⟨k', p⟩ := p
      simp only [ReadsE] at hr
      simp only [Val.depthE] at hn
      have ih := goFields_spec (text := text) vs hr.2.2 n (by omega)
      simp only [goFields] at ih
      simp [goFields, collectG, goOfE, goValue_spec v hr.2.1 n (by omega), ih, hr.1]
end

/-- C46, the way back. `FromEvent` of an event holding the finite tree `f` (with any sharing) is the map of the Go values that its fields stand for; for an event without fields it is a nil map. -/
theorem mapFromEvent_spec {text : GoTime → Bytes} {h : Heap} {e : Event} {f : Fields} (hh : Holds h e f) :
    ∃ N, ∀ n, N ≤ n → mapFromEvent text n h e = some (.ok (if f.getD [] = [] then none else some (goOfE text (f.getD [])))) := by
  have hroot := get_root (h := h) (e := e) (k := lit ".") (by decide)
  cases f with
  | none =>
    simp only [Holds] at hh
    subst hh
    refine ⟨0, fun n _ => ?_⟩
    have := hroot.1 rfl
    simp [mapFromEvent, this, deref]
  | some es =>
    obtain ⟨m, ps, rfl, hm, hr⟩ := hh
    have hmo : mapOf h (some m) = ps := by simp [mapOf, hm]
    cases ps with
    | nil =>
      cases es with
      | cons _ _ => simp [ReadsE] at hr
      | nil =>
        refine ⟨0, fun n _ => ?_⟩
        have := hroot.1 hmo
        simp [mapFromEvent, this, deref]
    | cons p ps =>
      cases es with
      | nil => simp [ReadsE] at hr
      | cons e es =>
        obtain ⟨h', a, c, h1, h2, h3, h4, rfl, h6⟩ := hroot.2 (by rw [hmo]; simp)
        rw [hmo] at h6
        refine ⟨Val.depthE (e :: es), fun n hn => ?_⟩
        have hr' : ReadsE (h ++ [.cell c]) (p :: ps) (e :: es) := reads_appendE _ hr
        have := goFields_spec (text := text) (e :: es) hr' n hn
        simp [mapFromEvent, h1, h2, h3, h6, this]

/-! ## C46: the round trip -/

theorem goOfE_eq (text : GoTime → Bytes) (es : List (Bytes × Val)) : goOfE text es = es.map fun e => (e.1, goOf text e.2) := by
  induction es with
  | nil => simp [goOfE]
  | cons e es ih => obtain ⟨k, v⟩ := e; simp [goOfE, ih]

theorem stdE_iff {text : GoTime → Bytes} {es : List (Bytes × GIface)} : StdE text es ↔ ∀ e ∈ es, Std text e.2 := by
  induction es with
  | nil => simp [StdE]
  | cons e es ih => obtain ⟨k, v⟩ := e; simp [StdE, ih]

theorem stdL_iff {text : GoTime → Bytes} {es : List GIface} : StdL text es ↔ ∀ e ∈ es, Std text e := by
  induction es with
  | nil => simp [StdL]
  | cons e es ih => simp [StdL, ih]

theorem std_time {t : GoTime} (hn : t.nsec < 1000000000) (h1 : -2 ^ 63 ≤ t.ext) (h2 : t.ext < 2 ^ 63) (h3 : -2 ^ 63 ≤ (t.ext - unixToInternal) * 1000000000 + t.nsec)
    (h4 : (t.ext - unixToInternal) * 1000000000 + t.nsec < 2 ^ 63) : timeGoTime (BitVec.ofInt 64 t.unixNano).toInt = t := by
  have hg := (goTime_unixNano t hn ⟨h1, h2⟩).2 ⟨h3, h4⟩
  have hu : (BitVec.ofInt 64 t.unixNano).toInt = t.unixNano := by
    have : IsI64 t.unixNano := by
      simp only [GoTime.unixNano, wrapI64, IsI64]
      omega
    rw [BitVec.toInt_ofInt]
    exact Int.bmod_eq_of_le (by have := this.1; omega) (by have := this.2; omega)
  rw [hu, hg]

mutual
theorem std_goOf {env : REnv} {text : GoTime → Bytes} : ∀ (x : GIface), Std text x → goOf text (valI env x) = x
  | .nil, _ => by simp [valI, goOf]
  | .val v, h => by simp only [valI]; simp only [Std] at h; exact std_goOfV v h
theorem std_goOfV {env : REnv} {text : GoTime → Bytes} : ∀ (v : GVal), StdV text v → goOf text (valV env true v) = .val v
  | .mk e m (.time loc t), h => by
    simp only [StdV] at h
    obtain ⟨rfl, rfl, rfl, h1, h2, h3, h4, h5⟩ := h
    simp only [valV, valD, goOf, GData.basic, std_time h1 h2 h3 h4 h5, stdTime, Bool.and_self, Bool.true_eq_false, false_and, if_false]
  | .mk e m (.bool _), h => by
    simp only [StdV] at h
    obtain ⟨rfl, rfl⟩ := h
    simp [valV, valD, goOf, GData.basic, stdVal]
  | .mk e m (.int k _), h => by
    simp only [StdV] at h
    obtain ⟨rfl, rfl, rfl⟩ := h
    simp [valV, valD, goOf, GData.basic, stdVal]
  | .mk e m (.uint k _), h => by
    simp only [StdV] at h
    obtain ⟨rfl, rfl, rfl⟩ := h
    simp [valV, valD, goOf, GData.basic, stdVal]
  | .mk e m (.float64 _), h => by
    simp only [StdV] at h
    obtain ⟨rfl, rfl⟩ := h
    simp [valV, valD, goOf, GData.basic, stdVal]
  | .mk e m (.string _), h => by
    simp only [StdV] at h
    obtain ⟨rfl, rfl⟩ := h
    simp [valV, valD, goOf, GData.basic, stdVal]
  | .mk e m (.list std xs), h => by
    simp only [StdV] at h
    obtain ⟨rfl, rfl, rfl, hl⟩ := h
    simp [valV, valD, goOf, GData.basic, std_goOfL xs hl]
  | .mk e m (.map es), h => by
    simp only [StdV] at h
    obtain ⟨rfl, rfl, hs, hl, hd⟩ := h
    have hes : valE env true es = AMap.mapVals (valI env) es := by
      rw [valE_eq]
      refine List.map_congr_left fun e he => ?_
      simp [escapeKey_plain (hd e he)]
    have : AMap.ofEntries (valE env true es) [] = AMap.mapVals (valI env) es := by
      rw [hes]; exact ofEntries_sorted (AMap.sorted_mapVals hs)
    simp [valV, valD, goOf, GData.basic, stdVal, this, std_goOfE es hl]
  | .mk _ _ (.uintptr _ _), h => by simp [StdV] at h
  | .mk _ _ (.float32 _), h => by simp [StdV] at h
  | .mk _ _ (.ptr _), h => by simp [StdV] at h
  | .mk _ _ (.struct _), h => by simp [StdV] at h
  | .mk _ _ (.other _), h => by simp [StdV] at h
theorem std_goOfL {env : REnv} {text : GoTime → Bytes} : ∀ (xs : List GIface), StdL text xs → goOfL text (valL env xs) = xs
  | [], _ => by simp [valL, goOfL]
  | x :: xs, h => by
    simp only [StdL] at h
    simp [valL, goOfL, std_goOf x h.1, std_goOfL xs h.2]
theorem std_goOfE {env : REnv} {text : GoTime → Bytes} : ∀ (es : List (Bytes × GIface)), StdE text es → goOfE text (AMap.mapVals (valI env) es) = es
  | [], _ => by simp [AMap.mapVals, goOfE]
  | (k, x) :: es, h => by
    simp only [StdE] at h
    have := std_goOfE (env := env) es h.2
    simp only [AMap.mapVals] at this
    simp [AMap.mapVals, goOfE, std_goOf x h.1, this]
end

mutual
/-- No part of such a value is unsupported or panics. -/
theorem std_clean {text : GoTime → Bytes} : ∀ (x : GIface), Std text x → Clean (.iface x)
  | .nil, _ => clean_of_parts (by rintro ⟨⟩) (by rintro ⟨⟩) (by rintro n' ⟨⟩)
  | .val v, h => by simp only [Std] at h; exact std_cleanV v h
theorem std_cleanV {text : GoTime → Bytes} : ∀ (v : GVal), StdV text v → Clean (.iface (.val v))
  | .mk e m (.time loc t), h => by simp only [StdV] at h; obtain ⟨rfl, rfl, _⟩ := h; exact clean_iface_leaf rfl (by simp)
  | .mk e m (.bool _), h => by simp only [StdV] at h; obtain ⟨rfl, rfl⟩ := h; exact clean_iface_leaf rfl (by simp)
  | .mk e m (.int k _), h => by simp only [StdV] at h; obtain ⟨rfl, rfl, _⟩ := h; exact clean_iface_leaf rfl (by simp)
  | .mk e m (.uint k _), h => by simp only [StdV] at h; obtain ⟨rfl, rfl, _⟩ := h; exact clean_iface_leaf rfl (by simp)
  | .mk e m (.float64 _), h => by simp only [StdV] at h; obtain ⟨rfl, rfl⟩ := h; exact clean_iface_leaf rfl (by simp)
  | .mk e m (.string _), h => by simp only [StdV] at h; obtain ⟨rfl, rfl⟩ := h; exact clean_iface_leaf rfl (by simp)
  | .mk e m (.list std xs), h => by
    simp only [StdV] at h
    obtain ⟨rfl, rfl, rfl, hl⟩ := h
    have hx := std_cleanL xs hl
    refine clean_of_parts (by rintro ⟨⟩) (by rintro ⟨⟩) fun n' hp => ?_
    cases hp
    refine clean_of_parts (by rintro ⟨⟩) (by rintro ⟨⟩) fun n' hp => ?_
    cases hp with
    | item _ _ _ _ x hx' => exact hx x hx'
  | .mk e m (.map es), h => by
    simp only [StdV] at h
    obtain ⟨rfl, rfl, hs, hl, hd⟩ := h
    have hx := std_cleanE es hl
    refine clean_of_parts (by rintro ⟨⟩) (by rintro ⟨⟩) fun n' hp => ?_
    cases hp with
    | value _ _ _ h => simp [GData.basic] at h
    | entry _ _ k x hx' => exact hx _ hx'
  | .mk _ _ (.uintptr _ _), h => by simp [StdV] at h
  | .mk _ _ (.float32 _), h => by simp [StdV] at h
  | .mk _ _ (.ptr _), h => by simp [StdV] at h
  | .mk _ _ (.struct _), h => by simp [StdV] at h
  | .mk _ _ (.other _), h => by simp [StdV] at h
theorem std_cleanL {text : GoTime → Bytes} : ∀ (xs : List GIface), StdL text xs → ∀ x ∈ xs, Clean (.iface x)
  | [], _ => by simp
  | x :: xs, h => by
    simp only [StdL] at h
    intro y hy
    rcases List.mem_cons.1 hy with e | hy
    · rw [e]; exact std_clean x h.1
    · exact std_cleanL xs h.2 y hy
theorem std_cleanE {text : GoTime → Bytes} : ∀ (es : List (Bytes × GIface)), StdE text es → ∀ e ∈ es, Clean (.iface e.2)
  | [], _ => by simp
  | (k, x) :: es, h => by
    simp only [StdE] at h
    intro y hy
    rcases List.mem_cons.1 hy with e | hy
    · rw [e]; exact std_clean x h.1
    · exact std_cleanE es h.2 y hy
end

/-- C46. For a non-empty map (listed in key order) whose names are not empty and contain no backslash and in which nothing is unsupported or panics: `ToEvent` succeeds, and `FromEvent` of the event is the map with
the same names in which every value is replaced by the Go value that its event value stands for (integers as `int64`, and so on). -/
theorem map_round_trip_widened {env : REnv} {h : Heap} (hn : IsNull h env.nul) {order : List (Bytes × Ptr) → List (Bytes × Ptr)} (ho : ∀ l, (order l).Perm l) {text : GoTime → Bytes}
    {m : List (Bytes × GIface)} (hs : AMap.Sorted m) (hne : m ≠ []) (hg : ∀ e ∈ m, GoodName e.1) (hcl : ∀ x ∈ m, ∀ n, Inside (.iface x.2) n → ¬ Unsupported n ∧ ¬ Panicky n) :
    ∃ h' e N, mapToEvent env order m h = .ok (h', e) ∧ ∀ n, N ≤ n → mapFromEvent text n h' e = some (.ok (some (m.map fun x => (x.1, goOf text (valI env x.2))))) := by
  have hnd : (m.map (·.1)).Nodup := AMap.sorted_nodup hs
  have hout := mapToEvent_outcome hn ho m hnd
  cases hr : mapToEvent env order m h with
  | unsupported =>
    rw [hr] at hout
    obtain ⟨x, hx, n, h1, h2⟩ := hout
    exact absurd h2 (hcl x hx n h1).1
  | panic =>
    rw [hr] at hout
    obtain ⟨x, hx, n, h1, h2⟩ := hout
    exact absurd h2 (hcl x hx n h1).2
  | ok r =>
    obtain ⟨h', e⟩ := r
    rw [hr] at hout
    obtain ⟨⟨f, es, rfl, _, hp, hh, _, _⟩, _⟩ := hout
    have hsv : AMap.Sorted (AMap.mapVals (valI env) m) := AMap.sorted_mapVals hs
    have hc := putContents_good (m := AMap.mapVals (valI env) m) (fun e he => by
        obtain ⟨x, hx, rfl⟩ := List.mem_map.1 he
        exact hg x hx) (AMap.sorted_nodup hsv) hp
    have hne' : AMap.mapVals (valI env) m ≠ [] := by simpa [AMap.mapVals] using hne
    rw [if_neg hne', ofEntries_sorted hsv] at hc
    rw [hc] at hh
    obtain ⟨N, hN⟩ := mapFromEvent_spec (text := text) hh
    refine ⟨h', _, N, rfl, fun n hn' => ?_⟩
    rw [hN n hn', Option.getD_some, if_neg hne', goOfE_eq, AMap.mapVals, List.map_map]
    rfl

/-- C46, the exact round trip. For a non-empty map (listed in key order) whose names are not empty and contain no backslash, with values of the types that `FromEvent` returns (`nil`, `bool`, `int64`, `uint64`, `float64`,
`string`, UTC times in the range of an int64 of nanoseconds, `[]interface{}` and `map[string]interface{}` of those, no dots in the names of inner maps): `ToEvent` succeeds and `FromEvent` of the event is the same map. -/
theorem map_round_trip {env : REnv} {h : Heap} (hn : IsNull h env.nul) {order : List (Bytes × Ptr) → List (Bytes × Ptr)} (ho : ∀ l, (order l).Perm l) {text : GoTime → Bytes}
    {m : List (Bytes × GIface)} (hs : AMap.Sorted m) (hne : m ≠ []) (hg : ∀ e ∈ m, GoodName e.1) (hstd : ∀ e ∈ m, Std text e.2) :
    ∃ h' e N, mapToEvent env order m h = .ok (h', e) ∧ ∀ n, N ≤ n → mapFromEvent text n h' e = some (.ok (some m)) := by
  have := map_round_trip_widened hn ho (text := text) hs hne hg (fun x hx => std_clean x.2 (hstd x hx))
  rwa [show (m.map fun x => (x.1, goOf text (valI env x.2))) = m from ?_] at this
  conv => rhs; rw [← List.map_id m]
  exact List.map_congr_left fun x hx => by simp [std_goOf x.2 (hstd x hx)]

/-- A map with a time, a nested map, a slice and a dotted name. -/
def sampleGoMap (text : GoTime → Bytes) : List (Bytes × GIface) :=
  [(lit "a", stdVal (.map [(lit "x", .nil), (lit "y", .val (.mk false {} (.list true [stdVal (.bool true), stdVal (.int .int64 (-3))])))])),
   (lit "b.c", .val (stdTime text ⟨63000000000, 5⟩)), (lit "d", stdVal (.string (lit "s")))]

example (text : GoTime → Bytes) : AMap.Sorted (sampleGoMap text) ∧ sampleGoMap text ≠ [] ∧ (∀ e ∈ sampleGoMap text, GoodName e.1) ∧ (∀ e ∈ sampleGoMap text, Std text e.2) := by
  refine ⟨by simp only [sampleGoMap, AMap.Sorted]; simp [lit, bLt], by simp [sampleGoMap], ?_, ?_⟩
  · simp only [sampleGoMap, List.mem_cons, List.not_mem_nil, or_false, forall_eq_or_imp, forall_eq]
    decide
  · rw [← stdE_iff]
    simp [sampleGoMap, StdE, Std, StdV, StdL, stdVal, stdTime, unixToInternal, AMap.Sorted, lit, bLt, dot]

/-- What the round trip does not preserve: a dot in a name of an inner map comes back with a backslash before it; an empty map comes back as a nil map; an entry whose name is empty or all backslashes is lost, without an
error, and other names lose their backslashes; a number comes back with the widest type. -/
theorem map_round_trip_changes {env : REnv} {h : Heap} (hn : IsNull h env.nul) {text : GoTime → Bytes} :
    let back (m m' : List (Bytes × GIface)) : Prop := ∃ h' e N, mapToEvent env id m h = .ok (h', e) ∧ ∀ n, N ≤ n → mapFromEvent text n h' e = some (.ok (if m' = [] then none else some m'))
    back [(lit "a", stdVal (.map [(lit "x.y", .nil)]))] [(lit "a", stdVal (.map [(lit "x\\.y", .nil)]))] ∧
    back [] [] ∧ back [([], .nil)] [] ∧ back [(lit "\\", .nil)] [] ∧ back [(lit "\\a", .nil)] [(lit "a", .nil)] ∧
    back [(lit "a", stdVal (.int .int8 5))] [(lit "a", stdVal (.int .int64 5))] := by
  intro back
  have key : ∀ (m : List (Bytes × GIface)) (m' : List (Bytes × GIface)), (m.map (·.1)).Nodup → (∀ e ∈ m, Clean (.iface e.2)) →
      (∀ es, es.Perm (m.map fun e => (e.1, valI env e.2)) → goOfE text ((putContents es).getD []) = m') → back m m' := by
    intro m m' hnd hcl hm'
    have hout := mapToEvent_outcome hn (order := id) (fun l => .refl _) m hnd
    cases hr : mapToEvent env id m h with
    | unsupported =>
      rw [hr] at hout
      obtain ⟨x, hx, n, h1, h2⟩ := hout
      exact absurd h2 (hcl x hx n h1).1
    | panic =>
      rw [hr] at hout
      obtain ⟨x, hx, n, h1, h2⟩ := hout
      exact absurd h2 (hcl x hx n h1).2
    | ok r =>
      obtain ⟨h', e⟩ := r
      rw [hr] at hout
      obtain ⟨⟨f, es, rfl, _, hp, hh, _, _⟩, _⟩ := hout
      obtain ⟨N, hN⟩ := mapFromEvent_spec (text := text) hh
      refine ⟨h', _, N, by rw [hr], fun n hn' => ?_⟩
      have := hm' es hp
      rw [hN n hn', this]
      congr 3
      rw [← this, goOfE_eq]
      simp
  have hnil : Clean (.iface .nil) := clean_of_parts (by rintro ⟨⟩) (by rintro ⟨⟩) (by rintro n' ⟨⟩)
  refine ⟨key _ _ (by simp) ?_ ?_, key _ _ (by simp) (by simp) ?_, key _ _ (by simp) (by simpa using hnil) ?_, key _ _ (by simp) (by simpa using hnil) ?_, key _ _ (by simp) (by simpa using hnil) ?_,
    key _ _ (by simp) ?_ ?_⟩
  · simp only [List.mem_singleton, forall_eq]
    refine clean_of_parts (by rintro ⟨⟩) (by rintro ⟨⟩) fun n' hp => ?_
    cases hp with
    | value _ _ _ h => simp [GData.basic] at h
    | entry _ _ k x hx' => simp at hx'; rw [hx'.2]; exact hnil
  · intro es hp
    rw [List.map_singleton, List.perm_singleton] at hp
    subst hp; rfl
  · intro es hp
    rw [List.map_nil, List.perm_nil] at hp
    subst hp; rfl
  · intro es hp
    rw [List.map_singleton, List.perm_singleton] at hp
    subst hp; rfl
  · intro es hp
    rw [List.map_singleton, List.perm_singleton] at hp
    subst hp; rfl
  · intro es hp
    rw [List.map_singleton, List.perm_singleton] at hp
    subst hp; rfl
  · simp only [List.mem_singleton, forall_eq]
    exact clean_iface_leaf rfl (by simp)
  · intro es hp
    rw [List.map_singleton, List.perm_singleton] at hp
    subst hp; rfl

end Sawmill
