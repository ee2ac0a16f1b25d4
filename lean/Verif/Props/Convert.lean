import Verif.Lemmas.Hop
import Verif.Props.Wire
import Verif.Props.Event
/-!
# C39, C44: events as protobuf messages
-/

namespace Sawmill
open Wire ATree Spec

/-! ## FromEvent -/

theorem deref_append {h l : Heap} {p : Ptr} {c : Cell} (hd : deref h p = some c) : deref (h ++ l) p = some c := by
  obtain ⟨a, rfl, ha⟩ := deref_eq hd
  simp [deref, (frame_alloc h l).get ha (by simp)]

mutual
theorem reads_append {h l : Heap} : ∀ (v : Val) {p : Ptr}, Reads h p v → Reads (h ++ l) p v
  | .nilp, p, hr => hr
  | .scalar s, p, hr => by simp only [Reads] at *; exact deref_append hr
  | .arrNil, p, hr => by simp only [Reads] at *; exact deref_append hr
  | .objNil, p, hr => by simp only [Reads] at *; exact deref_append hr
  | .arr vs, p, hr => by
    simp only [Reads] at *
    obtain ⟨ps, h1, h2⟩ := hr
    exact ⟨ps, deref_append h1, reads_appendL vs h2⟩
  | .obj es, p, hr => by
    simp only [Reads] at *
    obtain ⟨m, ps, h1, h2, h3⟩ := hr
    exact ⟨m, ps, deref_append h1, (frame_alloc h l).get h2 (by simp), reads_appendE es h3⟩
theorem reads_appendL {h l : Heap} : ∀ (vs : List Val) {ps : List Ptr}, ReadsL h ps vs → ReadsL (h ++ l) ps vs
  | [], ps, hr => by cases ps <;> simp [ReadsL] at *
  | v :: vs, ps, hr => by
    cases ps with
    | nil => simp [ReadsL] at hr
    | cons p ps => simp only [ReadsL] at *; exact ⟨reads_append v hr.1, reads_appendL vs hr.2⟩
theorem reads_appendE {h l : Heap} : ∀ (es : List (Bytes × Val)) {ps : List (Bytes × Ptr)}, ReadsE h ps es → ReadsE (h ++ l) ps es
  | [], ps, hr => by cases ps <;> simp [ReadsE] at *
  | (k, v) :: es, ps, hr => by
    cases ps with
    | nil => simp [ReadsE] at hr
    | cons p ps => obtain ⟨k', p⟩ := p; simp only [ReadsE] at *; exact ⟨hr.1, reads_append v hr.2.1, reads_appendE es hr.2.2⟩
end

/-- `FromEvent` of an event holding the finite tree `f` (with any sharing) returns the message that says the same. The recursion is as deep as the tree. -/
theorem fromEvent_spec {h : Heap} {e : Event} {f : Fields} (hh : Holds h e f) : ∃ N, ∀ n, N ≤ n → fromEvent n h e = .ok (messageOf f) := by
  have hroot := get_root (h := h) (e := e) (k := lit ".") (by decide)
  cases f with
  | none =>
    simp only [Holds] at hh
    subst hh
    refine ⟨0, fun n _ => ?_⟩
    have := hroot.1 rfl
    simp [fromEvent, this, fromEventValueObject, deref, messageOf]
  | some es =>
    obtain ⟨m, ps, rfl, hm, hr⟩ := hh
    have hmo : mapOf h (some m) = ps := by simp [mapOf, hm]
    cases ps with
    | nil =>
      cases es with
      | cons _ _ => simp [ReadsE] at hr
      | nil =>
        refine ⟨0, fun n _ => ?_⟩
        have := hroot.1 hmo
        simp [fromEvent, this, fromEventValueObject, deref, messageOf]
    | cons p ps =>
      cases es with
      | nil => simp [ReadsE] at hr
      | cons e es =>
        obtain ⟨h', a, c, h1, h2, h3, h4, rfl, h6⟩ := hroot.2 (by rw [hmo]; simp)
        rw [hmo] at h6
        refine ⟨Val.depthE (e :: es), fun n hn => ?_⟩
        have hr' : ReadsE (h ++ [.cell c]) (p :: ps) (e :: es) := reads_appendE _ hr
        have := fromFields_spec (e :: es) hr' n hn
        simp [fromEvent, h1, fromEventValueObject, h2, h3, h6, this, messageOf]

example : ∃ N, ∀ n, N ≤ n → fromEvent n sampleHeap.1 (AFields.event sampleHeap.2.1) = .ok (messageOf (some sampleFields)) := by
  have := Owns.holds sample_owns.1
  rw [sample_owns.2.2.2.2] at this
  exact fromEvent_spec this

theorem cyclic_fuel {h : Heap} {m a : Nat} (hh : h[m]? = some (.map [(lit "a", some a)])) (hc : h[a]? = some (.cell (objCell (some m)))) (n : Nat) : fromEventValue h n (some a) = .fuel := by
  induction n with
  | zero => rfl
  | succ n ih =>
    have hd : deref h (some a) = some (objCell (some m)) := by simp [deref, hc]
    have hm : mapOf h (some m) = [(lit "a", some a)] := by simp [mapOf, hh]
    simp only [fromEventValue, hd, objCell, fromEventValueObject, hm, collect, ih]
    rfl

/-- An event that contains itself, as after `Put("a", …)`, `Put("a", Get("."))`: whatever the bound on the recursion, `FromEvent` exceeds it (in Go it exhausts the stack). -/
theorem fromEvent_cycle : ∃ h0 p0 h1 e1 h2 r h3 e3 old,
    Heap.alloc [] (.cell (strCell (lit "x"))) = (h0, p0) ∧ apiPut h0 newEvent (lit "a") (some p0) = .ok (h1, e1, none, none) ∧ apiGet h1 e1 (lit ".") = .ok (h2, r) ∧
    apiPut h2 e1 (lit "a") r = .ok (h3, e3, old, none) ∧ ∀ n, fromEvent n h3 e3 = .fuel := by
  refine ⟨[.cell (strCell (lit "x"))], 0, [.cell (strCell (lit "x")), .map [(lit "a", some 0)]], some 1,
    [.cell (strCell (lit "x")), .map [(lit "a", some 0)], .cell (objCell (some 1))], some 2,
    [.cell (strCell (lit "x")), .map [(lit "a", some 2)], .cell (objCell (some 1))], some 1, some 0, rfl, rfl, rfl, rfl, fun n => ?_⟩
  have hg : apiGet [.cell (strCell (lit "x")), .map [(lit "a", some 2)], .cell (objCell (some 1))] (some 1) (lit ".") =
    .ok ([.cell (strCell (lit "x")), .map [(lit "a", some 2)], .cell (objCell (some 1)), .cell (objCell (some 1))], some 3) := rfl
  have hf := cyclic_fuel (h := [.cell (strCell (lit "x")), .map [(lit "a", some 2)], .cell (objCell (some 1)), .cell (objCell (some 1))]) (m := 1) (a := 2) rfl rfl n
  simp only [fromEvent, hg, fromEventValueObject]
  simp only [deref, objCell, mapOf, List.getElem?_cons_succ, List.getElem?_cons_zero, ne_eq, not_true_eq_false, if_false, collect] at hf ⊢
  rw [hf]
  rfl

/-! ## ToLogEvent -/

/-- `ToLogEvent` is nil exactly for a nil log, and for a log without an object. -/
theorem toLogEvent_nil (nul : Ptr) (l : PLog) (h : Heap) : (∃ h', toLogEvent nul l h = .ok (h', none)) ↔ l = .nil ∨ ∃ u, l = .mk .nil u := by
  match l with
  | .nil => simp [toLogEvent]
  | .mk .nil u => simp [toLogEvent]
  | .mk (.mk fields u') u =>
    simp only [toLogEvent, reduceCtorEq, PLog.mk.injEq, false_and, exists_false, or_false, iff_false]
    rintro ⟨h', hh⟩
    cases hl : toLogLoop nul fields h newEvent <;> rw [hl] at hh <;> simp [Res.map] at hh

/-- C44, when it fails: `ToLogEvent` panics exactly when some value of the message, at any depth, is nil, or has no kind, or has an array or object kind with a nil message inside. -/
theorem toLogEvent_panics_iff {nul : Ptr} {h : Heap} (hn : IsNull h nul) (fields : List (Bytes × PValue)) (u u' : Bytes) :
    toLogEvent nul (.mk (.mk fields u') u) h = .panic ↔ ¬ HasKindE fields := by
  have := toLogLoop_spec fields h hn (h0 := h) (f := none) (by simp [Owns]) (Frame.refl h) (by simp [AFields.fp])
  constructor
  · intro hp hk
    obtain ⟨h', f', h1, _⟩ := this.2 hk
    simp only [toLogEvent] at hp
    rw [show newEvent = AFields.event none from rfl, h1] at hp
    simp [Res.map] at hp
  · intro hk
    simp only [toLogEvent]
    rw [show newEvent = AFields.event none from rfl, this.1 hk]
    rfl

/-- C44, otherwise: a new event that owns its contents (all of it new memory; nothing that existed before is changed, shared or frozen apart from `NullValue`), with every field of the message under its name.
Backslashes in names at the top level are lost, and so are fields whose name consists of nothing else. -/
theorem toLogEvent_spec {nul : Ptr} {h : Heap} (hn : IsNull h nul) {fields : List (Bytes × PValue)} (u u' : Bytes) (hk : HasKindE fields) :
    ∃ h' f', toLogEvent nul (.mk (.mk fields u') u) h = .ok (h', some (AFields.event f')) ∧ Owns h' f' ∧ f'.erase = logContents fields ∧
      Holds h' f'.event (logContents fields) ∧ (∀ a ∈ f'.fp, h.length ≤ a) ∧ Frame [] h h' := by
  have := toLogLoop_spec fields h hn (h0 := h) (f := none) (by simp [Owns]) (Frame.refl h) (by simp [AFields.fp])
  obtain ⟨h', f', h1, h2, h3, h4, h5⟩ := this.2 hk
  have he : f'.erase = logContents fields := by rw [h3, ← putAll_none]; rfl
  refine ⟨h', f', ?_, h2, he, ?_, h4, h5⟩
  · simp only [toLogEvent]
    rw [show newEvent = AFields.event none from rfl, h1]
    rfl
  · rw [← he]; exact h2.holds

/-- C44: `Unmarshal` accepts bytes on whose message `ToLogEvent` panics. -/
theorem toLogEvent_panics_on_decoded :
    (∃ m, unmarshal [10, 6, 10, 4, 10, 2, 10, 0] = .ok m ∧ ∀ nul h, toLogEvent nul m.getLog h = .panic) ∧
    (∃ m, unmarshal [10, 8, 10, 6, 10, 4, 10, 0, 18, 0] = .ok m ∧ ∀ nul h, toLogEvent nul m.getLog h = .panic) :=
  ⟨⟨⟨some (.mk (.mk [([], .nil)] []) []), []⟩, rfl, fun nul h => rfl⟩, ⟨⟨some (.mk (.mk [([], .mk .unset [])] []) []), []⟩, rfl, fun nul h => rfl⟩⟩

/-! ## C39: the round trip -/

theorem topEntries_good {fields : List (Bytes × PValue)} (hg : ∀ e ∈ fields, GoodName e.1) : topEntries fields = fields.map fun e => (e.1, valueOf e.2) := by
  have htop : ∀ e ∈ fields, topName e.1 = e.1 := by
    intro e he
    simp only [topName, List.filter_eq_self]
    intro b hb
    have := (hg e he).2
    simp only [ne_eq, decide_not, Bool.not_eq_eq_eq_not, Bool.not_true, decide_eq_false_iff_not]
    rintro rfl
    exact this hb
  unfold topEntries
  rw [List.filter_eq_self.2]
  · exact List.map_congr_left fun e he => by rw [htop e he]
  · intro x hx
    obtain ⟨e, he, rfl⟩ := List.mem_map.1 hx
    simp only [htop e he]
    simpa using (hg e he).1

theorem logContents_good {es : AMap Val} (hs : AMap.Sorted es) (hso : Val.SolidE es) (hc : Val.CanonE es) (hne : es ≠ []) (hg : ∀ e ∈ es, GoodName e.1)
    {fields' order : List (Bytes × PValue)} (h1 : SameEntries (protoOfE es) fields') (h2 : fields'.Perm order) :
    HasKindE order ∧ logContents order = some (AMap.mapVals Val.hop es) := by
  obtain ⟨w1, w2, w3⟩ := proto_wfE es hso hs hc
  obtain ⟨k1, k2⟩ := sameEntries_conv _ _ h1 w1 w2
  have hkeys : fields'.map Prod.fst = es.map Prod.fst := by rw [same_keys h1, protoOfE_keys]
  have hgo : ∀ e ∈ order, GoodName e.1 := by
    intro e he
    have : e.1 ∈ fields'.map Prod.fst := List.mem_map_of_mem (h2.mem_iff.2 he)
    rw [hkeys] at this
    obtain ⟨x, hx, hxe⟩ := List.mem_map.1 this
    rw [← hxe]; exact hg x hx
  have hval : (fields'.map fun e => (e.1, valueOf e.2)) = AMap.mapVals Val.hop es := by
    rw [w3] at k2
    clear w1 w2 w3 h1 h2 hgo k1 hs hso hc hne hg
    induction es generalizing fields' with
    | nil => cases fields' <;> simp_all [AMap.mapVals]
    | cons e es ih =>
      obtain ⟨k, v⟩ := e
      cases fields' with
      | nil => simp at hkeys
      | cons e' fields' =>
        obtain ⟨k', v'⟩ := e'
        simp only [List.map_cons, List.cons.injEq] at hkeys
        simp only [valueOfE, Val.hopE, List.cons.injEq, Prod.mk.injEq] at k2
        have := ih k2.2 hkeys.2
        simp only [List.map_cons, AMap.mapVals, List.cons.injEq, Prod.mk.injEq] at this ⊢
        exact ⟨⟨hkeys.1, k2.1.2⟩, this⟩
  refine ⟨?_, ?_⟩
  · rw [hasKindE_iff] at k1 ⊢
    intro e he
    exact k1 e (h2.mem_iff.2 he)
  · have hp : (topEntries order).Perm (AMap.mapVals Val.hop es) := by
      rw [topEntries_good hgo, ← hval]
      exact (h2.map _).symm
    have hne' : topEntries order ≠ [] := by
      intro h0
      rw [h0] at hp
      have := hp.symm.eq_nil
      simp [AMap.mapVals] at this
      exact hne this
    unfold logContents
    rw [if_neg hne']
    rw [AMap.ofEntries_perm (AMap.sorted_mapVals hs) hp]

/-- C39. For an event with at least one field, without nils, whose top level names are non-empty and contain no backslash: `FromEvent` gives a message; `Marshal` of it succeeds, in whatever order the
maps are iterated; `Unmarshal` of the bytes succeeds, and `ToLogEvent` of the result is a new event with the same fields, in which the values are the same except that names inside
objects come out escaped and nil slices and maps as empty ones. -/
theorem protobuf_round_trip {h : Heap} {e : Event} {es : AMap Val} (hh : Holds h e (some es)) (hs : AMap.Sorted es) (hc : Val.CanonE es) (hso : Val.SolidE es) (hne : es ≠ [])
    (hg : ∀ e ∈ es, GoodName e.1) (hsize : sizeWrapper (messageOf (some es)) < 2 ^ 63 - 8) :
    ∃ N m, (∀ n, N ≤ n → fromEvent n h e = .ok m) ∧ ∀ m', SameMessage m m' → ∃ bs m'', marshal m' = .ok bs ∧ unmarshal bs = .ok m'' ∧
      ∀ (nul : Ptr) (h2 : Heap), IsNull h2 nul → ∃ h3 f, toLogEvent nul m''.getLog h2 = .ok (h3, some (AFields.event f)) ∧ Owns h3 f ∧
        Holds h3 f.event (some (AMap.mapVals Val.hop es)) ∧ (∀ a ∈ f.fp, h2.length ≤ a) ∧ Frame [] h2 h3 := by
  obtain ⟨N, hN⟩ := fromEvent_spec hh
  refine ⟨N, _, hN, fun m' hm => ?_⟩
  obtain ⟨w1, w2, w3⟩ := proto_wfE es hso hs hc
  have hmsg : messageOf (some es) = ⟨some (.mk (.mk (protoOfE es) []) []), []⟩ := by
    cases es with
    | nil => exact absurd rfl hne
    | cons => rfl
  rw [hmsg] at hm hsize
  have hwf : WfWrapper UnknownFields ⟨some (.mk (.mk (protoOfE es) []) []), []⟩ := by
    refine ⟨?_, .nil⟩
    rintro _ ⟨⟩
    exact ⟨⟨w1, .nil⟩, .nil⟩
  have hsize' := hsize
  rw [← size_order_independent hm] at hsize'
  obtain ⟨bs, b1, b2⟩ := wire_round_trip ((same_inv hm).2 hwf) hsize'
  refine ⟨bs, m', b1, b2, fun nul h2 hn => ?_⟩
  obtain ⟨hu, l', hl', hsame⟩ := hm
  simp only [SameLog] at hsame
  obtain ⟨fields', order, rfl, p1, p2⟩ := hsame
  obtain ⟨q1, q2⟩ := logContents_good hs hso hc hne hg p1 p2
  obtain ⟨h3, f, r1, r2, _, r4, r5, r6⟩ := toLogEvent_spec hn [] [] q1
  rw [q2] at r4
  refine ⟨h3, f, ?_, r2, r4, r5, r6⟩
  rw [PWrapper.getLog, hl']
  exact r1

/-- C39, the exact round trip: if moreover no name inside an object contains a dot, and there are no nil slices and maps, the new event holds exactly the same fields. -/
theorem protobuf_round_trip_plain {h : Heap} {e : Event} {es : AMap Val} (hh : Holds h e (some es)) (hs : AMap.Sorted es) (hc : Val.CanonE es) (hso : Val.SolidE es) (hne : es ≠ [])
    (hg : ∀ e ∈ es, GoodName e.1) (hp : ∀ e ∈ es, e.2.Plain) (hsize : sizeWrapper (messageOf (some es)) < 2 ^ 63 - 8) :
    ∃ N m, (∀ n, N ≤ n → fromEvent n h e = .ok m) ∧ ∀ m', SameMessage m m' → ∃ bs m'', marshal m' = .ok bs ∧ unmarshal bs = .ok m'' ∧
      ∀ (nul : Ptr) (h2 : Heap), IsNull h2 nul → ∃ h3 f, toLogEvent nul m''.getLog h2 = .ok (h3, some (AFields.event f)) ∧ Owns h3 f ∧
        Holds h3 f.event (some es) ∧ (∀ a ∈ f.fp, h2.length ≤ a) ∧ Frame [] h2 h3 := by
  have := protobuf_round_trip hh hs hc hso hne hg hsize
  have hm : AMap.mapVals Val.hop es = es := by
    clear this hsize hso hne hh hs hg
    induction es with
    | nil => rfl
    | cons e es ih =>
      obtain ⟨k, v⟩ := e
      simp only [Val.CanonE] at hc
      have := ih hc.2 (fun e he => hp e (by simp [he]))
      simp only [AMap.mapVals, List.map_cons, List.cons.injEq, Prod.mk.injEq, true_and] at this ⊢
      exact ⟨hop_plain v (hp (k, v) (by simp)) hc.1, this⟩
  rw [hm] at this
  exact this

example : AMap.Sorted sampleFields ∧ Val.CanonE sampleFields ∧ Val.SolidE sampleFields ∧ sampleFields ≠ [] ∧ (∀ e ∈ sampleFields, GoodName e.1) ∧ (∀ e ∈ sampleFields, e.2.Plain) ∧
    sizeWrapper (messageOf (some sampleFields)) < 2 ^ 63 - 8 := by
  refine ⟨by decide, ?_, ?_, by decide, by decide, ?_, by decide +kernel⟩
  · simp [sampleFields, Val.CanonE, Val.Canon, Val.CanonL, AMap.Sorted]
  · simp [sampleFields, Val.SolidE, Val.Solid, Val.SolidL]
  · simp [sampleFields, Val.Plain, Val.PlainE, Val.PlainL, dot, lit]

/-- What the round trip does not preserve: a name with a dot inside an object comes back with a backslash in it. -/
theorem nested_dot_escaped : Val.hop (.obj [(lit "x.y", .scalar (.int 1))]) = .obj [(lit "x\\.y", .scalar (.int 1))] := by rfl

/-- What the round trip does not preserve: an event without fields (whether or not its map exists) comes back as a nil `*Event`. -/
theorem empty_event_lost {h : Heap} {e : Event} {f : Fields} (hh : Holds h e f) (hf : f.getD [] = []) :
    ∃ N, ∀ n, N ≤ n → fromEvent n h e = .ok ⟨some (.mk .nil []), []⟩ ∧ ∀ nul h2, toLogEvent nul (.mk .nil []) h2 = .ok (h2, none) := by
  obtain ⟨N, hN⟩ := fromEvent_spec hh
  exact ⟨N, fun n hn => ⟨by rw [hN n hn, messageOf, hf], fun nul h2 => rfl⟩⟩

/-- What the round trip does not preserve: a nil value (which decoding a JSON null produces) becomes a message on which `ToLogEvent` panics; inside an array, `Marshal` panics. -/
theorem nil_values_panic :
    (∃ m, (∀ n, 1 ≤ n → fromEvent n [.map [(lit "a", none)]] (some 0) = .ok m) ∧ ∀ nul h, toLogEvent nul m.getLog h = .panic) ∧
    (∃ m, (∀ n, 2 ≤ n → fromEvent n [.map [(lit "a", some 1)], .cell (arrCell (some [none]))] (some 0) = .ok m) ∧ marshal m = .panic) := by
  constructor
  · refine ⟨⟨some (.mk (.mk [(lit "a", .nil)] []) []), []⟩, fun n hn => ?_, fun nul h => rfl⟩
    obtain ⟨n, rfl⟩ : ∃ k, n = k + 1 := ⟨n - 1, by omega⟩
    rfl
  · refine ⟨⟨some (.mk (.mk [(lit "a", .mk (.array (.mk [.nil] [])) [])] []) []), []⟩, fun n hn => ?_, ?_⟩
    · obtain ⟨n, rfl⟩ : ∃ k, n = k + 2 := ⟨n - 2, by omega⟩
      rfl
    · rw [marshal_panics_iff]
      simp [NoNil, NoNilFields, NoNilValue, NoNilKind, NoNilItems]

end Sawmill
