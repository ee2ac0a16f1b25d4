import Verif.Spec.WireStrict
import Verif.Props.Bomb
/-!
# C101: messages whose map entries keep to their ends
-/

namespace Sawmill.Wire
open Text

/-! ## They are messages -/

mutual
theorem strict_value : ∀ {k u c k' u'}, StrictValue k u c k' u' → ValueFrom k u c k' u'
  | _, _, _, _, _, .done => .done
  | _, _, _, _, _, .null a b h => .null a b (strict_value h)
  | _, _, _, _, _, .array a b x h => .array a b (strict_array x) (strict_value h)
  | _, _, _, _, _, .boolean a b h => .boolean a b (strict_value h)
  | _, _, _, _, _, .float a b h => .float a b (strict_value h)
  | _, _, _, _, _, .integer a b h => .integer a b (strict_value h)
  | _, _, _, _, _, .object a b x h => .object a b (strict_object x) (strict_value h)
  | _, _, _, _, _, .string a b h => .string a b (strict_value h)
  | _, _, _, _, _, .timestamp a b h => .timestamp a b (strict_value h)
  | _, _, _, _, _, .unsigned a b h => .unsigned a b (strict_value h)
  | _, _, _, _, _, .unknown a b c h => .unknown a b c (strict_value h)
theorem strict_array : ∀ {vs u c vs' u'}, StrictArray vs u c vs' u' → ArrayFrom vs u c vs' u'
  | _, _, _, _, _, .done => .done
  | _, _, _, _, _, .item a b x h => .item a b (strict_value x) (strict_array h)
  | _, _, _, _, _, .unknown a b c h => .unknown a b c (strict_array h)
theorem strict_object : ∀ {fs u c fs' u'}, StrictObject fs u c fs' u' → ObjectFrom fs u c fs' u'
  | _, _, _, _, _, .done => .done
  | _, _, _, _, _, .entry (t := t) (b := b) (e := e) (rest := rest) ht hb x h => by
    have ih := strict_object h
    have ie := strict_entry x rest
    obtain ⟨n, hn, rfl⟩ := hb
    have := ObjectFrom.entry ht hn ie ih
    simpa using this
  | _, _, _, _, _, .unknown a b c h => .unknown a b c (strict_object h)
theorem strict_entry : ∀ {k v s k' v'}, StrictEntry k v s k' v' → ∀ rest, EntryFrom s.length k v (s ++ rest) k' v'
  | _, _, _, _, _, .done => fun rest => .done
  | _, _, _, _, _, .key (t := t) (b := b) (rest := r) ht hb h => fun rest => by
    have ih := strict_entry h rest
    have := ht.pos
    rw [show t ++ b ++ r ++ rest = t ++ b ++ (r ++ rest) by simp]
    exact EntryFrom.key (left := (t ++ b ++ r).length) (rest := r ++ rest) (by simp; omega) ht hb (by rw [show (t ++ b ++ r).length - (t ++ b).length = r.length by simp only [List.length_append]; omega]; exact ih)
  | _, _, _, _, _, .value (t := t) (b := b) (rest := r) ht hb x h => fun rest => by
    have ih := strict_entry h rest
    have iv := strict_value x
    have := ht.pos
    rw [show t ++ b ++ r ++ rest = t ++ b ++ (r ++ rest) by simp]
    exact EntryFrom.value (left := (t ++ b ++ r).length) (rest := r ++ rest) (by simp; omega) ht hb iv (by rw [show (t ++ b ++ r).length - (t ++ b).length = r.length by simp only [List.length_append]; omega]; exact ih)
  | _, _, _, _, _, .unknown (f := f) (rest := r) hf h1 h2 h => fun rest => by
    have ih := strict_entry h rest
    have := hf.pos
    have := EntryFrom.unknown (left := (f ++ r).length) (rest := r ++ rest) (by simp; omega) hf h1 h2 (by simp) (by rw [show (f ++ r).length - f.length = r.length by simp]; exact ih)
    simpa using this
end

theorem strict_log {o o' : PObject} {u c u' : Bytes} (h : StrictLog o u c o' u') : LogFrom o u c o' u' := by
  induction h with
  | done => exact .done
  | first a b x _ ih => exact .first a b (strict_object x) ih
  | again a b x _ ih => exact .again a b (strict_object x) ih
  | unknown a b c _ ih => exact .unknown a b c ih

theorem strict_message {d : Bytes} {m : PWrapper} (h : StrictMessage d m) : Message d m := by
  have : ∀ {m d m'}, StrictWrapper m d m' → WrapperFrom m d m' := by
    intro m d m' h
    induction h with
    | done => exact .done
    | log a b x _ ih => exact .log a b (strict_log x) ih
    | unknown a b c _ ih => exact .unknown a b c ih
  exact this h

/-! ## At most one value for each byte -/

mutual
theorem value_few : ∀ {k u c k' u'}, StrictValue k u c k' u' → k'.values ≤ max k.values c.length
  | _, _, _, _, _, .done => by omega
  | _, _, _, _, _, .null _ _ h => by have ih := value_few h; simp only [PKind.values, List.length_append] at ih ⊢; omega
  | _, _, _, _, _, .array (c := c) _ hc ha h => by
    have ih := value_few h; have ia := array_few ha; have := counted_length hc
    simp only [PKind.values, PArray.values, PValue.valuesL, List.length_append] at ih ia ⊢; omega
  | _, _, _, _, _, .boolean _ _ h => by have ih := value_few h; simp only [PKind.values, List.length_append] at ih ⊢; omega
  | _, _, _, _, _, .float _ _ h => by have ih := value_few h; simp only [PKind.values, List.length_append] at ih ⊢; omega
  | _, _, _, _, _, .integer _ _ h => by have ih := value_few h; simp only [PKind.values, List.length_append] at ih ⊢; omega
  | _, _, _, _, _, .object (c := c) _ hc ha h => by
    have ih := value_few h; have ia := object_few ha; have := counted_length hc
    simp only [PKind.values, PObject.values, PValue.valuesE, List.length_append] at ih ia ⊢; omega
  | _, _, _, _, _, .string _ _ h => by have ih := value_few h; simp only [PKind.values, List.length_append] at ih ⊢; omega
  | _, _, _, _, _, .timestamp _ _ h => by have ih := value_few h; simp only [PKind.values, List.length_append] at ih ⊢; omega
  | _, _, _, _, _, .unsigned _ _ h => by have ih := value_few h; simp only [PKind.values, List.length_append] at ih ⊢; omega
  | _, _, _, _, _, .unknown _ _ _ h => by have ih := value_few h; simp only [List.length_append] at ih ⊢; omega
theorem array_few : ∀ {vs u c vs' u'}, StrictArray vs u c vs' u' → PValue.valuesL vs' ≤ PValue.valuesL vs + c.length
  | _, _, _, _, _, .done => by omega
  | _, _, _, _, _, .item _ hc hv h => by
    have ih := array_few h; have iv := value_few hv; have := counted_length hc
    simp only [valuesL_append, PValue.valuesL, PValue.values, PKind.values, List.length_append] at ih iv ⊢; omega
  | _, _, _, _, _, .unknown _ _ _ h => by have ih := array_few h; simp only [List.length_append] at ih ⊢; omega
theorem object_few : ∀ {fs u c fs' u'}, StrictObject fs u c fs' u' → PValue.valuesE fs' ≤ PValue.valuesE fs + c.length
  | _, _, _, _, _, .done => by omega
  | fs, _, _, _, _, .entry (k := k) (v := v) _ hc he h => by
    have ih := object_few h; have iv := entry_few he; have := counted_length hc; have := put_values fs k v
    simp only [PValue.values, List.length_append] at ih iv ⊢; omega
  | _, _, _, _, _, .unknown _ _ _ h => by have ih := object_few h; simp only [List.length_append] at ih ⊢; omega
theorem entry_few : ∀ {k v s k' v'}, StrictEntry k v s k' v' → v'.values ≤ max v.values s.length
  | _, _, _, _, _, .done => by omega
  | _, _, _, _, _, .key _ _ h => by have ih := entry_few h; simp only [List.length_append] at ih ⊢; omega
  | _, _, _, _, _, .value _ hc hv h => by
    have ih := entry_few h; have iv := value_few hv; have := counted_length hc
    simp only [PValue.values, PKind.values, List.length_append] at ih iv ⊢; omega
  | _, _, _, _, _, .unknown _ _ _ h => by have ih := entry_few h; simp only [List.length_append] at ih ⊢; omega
end

/-- **C101.** It takes map entries whose contents reach beyond their ends: in all other messages there are no more values than bytes. -/
theorem bomb_defused {d : Bytes} (hd : d.length < 2 ^ 63 - 8) {m : PWrapper} (h : StrictMessage d m) : unmarshal d = .ok m ∧ m.values ≤ d.length := by
  refine ⟨((unmarshal_reads d hd).1 m).2 (strict_message h), ?_⟩
  have hlog : ∀ {o u c o' u'}, StrictLog o u c o' u' → o'.values ≤ o.values + c.length := by
    intro o u c o' u' h
    induction h with
    | done => omega
    | first _ hc ho _ ih =>
      have io := object_few ho; have := counted_length hc
      simp only [PObject.values, PValue.valuesE, List.length_append] at ih io ⊢; omega
    | again _ hc ho _ ih =>
      have io := object_few ho; have := counted_length hc
      simp only [PObject.values, List.length_append] at ih io ⊢; omega
    | unknown _ _ _ _ ih => simp only [List.length_append] at ih ⊢; omega
  have key : ∀ {m d m'}, StrictWrapper m d m' → m'.values ≤ max m.values d.length := by
    intro m d m' h
    induction h with
    | done => omega
    | log _ hc hl _ ih =>
      have il := hlog hl; have := counted_length hc
      simp only [PWrapper.values, PObject.values, List.length_append] at ih il ⊢; omega
    | unknown _ _ _ _ ih => simp only [PWrapper.values, List.length_append] at ih ⊢; omega
  have := key h
  simpa [PWrapper.values] using this

/-! ## What `Marshal` writes keeps to the ends -/

theorem counted_lenField {num : Nat} {c : Bytes} : lenField num c = tag num 2 ++ (varint c.length ++ c) := by simp [lenField]

mutual
theorem field_extent : ∀ {num : Nat} {f : Bytes}, Field num f → num < 2 ^ 29 → f.length < 2 ^ 64 → Extent num f
  | _, _, .varint num n hn, h, _ => .varint (key_tag h (by omega)) (number_varint hn).1
  | _, _, .fixed64 num bs hb, h, _ => .fixed64 (key_tag h (by omega)) hb
  | _, _, .bytes num bs, h, hl => by
    rw [counted_lenField]
    refine .bytes (key_tag h (by omega)) (counted_varint ?_)
    simp only [lenField, List.length_append] at hl; omega
  | _, _, .group num bs hg, h, hl => by
    have := group_members hg (by simp only [List.length_append] at hl; omega) (key_tag h (show 4 < 8 by omega))
    rw [List.append_assoc]
    exact .group (key_tag h (by omega)) this
  | _, _, .fixed32 num bs hb, h, _ => .fixed32 (key_tag h (by omega)) hb
theorem group_members : ∀ {bs : Bytes}, Group bs → bs.length < 2 ^ 64 → ∀ {num : Nat} {t : Bytes}, Key num 4 t → Members (bs ++ t)
  | _, .nil, _ => fun ht => .close ht
  | _, .cons num f bs _ hn hf hg, hl => fun ht => by
    have ih := group_members hg (by simp only [List.length_append] at hl; omega) ht
    have ie := field_extent hf hn (by simp only [List.length_append] at hl; omega)
    rw [List.append_assoc]
    exact .field ie ih
end

theorem unknown_value {bs : Bytes} (h : UnknownFields 9 bs) (hl : bs.length < 2 ^ 64) (k : PKind) (u : Bytes) : StrictValue k u bs k (u ++ bs) := by
  induction h generalizing u with
  | nil => simpa using StrictValue.done
  | cons num f bs h1 h2 hf _ ih =>
    simp only [List.length_append] at hl
    have := ih (by omega) (u ++ f)
    rw [List.append_assoc] at this
    exact .unknown (field_extent hf h2 (by omega)) ⟨by omega, by omega⟩ h1 this

theorem unknown_array {bs : Bytes} (h : UnknownFields 1 bs) (hl : bs.length < 2 ^ 64) (k : List PValue) (u : Bytes) : StrictArray k u bs k (u ++ bs) := by
  induction h generalizing u with
  | nil => simpa using StrictArray.done
  | cons num f bs h1 h2 hf _ ih =>
    simp only [List.length_append] at hl
    have := ih (by omega) (u ++ f)
    rw [List.append_assoc] at this
    exact .unknown (field_extent hf h2 (by omega)) ⟨by omega, by omega⟩ h1 this

theorem unknown_object {bs : Bytes} (h : UnknownFields 1 bs) (hl : bs.length < 2 ^ 64) (k : List (Bytes × PValue)) (u : Bytes) : StrictObject k u bs k (u ++ bs) := by
  induction h generalizing u with
  | nil => simpa using StrictObject.done
  | cons num f bs h1 h2 hf _ ih =>
    simp only [List.length_append] at hl
    have := ih (by omega) (u ++ f)
    rw [List.append_assoc] at this
    exact .unknown (field_extent hf h2 (by omega)) ⟨by omega, by omega⟩ h1 this

theorem unknown_log {bs : Bytes} (h : UnknownFields 1 bs) (hl : bs.length < 2 ^ 64) (o : PObject) (u : Bytes) : StrictLog o u bs o (u ++ bs) := by
  induction h generalizing u with
  | nil => simpa using StrictLog.done
  | cons num f bs h1 h2 hf _ ih =>
    simp only [List.length_append] at hl
    have := ih (by omega) (u ++ f)
    rw [List.append_assoc] at this
    exact .unknown (field_extent hf h2 (by omega)) ⟨by omega, by omega⟩ h1 this

theorem unknown_wrapper {bs : Bytes} (h : UnknownFields 1 bs) (hl : bs.length < 2 ^ 64) (m : Option PLog) (u : Bytes) : StrictWrapper ⟨m, u⟩ bs ⟨m, u ++ bs⟩ := by
  induction h generalizing u with
  | nil => simpa using StrictWrapper.done
  | cons num f bs h1 h2 hf _ ih =>
    simp only [List.length_append] at hl
    have := ih (by omega) (u ++ f)
    rw [List.append_assoc] at this
    exact .unknown (field_extent hf h2 (by omega)) ⟨by omega, by omega⟩ h1 this

theorem strictObject_append : ∀ {fs u a fs' u'}, StrictObject fs u a fs' u' → ∀ {b fs'' u''}, StrictObject fs' u' b fs'' u'' → StrictObject fs u (a ++ b) fs'' u''
  | _, _, _, _, _, .done => fun h2 => h2
  | _, _, _, _, _, .entry a b x h => fun h2 => by
    have := StrictObject.entry a b x (strictObject_append h h2)
    simpa using this
  | _, _, _, _, _, .unknown a b c h => fun h2 => by
    have := StrictObject.unknown a b c (strictObject_append h h2)
    simpa using this

theorem fixed64_foldr : ∀ b : Bytes, fixed64 b = b.foldr (fun x acc => x.toNat + 256 * acc) 0
  | [] => rfl
  | x :: b => by rw [fixed64, fixed64_foldr b]; rfl

mutual
theorem enc_strict_value : ∀ (kind : PKind) (unrec : Bytes), WfKind UnknownFields kind → UnknownFields 9 unrec → (encValue (.mk kind unrec)).length < 2 ^ 63 → StrictValue .unset [] (encValue (.mk kind unrec)) kind unrec
  | .unset, unrec, hk, hu, hl => by
    simp only [encValue, encKind, List.nil_append] at hl ⊢
    exact unknown_value hu (by omega) _ []
  | .null v, unrec, hk, hu, hl => by
    simp only [encValue, encKind, varintField, List.length_append] at hl ⊢
    have := unknown_value hu (by omega) (.null v) []
    refine .null (key_tag (by omega) (by omega)) (number_varint (BitVec.isLt _)).1 ?_
    rw [groups_varint]
    rw [signExtend_round]; exact this
  | .array .nil, unrec, hk, hu, hl => by simp [WfKind] at hk
  | .array (.mk items ua), unrec, hk, hu, hl => by
    simp only [WfKind] at hk
    have hl1 : (encItems items ++ ua).length < 2 ^ 63 := by simp only [encValue, encKind, lenField, List.length_append] at hl ⊢; omega
    have hl2 : unrec.length < 2 ^ 64 := by simp only [encValue, List.length_append] at hl; omega
    have ih := enc_strict_items items hk.1 (by simp only [List.length_append] at hl1; omega) [] ua hk.2 (by simp only [List.length_append] at hl1; omega)
    simp only [encValue, encKind, counted_lenField]
    exact .array (key_tag (by omega) (by omega)) (counted_varint (by omega)) (by simpa using ih) (unknown_value hu hl2 _ [])
  | .boolean b, unrec, hk, hu, hl => by
    simp only [encValue, encKind, varintField, List.length_append] at hl ⊢
    have := unknown_value hu (by omega) (.boolean b) []
    refine .boolean (key_tag (by omega) (by omega)) (number_varint (n := if b then 1 else 0) (by cases b <;> decide)) ?_
    cases b <;> simpa using this
  | .float v, unrec, hk, hu, hl => by
    simp only [encValue, encKind, List.length_append] at hl ⊢
    have := unknown_value hu (by omega) (.float v) []
    refine .float (key_tag (by omega) (by omega)) (le64_length v) ?_
    have hf : BitVec.ofNat 64 (fixed64 (le64 v)) = v := by
      rw [fixed64_foldr]; exact le64_round v
    rw [hf]; exact this
  | .integer v, unrec, hk, hu, hl => by
    simp only [encValue, encKind, varintField, List.length_append] at hl ⊢
    have := unknown_value hu (by omega) (.integer v) []
    refine .integer (key_tag (by omega) (by omega)) (number_varint v.isLt) ?_
    simpa using this
  | .object .nil, unrec, hk, hu, hl => by simp [WfKind] at hk
  | .object (.mk fs ua), unrec, hk, hu, hl => by
    simp only [WfKind] at hk
    have hl1 : (encFields fs ++ ua).length < 2 ^ 63 := by simp only [encValue, encKind, lenField, List.length_append] at hl ⊢; omega
    have hl2 : unrec.length < 2 ^ 64 := by simp only [encValue, List.length_append] at hl; omega
    have ih := enc_strict_fields fs hk.1 (by simp only [List.length_append] at hl1; omega)
    have := strictObject_append ih (unknown_object hk.2 (by simp only [List.length_append] at hl1; omega) _ [])
    simp only [encValue, encKind, counted_lenField]
    exact .object (key_tag (by omega) (by omega)) (counted_varint (by omega)) (by simpa using this) (unknown_value hu hl2 _ [])
  | .string none, unrec, hk, hu, hl => by simp [WfKind] at hk
  | .string (some s), unrec, hk, hu, hl => by
    have hl1 : s.length < 2 ^ 63 := by simp only [encValue, encKind, lenField, List.length_append] at hl ⊢; omega
    have hl2 : unrec.length < 2 ^ 64 := by simp only [encValue, List.length_append] at hl; omega
    simp only [encValue, encKind, counted_lenField]
    exact .string (key_tag (by omega) (by omega)) (counted_varint (by omega)) (unknown_value hu hl2 _ [])
  | .timestamp v, unrec, hk, hu, hl => by
    simp only [encValue, encKind, varintField, List.length_append] at hl ⊢
    have := unknown_value hu (by omega) (.timestamp v) []
    refine .timestamp (key_tag (by omega) (by omega)) (number_varint v.isLt) ?_
    simpa using this
  | .unsigned v, unrec, hk, hu, hl => by
    simp only [encValue, encKind, varintField, List.length_append] at hl ⊢
    have := unknown_value hu (by omega) (.unsigned v) []
    refine .unsigned (key_tag (by omega) (by omega)) (number_varint v.isLt) ?_
    simpa using this
theorem enc_strict_items : ∀ (items : List PValue), WfItems UnknownFields items → (encItems items).length < 2 ^ 63 → ∀ (vs : List PValue) (ua : Bytes), UnknownFields 1 ua → ua.length < 2 ^ 64 →
    StrictArray vs [] (encItems items ++ ua) (vs ++ items) ua
  | [], hw, hl, vs, ua, hu, hul => by
    simp only [encItems, List.nil_append, List.append_nil]; exact unknown_array hu hul _ []
  | .nil :: items, hw, hl, vs, ua, hu, hul => by simp [WfItems, WfValue] at hw
  | .mk k u :: items, hw, hl, vs, ua, hu, hul => by
    simp only [WfItems, WfValue] at hw
    simp only [encItems, lenField, List.length_append] at hl
    have ih := enc_strict_items items hw.2 (by omega) (vs ++ [.mk k u]) ua hu hul
    have iv := enc_strict_value k u hw.1.1 hw.1.2 (by omega)
    simp only [encItems, counted_lenField]
    have := StrictArray.item (vs := vs) (u := []) (key_tag (num := 1) (wt := 2) (by omega) (by omega)) (counted_varint (c := encValue (.mk k u)) (by omega)) iv ih
    simpa using this
theorem enc_strict_fields : ∀ (es : List (Bytes × PValue)), WfFields UnknownFields es → (encFields es).length < 2 ^ 63 → StrictObject [] [] (encFields es) es []
  | [], hw, hl => .done
  | (k, .nil) :: es, hw, hl => by
    simp only [WfFields] at hw
    simp only [encFields, PValue.isNil, if_true, lenField, List.length_append] at hl
    have ih := enc_strict_fields es hw.2.2 (by omega)
    have hp : put es k .nil = (k, .nil) :: es := by
      rw [put, List.filter_eq_self.2]; intro e he; simp; intro hk; exact hw.2.1 (hk ▸ List.mem_map_of_mem he)
    have hentry : StrictEntry [] .nil (lenField 1 k ++ []) k .nil := by
      rw [counted_lenField]
      exact .key (key_tag (by omega) (by omega)) (counted_varint (by omega)) .done
    simp only [encFields, PValue.isNil, if_true]
    refine strictObject_append ih ?_
    rw [counted_lenField (c := lenField 1 k ++ []), ← List.append_nil (tag 1 2 ++ _)]
    refine .entry (key_tag (by omega) (by omega)) (counted_varint ?_) hentry (hp ▸ .done)
    simp only [lenField, List.length_append]; omega
  | (k, .mk kd u) :: es, hw, hl => by
    simp only [WfFields] at hw
    simp only [encFields, PValue.isNil, lenField, List.length_append, Bool.false_eq_true, if_false] at hl
    have hwv : WfKind UnknownFields kd ∧ UnknownFields 9 u := by
      rcases hw.1 with h | h
      · simp at h
      · simpa only [WfValue] using h
    have ih := enc_strict_fields es hw.2.2 (by omega)
    have iv := enc_strict_value kd u hwv.1 hwv.2 (by omega)
    have hp : put es k (.mk kd u) = (k, .mk kd u) :: es := by
      rw [put, List.filter_eq_self.2]; intro e he; simp; intro hk; exact hw.2.1 (hk ▸ List.mem_map_of_mem he)
    have hentry : StrictEntry [] .nil (lenField 1 k ++ lenField 2 (encValue (.mk kd u))) k (.mk kd u) := by
      rw [counted_lenField, counted_lenField]
      refine .key (key_tag (by omega) (by omega)) (counted_varint (by omega)) ?_
      rw [← List.append_nil (tag 2 2 ++ _)]
      exact .value (key_tag (by omega) (by omega)) (counted_varint (by omega)) iv .done
    simp only [encFields, PValue.isNil, Bool.false_eq_true, if_false]
    refine strictObject_append ih ?_
    rw [counted_lenField (c := lenField 1 k ++ lenField 2 (encValue (.mk kd u))), ← List.append_nil (tag 1 2 ++ _)]
    refine .entry (key_tag (by omega) (by omega)) (counted_varint ?_) hentry (hp ▸ .done)
    simp only [lenField, List.length_append]; omega
end

/-- **C101.** What `Marshal` writes for a well-formed message is one of these. -/
theorem marshal_strict {m : PWrapper} (h : WfWrapper UnknownFields m) (hs : sizeWrapper m < 2 ^ 63 - 8) : ∃ bs, marshal m = .ok bs ∧ StrictMessage bs m := by
  obtain ⟨bs, h1, h2, h3⟩ := marshal_exact (noNil_of_wf h)
  refine ⟨bs, h1, ?_⟩
  rw [← h2] at hs
  subst h3
  clear h1 h2
  obtain ⟨msg, unrec⟩ := m
  obtain ⟨hm, hu⟩ := h
  simp only at hm hu
  rcases msg with _ | (_ | ⟨o, ul⟩)
  · simp only [encWrapper] at hs ⊢
    exact unknown_wrapper hu (by omega) _ []
  · exact absurd (hm _ rfl) (by simp [WfLog])
  · have hw := hm _ rfl
    simp only [WfLog] at hw
    simp only [encWrapper, counted_lenField] at hs ⊢
    simp only [List.length_append] at hs
    refine .log (key_tag (by omega) (by omega)) (counted_varint (by omega)) ?_ (unknown_wrapper hu (by omega) _ [])
    rcases o with _ | ⟨fs, ua⟩
    · simp only [encLog] at hs ⊢
      exact unknown_log hw.2 (by omega) _ []
    · simp only [WfObject] at hw
      simp only [encLog, counted_lenField, List.length_append] at hs ⊢
      have ih := enc_strict_fields fs hw.1.1 (by omega)
      have := strictObject_append ih (unknown_object hw.1.2 (by omega) _ [])
      have hc : (encFields fs ++ ua).length < 2 ^ 64 := by rw [List.length_append]; omega
      have hk := counted_varint hc
      rw [List.length_append] at hk
      exact .first (key_tag (by omega) (by omega)) hk (by simpa using this) (unknown_log hw.2 (by omega) _ [])

/-- `exampleMessage` has objects, arrays and unknown fields at all levels. -/
example : ∃ bs, marshal exampleMessage = .ok bs ∧ StrictMessage bs exampleMessage := marshal_strict exampleMessage_wf (by rw [exampleMessage_size]; omega)

/-- Of the hundred-step bomb no reading is strict. -/
theorem bomb_not_strict : ¬∃ m, StrictMessage (bomb 100) m := by
  rintro ⟨m, h⟩
  obtain ⟨h3, m', h4, h5⟩ := bomb_hundred
  obtain ⟨h1, h2⟩ := bomb_defused (by omega) h
  rw [h1] at h4
  cases h4
  omega

end Sawmill.Wire
