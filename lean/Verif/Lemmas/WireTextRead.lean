import Verif.Lemmas.WireTextMsg
/-!
# What is in the grammar of `Spec/WireText` is read
-/

namespace Sawmill.Wire.Text

theorem loop_key {σ : Type} {handle : Nat → Nat → Int → σ → Option (UOut (σ × Int))} {keep : σ → Bytes → σ} {pre t s : Bytes} {num wt : Nat} (hk : Key num wt t) (hl : Legal num) (hw : wt ≠ 4)
    {m m' : σ} {j : Int} {r : UOut σ} (hj : (pre.length : Int) < j) (hh : handle num wt ((pre ++ t).length : Nat) m = some (.ok (m', j)))
    (hr : Loop (pre ++ (t ++ s)) handle keep j m' r) : Loop (pre ++ (t ++ s)) handle keep pre.length m r := by
  intro n hn
  have hp := hk.pos
  obtain ⟨n, rfl⟩ : ∃ k, n = k + 1 := ⟨n - 1, by simp only [dlen, List.length_append] at hn; omega⟩
  simp only [fieldLoop]
  rw [if_pos (by simp only [dlen, List.length_append]; omega), readVarint_complete hk.varint, ubind_ok]
  dsimp only
  have := (key_legal hk).2 hl
  rw [key_wt hk, if_neg hw, if_neg (by omega), key_num hk hl, Int.toNat_natCast]
  simp only [hh]
  rw [ubind_ok]
  exact hr n (by omega)

theorem loop_unknown {σ : Type} {handle : Nat → Nat → Int → σ → Option (UOut (σ × Int))} {keep : σ → Bytes → σ} {own : Nat} (ho : Own own handle) {pre f rest : Bytes} {num : Nat}
    (hs : Small (pre ++ (f ++ rest))) (hx : Extent num f) (hl : Legal num) (hn : own < num) {m : σ} {r : UOut σ}
    (hr : Loop (pre ++ (f ++ rest)) handle keep ((pre ++ f).length : Nat) (keep m f) r) : Loop (pre ++ (f ++ rest)) handle keep pre.length m r := by
  intro n hfu
  have hp := hx.pos
  obtain ⟨n, rfl⟩ : ∃ k, n = k + 1 := ⟨n - 1, by simp only [dlen, List.length_append] at hfu; omega⟩
  obtain ⟨wt, t, s, hk, hf, hw⟩ := hx.head
  have hcut : pre ++ (f ++ rest) = pre ++ (t ++ (s ++ rest)) := by rw [hf]; simp
  have hrd : readVarint 64 (pre ++ (f ++ rest)) pre.length = .ok (BitVec.ofNat 64 (groups t), ((pre ++ t).length : Nat)) := by
    rw [hcut]; exact readVarint_complete hk.varint
  simp only [fieldLoop]
  rw [if_pos (by simp only [dlen, List.length_append]; omega), hrd, ubind_ok]
  dsimp only
  have := (key_legal hk).2 hl
  rw [key_wt hk, if_neg hw, if_neg (by omega), key_num hk hl, Int.toNat_natCast]
  have hnone : handle num wt ((pre ++ t).length : Nat) m = none := (ho _ _ _ _).2 (.inr hn)
  simp only [hnone]
  rw [skipAt_complete hs hx (by simp only [dlen, List.length_append]; omega), ubind_ok]
  have hsl := @slice_mid pre f rest
  rw [← List.length_append, List.append_assoc] at hsl
  rw [hsl, ubind_ok]
  exact hr n (by simp only [List.length_append] at *; omega)

theorem varintCase_complete {σ : Type} {w : Nat} {pre v rest : Bytes} {set : BitVec w → σ} (hv : Varint v) :
    varintCase w (pre ++ (v ++ rest)) 0 pre.length set = .ok (set (.ofNat w (groups v)), ((pre ++ v).length : Nat)) := by
  unfold varintCase
  rw [if_neg (by omega), readVarint_complete hv]; rfl

theorem lengthCase_complete {σ : Type} {pre b c rest : Bytes} (hs : Small (pre ++ (b ++ rest))) (hc : Counted c b) {body : Bytes → UOut σ} {r : σ} (hb : body c = .ok r) :
    lengthCase (pre ++ (b ++ rest)) 2 pre.length body = .ok (r, ((pre ++ b).length : Nat)) := by
  obtain ⟨v, hn, rfl⟩ := hc
  unfold lengthCase
  rw [if_neg (by omega), readLength_complete hs hn, ubind_ok]
  dsimp only
  rw [slice_len, ubind_ok, hb, ubind_ok, List.append_assoc]

theorem float64Case_complete {pre c rest : Bytes} (hs : Small (pre ++ (c ++ rest))) (hc : c.length = 8) :
    float64Case (pre ++ (c ++ rest)) 1 pre.length = .ok (.float (.ofNat 64 (fixed64 c)), ((pre ++ c).length : Nat)) := by
  unfold float64Case
  simp only [Small] at hs
  have hl : dlen (pre ++ (c ++ rest)) = pre.length + 8 + rest.length := by simp [dlen, hc]; omega
  rw [if_neg (by omega), wrap64_lo (by omega) (by omega), if_neg (by omega)]
  have hsl := @slice_mid pre c rest
  rw [List.append_assoc, hc] at hsl
  rw [show (pre.length : Int) + 8 = ((pre.length + 8 : Nat) : Int) by omega, hsl, ubind_ok, uint64le]
  have : ∀ b : Bytes, b.foldr (fun x acc => x.toNat + 256 * acc) 0 = fixed64 b := by
    intro b
    induction b with
    | nil => rfl
    | cons x b ih => simp only [List.foldr, fixed64, ih]
  rw [this, List.length_append, hc]

def keepV (m : ValueMsg) (u : Bytes) : ValueMsg := { m with unrec := m.unrec ++ u }
def keepA (m : ArrayMsg) (u : Bytes) : ArrayMsg := { m with unrec := m.unrec ++ u }
def keepO (m : ObjectMsg) (u : Bytes) : ObjectMsg := { m with unrec := m.unrec ++ u }

theorem counted_length {c b : Bytes} (h : Counted c b) : c.length < b.length := by
  obtain ⟨v, hn, rfl⟩ := h
  have := varint_pos hn.1
  simp; omega

theorem ofNat_mod (g : Nat) : BitVec.ofNat 64 (g % 2 ^ 64) = BitVec.ofNat 64 g := BitVec.eq_of_toNat_eq (by simp)

theorem number_eq {n : Nat} {v : Bytes} (h : Number n v) : BitVec.ofNat 64 n = BitVec.ofNat 64 (groups v) := by rw [h.2, ofNat_mod]

theorem loop_cast {σ : Type} {d d' : Bytes} (h : d = d') {handle : Bytes → Nat → Nat → Int → σ → Option (UOut (σ × Int))} {keep : σ → Bytes → σ} {i j : Int} (hij : i = j) {m : σ} {r : UOut σ}
    (hl : Loop d' (handle d') keep j m r) : Loop d (handle d) keep i m r := by subst h; subst hij; exact hl

mutual
theorem value_read {k k' : PKind} {u u' s : Bytes} (h : ValueFrom k u s k' u') {n : Nat} {pre : Bytes} (hs : Small (pre ++ s)) (hn : s.length ≤ n) :
    Loop (pre ++ s) (handleValue (unmarshalValue n) (pre ++ s)) keepV pre.length ⟨k, u⟩ (.ok ⟨k', u'⟩) := by
  have scalar : ∀ {num wt : Nat} {t c rest : Bytes} {kind : PKind}, s = t ++ c ++ rest → Key num wt t → Legal num → wt ≠ 4 →
      handleValue (unmarshalValue n) (pre ++ s) num wt ((pre ++ t).length : Nat) ⟨k, u⟩ = some (.ok (⟨kind, u⟩, ((pre ++ t ++ c).length : Nat))) →
      Loop ((pre ++ t ++ c) ++ rest) (handleValue (unmarshalValue n) ((pre ++ t ++ c) ++ rest)) keepV ((pre ++ t ++ c).length : Nat) ⟨kind, u⟩ (.ok ⟨k', u'⟩) →
      Loop (pre ++ s) (handleValue (unmarshalValue n) (pre ++ s)) keepV pre.length ⟨k, u⟩ (.ok ⟨k', u'⟩) := by
    intro num wt t c rest kind he hk hl hw hh hr
    have e1 : pre ++ s = pre ++ (t ++ (c ++ rest)) := by rw [he]; simp
    have e2 : pre ++ t ++ c ++ rest = pre ++ (t ++ (c ++ rest)) := by simp
    rw [e2] at hr
    rw [e1] at hh ⊢
    have hp := hk.pos
    exact loop_key hk hl hw (by simp only [List.length_append]; omega) hh hr
  match h with
  | .done =>
    rw [List.append_nil]
    exact loop_end
  | .null (t := t) (v := v) (rest := rest) hk hv hr =>
    refine scalar rfl hk (by simp [Legal]) (by omega) ?_ (value_read hr (by simpa using hs) (by simp only [List.length_append] at hn; omega))
    simp only [handleValue, List.append_assoc]
    rw [← List.append_assoc pre t (v ++ rest), varintCase_complete hv]; simp
  | .array (t := t) (b := b) (c := c) (rest := rest) (ua := ua) (items := items) hk hc ha hr =>
    have hcl := counted_length hc
    have hs' : Small (pre ++ t ++ (b ++ rest)) := by simpa using hs
    refine scalar rfl hk (by simp [Legal]) (by omega) ?_ (value_read hr (by simpa using hs) (by simp only [List.length_append] at hn; omega))
    have hsc := Small.contents hs' hc
    simp only [handleValue, List.append_assoc]
    rw [← List.append_assoc pre t (b ++ rest), lengthCase_complete hs' hc (r := .array (.mk items ua))]
    · simp
    · have := fields_loop (array_read ha (n := n) (pre := []) (by simpa using hsc) (by simp only [List.length_append] at hn; omega))
      simp only [List.nil_append] at this
      rw [show unmarshalArray (unmarshalValue n) c = .ok ⟨_, _⟩ from this]
      rfl
  | .boolean (t := t) (v := v) (rest := rest) (n := x) hk hv hr =>
    refine scalar rfl hk (by simp [Legal]) (by omega) ?_ (value_read hr (by simpa using hs) (by simp only [List.length_append] at hn; omega))
    have : (x != 0) = (BitVec.ofNat 64 (groups v) != 0) := by
      rw [hv.2, Bool.eq_iff_iff, bne_iff_ne, bne_iff_ne, Ne, Ne, ← BitVec.toNat_inj, toNat_groups]; rfl
    rw [this]
    simp only [handleValue, List.append_assoc]
    rw [← List.append_assoc pre t (v ++ rest), varintCase_complete hv.1]; simp
  | .float (t := t) (c := c) (rest := rest) hk hc hr =>
    refine scalar rfl hk (by simp [Legal]) (by omega) ?_ (value_read hr (by simpa using hs) (by simp only [List.length_append] at hn; omega))
    simp only [handleValue, List.append_assoc]
    rw [← List.append_assoc pre t (c ++ rest), float64Case_complete (by simpa using hs) hc]; simp
  | .integer (t := t) (v := v) (rest := rest) hk hv hr =>
    refine scalar rfl hk (by simp [Legal]) (by omega) ?_ (value_read hr (by simpa using hs) (by simp only [List.length_append] at hn; omega))
    rw [number_eq hv]
    simp only [handleValue, List.append_assoc]
    rw [← List.append_assoc pre t (v ++ rest), varintCase_complete hv.1]; simp
  | .object (t := t) (b := b) (c := c) (rest := rest) (uo := uo) (fs := fs) hk hc ha hr =>
    have hcl := counted_length hc
    have hs' : Small (pre ++ t ++ (b ++ rest)) := by simpa using hs
    refine scalar rfl hk (by simp [Legal]) (by omega) ?_ (value_read hr (by simpa using hs) (by simp only [List.length_append] at hn; omega))
    have hsc := Small.contents hs' hc
    simp only [handleValue, List.append_assoc]
    rw [← List.append_assoc pre t (b ++ rest), lengthCase_complete hs' hc (r := .object (.mk fs uo))]
    · simp
    · have := fields_loop (object_read ha (n := n) (pre := []) (by simpa using hsc) (by simp only [List.length_append] at hn; omega))
      simp only [List.nil_append] at this
      rw [show unmarshalObject (unmarshalValue n) c ⟨[], []⟩ = .ok ⟨_, _⟩ from this]
      rfl
  | .string (t := t) (b := b) (c := c) (rest := rest) hk hc hr =>
    have hs' : Small (pre ++ t ++ (b ++ rest)) := by simpa using hs
    refine scalar rfl hk (by simp [Legal]) (by omega) ?_ (value_read hr (by simpa using hs) (by simp only [List.length_append] at hn; omega))
    simp only [handleValue, List.append_assoc]
    rw [← List.append_assoc pre t (b ++ rest), lengthCase_complete hs' hc (body := fun c => .ok (PKind.string (some c))) rfl]
    simp
  | .timestamp (t := t) (v := v) (rest := rest) hk hv hr =>
    refine scalar rfl hk (by simp [Legal]) (by omega) ?_ (value_read hr (by simpa using hs) (by simp only [List.length_append] at hn; omega))
    rw [number_eq hv]
    simp only [handleValue, List.append_assoc]
    rw [← List.append_assoc pre t (v ++ rest), varintCase_complete hv.1]; simp
  | .unsigned (t := t) (v := v) (rest := rest) hk hv hr =>
    refine scalar rfl hk (by simp [Legal]) (by omega) ?_ (value_read hr (by simpa using hs) (by simp only [List.length_append] at hn; omega))
    rw [number_eq hv]
    simp only [handleValue, List.append_assoc]
    rw [← List.append_assoc pre t (v ++ rest), varintCase_complete hv.1]; simp
  | .unknown (f := f) (rest := rest) hx hl ho hr =>
    refine loop_unknown (own_value _ _) hs hx hl ho ?_
    have := value_read hr (n := n) (pre := pre ++ f) (by simpa using hs) (by simp only [List.length_append] at hn; omega)
    exact loop_cast (by simp) rfl this
termination_by structural h

theorem array_read {vs vs' : List PValue} {u u' s : Bytes} (h : ArrayFrom vs u s vs' u') {n : Nat} {pre : Bytes} (hs : Small (pre ++ s)) (hn : s.length ≤ n) :
    Loop (pre ++ s) (handleArray (unmarshalValue n) (pre ++ s)) keepA pre.length ⟨vs, u⟩ (.ok ⟨vs', u'⟩) := by
  match h with
  | .done =>
    rw [List.append_nil]
    exact loop_end
  | .item (t := t) (b := b) (c := c) (rest := rest) (uv := uv) (k := k) hk hc hv hr =>
    have hcl := counted_length hc
    have hp := hk.pos
    have hs' : Small (pre ++ t ++ (b ++ rest)) := by simpa using hs
    have hsc := Small.contents hs' hc
    obtain ⟨n', rfl⟩ : ∃ n', n = n' + 1 := ⟨n - 1, by simp only [List.length_append] at hn; omega⟩
    have hval : unmarshalValue (n' + 1) c = .ok ⟨k, uv⟩ := by
      have := fields_loop (value_read hv (n := n') (pre := []) (by simpa using hsc) (by simp only [List.length_append] at hn; omega))
      simp only [List.nil_append] at this
      exact this
    have hr' := array_read hr (n := n' + 1) (pre := pre ++ t ++ b) (by simpa using hs) (by simp only [List.length_append] at hn; omega)
    rw [show pre ++ (t ++ b ++ rest) = pre ++ (t ++ (b ++ rest)) by simp]
    refine loop_key hk (by simp [Legal]) (by omega) (j := ((pre ++ t ++ b).length : Nat)) (m' := ⟨_, _⟩) (by simp only [List.length_append]; omega) ?_ (loop_cast (by simp) rfl hr')
    simp only [handleArray]
    rw [← List.append_assoc pre t (b ++ rest), lengthCase_complete hs' hc (r := ⟨_, _⟩)]
    rw [hval]
    rfl
  | .unknown (f := f) (rest := rest) hx hl ho hr =>
    refine loop_unknown (own_array _ _) hs hx hl ho ?_
    have := array_read hr (n := n) (pre := pre ++ f) (by simpa using hs) (by simp only [List.length_append] at hn; omega)
    exact loop_cast (by simp) rfl this
termination_by structural h

theorem object_read {fs fs' : List (Bytes × PValue)} {u u' s : Bytes} (h : ObjectFrom fs u s fs' u') {n : Nat} {pre : Bytes} (hs : Small (pre ++ s)) (hn : s.length ≤ n) :
    Loop (pre ++ s) (handleObject (unmarshalValue n) (pre ++ s)) keepO pre.length ⟨fs, u⟩ (.ok ⟨fs', u'⟩) := by
  match h with
  | .done =>
    rw [List.append_nil]
    exact loop_end
  | .entry (t := t) (n := ln) (e := e) (rest := rest) (k := k) (v := v) hk hc he hr =>
    have hp := hk.pos
    have hr' := object_read hr (n := n) (pre := pre ++ t ++ ln ++ e) (by simpa using hs) (by simp only [List.length_append] at hn; omega)
    rw [show pre ++ (t ++ ln ++ e ++ rest) = pre ++ (t ++ (ln ++ e ++ rest)) by simp]
    refine loop_key hk (by simp [Legal]) (by omega) (j := ((pre ++ t ++ ln ++ e).length : Nat)) (m' := ⟨_, _⟩) (by simp only [List.length_append]; omega) ?_ (loop_cast (by simp) rfl hr')
    simp only [handleObject]
    rw [if_neg (by omega), ← List.append_assoc pre t (ln ++ e ++ rest), readLength_complete (by simpa using hs) hc, ubind_ok]
    dsimp only
    have hent := entry_read he (n := n) (pre := pre ++ t ++ ln) (post := ((pre ++ t ++ ln ++ e).length : Nat)) (fuel := (pre ++ t ++ (ln ++ e ++ rest)).length + 1) (by simpa using hs)
      (by simp only [List.length_append] at *; omega) (by simp only [List.length_append]; omega) (by simp only [List.length_append]; omega) (by simp only [List.length_append]; omega)
    rw [show pre ++ t ++ ln ++ (e ++ rest) = pre ++ t ++ (ln ++ e ++ rest) by simp] at hent
    rw [hent, ubind_ok]
    rfl
  | .unknown (f := f) (rest := rest) hx hl ho hr =>
    refine loop_unknown (own_object _ _) hs hx hl ho ?_
    have := object_read hr (n := n) (pre := pre ++ f) (by simpa using hs) (by simp only [List.length_append] at hn; omega)
    exact loop_cast (by simp) rfl this
termination_by structural h

theorem entry_read {left : Nat} {k k' s : Bytes} {v v' : PValue} (h : EntryFrom left k v s k' v') {n fuel : Nat} {pre : Bytes} {post : Int} (hs : Small (pre ++ s)) (hn : s.length ≤ n)
    (hl : left = (post - pre.length).toNat) (hf : (pre ++ s).length + 1 ≤ pre.length + fuel) (hp : post ≤ (pre ++ s).length) :
    entryLoop (unmarshalValue n) (pre ++ s) post fuel pre.length k v = .ok (k', v') := by
  obtain ⟨fuel, rfl⟩ : ∃ f, fuel = f + 1 := ⟨fuel - 1, by simp only [List.length_append] at hf; omega⟩
  match h with
  | .done =>
    simp only [entryLoop]
    rw [if_neg (by omega)]
  | .key (t := t) (b := b) (c := c) (rest := rest) h0 hk hc hr =>
    have hpos := hk.pos
    have hr' := entry_read hr (n := n) (fuel := fuel) (pre := pre ++ t ++ b) (post := post) (by simpa using hs) (by simp only [List.length_append] at hn; omega)
      (by simp only [List.length_append] at *; omega) (by simp only [List.length_append] at *; omega) (by simp only [List.length_append] at *; omega)
    obtain ⟨ln, hnum, rfl⟩ := hc
    have hrd : readVarint 64 (pre ++ (t ++ (ln ++ c) ++ rest)) pre.length = .ok (BitVec.ofNat 64 (groups t), ((pre ++ t).length : Nat)) := by
      rw [List.append_assoc t]; exact readVarint_complete hk.varint
    have hcat : pre ++ (t ++ (ln ++ c) ++ rest) = pre ++ t ++ (ln ++ c ++ rest) := by simp
    simp only [entryLoop]
    rw [if_pos (by omega), hrd, ubind_ok]
    dsimp only
    rw [if_pos ((key_one hk).2 rfl), hcat, readLength_complete (by rw [← hcat]; exact hs) hnum, ubind_ok]
    dsimp only
    rw [slice_len, ubind_ok, ← hr']
    congr 1 <;> simp
  | .value (t := t) (b := b) (c := c) (rest := rest) (uv := uv) (kind := kind) h0 hk hc hv hr =>
    have hpos := hk.pos
    have hcl := counted_length hc
    obtain ⟨n', rfl⟩ : ∃ n', n = n' + 1 := ⟨n - 1, by simp only [List.length_append] at hn; omega⟩
    have hval : unmarshalValue (n' + 1) c = .ok ⟨kind, uv⟩ := by
      have := fields_loop (value_read hv (n := n') (pre := []) (hs.mono (by simp; omega)) (by simp only [List.length_append] at hn; omega))
      simp only [List.nil_append] at this
      exact this
    have hr' := entry_read hr (n := n' + 1) (fuel := fuel) (pre := pre ++ t ++ b) (post := post) (by simpa using hs) (by simp only [List.length_append] at hn; omega)
      (by simp only [List.length_append] at *; omega) (by simp only [List.length_append] at *; omega) (by simp only [List.length_append] at *; omega)
    obtain ⟨ln, hnum, rfl⟩ := hc
    have hrd : readVarint 64 (pre ++ (t ++ (ln ++ c) ++ rest)) pre.length = .ok (BitVec.ofNat 64 (groups t), ((pre ++ t).length : Nat)) := by
      rw [List.append_assoc t]; exact readVarint_complete hk.varint
    have hcat : pre ++ (t ++ (ln ++ c) ++ rest) = pre ++ t ++ (ln ++ c ++ rest) := by simp
    simp only [entryLoop]
    rw [if_pos (by omega), hrd, ubind_ok]
    dsimp only
    have hne : ¬ fieldNumber (BitVec.ofNat 64 (groups t)) = 1 := fun e => by have := (key_one hk).1 e; omega
    rw [if_neg hne, if_pos ((key_two hk).2 rfl), hcat, readLength_complete (by rw [← hcat]; exact hs) hnum, ubind_ok]
    dsimp only
    rw [slice_len, ubind_ok, hval, ubind_ok, ← hr']
    congr 1 <;> simp
  | .unknown (num := num) (f := f) (rest := rest) h0 hx h1 h2 hlen hr =>
    have hpos := hx.pos
    obtain ⟨wt, t, s', hk, hfe, hw⟩ := hx.head
    have hrd : readVarint 64 (pre ++ (f ++ rest)) pre.length = .ok (BitVec.ofNat 64 (groups t), ((pre ++ t).length : Nat)) := by
      rw [show pre ++ (f ++ rest) = pre ++ (t ++ (s' ++ rest)) by rw [hfe]; simp]; exact readVarint_complete hk.varint
    have hr' := entry_read hr (n := n) (fuel := fuel) (pre := pre ++ f) (post := post) (by simpa using hs) (by simp only [List.length_append] at hn; omega)
      (by simp only [List.length_append] at *; omega) (by simp only [List.length_append] at *; omega) (by simp only [List.length_append] at *; omega)
    simp only [entryLoop]
    rw [if_pos (by omega), hrd, ubind_ok]
    dsimp only
    rw [if_neg (fun e => h1 ((key_one hk).1 e)), if_neg (fun e => h2 ((key_two hk).1 e)),
      skipAt_complete hs hx (by simp only [List.length_append]; omega), ubind_ok, ← hr']
    congr 1 <;> simp
termination_by structural h
end


def keepL (m : LogMsg) (u : Bytes) : LogMsg := { m with unrec := m.unrec ++ u }
def keepW (m : PWrapper) (u : Bytes) : PWrapper := { m with unrec := m.unrec ++ u }

/-- The object of a log so far. -/
def slot : PObject → Option ObjectMsg
  | .nil => none
  | .mk fs u => some ⟨fs, u⟩

theorem slot_obj (o : PObject) (u : Bytes) : LogMsg.obj ⟨slot o, u⟩ = o := by cases o <;> rfl

theorem object_call {fs fs' : List (Bytes × PValue)} {u u' c : Bytes} (h : ObjectFrom fs u c fs' u') (hs : Small c) :
    unmarshalObject (valueDecoder c) c ⟨fs, u⟩ = .ok ⟨fs', u'⟩ := by
  have := fields_loop (object_read h (n := c.length + 1) (pre := []) (by simpa using hs) (by omega))
  simp only [List.nil_append] at this
  exact this

theorem log_read {o o' : PObject} {u u' s : Bytes} (h : LogFrom o u s o' u') {pre : Bytes} (hs : Small (pre ++ s)) :
    Loop (pre ++ s) (handleLog (pre ++ s)) keepL pre.length ⟨slot o, u⟩ (.ok ⟨slot o', u'⟩) := by
  induction h generalizing pre with
  | done => rw [List.append_nil]; exact loop_end
  | @first o' u u' t b c rest uo fs hk hc ho hr ih =>
    have hp := hk.pos
    have hs' : Small (pre ++ t ++ (b ++ rest)) := by simpa using hs
    have hr' := ih (pre := pre ++ t ++ b) (by simpa using hs)
    rw [show pre ++ (t ++ b ++ rest) = pre ++ (t ++ (b ++ rest)) by simp]
    refine loop_key hk (by simp [Legal]) (by omega) (j := ((pre ++ t ++ b).length : Nat)) (m' := ⟨slot (.mk fs uo), u⟩) (by simp only [List.length_append]; omega) ?_ (loop_cast (by simp) rfl hr')
    simp only [handleLog]
    rw [← List.append_assoc pre t (b ++ rest), lengthCase_complete hs' hc (r := ⟨slot (.mk fs uo), u⟩)]
    simp only [slot, Option.getD_none]
    rw [object_call ho (Small.contents hs' hc)]
    rfl
  | @again o' u u' t b c rest ua uo fs fs' hk hc ho hr ih =>
    have hp := hk.pos
    have hs' : Small (pre ++ t ++ (b ++ rest)) := by simpa using hs
    have hr' := ih (pre := pre ++ t ++ b) (by simpa using hs)
    rw [show pre ++ (t ++ b ++ rest) = pre ++ (t ++ (b ++ rest)) by simp]
    refine loop_key hk (by simp [Legal]) (by omega) (j := ((pre ++ t ++ b).length : Nat)) (m' := ⟨slot (.mk fs' uo), u⟩) (by simp only [List.length_append]; omega) ?_ (loop_cast (by simp) rfl hr')
    simp only [handleLog]
    rw [← List.append_assoc pre t (b ++ rest), lengthCase_complete hs' hc (r := ⟨slot (.mk fs' uo), u⟩)]
    simp only [slot, Option.getD_some]
    rw [object_call ho (Small.contents hs' hc)]
    rfl
  | @unknown o o' u u' f rest num hx hl ho hr ih =>
    refine loop_unknown (own_log _) hs hx hl ho ?_
    exact loop_cast (by simp) rfl (ih (pre := pre ++ f) (by simpa using hs))

theorem log_call {o : PObject} {u s : Bytes} (h : LogFrom .nil [] s o u) (hs : Small s) : unmarshalLog s = .ok ⟨slot o, u⟩ := by
  have := fields_loop (log_read h (pre := []) (by simpa using hs))
  simp only [List.nil_append] at this
  exact this

theorem wrapper_read {m m' : PWrapper} {s : Bytes} (h : WrapperFrom m s m') {pre : Bytes} (hs : Small (pre ++ s)) :
    Loop (pre ++ s) (handleWrapper (pre ++ s)) keepW pre.length m (.ok m') := by
  induction h generalizing pre with
  | done => rw [List.append_nil]; exact loop_end
  | @log m m' t b c rest ul o hk hc ho hr ih =>
    have hp := hk.pos
    have hs' : Small (pre ++ t ++ (b ++ rest)) := by simpa using hs
    have hr' := ih (pre := pre ++ t ++ b) (by simpa using hs)
    rw [show pre ++ (t ++ b ++ rest) = pre ++ (t ++ (b ++ rest)) by simp]
    refine loop_key hk (by simp [Legal]) (by omega) (j := ((pre ++ t ++ b).length : Nat)) (m' := ⟨some (.mk o ul), m.unrec⟩) (by simp only [List.length_append]; omega) ?_ (loop_cast (by simp) rfl hr')
    simp only [handleWrapper]
    rw [← List.append_assoc pre t (b ++ rest), lengthCase_complete hs' hc (r := ⟨some (.mk o ul), m.unrec⟩)]
    rw [log_call ho (Small.contents hs' hc), ubind_ok]
    cases o <;> rfl
  | @unknown m m' f rest num hx hl ho hr ih =>
    refine loop_unknown (own_wrapper _) hs hx hl ho ?_
    exact loop_cast (by simp) rfl (ih (pre := pre ++ f) (by simpa using hs))

/-! ## Concatenation -/

theorem WrapperFrom.append {m m1 m2 : PWrapper} {a b : Bytes} (h : WrapperFrom m a m1) (h2 : WrapperFrom m1 b m2) : WrapperFrom m (a ++ b) m2 := by
  induction h with
  | done => exact h2
  | log hk hc ho _ ih => rw [List.append_assoc]; exact .log hk hc ho (ih h2)
  | unknown hx hl ho _ ih => rw [List.append_assoc]; exact .unknown hx hl ho (ih h2)

theorem counted_unique {c c' b b' r r' : Bytes} (h : Counted c b) (h' : Counted c' b') (he : b ++ r = b' ++ r') : b = b' ∧ c = c' := by
  obtain ⟨v, hn, rfl⟩ := h
  obtain ⟨v', hn', rfl⟩ := h'
  have h1 := readVarint_complete (w := 64) (pre := []) (rest := c ++ r) hn.1
  have h2 := readVarint_complete (w := 64) (pre := []) (rest := c' ++ r') hn'.1
  simp only [List.nil_append] at h1 h2
  rw [List.append_assoc, List.append_assoc] at he
  rw [he, h2] at h1
  simp only [UOut.ok.injEq, Prod.mk.injEq] at h1
  obtain ⟨rfl, he'⟩ := List.append_inj he (by omega)
  have hl : c.length = c'.length := by rw [hn.2, hn'.2]
  obtain ⟨rfl, _⟩ := List.append_inj he' hl
  exact ⟨rfl, rfl⟩

theorem extent_unique {num num' : Nat} {f f' r r' : Bytes} (hs : Small (f ++ r)) (h : Extent num f) (h' : Extent num' f') (he : f ++ r = f' ++ r') : f = f' ∧ num = num' := by
  have h1 := skipAt_complete (pre := []) (rest := r) (by simpa using hs) h (limit := dlen (f ++ r)) (by simp [dlen]; omega)
  have h2 := skipAt_complete (pre := []) (rest := r') (by rw [← he]; simpa using hs) h' (limit := dlen (f' ++ r')) (by simp [dlen]; omega)
  simp only [List.nil_append] at h1 h2
  rw [he, h2] at h1
  simp only [UOut.ok.injEq] at h1
  obtain ⟨rfl, _⟩ := List.append_inj he (by omega)
  obtain ⟨wt, t, s, hk, hf, _⟩ := h.head
  exact ⟨rfl, (h'.num_unique hk (rest := s) (rest' := []) (by rw [List.append_nil]; exact hf.symm)).symm⟩

theorem WrapperFrom.split {m m1 m2 : PWrapper} {a b : Bytes} (h : WrapperFrom m a m1) (hs : Small (a ++ b)) (h2 : WrapperFrom m (a ++ b) m2) : WrapperFrom m1 b m2 := by
  induction h with
  | done => exact h2
  | @log m m' t c0 c rest ul o hk hc ho hr ih =>
    generalize hd : t ++ c0 ++ rest ++ b = d at h2
    have hd' : t ++ (c0 ++ (rest ++ b)) = d := by rw [← hd]; simp
    cases h2 with
    | done =>
      have := congrArg List.length hd'
      have := hk.pos
      simp only [List.length_append, List.length_nil] at *; omega
    | @log _ _ t' b' c' rest' ul' o' hk' hc' ho' hr' =>
      rw [List.append_assoc] at hd'
      obtain ⟨_, _, rfl⟩ := key_unique hk hk' hd'
      have hd2 := List.append_cancel_left hd'
      obtain ⟨rfl, rfl⟩ := counted_unique hc hc' hd2
      have hrest := List.append_cancel_left hd2
      subst hrest
      have hsc : Small c := Small.contents (pre := t) (rest := rest ++ b) (by simpa using hs) hc
      have e1 := log_call ho hsc
      have e2 := log_call ho' hsc
      rw [e2] at e1
      simp only [UOut.ok.injEq] at e1
      have eo : o' = o := by rw [← slot_obj o' ul', e1, slot_obj]
      have eu : ul' = ul := congrArg LogMsg.unrec e1
      subst eo; subst eu
      exact ih (hs.mono (by simp only [List.length_append]; omega)) hr'
    | @unknown _ _ f rest' num hx hl ho' hr' =>
      have := hx.num_unique hk hd'
      omega
  | @unknown m m' f rest num hx hl ho hr ih =>
    generalize hd : f ++ rest ++ b = d at h2
    have hd' : f ++ (rest ++ b) = d := by rw [← hd]; simp
    cases h2 with
    | done =>
      have := congrArg List.length hd'
      have := hx.pos
      simp only [List.length_append, List.length_nil] at *; omega
    | @log _ _ t' b' c' rest' ul' o' hk' hc' ho' hr' =>
      have := hx.num_unique hk' (rest := b' ++ rest') (rest' := rest ++ b) (by rw [hd', List.append_assoc])
      omega
    | @unknown _ _ f' rest' num' hx' hl' ho' hr' =>
      obtain ⟨rfl, rfl⟩ := extent_unique (by simpa using hs) hx hx' hd'
      have := List.append_cancel_left hd'
      subst this
      exact ih (hs.mono (by simp only [List.length_append]; omega)) hr'

end Sawmill.Wire.Text
