import Verif.Lemmas.WireText
/-!
# The decoder reads the grammar of `Spec/WireText`: messages
-/

namespace Sawmill.Wire.Text

/-! ## What is read is in the grammar -/

theorem fieldLoop_sound {σ : Type} {d : Bytes} (hd : Small d) {handle : Nat → Nat → Int → σ → Option (UOut (σ × Int))} {keep : σ → Bytes → σ} {own : Nat} (ho : Own own handle)
    {R : σ → Bytes → σ → Prop} (hdone : ∀ m, R m [] m)
    (hunk : ∀ num f rest m m', Extent num f → Legal num → own < num → R (keep m f) rest m' → R m (f ++ rest) m')
    (hknown : ∀ pre t s num wt m m1 j, d = pre ++ t ++ s → Key num wt t → handle num wt ((pre ++ t).length : Nat) m = some (.ok (m1, j)) →
      ∃ c rest, s = c ++ rest ∧ j = ((pre ++ t ++ c).length : Nat) ∧ ∀ m', R m1 rest m' → R m (t ++ c ++ rest) m') :
    ∀ (n : Nat) (pre s : Bytes) (m : σ) {m' : σ}, d = pre ++ s → fieldLoop d handle keep n pre.length m = .ok m' → R m s m'
  | 0, _, _, _, _, _, h => by simp [fieldLoop] at h
  | n + 1, pre, s, m, m', hds, h => by
    simp only [fieldLoop] at h
    split at h
    case isFalse hge =>
      have : s = [] := by
        apply List.eq_nil_of_length_eq_zero
        rw [hds, dlen, List.length_append] at hge
        omega
      subst this
      split at h
      · simp at h
      · simp only [UOut.ok.injEq] at h
        subst h
        exact hdone m
    replace h := ubind_eq_ok.1 h
    obtain ⟨⟨wire, a⟩, h1, h⟩ := h
    rw [hds] at h1
    obtain ⟨t, s, rfl, ht, rfl, rfl⟩ := readVarint_sound h1
    have hk := key_of_varint ht
    dsimp only at h
    rw [key_wt hk] at h
    generalize hnum : groups t % 2 ^ 64 / 8 % 2 ^ 32 = num at hk
    generalize hwt : groups t % 2 ^ 64 % 8 = wt at hk h
    split at h
    · simp at h
    rename_i hw4
    split at h
    · simp at h
    rename_i hn0
    have hleg : Legal num := (key_legal hk).1 (by omega)
    rw [key_num hk hleg, Int.toNat_natCast] at h
    split at h
    · rename_i r hr
      replace h := ubind_eq_ok.1 h
      obtain ⟨⟨m1, j⟩, rfl, h⟩ := h
      obtain ⟨c, rest, rfl, rfl, hstep⟩ := hknown pre t s num wt m m1 j (by rw [hds]; simp) hk hr
      rw [← List.append_assoc]
      exact hstep m' (fieldLoop_sound hd ho hdone hunk hknown n (pre ++ t ++ c) rest m1 (by rw [hds]; simp) h)
    · rename_i hnone
      replace h := ubind_eq_ok.1 h
      obtain ⟨k, hsk, h⟩ := h
      rw [hds] at hsk
      obtain ⟨num', f, rest, hfs, hx, rfl, _⟩ := skipAt_sound (by rw [← hds]; exact hd) (by omega) hsk
      replace h := ubind_eq_ok.1 h
      obtain ⟨u, hu, h⟩ := h
      rw [hds, hfs] at hu
      have hsl := @slice_mid pre f rest
      rw [← List.length_append, List.append_assoc, hu] at hsl
      simp only [UOut.ok.injEq] at hsl
      subst hsl
      have hown := (ho num wt _ m).1 hnone
      have : num' = num := hx.num_unique hk hfs
      subst this
      rw [hfs]
      exact hunk num' u rest m m' hx hleg (by have := hleg.1; omega) (fieldLoop_sound hd ho hdone hunk hknown n (pre ++ u) rest (keep m u) (by rw [hds, hfs]; simp) h)

theorem varintCase_sound {σ : Type} {w : Nat} {pre s : Bytes} {wt : Nat} {set : BitVec w → σ} {r : σ} {j : Int}
    (h : varintCase w (pre ++ s) wt pre.length set = .ok (r, j)) :
    wt = 0 ∧ ∃ v rest, s = v ++ rest ∧ Varint v ∧ r = set (.ofNat w (groups v)) ∧ j = ((pre ++ v).length : Nat) := by
  unfold varintCase at h
  split at h
  · simp at h
  rename_i hw
  obtain ⟨⟨v, i⟩, h1, h2⟩ := ubind_eq_ok.1 h
  obtain ⟨t, rest, rfl, ht, rfl, rfl⟩ := readVarint_sound h1
  simp only [UOut.ok.injEq, Prod.mk.injEq] at h2
  exact ⟨by omega, t, rest, rfl, ht, h2.1.symm, h2.2.symm⟩

theorem lengthCase_sound {σ : Type} {pre s : Bytes} (hs : Small (pre ++ s)) {wt : Nat} {body : Bytes → UOut σ} {r : σ} {j : Int}
    (h : lengthCase (pre ++ s) wt pre.length body = .ok (r, j)) :
    wt = 2 ∧ ∃ b c rest, s = b ++ rest ∧ Counted c b ∧ body c = .ok r ∧ j = ((pre ++ b).length : Nat) := by
  unfold lengthCase at h
  split at h
  · simp at h
  rename_i hw
  replace h := ubind_eq_ok.1 h
  obtain ⟨⟨a, b⟩, h1, h⟩ := h
  obtain ⟨v, c, rest, rfl, hn, rfl, rfl⟩ := readLength_sound hs h1
  dsimp only at h
  rw [slice_len, ubind_ok] at h
  replace h := ubind_eq_ok.1 h
  obtain ⟨x, h2, h⟩ := h
  simp only [UOut.ok.injEq, Prod.mk.injEq] at h
  obtain ⟨rfl, rfl⟩ := h
  exact ⟨by omega, v ++ c, c, rest, rfl, ⟨v, hn, rfl⟩, h2, by simp⟩

theorem float64Case_sound {pre s : Bytes} (hs : Small (pre ++ s)) {wt : Nat} {r : PKind} {j : Int} (h : float64Case (pre ++ s) wt pre.length = .ok (r, j)) :
    wt = 1 ∧ ∃ c rest, s = c ++ rest ∧ c.length = 8 ∧ r = .float (.ofNat 64 (fixed64 c)) ∧ j = ((pre ++ c).length : Nat) := by
  unfold float64Case at h
  split at h
  · simp at h
  rename_i hw
  simp only [Small] at hs
  have hl : dlen (pre ++ s) = pre.length + s.length := by simp [dlen]
  rw [wrap64_lo (by omega) (by omega)] at h
  split at h
  · simp at h
  rename_i hlim
  rw [slice_ok (by omega) (by omega) (by omega), ubind_ok] at h
  simp only [UOut.ok.injEq, Prod.mk.injEq] at h
  obtain ⟨rfl, rfl⟩ := h
  refine ⟨by omega, s.take 8, s.drop 8, by simp, by simp; omega, ?_, ?_⟩
  · have hc : List.drop (pre.length : Int).toNat (List.take ((pre.length : Int) + 8).toNat (pre ++ s)) = s.take 8 := by
      rw [Int.toNat_natCast, show ((pre.length : Int) + 8).toNat = pre.length + 8 by omega, List.take_length_add_append, List.drop_left]
    rw [hc, uint64le]
    have : ∀ b : Bytes, b.foldr (fun x acc => x.toNat + 256 * acc) 0 = fixed64 b := by
      intro b
      induction b with
      | nil => rfl
      | cons x b ih => simp only [List.foldr, fixed64, ih]
    rw [this]
  · simp only [List.length_append, List.length_take]; omega

/-- `value` reads values only. -/
def ValueSound (value : Bytes → UOut ValueMsg) : Prop := ∀ c m, Small c → value c = .ok m → ValueFrom .unset [] c m.kind m.unrec

theorem Small.contents {pre b c rest : Bytes} (hs : Small (pre ++ (b ++ rest))) (h : Counted c b) : Small c := by
  obtain ⟨v, _, rfl⟩ := h
  exact hs.mono (by simp; omega)

theorem array_sound {value : Bytes → UOut ValueMsg} (hv : ValueSound value) {d : Bytes} (hd : Small d) {m : ArrayMsg} (h : unmarshalArray value d = .ok m) :
    ArrayFrom [] [] d m.items m.unrec := by
  refine fieldLoop_sound (R := fun m s m' => ArrayFrom m.items m.unrec s m'.items m'.unrec) hd (own_array value d) (fun m => .done)
    (fun num f rest m m' hx hl ho hr => .unknown hx hl ho hr) ?_ _ [] d ⟨[], []⟩ (by simp) h
  rintro pre t s num wt m m1 j rfl hk hh
  unfold handleArray at hh
  split at hh
  · simp only [Option.some.injEq] at hh
    obtain ⟨rfl, b, c, rest, rfl, hc, hb, rfl⟩ := lengthCase_sound hd hh
    obtain ⟨v, hval, he⟩ := ubind_eq_ok.1 hb
    simp only [UOut.ok.injEq] at he
    subst he
    exact ⟨b, rest, rfl, rfl, fun m' hr => .item hk hc (hv c v (Small.contents hd hc) hval) hr⟩
  · simp at hh

theorem entry_sound {value : Bytes → UOut ValueMsg} (hv : ValueSound value) {d : Bytes} (hd : Small d) {post : Int} (hp : post ≤ dlen d) :
    ∀ (n : Nat) (pre s k : Bytes) (v : PValue) {k' : Bytes} {v' : PValue}, d = pre ++ s → entryLoop value d post n pre.length k v = .ok (k', v') →
    EntryFrom (post - pre.length).toNat k v s k' v'
  | 0, _, _, _, _, _, _, _, h => by simp [entryLoop] at h
  | n + 1, pre, s, k, v, k', v', hds, h => by
    simp only [entryLoop] at h
    split at h
    case isFalse hge =>
      simp only [UOut.ok.injEq, Prod.mk.injEq] at h
      obtain ⟨rfl, rfl⟩ := h
      rw [show (post - (pre.length : Int)).toNat = 0 by omega]
      exact .done
    rename_i hlt
    have hleft : 0 < (post - (pre.length : Int)).toNat := by omega
    replace h := ubind_eq_ok.1 h
    obtain ⟨⟨wire, a⟩, h1, h⟩ := h
    rw [hds] at h1
    obtain ⟨t, s, rfl, ht, rfl, rfl⟩ := readVarint_sound h1
    have hk := key_of_varint ht
    generalize hnum : groups t % 2 ^ 64 / 8 % 2 ^ 32 = num at hk
    generalize hwt : groups t % 2 ^ 64 % 8 = wt at hk
    have hds' : d = (pre ++ t) ++ s := by rw [hds]; simp
    have hleft' : ∀ b : Bytes, (post - ((pre ++ t ++ b).length : Nat)).toNat = (post - (pre.length : Int)).toNat - (t ++ b).length := by
      intro b; simp only [List.length_append]; omega
    dsimp only at h
    split at h
    · rename_i hn
      have hn1 : num = 1 := (key_one hk).1 hn
      subst hn1
      replace h := ubind_eq_ok.1 h
      obtain ⟨⟨x, y⟩, h2, h⟩ := h
      rw [hds'] at h2
      obtain ⟨b, c, rest, rfl, hc, rfl, rfl⟩ := readLength_sound (by rw [← hds']; exact hd) h2
      dsimp only at h
      have hsl := @slice_len (pre ++ t) b c rest
      rw [← hds'] at hsl
      rw [hsl, ubind_ok] at h
      have := entry_sound hv hd hp n (pre ++ t ++ b ++ c) rest c v (by rw [hds]; simp) h
      rw [List.append_assoc (pre ++ t), hleft'] at this
      rw [← List.append_assoc t]
      exact .key hleft hk ⟨b, hc, rfl⟩ this
    rename_i hn1
    have hn1 : num ≠ 1 := fun e => hn1 ((key_one hk).2 e)
    split at h
    · rename_i hn
      have hn2 : num = 2 := (key_two hk).1 hn
      subst hn2
      replace h := ubind_eq_ok.1 h
      obtain ⟨⟨x, y⟩, h2, h⟩ := h
      rw [hds'] at h2
      obtain ⟨b, c, rest, rfl, hc, rfl, rfl⟩ := readLength_sound (by rw [← hds']; exact hd) h2
      dsimp only at h
      have hsl := @slice_len (pre ++ t) b c rest
      rw [← hds'] at hsl
      rw [hsl, ubind_ok] at h
      replace h := ubind_eq_ok.1 h
      obtain ⟨m, hm, h⟩ := h
      have := entry_sound hv hd hp n (pre ++ t ++ b ++ c) rest k (.mk m.kind m.unrec) (by rw [hds]; simp) h
      rw [List.append_assoc (pre ++ t), hleft'] at this
      rw [← List.append_assoc t]
      exact .value hleft hk ⟨b, hc, rfl⟩ (hv c m (hd.mono (by rw [hds]; simp; omega)) hm) this
    rename_i hn2
    have hn2 : num ≠ 2 := fun e => hn2 ((key_two hk).2 e)
    replace h := ubind_eq_ok.1 h
    obtain ⟨y, hsk, h⟩ := h
    rw [hds] at hsk
    obtain ⟨num', f, rest, hfs, hx, rfl, hlim⟩ := skipAt_sound (by rw [← hds]; exact hd) (by rw [← hds]; exact hp) hsk
    have : num' = num := hx.num_unique hk hfs
    subst this
    have := entry_sound hv hd hp n (pre ++ f) rest k v (by rw [hds, hfs]; simp) h
    rw [hfs]
    simp only [List.length_append] at hlim this
    refine .unknown hleft hx hn1 hn2 (by omega) ?_
    rw [show (post - (pre.length : Int)).toNat - f.length = (post - ((pre.length + f.length : Nat) : Int)).toNat by omega]
    exact this

theorem object_sound {value : Bytes → UOut ValueMsg} (hv : ValueSound value) {d : Bytes} (hd : Small d) {m0 m : ObjectMsg} (h : unmarshalObject value d m0 = .ok m) :
    ObjectFrom m0.fields m0.unrec d m.fields m.unrec := by
  refine fieldLoop_sound (R := fun m s m' => ObjectFrom m.fields m.unrec s m'.fields m'.unrec) hd (own_object value d) (fun m => .done)
    (fun num f rest m m' hx hl ho hr => .unknown hx hl ho hr) ?_ _ [] d m0 (by simp) h
  rintro pre t s num wt m m1 j hds hk hh
  unfold handleObject at hh
  split at hh
  · simp only [Option.some.injEq] at hh
    split at hh
    · simp at hh
    rename_i hw
    have hw : wt = 2 := by omega
    subst hw
    replace hh := ubind_eq_ok.1 hh
    obtain ⟨⟨a, b⟩, h1, hh⟩ := hh
    rw [hds] at h1
    obtain ⟨n, e, rest, rfl, hn, rfl, rfl⟩ := readLength_sound (by rw [← hds]; exact hd) h1
    replace hh := ubind_eq_ok.1 hh
    obtain ⟨⟨k, v⟩, h2, hh⟩ := hh
    simp only [UOut.ok.injEq, Prod.mk.injEq] at hh
    obtain ⟨rfl, rfl⟩ := hh
    have := entry_sound hv hd (by rw [hds]; simp only [dlen, List.length_append]; omega) _ (pre ++ t ++ n) (e ++ rest) [] .nil (by rw [hds]; simp) h2
    rw [show ((((pre ++ t ++ n ++ e).length : Nat) : Int) - ((pre ++ t ++ n).length : Nat)).toNat = e.length by simp only [List.length_append]; omega] at this
    refine ⟨n ++ e, rest, by simp, by simp, fun m' hr => ?_⟩
    have := ObjectFrom.entry hk hn this hr
    simpa using this
  · simp at hh

theorem value_sound : ∀ (n : Nat), ValueSound (unmarshalValue n)
  | 0 => by intro c m _ h; simp [unmarshalValue] at h
  | n + 1 => by
    intro d m hd h
    have ih := value_sound n
    unfold unmarshalValue at h
    refine fieldLoop_sound (R := fun m s m' => ValueFrom m.kind m.unrec s m'.kind m'.unrec) hd (own_value _ d) (fun m => .done)
      (fun num f rest m m' hx hl ho hr => .unknown hx hl ho hr) ?_ _ [] d ⟨.unset, []⟩ (by simp) h
    clear h m
    rintro pre t s num wt m m1 j rfl hk hh
    unfold handleValue at hh
    dsimp only at hh
    split at hh
    all_goals first | (simp at hh; done) | skip
    all_goals
      simp only [Option.some.injEq] at hh
      replace hh := ubind_eq_ok.1 hh
      obtain ⟨⟨k, i⟩, h1, hh⟩ := hh
      simp only [UOut.ok.injEq, Prod.mk.injEq] at hh
      obtain ⟨rfl, rfl⟩ := hh
    · obtain ⟨rfl, v, rest, rfl, hvt, rfl, rfl⟩ := varintCase_sound h1
      exact ⟨v, rest, rfl, rfl, fun m' hr => .null hk hvt hr⟩
    · obtain ⟨rfl, b, c, rest, rfl, hc, hb, rfl⟩ := lengthCase_sound hd h1
      obtain ⟨a, ha, he⟩ := ubind_eq_ok.1 hb
      simp only [UOut.ok.injEq] at he
      subst he
      exact ⟨b, rest, rfl, rfl, fun m' hr => .array hk hc (array_sound ih (Small.contents hd hc) ha) hr⟩
    · obtain ⟨rfl, v, rest, rfl, hvt, rfl, rfl⟩ := varintCase_sound h1
      refine ⟨v, rest, rfl, rfl, fun m' hr => .boolean hk ⟨hvt, rfl⟩ ?_⟩
      have : (groups v % 2 ^ 64 != 0) = (BitVec.ofNat 64 (groups v) != 0) := by
        rw [Bool.eq_iff_iff, bne_iff_ne, bne_iff_ne, Ne, Ne, ← BitVec.toNat_inj, toNat_groups]; rfl
      rw [this]
      exact hr
    · obtain ⟨rfl, c, rest, rfl, hc, rfl, rfl⟩ := float64Case_sound hd h1
      exact ⟨c, rest, rfl, rfl, fun m' hr => .float hk hc hr⟩
    · obtain ⟨rfl, v, rest, rfl, hvt, rfl, rfl⟩ := varintCase_sound h1
      refine ⟨v, rest, rfl, rfl, fun m' hr => .integer hk ⟨hvt, rfl⟩ ?_⟩
      rw [show BitVec.ofNat 64 (groups v % 2 ^ 64) = BitVec.ofNat 64 (groups v) from BitVec.eq_of_toNat_eq (by simp)]
      exact hr
    · obtain ⟨rfl, b, c, rest, rfl, hc, hb, rfl⟩ := lengthCase_sound hd h1
      obtain ⟨a, ha, he⟩ := ubind_eq_ok.1 hb
      simp only [UOut.ok.injEq] at he
      subst he
      exact ⟨b, rest, rfl, rfl, fun m' hr => .object hk hc (object_sound ih (Small.contents hd hc) ha) hr⟩
    · obtain ⟨rfl, b, c, rest, rfl, hc, hb, rfl⟩ := lengthCase_sound hd h1
      simp only [UOut.ok.injEq] at hb
      subst hb
      exact ⟨b, rest, rfl, rfl, fun m' hr => .string hk hc hr⟩
    · obtain ⟨rfl, v, rest, rfl, hvt, rfl, rfl⟩ := varintCase_sound h1
      refine ⟨v, rest, rfl, rfl, fun m' hr => .timestamp hk ⟨hvt, rfl⟩ ?_⟩
      rw [show BitVec.ofNat 64 (groups v % 2 ^ 64) = BitVec.ofNat 64 (groups v) from BitVec.eq_of_toNat_eq (by simp)]
      exact hr
    · obtain ⟨rfl, v, rest, rfl, hvt, rfl, rfl⟩ := varintCase_sound h1
      refine ⟨v, rest, rfl, rfl, fun m' hr => .unsigned hk ⟨hvt, rfl⟩ ?_⟩
      rw [show BitVec.ofNat 64 (groups v % 2 ^ 64) = BitVec.ofNat 64 (groups v) from BitVec.eq_of_toNat_eq (by simp)]
      exact hr

def LogMsg.obj (m : LogMsg) : PObject := match m.object with | none => .nil | some o => .mk o.fields o.unrec

theorem log_sound {d : Bytes} (hd : Small d) {m : LogMsg} (h : unmarshalLog d = .ok m) : LogFrom .nil [] d (LogMsg.obj m) m.unrec := by
  refine fieldLoop_sound (R := fun m s m' => LogFrom (LogMsg.obj m) m.unrec s (LogMsg.obj m') m'.unrec) hd (own_log d) (fun m => .done)
    (fun num f rest m m' hx hl ho hr => .unknown hx hl ho hr) ?_ _ [] d ⟨none, []⟩ (by simp) h
  rintro pre t s num wt m m1 j rfl hk hh
  unfold handleLog at hh
  split at hh
  · simp only [Option.some.injEq] at hh
    obtain ⟨rfl, b, c, rest, rfl, hc, hb, rfl⟩ := lengthCase_sound hd hh
    obtain ⟨o, hval, he⟩ := ubind_eq_ok.1 hb
    simp only [UOut.ok.injEq] at he
    subst he
    refine ⟨b, rest, rfl, rfl, fun m' hr => ?_⟩
    have ho := object_sound (value_sound _) (Small.contents hd hc) hval
    obtain ⟨mo, mu⟩ := m
    cases mo with
    | none => exact .first hk hc ho hr
    | some o' => exact .again hk hc ho hr
  · simp at hh

theorem wrapper_sound {d : Bytes} (hd : Small d) {m0 m : PWrapper} (h : unmarshalInto d m0 = .ok m) : WrapperFrom m0 d m := by
  refine fieldLoop_sound (R := WrapperFrom) hd (own_wrapper d) (fun m => .done)
    (fun num f rest m m' hx hl ho hr => .unknown hx hl ho hr) ?_ _ [] d m0 (by simp) h
  rintro pre t s num wt m m1 j rfl hk hh
  unfold handleWrapper at hh
  split at hh
  · simp only [Option.some.injEq] at hh
    obtain ⟨rfl, b, c, rest, rfl, hc, hb, rfl⟩ := lengthCase_sound hd hh
    obtain ⟨l, hval, he⟩ := ubind_eq_ok.1 hb
    simp only [UOut.ok.injEq] at he
    subst he
    exact ⟨b, rest, rfl, rfl, fun m' hr => .log hk hc (log_sound (Small.contents hd hc) hval) hr⟩
  · simp at hh

end Sawmill.Wire.Text
