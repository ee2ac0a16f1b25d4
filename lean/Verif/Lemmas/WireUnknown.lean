import Verif.Lemmas.WireMsgs
/-!
# Well-formed fields are skipped as a whole; iteration order; nil items
-/

namespace Sawmill.Wire

/-- With enough fuel, `skipEvent`'s loop at `i` gives `r`. -/
def SkipTo (d : Bytes) (i : Int) (depth : Nat) (r : UOut Int) : Prop := ∀ n : Nat, dlen d + 1 ≤ i + n → skipLoop d n i depth = r

/-- What happens behind a field: at depth 0 the loop ends. -/
def Cont (d : Bytes) (i : Int) (depth : Nat) (r : UOut Int) : Prop := if depth = 0 then r = .ok i else SkipTo d i depth r

theorem skip_step {d pre post : Bytes} {num wt : Nat} (h : num < 2 ^ 29) (hw : wt < 8) {depth depth' : Nat} {j : Int} {r : UOut Int} (hd : d = pre ++ tag num wt ++ post)
    (hf : skipField d wt ((pre.length + (tag num wt).length : Nat) : Int) depth = .ok (j, depth')) (hj : (pre.length : Int) < j) (hc : Cont d j depth' r) :
    SkipTo d pre.length depth r := by
  intro n hn
  have hpos : 0 < (tag num wt).length := varint_pos _
  have hrv := readVarint_enc 64 (n := num * 8 + wt) (by omega) pre post
  rw [← tag, ← hd] at hrv
  have hlen : dlen d = pre.length + (tag num wt).length + post.length := by rw [hd]; simp [dlen]; omega
  obtain ⟨n, rfl⟩ : ∃ k, n = k + 1 := ⟨n - 1, by omega⟩
  simp only [skipLoop]
  rw [if_pos (by omega), hrv, ubind_ok]
  dsimp only
  rw [wireType_tag h hw, hf, ubind_ok]
  dsimp only
  rw [if_neg (by omega)]
  simp only [Cont] at hc
  split
  · rename_i h0
    rw [if_pos h0] at hc; exact hc.symm
  · rename_i h0
    rw [if_neg h0] at hc
    exact hc n (by omega)

theorem field_skip {num : Nat} {f : Bytes} (hf : Field num f) : 0 < num → num < 2 ^ 29 → ∀ (pre post : Bytes), Small (pre ++ f ++ post) → ∀ (depth : Nat) (r : UOut Int),
    Cont (pre ++ f ++ post) ((pre.length + f.length : Nat) : Int) depth r → SkipTo (pre ++ f ++ post) pre.length depth r := by
  refine Field.rec (motive_1 := fun num f _ => 0 < num → num < 2 ^ 29 → ∀ (pre post : Bytes), Small (pre ++ f ++ post) → ∀ (depth : Nat) (r : UOut Int),
    Cont (pre ++ f ++ post) ((pre.length + f.length : Nat) : Int) depth r → SkipTo (pre ++ f ++ post) pre.length depth r)
    (motive_2 := fun f _ => ∀ (pre post : Bytes), Small (pre ++ f ++ post) → ∀ (depth : Nat) (r : UOut Int), depth ≠ 0 →
    SkipTo (pre ++ f ++ post) ((pre.length + f.length : Nat) : Int) depth r → SkipTo (pre ++ f ++ post) pre.length depth r)
    ?_ ?_ ?_ ?_ ?_ ?_ ?_ hf
  · -- varint
    intro num n hn h0 h pre post hs depth r hc
    have hpos : 0 < (tag num 0).length := varint_pos _
    refine skip_step (num := num) (wt := 0) (post := varint n ++ post) h (by omega) (by simp [varintField]) (j := ((pre.length + (varintField num n).length : Nat) : Int)) ?_
      (by simp only [varintField, List.length_append]; omega) hc
    have hr := readVarint_enc 64 hn (pre ++ tag num 0) post
    rw [show pre ++ tag num 0 ++ varint n ++ post = pre ++ varintField num n ++ post by simp [varintField], List.length_append] at hr
    simp only [skipField]
    rw [hr, ubind_ok]
    simp only [varintField, List.length_append, Nat.add_assoc]
  · -- fixed64
    intro num bs hb h0 h pre post hs depth r hc
    have hpos : 0 < (tag num 1).length := varint_pos _
    refine skip_step (num := num) (wt := 1) (post := bs ++ post) h (by omega) (by simp) (j := ((pre.length + (tag num 1 ++ bs).length : Nat) : Int)) ?_
      (by simp only [List.length_append]; omega) hc
    simp only [Small, dlen, List.length_append] at hs
    simp only [skipField, List.length_append]
    rw [wrap64_lo (by omega) (by omega)]
    congr 2
    omega
  · -- bytes
    intro num bs h0 h pre post hs depth r hc
    have hpos : 0 < (tag num 2).length := varint_pos _
    refine skip_step (num := num) (wt := 2) (post := varint bs.length ++ bs ++ post) h (by omega) (by simp [lenField]) (j := ((pre.length + (lenField num bs).length : Nat) : Int)) ?_
      (by simp only [lenField, List.length_append]; omega) hc
    simp only [Small, dlen, lenField, List.length_append] at hs
    have hr := readVarint_enc 64 (n := bs.length) (by omega) (pre ++ tag num 2) (bs ++ post)
    rw [show pre ++ tag num 2 ++ varint bs.length ++ (bs ++ post) = pre ++ lenField num bs ++ post by simp [lenField], List.length_append] at hr
    simp only [skipField]
    rw [hr, ubind_ok]
    dsimp only
    rw [ofNat_toInt (by omega), if_neg (by omega), wrap64_lo (by omega) (by omega)]
    simp only [lenField, List.length_append]
    congr 2
    omega
  · -- group
    intro num bs hg ih h0 h pre post hs depth r hc
    have hpos : 0 < (tag num 3).length := varint_pos _
    have hpos4 : 0 < (tag num 4).length := varint_pos _
    have e1 : pre ++ (tag num 3 ++ bs ++ tag num 4) ++ post = (pre ++ tag num 3) ++ bs ++ (tag num 4 ++ post) := by simp
    have e2 : pre ++ (tag num 3 ++ bs ++ tag num 4) ++ post = (pre ++ tag num 3 ++ bs) ++ tag num 4 ++ post := by simp
    refine skip_step (num := num) (wt := 3) (post := bs ++ tag num 4 ++ post) (depth' := depth + 1) h (by omega) (by simp) (j := ((pre.length + (tag num 3).length : Nat) : Int)) rfl (by omega) ?_
    rw [Cont, if_neg (by omega)]
    have := ih (pre ++ tag num 3) (tag num 4 ++ post) (by rw [← e1]; exact hs) (depth + 1) r (by omega)
    rw [← e1] at this
    rw [List.length_append] at this
    refine this ?_
    have step := skip_step (d := pre ++ (tag num 3 ++ bs ++ tag num 4) ++ post) (pre := pre ++ tag num 3 ++ bs) (post := post) (num := num) (wt := 4) (depth := depth + 1) (depth' := depth)
      (r := r) (j := ((pre.length + (tag num 3 ++ bs ++ tag num 4).length : Nat) : Int)) h (by omega) e2 ?_ (by simp only [List.length_append]; omega) hc
    · simp only [List.length_append] at step ⊢
      exact step
    · simp only [skipField, List.length_append]
      rw [if_neg (by omega)]
      congr 2
      omega
  · -- fixed32
    intro num bs hb h0 h pre post hs depth r hc
    have hpos : 0 < (tag num 5).length := varint_pos _
    refine skip_step (num := num) (wt := 5) (post := bs ++ post) h (by omega) (by simp) (j := ((pre.length + (tag num 5 ++ bs).length : Nat) : Int)) ?_
      (by simp only [List.length_append]; omega) hc
    simp only [Small, dlen, List.length_append] at hs
    simp only [skipField, List.length_append]
    rw [wrap64_lo (by omega) (by omega)]
    congr 2
    omega
  · -- nil
    intro pre post hs depth r _ hc
    simpa using hc
  · -- cons
    intro num f bs h0 h _ _ ihf ihg pre post hs depth r hd hc
    have e1 : pre ++ (f ++ bs) ++ post = pre ++ f ++ (bs ++ post) := by simp
    have e2 : pre ++ (f ++ bs) ++ post = (pre ++ f) ++ bs ++ post := by simp
    rw [e1] at hs hc ⊢
    refine ihf h0 h pre (bs ++ post) hs depth r ?_
    rw [Cont, if_neg hd]
    have := ihg (pre ++ f) post (by rw [← e2, e1]; exact hs) depth r hd
    rw [← e2, e1] at this
    rw [List.length_append] at this
    refine this ?_
    rw [List.length_append] at hc
    rw [Nat.add_assoc]
    exact hc

theorem field_piece {own num : Nat} {f : Bytes} (hf : Field num f) (ho : own < num) (h : num < 2 ^ 29) (hs : Small f) : Piece own f := by
  have hskip : skipEvent f = .ok f.length := by
    have := field_skip hf (by omega) h [] [] (by simpa using hs) 0 (.ok f.length) (by simp [Cont])
    simp only [List.nil_append, List.append_nil, List.length_nil] at this
    exact this _ (by simp only [dlen]; omega)
  have htag : ∃ (wt : Nat) (rest : Bytes), wt < 8 ∧ wt ≠ 4 ∧ f = tag num wt ++ rest := by
    cases hf with
    | varint _ n hn => exact ⟨0, varint n, by omega, by omega, rfl⟩
    | fixed64 _ bs hb => exact ⟨1, bs, by omega, by omega, rfl⟩
    | bytes _ bs => exact ⟨2, varint bs.length ++ bs, by omega, by omega, by simp [lenField]⟩
    | group _ bs hb => exact ⟨3, bs ++ tag num 4, by omega, by omega, by simp⟩
    | fixed32 _ bs hb => exact ⟨5, bs, by omega, by omega, rfl⟩
  obtain ⟨wt, rest, hw, hw4, rfl⟩ := htag
  have hr := readVarint_enc 64 (n := num * 8 + wt) (by omega) [] rest
  rw [List.nil_append, ← tag] at hr
  exact ⟨_, _, hr, by rw [wireType_tag h hw]; exact hw4, by rw [fieldNumber_tag h hw]; omega, hskip⟩

theorem unknown_pieces {own : Nat} {u : Bytes} (h : UnknownFields own u) : Small u → Pieces own u := by
  induction h with
  | nil => exact fun _ => .nil
  | cons num f bs ho hn hf _ ih =>
    intro hs
    exact .cons _ _ (field_piece hf ho hn (hs.mono (by simp))) (ih (hs.mono (by simp)))

/-! ## Nil items -/

mutual
theorem marshalValue_panic : ∀ (v : PValue), ¬ NoNilValue v → ∀ (mem : Bytes) (off len : Nat), marshalValue v mem off len = .panic
  | .nil, _, _, _, _ => rfl
  | .mk k u, h, mem, off, len => by
    rw [marshalValue]
    cases pushBytes off len u mem len with
    | panic => rfl
    | ok r =>
      obtain ⟨m, i⟩ := r
      rw [Res.bind_ok]
      dsimp only
      split
      · rfl
      · rw [marshalKind_panic k h]; rfl
theorem marshalKind_panic : ∀ (k : PKind), ¬ NoNilKind k → ∀ (mem : Bytes) (off len : Nat), marshalKind k mem off len = .panic
  | .unset, h, _, _, _ => absurd trivial h
  | .null _, h, _, _, _ => absurd trivial h
  | .array .nil, h, _, _, _ => absurd trivial h
  | .array (.mk items u), h, mem, off, len => by
    rw [marshalKind, marshalArray]
    simp only [PArray.isNil, Bool.false_eq_true, if_false]
    cases pushBytes off len u mem len with
    | panic => rfl
    | ok r =>
      obtain ⟨m, i⟩ := r
      rw [Res.bind_ok]
      dsimp only
      rw [marshalItems_panic items h]; rfl
  | .boolean _, h, _, _, _ => absurd trivial h
  | .float _, h, _, _, _ => absurd trivial h
  | .integer _, h, _, _, _ => absurd trivial h
  | .object .nil, h, _, _, _ => absurd trivial h
  | .object (.mk fs u), h, mem, off, len => by
    rw [marshalKind, marshalObject]
    simp only [PObject.isNil, Bool.false_eq_true, if_false]
    cases pushBytes off len u mem len with
    | panic => rfl
    | ok r =>
      obtain ⟨m, i⟩ := r
      rw [Res.bind_ok]
      dsimp only
      rw [marshalFields_panic fs h]; rfl
  | .string _, h, _, _, _ => absurd trivial h
  | .timestamp _, h, _, _, _ => absurd trivial h
  | .unsigned _, h, _, _, _ => absurd trivial h
theorem marshalItems_panic : ∀ (vs : List PValue), ¬ NoNilItems vs → ∀ (mem : Bytes) (off len i : Nat), marshalItems vs mem off len i = .panic
  | [], h, _, _, _, _ => absurd trivial h
  | v :: vs, h, mem, off, len, i => by
    rw [marshalItems]
    have h1 := marshalItems_panic vs
    have h2 := marshalValue_panic v
    by_cases hvs : NoNilItems vs
    · cases marshalItems vs mem off len i with
      | panic => rfl
      | ok r =>
        obtain ⟨m, i⟩ := r
        rw [Res.bind_ok]
        dsimp only
        rw [h2 (fun hv => h ⟨hv, hvs⟩)]; rfl
    · rw [h1 hvs]; rfl
theorem marshalFields_panic : ∀ (es : List (Bytes × PValue)), ¬ NoNilFields es → ∀ (mem : Bytes) (off len i : Nat), marshalFields es mem off len i = .panic
  | [], h, _, _, _, _ => absurd trivial h
  | (k, v) :: es, h, mem, off, len, i => by
    have h1 := marshalFields_panic es
    have h2 := marshalValue_panic v
    rw [marshalFields]
    by_cases hv : v = .nil ∨ NoNilValue v
    · have hes : ¬ NoNilFields es := fun he => h ⟨hv, he⟩
      simp only [h1 hes]
      generalize (if v.isNil then Res.ok (mem, i) else _ : Res (Bytes × Nat)) = a
      rcases a with ⟨m1, i1⟩ | _
      · rw [Res.bind_ok]; dsimp only
        rcases pushBytes off len k m1 i1 with ⟨m2, i2⟩ | _
        · rw [Res.bind_ok]; dsimp only
          rcases encodeVarint off len k.length m2 i2 with ⟨m3, i3⟩ | _
          · rw [Res.bind_ok]; dsimp only
            rcases pushByte off len 0xa m3 i3 with ⟨m4, i4⟩ | _
            · rw [Res.bind_ok]; dsimp only
              rcases encodeVarint off len (i - i4) m4 i4 with ⟨m5, i5⟩ | _
              · rw [Res.bind_ok]; dsimp only
                rcases pushByte off len 0xa m5 i5 with ⟨m6, i6⟩ | _ <;> rfl
              · rfl
            · rfl
          · rfl
        · rfl
      · rfl
    · have hn : v.isNil = false := by
        generalize v = y at hv
        cases y <;> first | rfl | simp at hv
      simp only [hn, Bool.false_eq_true, if_false]
      rw [h2 (fun x => hv (.inr x))]
      rfl
end

theorem marshal_panic {m : PWrapper} (h : ¬ NoNil m) : marshal m = .panic := by
  obtain ⟨msg, u⟩ := m
  match msg with
  | none => exact absurd trivial h
  | some .nil => exact absurd trivial h
  | some (.mk .nil w) => exact absurd trivial h
  | some (.mk (.mk fs x) w) =>
    have h : ¬ NoNilFields fs := h
    simp only [marshal, marshalWrapper]
    generalize List.replicate _ _ = mem
    generalize sizeWrapper _ = len
    rcases pushBytes 0 len u mem len with ⟨m1, i1⟩ | _
    · rw [Res.bind_ok]
      dsimp only
      split
      · rfl
      · simp only [marshalLogField, PLog.isNil, Bool.false_eq_true, if_false, marshalLog]
        generalize 0 + (i1 - _) = off
        generalize sizeLogField _ = sz
        rcases pushBytes off sz w m1 sz with ⟨m2, i2⟩ | _
        · rw [Res.bind_ok]
          simp only [PObject.isNil, Bool.false_eq_true, if_false, marshalObject]
          rcases pushBytes off i2 x m2 i2 with ⟨m3, i3⟩ | _
          · rw [Res.bind_ok]
            dsimp only
            rw [marshalFields_panic fs h]; rfl
          · rfl
        · rfl
    · rfl

/-! ## Iteration order -/

theorem encFields_perm_length {es es' : List (Bytes × PValue)} (h : es.Perm es') : (encFields es).length = (encFields es').length := by
  induction h with
  | nil => rfl
  | cons x _ ih => obtain ⟨k, v⟩ := x; simp only [encFields, List.length_append, ih]
  | swap x y l => obtain ⟨k, v⟩ := x; obtain ⟨k', v'⟩ := y; simp only [encFields, List.length_append]; omega
  | trans _ _ ih1 ih2 => exact ih1.trans ih2

theorem wfFields_perm {U : Nat → Bytes → Prop} {es es' : List (Bytes × PValue)} (h : es.Perm es') (hw : WfFields U es) : WfFields U es' := by
  rw [wfFields_iff] at hw ⊢
  exact ⟨fun e he => hw.1 e (h.mem_iff.2 he), (h.map Prod.fst).nodup_iff.1 hw.2⟩

theorem same_isNil : ∀ {v v' : PValue}, SameValue v v' → v'.isNil = v.isNil
  | .nil, v', h => by simp only [SameValue] at h; rw [h]
  | .mk k u, v', h => by
    simp only [SameValue] at h
    obtain ⟨k', rfl, _⟩ := h
    rfl

theorem same_keys : ∀ {es es' : List (Bytes × PValue)}, SameEntries es es' → es'.map Prod.fst = es.map Prod.fst
  | [], es', h => by simp only [SameEntries] at h; rw [h]
  | (k, v) :: es, es', h => by
    simp only [SameEntries] at h
    obtain ⟨v', es'', rfl, _, h2⟩ := h
    simp [same_keys h2]

theorem lenField_length_congr {num : Nat} (h : num < 15) {a b : Bytes} (hab : a.length = b.length) : (lenField num a).length = (lenField num b).length := by
  rw [lenField_length h, lenField_length h, hab]

mutual
theorem sameValue_inv {U : Nat → Bytes → Prop} : ∀ (v v' : PValue), SameValue v v' → (encValue v').length = (encValue v).length ∧ (WfValue U v → WfValue U v')
  | .nil, v', h => by simp only [SameValue] at h; subst h; exact ⟨rfl, id⟩
  | .mk k u, v', h => by
    simp only [SameValue] at h
    obtain ⟨k', rfl, h⟩ := h
    have := sameKind_inv (U := U) k k' h
    exact ⟨by simp only [encValue, List.length_append, this.1], fun hw => ⟨this.2 hw.1, hw.2⟩⟩
theorem sameKind_inv {U : Nat → Bytes → Prop} : ∀ (k k' : PKind), SameKind k k' → (encKind k').length = (encKind k).length ∧ (WfKind U k → WfKind U k')
  | .array (.mk items u), k', h => by
    simp only [SameKind] at h
    obtain ⟨items', rfl, h⟩ := h
    have := sameItems_inv (U := U) items items' h
    refine ⟨?_, fun hw => ⟨this.2 hw.1, hw.2⟩⟩
    simp only [encKind]
    exact lenField_length_congr (by omega) (by rw [List.length_append, List.length_append, this.1])
  | .object (.mk fs u), k', h => by
    simp only [SameKind] at h
    obtain ⟨fs', order, rfl, h, hp⟩ := h
    have := sameEntries_inv (U := U) fs fs' h
    refine ⟨?_, fun hw => ⟨wfFields_perm hp (this.2 hw.1), hw.2⟩⟩
    simp only [encKind]
    exact lenField_length_congr (by omega) (by rw [List.length_append, List.length_append, ← this.1, encFields_perm_length hp])
  | .unset, k', h => by simp only [SameKind] at h; subst h; exact ⟨rfl, id⟩
  | .array .nil, k', h => by simp only [SameKind] at h; subst h; exact ⟨rfl, id⟩
  | .object .nil, k', h => by simp only [SameKind] at h; subst h; exact ⟨rfl, id⟩
  | .null _, k', h => by simp only [SameKind] at h; subst h; exact ⟨rfl, id⟩
  | .boolean _, k', h => by simp only [SameKind] at h; subst h; exact ⟨rfl, id⟩
  | .float _, k', h => by simp only [SameKind] at h; subst h; exact ⟨rfl, id⟩
  | .integer _, k', h => by simp only [SameKind] at h; subst h; exact ⟨rfl, id⟩
  | .string _, k', h => by simp only [SameKind] at h; subst h; exact ⟨rfl, id⟩
  | .timestamp _, k', h => by simp only [SameKind] at h; subst h; exact ⟨rfl, id⟩
  | .unsigned _, k', h => by simp only [SameKind] at h; subst h; exact ⟨rfl, id⟩
theorem sameItems_inv {U : Nat → Bytes → Prop} : ∀ (vs vs' : List PValue), SameItems vs vs' → (encItems vs').length = (encItems vs).length ∧ (WfItems U vs → WfItems U vs')
  | [], vs', h => by simp only [SameItems] at h; subst h; exact ⟨rfl, id⟩
  | v :: vs, ws, h => by
    simp only [SameItems] at h
    obtain ⟨v', vs', rfl, h1, h2⟩ := h
    have i1 := sameValue_inv (U := U) v v' h1
    have i2 := sameItems_inv (U := U) vs vs' h2
    refine ⟨?_, fun hw => ⟨i1.2 hw.1, i2.2 hw.2⟩⟩
    simp only [encItems, List.length_append, i2.1, lenField_length_congr (show 1 < 15 by omega) i1.1]
theorem sameEntries_inv {U : Nat → Bytes → Prop} : ∀ (es es' : List (Bytes × PValue)), SameEntries es es' →
    (encFields es').length = (encFields es).length ∧ (WfFields U es → WfFields U es')
  | [], es', h => by simp only [SameEntries] at h; subst h; exact ⟨rfl, id⟩
  | (k, v) :: es, ws, h => by
    simp only [SameEntries] at h
    obtain ⟨v', es', rfl, h1, h2⟩ := h
    have i1 := sameValue_inv (U := U) v v' h1
    have i2 := sameEntries_inv (U := U) es es' h2
    have hn := same_isNil h1
    have hk := same_keys h2
    refine ⟨?_, fun hw => ⟨?_, ?_, i2.2 hw.2.2⟩⟩
    · simp only [encFields, List.length_append, i2.1, hn]
      rw [Nat.add_left_cancel_iff]
      refine lenField_length_congr (by omega) ?_
      rw [List.length_append, List.length_append]
      split
      · rfl
      · rw [lenField_length_congr (show 2 < 15 by omega) i1.1]
    · rcases hw.1 with hv | hv
      · left
        rw [hv] at h1
        simp only [SameValue] at h1
        exact h1
      · exact .inr (i1.2 hv)
    · rw [hk]; exact hw.2.1
end

theorem same_inv {U : Nat → Bytes → Prop} {m m' : PWrapper} (h : SameMessage m m') : (encWrapper m').length = (encWrapper m).length ∧ (WfWrapper U m → WfWrapper U m') := by
  obtain ⟨msg, u⟩ := m
  obtain ⟨msg', u'⟩ := m'
  obtain ⟨hu, h⟩ := h
  dsimp only at hu h
  subst hu
  match msg with
  | none => simp only at h; subst h; exact ⟨rfl, id⟩
  | some .nil =>
    obtain ⟨l', rfl, h⟩ := h
    simp only [SameLog] at h
    subst h; exact ⟨rfl, id⟩
  | some (.mk .nil w) =>
    obtain ⟨l', rfl, h⟩ := h
    simp only [SameLog] at h
    subst h; exact ⟨rfl, id⟩
  | some (.mk (.mk fs x) w) =>
    obtain ⟨l', rfl, h⟩ := h
    simp only [SameLog] at h
    obtain ⟨fs', order, rfl, h, hp⟩ := h
    have i := sameEntries_inv (U := U) fs fs' h
    refine ⟨?_, fun hw => ⟨?_, hw.2⟩⟩
    · simp only [encWrapper, List.length_append]
      congr 1
      refine lenField_length_congr (by omega) ?_
      simp only [encLog, List.length_append]
      congr 1
      refine lenField_length_congr (by omega) ?_
      rw [List.length_append, List.length_append, ← i.1, encFields_perm_length hp]
    · rintro _ ⟨⟩
      have hl := hw.1 _ rfl
      exact ⟨⟨wfFields_perm hp (i.2 hl.1.1), hl.1.2⟩, hl.2⟩

end Sawmill.Wire
