import Verif.Spec.Cli
/-!
# The scanner
-/

namespace Sawmill

/-! ## Lines -/

/-- The lines of a text: those that end in a line feed, and the rest if there is one. -/
def lineTokens (ls : List Bytes) (last : Bytes) : List Bytes := (ls ++ if last = [] then [] else [last]).map dropCR

theorem takeWhile_line {l r : Bytes} (h : (10 : UInt8) ∉ l) : (l ++ 10 :: r).takeWhile (· ≠ 10) = l := by
  induction l with
  | nil => simp
  | cons b l ih =>
    have hb : b ≠ 10 := by rintro rfl; simp at h
    have hl : (10 : UInt8) ∉ l := fun hm => h (by simp [hm])
    rw [List.cons_append, List.takeWhile_cons, if_pos (by simp [hb]), ih hl]

theorem takeWhile_all {l : Bytes} (h : (10 : UInt8) ∉ l) : l.takeWhile (· ≠ 10) = l := by
  induction l with
  | nil => rfl
  | cons b l ih =>
    have hb : b ≠ 10 := by rintro rfl; simp at h
    have hl : (10 : UInt8) ∉ l := fun hm => h (by simp [hm])
    rw [List.takeWhile_cons, if_pos (by simp [hb]), ih hl]

/-- Data has a line feed in it, or none. -/
theorem has_line (d : Bytes) : (∃ l r, d = l ++ 10 :: r ∧ (10 : UInt8) ∉ l) ∨ (10 : UInt8) ∉ d := by
  induction d with
  | nil => exact .inr (by simp)
  | cons b d ih =>
    by_cases hb : b = 10
    · subst hb; exact .inl ⟨[], d, rfl, by simp⟩
    · rcases ih with ⟨l, r, rfl, h⟩ | h
      · exact .inl ⟨b :: l, r, rfl, by simp only [List.mem_cons, not_or]; exact ⟨fun e => hb e.symm, h⟩⟩
      · exact .inr (by simp only [List.mem_cons, not_or]; exact ⟨fun e => hb e.symm, h⟩)

theorem scanLine_line {l r : Bytes} (h : (10 : UInt8) ∉ l) (eof : Bool) : scanLine (l ++ 10 :: r) eof = some (l.length + 1, dropCR l) := by
  unfold scanLine
  rw [takeWhile_line h]
  have : (l ++ 10 :: r).isEmpty = false := by cases l <;> rfl
  rw [this]
  simp

theorem scanLine_more {d : Bytes} (h : (10 : UInt8) ∉ d) : scanLine d false = none := by
  unfold scanLine
  rw [takeWhile_all h]
  simp

theorem scanLine_last {d : Bytes} (h : (10 : UInt8) ∉ d) : scanLine d true = if d = [] then none else some (d.length, dropCR d) := by
  unfold scanLine
  rw [takeWhile_all h]
  cases d <;> simp

theorem drop_line (l r : Bytes) : (l ++ 10 :: r).drop (l.length + 1) = r := by simp

/-- A text that starts with a line has that line as its first. -/
theorem joinLines_first {ls : List Bytes} {l r last : Bytes} (hl : (10 : UInt8) ∉ l) (hls : ∀ x ∈ ls, (10 : UInt8) ∉ x) (hlast : (10 : UInt8) ∉ last) (h : l ++ 10 :: r = joinLines ls last) :
    ∃ ls', ls = l :: ls' ∧ r = joinLines ls' last := by
  cases ls with
  | nil =>
    exfalso
    simp only [joinLines, List.flatMap_nil, List.nil_append] at h
    rw [← h] at hlast
    simp at hlast
  | cons x ls =>
    simp only [joinLines, List.flatMap_cons, List.append_assoc, List.cons_append, List.nil_append] at h
    have hx := hls x (by simp)
    have e : l = x := by
      rw [← takeWhile_line (r := r) hl, h, takeWhile_line hx]
    subst e
    refine ⟨ls, rfl, ?_⟩
    have := List.append_cancel_left h
    simpa [joinLines] using this

theorem joinLines_nil (last : Bytes) : joinLines [] last = last := rfl

/-! ## After the reader has stopped -/

theorem tokens_stopped : ∀ (n : Nat) (s : Scanner) (e : Option ScanErr) (ls : List Bytes) (last : Bytes), s.stopped = some e → s.data = joinLines ls last → (∀ x ∈ ls, (10 : UInt8) ∉ x) →
    (10 : UInt8) ∉ last → s.data.length + 1 ≤ n → Scanner.tokens n s = (lineTokens ls last, e) := by
  intro n
  induction n with
  | zero => intro s e ls last _ _ _ _ hn; omega
  | succ n ih =>
    intro s e ls last hs hd hls hlast hn
    simp only [Scanner.tokens]
    rw [if_pos (.inr (by rw [hs]; rfl))]
    rw [show s.stopped.isSome = true by rw [hs]; rfl]
    cases ls with
    | cons l ls =>
      have hl := hls l (by simp)
      have hd' : s.data = l ++ 10 :: joinLines ls last := by rw [hd]; simp [joinLines]
      rw [hd', scanLine_line hl]
      simp only
      rw [drop_line]
      rw [hd', List.length_append, List.length_cons] at hn
      rw [ih _ e ls last (by exact hs) rfl (fun x hx => hls x (by simp [hx])) hlast (by simp only; omega)]
      simp [lineTokens]
    | nil =>
      rw [joinLines_nil] at hd
      rw [hd, scanLine_last hlast]
      by_cases h0 : last = []
      · rw [if_pos h0]
        simp only [hs]
        simp [lineTokens, h0]
      · rw [if_neg h0]
        simp only
        rw [ih _ e [] [] (by exact hs) (by simp [joinLines]) (by simp) (by simp) (by
          have : 0 < last.length := List.length_pos_iff.2 h0
          rw [hd] at hn; simp only [List.length_drop]; omega)]
        simp [lineTokens, h0]

/-! ## While reading -/

structure Scanner.Good (s : Scanner) : Prop where
  fits : s.start + s.data.length ≤ s.cap
  small : s.cap ≤ 65536
  full : ∀ c ∈ s.chunks, c ≠ []
  going : s.stopped = none

theorem makeRoom_cases {s : Scanner} (g : s.Good) :
    (s.makeRoom = none ∧ s.data.length = 65536) ∨
    ∃ s', s.makeRoom = some s' ∧ s'.Good ∧ s'.data = s.data ∧ s'.chunks = s.chunks ∧ s'.fails = s.fails ∧ s'.start + s'.data.length < s'.cap := by
  obtain ⟨h1, h2, h3, h4⟩ := g
  unfold Scanner.makeRoom maxScanTokenSize
  simp only
  by_cases hsh : 0 < s.start ∧ (s.start + s.data.length = s.cap ∨ s.cap / 2 < s.start)
  · rw [if_pos hsh]
    simp only [Nat.zero_add]
    rw [if_neg (by omega)]
    exact .inr ⟨_, rfl, ⟨by simp only [Nat.zero_add]; omega, h2, h3, h4⟩, rfl, rfl, rfl, by simp only; omega⟩
  · rw [if_neg hsh]
    by_cases hf : s.start + s.data.length = s.cap
    · rw [if_pos hf]
      by_cases hm : 65536 ≤ s.cap
      · rw [if_pos hm]
        exact .inl ⟨rfl, by omega⟩
      · rw [if_neg hm]
        refine .inr ⟨_, rfl, ⟨?_, ?_, h3, h4⟩, rfl, rfl, rfl, ?_⟩
        · simp only [Nat.zero_add]; split <;> split <;> omega
        · simp only; split <;> split <;> omega
        · simp only [Nat.zero_add]; split <;> split <;> omega
    · rw [if_neg hf]
      exact .inr ⟨s, rfl, ⟨h1, h2, h3, h4⟩, rfl, rfl, rfl, by omega⟩

theorem read_cases {s : Scanner} (g : s.Good) (hr : s.start + s.data.length < s.cap) :
    (s.chunks = [] ∧ s.read.data = s.data ∧ s.read.stopped = some (if s.fails then some .read else none)) ∨
    (s.read.Good ∧ s.read.data ++ s.read.chunks.flatten = s.data ++ s.chunks.flatten ∧ s.read.fails = s.fails ∧ s.read.chunks.flatten.length < s.chunks.flatten.length) := by
  obtain ⟨h1, h2, h3, h4⟩ := g
  unfold Scanner.read
  match hc : s.chunks with
  | [] => exact .inl ⟨rfl, by simp [readLoop], by simp [readLoop]⟩
  | [] :: cs => exact absurd rfl (h3 [] (by rw [hc]; simp))
  | (b :: c) :: cs =>
    refine .inr ?_
    simp only [readLoop]
    split
    · next hl =>
      refine ⟨⟨?_, h2, fun x hx => h3 x (by rw [hc]; simp [show x ∈ cs from hx]), rfl⟩, by simp, trivial, by simp; omega⟩
      simp only [List.length_append]; omega
    · next hl =>
      have hroom : 0 < s.cap - (s.start + s.data.length) := by omega
      refine ⟨⟨?_, h2, ?_, rfl⟩, ?_, trivial, ?_⟩
      · simp only [List.length_append, List.length_take]; omega
      · intro x hx
        simp only [List.mem_cons] at hx
        rcases hx with rfl | hx
        · intro he
          have := congrArg List.length he
          rw [List.length_drop] at this
          simp only [List.length_nil] at this
          omega
        · exact h3 x (by rw [hc]; simp [hx])
      · simp only [List.flatten_cons, List.append_assoc]
        rw [← List.append_assoc ((b :: c).take _) _ cs.flatten, List.take_append_drop]
      · simp only [List.flatten_cons, List.length_append, List.length_drop]
        simp only [List.length_cons] at hl ⊢; omega

/-- No line is too long. -/
theorem tokens_all : ∀ (n : Nat) (s : Scanner) (ls : List Bytes) (last : Bytes), s.Good → s.data ++ s.chunks.flatten = joinLines ls last → (∀ x ∈ ls, (10 : UInt8) ∉ x ∧ x.length < 65536) →
    (10 : UInt8) ∉ last → last.length < 65536 → 2 * s.chunks.flatten.length + s.data.length + 2 ≤ n →
    Scanner.tokens n s = (lineTokens ls last, if s.fails then some .read else none) := by
  intro n
  induction n with
  | zero => intro s ls last _ _ _ _ _ hn; omega
  | succ n ih =>
    intro s ls last g hd hls hlast hlen hn
    simp only [Scanner.tokens]
    have hst := g.going
    rcases has_line s.data with ⟨l, r, hdl, hl⟩ | hno
    · rw [if_pos (.inl (by rw [hdl]; simp)), hdl, scanLine_line hl]
      simp only
      rw [drop_line]
      rw [hdl, List.append_assoc, List.cons_append] at hd
      obtain ⟨ls', rfl, hr⟩ := joinLines_first hl (fun x hx => (hls x hx).1) hlast hd
      have hfit := g.fits
      rw [hdl, List.length_append, List.length_cons] at hfit hn
      rw [ih { s with data := r, start := s.start + (l.length + 1) } ls' last ⟨by simp only; omega, g.small, g.full, hst⟩ hr (fun x hx => hls x (by simp [hx])) hlast hlen (by simp only; omega)]
      simp [lineTokens]
    · have hnone : (if s.data ≠ [] ∨ s.stopped.isSome then scanLine s.data s.stopped.isSome else none) = none := by
        split
        · rw [hst]; exact scanLine_more hno
        · rfl
      rw [hnone]
      simp only [hst]
      -- what is buffered is part of one line
      have hshort : s.data.length < 65536 := by
        cases ls with
        | nil =>
          rw [joinLines_nil] at hd
          have := congrArg List.length hd
          rw [List.length_append] at this
          omega
        | cons l ls =>
          have h1 : s.data ++ s.chunks.flatten = l ++ 10 :: joinLines ls last := by rw [hd]; simp [joinLines]
          have hll := (hls l (by simp)).2
          rcases Nat.lt_or_ge l.length s.data.length with hlt | hge
          · exfalso
            have h2 : (s.data ++ s.chunks.flatten)[l.length]? = some 10 := by rw [h1]; simp
            rw [List.getElem?_append_left hlt] at h2
            exact hno (List.mem_of_getElem? h2)
          · omega
      rcases makeRoom_cases g with ⟨_, hf⟩ | ⟨s', hs', g', e1, e2, e3, hr⟩
      · omega
      · rw [hs']
        simp only
        rcases read_cases g' hr with ⟨hc, hdd, hsp⟩ | ⟨g'', hdd, hfl, hlt⟩
        · rw [hc] at e2
          rw [← e2] at hd hn
          simp only [List.flatten_nil, List.append_nil, List.length_nil] at hd hn
          rw [tokens_stopped n s'.read _ ls last hsp (by rw [hdd, e1, hd]) (fun x hx => (hls x hx).1) hlast (by rw [hdd, e1]; omega), e3]
        · have hlen2 : s'.read.data.length + s'.read.chunks.flatten.length = s.data.length + s.chunks.flatten.length := by
            have := congrArg List.length hdd
            rw [List.length_append, List.length_append, e1, e2] at this
            exact this
          rw [e2] at hlt
          rw [ih s'.read ls last g'' (by rw [hdd, e1, e2, hd]) hls hlast hlen (by omega), hfl, e3]

/-- Some line is too long: the lines before it are read. -/
theorem tokens_tooLong : ∀ (n : Nat) (s : Scanner) (ls : List Bytes) (rest : Bytes), s.Good → s.data ++ s.chunks.flatten = joinLines ls rest → (∀ x ∈ ls, (10 : UInt8) ∉ x ∧ x.length < 65536) →
    65536 ≤ rest.length → (10 : UInt8) ∉ rest.take 65536 → 2 * s.chunks.flatten.length + s.data.length + 2 ≤ n →
    Scanner.tokens n s = (ls.map dropCR, some .tooLong) := by
  intro n
  induction n with
  | zero => intro s ls last _ _ _ _ _ hn; omega
  | succ n ih =>
    intro s ls rest g hd hls hlen hrest hn
    simp only [Scanner.tokens]
    have hst := g.going
    have hcap : s.data.length ≤ 65536 := by have := g.fits; have := g.small; omega
    -- the buffer has a line feed in it only if there is another line
    rcases has_line s.data with ⟨l, r, hdl, hl⟩ | hno
    · cases ls with
      | nil =>
        exfalso
        rw [joinLines_nil] at hd
        have h1 : s.data = rest.take s.data.length := by rw [← hd]; simp
        have h2 : (10 : UInt8) ∈ rest.take s.data.length := by rw [← h1, hdl]; simp
        exact hrest ((List.take_subset_take_left _ hcap) h2)
      | cons x ls' =>
        rw [if_pos (.inl (by rw [hdl]; simp)), hdl, scanLine_line hl]
        simp only
        rw [drop_line]
        rw [hdl, List.append_assoc, List.cons_append] at hd
        simp only [joinLines, List.flatMap_cons, List.append_assoc, List.cons_append, List.nil_append] at hd
        have hx := (hls x (by simp)).1
        have e : l = x := by rw [← takeWhile_line (r := r ++ s.chunks.flatten) hl, hd, takeWhile_line hx]
        subst e
        have hr := List.append_cancel_left hd
        simp only [List.cons.injEq, true_and] at hr
        have hfit := g.fits
        rw [hdl, List.length_append, List.length_cons] at hfit hn
        rw [ih { s with data := r, start := s.start + (l.length + 1) } ls' rest ⟨by simp only; omega, g.small, g.full, hst⟩ hr (fun y hy => hls y (by simp [hy])) hlen hrest (by simp only; omega)]
        simp
    · have hnone : (if s.data ≠ [] ∨ s.stopped.isSome then scanLine s.data s.stopped.isSome else none) = none := by
        split
        · rw [hst]; exact scanLine_more hno
        · rfl
      rw [hnone]
      simp only [hst]
      have hls0 : s.data.length = 65536 → ls = [] := by
        intro h65
        cases ls with
        | nil => rfl
        | cons l ls =>
          exfalso
          have h1 : s.data ++ s.chunks.flatten = l ++ 10 :: joinLines ls rest := by rw [hd]; simp [joinLines]
          have hll := (hls l (by simp)).2
          have h2 : (s.data ++ s.chunks.flatten)[l.length]? = some 10 := by rw [h1]; simp
          rw [List.getElem?_append_left (by omega)] at h2
          exact hno (List.mem_of_getElem? h2)
      rcases makeRoom_cases g with ⟨hmr, hf⟩ | ⟨s', hs', g', e1, e2, e3, hr⟩
      · rw [hmr, hls0 hf]; rfl
      · rw [hs']
        simp only
        rcases read_cases g' hr with ⟨hc, hdd, hsp⟩ | ⟨g'', hdd, hfl, hlt⟩
        · exfalso
          -- the reader cannot have come to an end
          rw [hc] at e2
          rw [← e2] at hd
          simp only [List.flatten_nil, List.append_nil] at hd
          have := congrArg List.length hd
          simp only [joinLines, List.length_append] at this
          have hx := g'.fits
          have hy := g'.small
          rw [e1] at hx hr
          omega
        · have hlen2 : s'.read.data.length + s'.read.chunks.flatten.length = s.data.length + s.chunks.flatten.length := by
            have := congrArg List.length hdd
            rw [List.length_append, List.length_append, e1, e2] at this
            exact this
          rw [e2] at hlt
          rw [ih s'.read ls rest g'' (by rw [hdd, e1, e2, hd]) hls hlen hrest (by omega)]

theorem scanAll_lines {i : Input} (hc : ∀ c ∈ i.chunks, c ≠ []) {ls : List Bytes} {last : Bytes} (h : i.chunks.flatten = joinLines ls last) (hls : ∀ x ∈ ls, (10 : UInt8) ∉ x ∧ x.length < 65536)
    (hlast : (10 : UInt8) ∉ last) (hlen : last.length < 65536) : scanAll i = (lineTokens ls last, if i.fails then some .read else none) := by
  unfold scanAll
  exact tokens_all _ _ ls last ⟨by simp, by simp, hc, rfl⟩ (by simpa using h) hls hlast hlen (by simp)

theorem scanAll_tooLong {i : Input} (hc : ∀ c ∈ i.chunks, c ≠ []) {ls : List Bytes} {rest : Bytes} (h : i.chunks.flatten = joinLines ls rest) (hls : ∀ x ∈ ls, (10 : UInt8) ∉ x ∧ x.length < 65536)
    (hlen : 65536 ≤ rest.length) (hrest : (10 : UInt8) ∉ rest.take 65536) : scanAll i = (ls.map dropCR, some .tooLong) := by
  unfold scanAll
  exact tokens_tooLong _ _ ls rest ⟨by simp, by simp, hc, rfl⟩ (by simpa using h) hls hlen hrest (by simp)

end Sawmill
