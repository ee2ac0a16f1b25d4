import Verif.Model.Stream
import Verif.Props.Cli
/-!
# C90: the program answers every line before it waits for more input
-/

namespace Sawmill
open Rfc

variable (env : JEnv) (n : Nat) (cv : Conv) (p : Pipeline Builtin (Option Err)) (wr : Writer)

/-- A state that the program passes through. -/
inductive Stream.Reached (i : Input) (w : PWorld Heap) : Stream → Prop
  | start : Stream.Reached i w (.start i w)
  | step {s s' : Stream} : Stream.Reached i w s → s.step env n cv p wr = .inl s' → Stream.Reached i w s'

/-- How the program ends from a state. -/
inductive Stream.Ends : Stream → Cli × CliEnd → Prop
  | now {s : Stream} {r : Cli × CliEnd} : s.step env n cv p wr = .inr r → Stream.Ends s r
  | later {s s' : Stream} {r : Cli × CliEnd} : s.step env n cv p wr = .inl s' → Stream.Ends s' r → Stream.Ends s r

variable {env n cv p wr}

/-- It is in one state after another: there is one way for it to end. -/
theorem Stream.Ends.unique {s : Stream} {r r' : Cli × CliEnd} (h : s.Ends env n cv p wr r) (h' : s.Ends env n cv p wr r') : r = r' := by
  induction h with
  | now h =>
    cases h' with
    | now g => rw [h] at g; exact Sum.inr.inj g
    | later g _ => rw [h] at g; cases g
  | later h _ ih =>
    cases h' with
    | now g => rw [h] at g; cases g
    | later g h2 => rw [h] at g; exact ih (Sum.inl.inj g ▸ h2)

/-! ## The steps add up to `processInput` -/

/-- `processInput`, continued from a state of the loop. -/
def finishInput (env : JEnv) (n : Nat) (cv : Conv) (p : Pipeline Builtin (Option Err)) (wr : Writer) (c : Cli) (te : List Bytes × Option ScanErr) : Cli × CliEnd :=
  match Cli.lines env n cv p wr c te.1 with
  | (s, some e) => (s, e)
  | (s, none) => (s, match te.2 with
    | some e => .readFailed e
    | none => .done)

theorem finish_cons (c c' : Cli) (t : Bytes) (ts : List Bytes) (e : Option ScanErr) (h : c.line env n cv p wr t = .ok c') : finishInput env n cv p wr c (t :: ts, e) = finishInput env n cv p wr c' (ts, e) := by
  simp only [finishInput, Cli.lines, h]

theorem finish_crash (c : Cli) (t : Bytes) (ts : List Bytes) (e : Option ScanErr) (x : CliEnd) (h : c.line env n cv p wr t = .error x) : finishInput env n cv p wr c (t :: ts, e) = (c, x) := by
  simp only [finishInput, Cli.lines, h]

theorem scanLine_adv {d : Bytes} {eof : Bool} {adv : Nat} {tok : Bytes} (h : scanLine d eof = some (adv, tok)) : 0 < adv ∧ adv ≤ d.length := by
  unfold scanLine at h
  split at h
  · cases h
  · next h0 =>
    simp only at h
    split at h
    · next hl => simp only [Option.some.injEq, Prod.mk.injEq] at h; omega
    · split at h
      · next he =>
        simp only [Option.some.injEq, Prod.mk.injEq] at h
        have : 0 < d.length := List.length_pos_iff.2 (by intro hd; apply h0; rw [hd, he]; rfl)
        omega
      · cases h

theorem look_adv {s : Scanner} {adv : Nat} {tok : Bytes} (h : s.look = some (adv, tok)) : 0 < adv ∧ adv ≤ s.data.length := by
  unfold Scanner.look at h
  split at h
  · exact scanLine_adv h
  · cases h

/-- Once the reader has stopped. -/
theorem ends_stopped : ∀ (k : Nat) (s : Stream) (e : Option ScanErr), s.scanner.stopped = some e → s.scanner.data.length + 1 ≤ k → s.Ends env n cv p wr (finishInput env n cv p wr s.cli (s.scanner.tokens k)) := by
  intro k
  induction k with
  | zero => intro s e _ hk; omega
  | succ k ih =>
    intro s e hs hk
    simp only [Scanner.tokens]
    change Stream.Ends env n cv p wr s (finishInput env n cv p wr s.cli (match s.scanner.look with | some (adv, tok) => _ | none => _))
    match hlk : s.scanner.look with
    | some (adv, tok) =>
      have hadv := look_adv hlk
      simp only
      match hl : s.cli.line env n cv p wr tok with
      | .error x =>
        rw [finish_crash _ _ _ _ x hl]
        exact .now (by simp only [Stream.step, hlk, hl])
      | .ok c =>
        rw [finish_cons _ c _ _ _ hl]
        exact .later (s' := { s with scanner := { s.scanner with data := s.scanner.data.drop adv, start := s.scanner.start + adv }, cli := c }) (by simp only [Stream.step, hlk, hl])
          (ih _ e hs (by simp only [List.length_drop]; omega))
    | none =>
      simp only [hs]
      cases e with
      | none => exact .now (by simp only [Stream.step, hlk, hs, finishInput, Cli.lines])
      | some e => exact .now (by simp only [Stream.step, hlk, hs, finishInput, Cli.lines])

/-- While it is reading. -/
theorem ends_reading : ∀ (k : Nat) (s : Stream), s.scanner.Good → 2 * s.scanner.chunks.flatten.length + s.scanner.data.length + 2 ≤ k → s.Ends env n cv p wr (finishInput env n cv p wr s.cli (s.scanner.tokens k)) := by
  intro k
  induction k with
  | zero => intro s _ hk; omega
  | succ k ih =>
    intro s g hk
    have hst := g.going
    simp only [Scanner.tokens]
    change Stream.Ends env n cv p wr s (finishInput env n cv p wr s.cli (match s.scanner.look with | some (adv, tok) => _ | none => _))
    match hlk : s.scanner.look with
    | some (adv, tok) =>
      have hadv := look_adv hlk
      simp only
      match hl : s.cli.line env n cv p wr tok with
      | .error x =>
        rw [finish_crash _ _ _ _ x hl]
        exact .now (by simp only [Stream.step, hlk, hl])
      | .ok c =>
        rw [finish_cons _ c _ _ _ hl]
        have hfit := g.fits
        exact .later (s' := { s with scanner := { s.scanner with data := s.scanner.data.drop adv, start := s.scanner.start + adv }, cli := c }) (by simp only [Stream.step, hlk, hl])
          (ih _ ⟨by simp only [List.length_drop]; omega, g.small, g.full, hst⟩ (by simp only [List.length_drop]; omega))
    | none =>
      simp only [hst]
      rcases makeRoom_cases g with ⟨hm, _⟩ | ⟨t, hm, g', e1, e2, e3, hr⟩
      · rw [hm]
        exact .now (by simp only [Stream.step, hlk, hst, hm, finishInput, Cli.lines])
      · rw [hm]
        simp only
        refine .later (s' := { s with scanner := t.read, got := s.got ++ t.read.data.drop t.data.length }) (by simp only [Stream.step, hlk, hst, hm]) ?_
        rcases read_cases g' hr with ⟨hc, hdd, hsp⟩ | ⟨g'', hdd, hfl, hlt⟩
        · exact ends_stopped k { s with scanner := t.read, got := s.got ++ t.read.data.drop t.data.length } _ hsp (by simp only [hdd, e1]; omega)
        · have := congrArg List.length hdd
          rw [List.length_append, List.length_append, e1, e2] at this
          rw [e2] at hlt
          exact ih { s with scanner := t.read, got := s.got ++ t.read.data.drop t.data.length } g'' (by simp only; omega)

/-- C90: taken step by step, the program comes to an end, and it is the one that the other claims about it are about. -/
theorem stream_ends (env : JEnv) (n : Nat) (cv : Conv) (p : Pipeline Builtin (Option Err)) (wr : Writer) {i : Input} (hc : ∀ c ∈ i.chunks, c ≠ []) (w : PWorld Heap) (r : Cli × CliEnd) :
    (Stream.start i w).Ends env n cv p wr r ↔ r = processInput env n cv p wr i w := by
  have h : (Stream.start i w).Ends env n cv p wr (processInput env n cv p wr i w) :=
    ends_reading (2 * i.chunks.flatten.length + 2) (Stream.start i w) ⟨by simp [Stream.start], by simp [Stream.start], hc, rfl⟩ (by simp [Stream.start])
  exact ⟨fun h' => h'.unique h, fun e => e ▸ h⟩

/-! ## What has been done when it waits -/

theorem joinLines_snoc (ls : List Bytes) (l r : Bytes) : joinLines ls (l ++ 10 :: r) = joinLines (ls ++ [l]) r := by simp [joinLines]

theorem lines_snoc : ∀ (ts : List Bytes) (c c1 c2 : Cli) (t : Bytes), Cli.lines env n cv p wr c ts = (c1, none) → c1.line env n cv p wr t = .ok c2 → Cli.lines env n cv p wr c (ts ++ [t]) = (c2, none)
  | [], c, c1, c2, t, h, h2 => by
    simp only [Cli.lines, Prod.mk.injEq, and_true] at h
    subst h
    simp only [List.nil_append, Cli.lines, h2]
  | x :: ts, c, c1, c2, t, h, h2 => by
    simp only [Cli.lines, List.cons_append] at h ⊢
    match hx : c.line env n cv p wr x with
    | .error e => rw [hx] at h; cases h
    | .ok c' => rw [hx] at h; exact lines_snoc ts c' c1 c2 t h h2

/-- Of a state in which the reader has not stopped: the lines that are not in the buffer any more have been handled. -/
structure Stream.Sound (env : JEnv) (n : Nat) (cv : Conv) (p : Pipeline Builtin (Option Err)) (wr : Writer) (i : Input) (w : PWorld Heap) (s : Stream) (ls : List Bytes) : Prop where
  good : s.scanner.Good
  short : ∀ x ∈ ls, (10 : UInt8) ∉ x ∧ x.length < 65536
  got : s.got = joinLines ls s.scanner.data
  left : s.got ++ s.scanner.chunks.flatten = i.chunks.flatten
  done : Cli.lines env n cv p wr { world := w } (ls.map dropCR) = (s.cli, none)

/-- One step to another state in which the reader has not stopped. -/
theorem sound_step {i : Input} {w : PWorld Heap} {s s' : Stream} {ls : List Bytes} (h : s.Sound env n cv p wr i w ls) (hs : s.step env n cv p wr = .inl s') :
    (s'.scanner.stopped.isSome ∧ s'.got = i.chunks.flatten ∧ s.got = s'.got) ∨ ∃ ls', s'.Sound env n cv p wr i w ls' := by
  obtain ⟨g, h1, h2, h3, h4⟩ := h
  have hst := g.going
  have hfit := g.fits
  have hsm := g.small
  rcases has_line s.scanner.data with ⟨l, r, hdl, hl⟩ | hno
  · have hlk : s.scanner.look = some (l.length + 1, dropCR l) := by
      unfold Scanner.look
      rw [if_pos (.inl (by rw [hdl]; simp)), hdl, scanLine_line hl]
    simp only [Stream.step, hlk] at hs
    match hc : s.cli.line env n cv p wr (dropCR l) with
    | .error e => rw [hc] at hs; cases hs
    | .ok c =>
      rw [hc] at hs
      simp only [Sum.inl.injEq] at hs
      subst hs
      have hlen : s.scanner.data.length = l.length + 1 + r.length := by rw [hdl]; simp; omega
      refine .inr ⟨ls ++ [l], ⟨by simp only [List.length_drop]; omega, hsm, g.full, hst⟩, ?_, ?_, h3, ?_⟩
      · intro x hx
        rcases List.mem_append.1 hx with hx | hx
        · exact h1 x hx
        · rw [List.mem_singleton.1 hx]; exact ⟨hl, by omega⟩
      · simp only; rw [h2, hdl, drop_line, joinLines_snoc]
      · rw [List.map_append]; exact lines_snoc _ _ _ _ _ h4 hc
  · have hlk : s.scanner.look = none := by
      unfold Scanner.look
      split
      · rw [hst]; exact scanLine_more hno
      · rfl
    simp only [Stream.step, hlk, hst] at hs
    rcases makeRoom_cases g with ⟨hm, _⟩ | ⟨t, hm, g', e1, e2, e3, hr⟩
    · rw [hm] at hs; cases hs
    · rw [hm] at hs
      simp only [Sum.inl.injEq] at hs
      subst hs
      rcases read_cases g' hr with ⟨hc, hdd, hsp⟩ | ⟨g'', hdd, hfl, hlt⟩
      · refine .inl ⟨by simp only [hsp]; rfl, ?_, ?_⟩
        · simp only; rw [hdd, List.drop_length, List.append_nil, ← h3, ← e2, hc]; simp
        · simp only; rw [hdd, List.drop_length, List.append_nil]
      · -- the data that was there is still at the front
        have hpre : ∃ d, t.read.data = t.data ++ d := ⟨(readLoop (t.cap - (t.start + t.data.length)) t.fails 0 t.chunks).1, rfl⟩
        obtain ⟨d, hd⟩ := hpre
        refine .inr ⟨ls, g'', h1, ?_, ?_, h4⟩
        · simp only; rw [h2, hd, e1]; simp [joinLines]
        · simp only
          rw [hd] at hdd ⊢
          rw [List.append_assoc] at hdd
          have := List.append_cancel_left hdd
          rw [List.drop_left, List.append_assoc, this, e2, h3]

/-- A state that the program passes through is sound, or the reader has stopped. -/
theorem reached_cases {i : Input} (hc : ∀ c ∈ i.chunks, c ≠ []) {w : PWorld Heap} {s : Stream} (h : s.Reached env n cv p wr i w) : (s.scanner.stopped.isSome ∧ s.got = i.chunks.flatten) ∨ ∃ ls, s.Sound env n cv p wr i w ls := by
  induction h with
  | start => exact .inr ⟨[], ⟨by simp [Stream.start], by simp [Stream.start], hc, rfl⟩, by simp, by simp [Stream.start, joinLines], by simp [Stream.start], rfl⟩
  | @step s s' _ hs ih =>
    rcases ih with ⟨hst, hg⟩ | ⟨ls, hsound⟩
    · obtain ⟨e, he⟩ := Option.isSome_iff_exists.1 hst
      unfold Stream.step at hs
      split at hs
      · split at hs
        · cases hs
        · simp only [Sum.inl.injEq] at hs; subst hs; exact .inl ⟨by simp only [he]; rfl, hg⟩
      · rw [he] at hs; cases e <;> cases hs
    · rcases sound_step hsound hs with ⟨a, b, _⟩ | h
      · exact .inl ⟨a, b⟩
      · exact .inr h

/-- C90: whenever the program calls `Read` to get more input, it has written and logged exactly what it writes and logs, from beginning to end, for an input that consists of the whole lines that it has received so far. Nothing is held back: no line that has been received with its line feed waits for a later one. -/
theorem stream_prompt (env : JEnv) (n : Nat) (cv : Conv) (p : Pipeline Builtin (Option Err)) (wr : Writer) {i : Input} (hc : ∀ c ∈ i.chunks, c ≠ []) {w : PWorld Heap} {s : Stream}
    (h : s.Reached env n cv p wr i w) (hw : s.Waits) :
    s.got <+: i.chunks.flatten ∧
    ∀ whole rest : Bytes, s.got = whole ++ rest → (whole = [] ∨ whole.getLast? = some 10) → (10 : UInt8) ∉ rest →
      rest.length < 65536 ∧ ∀ j : Input, j.chunks.flatten = whole → (∀ c ∈ j.chunks, c ≠ []) → j.fails = false → processInput env n cv p wr j w = (s.cli, .done) := by
  rcases reached_cases hc h with ⟨hst, _⟩ | ⟨ls, hsound⟩
  · rw [hw.2.1] at hst; cases hst
  · obtain ⟨g, h1, h2, h3, h4⟩ := hsound
    refine ⟨⟨_, h3⟩, ?_⟩
    intro whole rest hgot hwhole hrest
    -- the buffer holds no line
    have hno : (10 : UInt8) ∉ s.scanner.data := by
      rcases has_line s.scanner.data with ⟨l, r, hdl, hl⟩ | hno
      · have := hw.1
        unfold Scanner.look at this
        rw [if_pos (.inl (by rw [hdl]; simp)), hdl, scanLine_line hl] at this
        cases this
      · exact hno
    -- so that the whole lines are the ones that have been handled
    have hw0 : whole = joinLines ls [] ∧ rest = s.scanner.data := by
      have hj : ∀ x : Bytes, joinLines ls x = joinLines ls [] ++ x := fun x => by simp [joinLines]
      have hj0 : joinLines ls [] = [] ∨ (joinLines ls []).getLast? = some 10 := by
        rcases List.eq_nil_or_concat ls with rfl | ⟨ls', l, rfl⟩
        · exact .inl rfl
        · exact .inr (by simp [joinLines, List.flatMap_append])
      have e : whole ++ rest = joinLines ls [] ++ s.scanner.data := by rw [← hgot, h2, hj]
      have key : ∀ {a b c d : Bytes}, a ++ b = c ++ d → (a = [] ∨ a.getLast? = some 10) → (10 : UInt8) ∉ d → a.length ≤ c.length := by
        intro a b c d hab ha hd
        rcases Nat.lt_or_ge c.length a.length with hlt | hle
        · exfalso
          rcases ha with rfl | ha
          · simp at hlt
          · rw [List.getLast?_eq_getElem?] at ha
            have h5 : (a ++ b)[a.length - 1]? = some 10 := by rw [List.getElem?_append_left (by omega)]; exact ha
            rw [hab, List.getElem?_append_right (by omega)] at h5
            exact hd (List.mem_of_getElem? h5)
        · exact hle
      have hlen : whole.length = (joinLines ls []).length := Nat.le_antisymm (key e hwhole hno) (key e.symm hj0 hrest)
      exact List.append_inj e hlen
    obtain ⟨rfl, rfl⟩ := hw0
    have hshort : s.scanner.data.length < 65536 := by
      rcases makeRoom_cases g with ⟨hm, _⟩ | ⟨t, hm, g', e1, e2, e3, hr⟩
      · exact absurd hm hw.2.2
      · have := g'.small
        rw [e1] at hr
        omega
    refine ⟨hshort, fun j hj hjc hjf => ?_⟩
    unfold processInput
    rw [scanAll_lines hjc hj h1 (by simp) (by simp)]
    simp only [lineTokens, if_pos, List.append_nil, h4, hjf, Bool.false_eq_true, if_false]

/-! ## Nothing is taken back -/

theorem encode_grows {c c' : Cli} {r : Handled} (h : c.encode env n wr r = .ok c') : c.out <+: c'.out ∧ c.log <+: c'.log := by
  unfold Cli.encode at h
  split at h
  · cases h; exact ⟨List.prefix_refl _, List.prefix_append _ _⟩
  · split at h
    · cases h
    · cases h; exact ⟨List.prefix_refl _, List.prefix_append _ _⟩
    · split at h
      · cases h; exact ⟨List.prefix_append _ _, List.prefix_refl _⟩
      · cases h; exact ⟨List.prefix_append _ _, List.prefix_append _ _⟩

theorem line_grows {c c' : Cli} {t : Bytes} (h : c.line env n cv p wr t = .ok c') : c.out <+: c'.out ∧ c.log <+: c'.log := by
  unfold Cli.line at h
  simp only at h
  split at h
  · cases h; exact ⟨List.prefix_refl _, List.prefix_refl _⟩
  · split at h
    · cases h
    · split at h
      · cases h; exact ⟨List.prefix_refl _, List.prefix_append _ _⟩
      · exact (have := encode_grows h; this)

theorem step_grows {s s' : Stream} (h : s.step env n cv p wr = .inl s') : s.cli.out <+: s'.cli.out ∧ s.cli.log <+: s'.cli.log := by
  unfold Stream.step at h
  split at h
  · split at h
    · cases h
    · next hl => cases h; exact line_grows hl
  · split at h
    · cases h
    · cases h
    · split at h
      · cases h
      · cases h; exact ⟨List.prefix_refl _, List.prefix_refl _⟩

theorem step_last {s : Stream} {r : Cli × CliEnd} (h : s.step env n cv p wr = .inr r) : r.1 = s.cli := by
  unfold Stream.step at h
  split at h
  · split at h
    · cases h; rfl
    · cases h
  · split at h
    · cases h; rfl
    · cases h; rfl
    · split at h
      · cases h; rfl
      · cases h

theorem ends_grows {s : Stream} {r : Cli × CliEnd} (h : s.Ends env n cv p wr r) : s.cli.out <+: r.1.out ∧ s.cli.log <+: r.1.log := by
  induction h with
  | now h => rw [step_last h]; exact ⟨List.prefix_refl _, List.prefix_refl _⟩
  | later h _ ih => have := step_grows h; exact ⟨this.1.trans ih.1, this.2.trans ih.2⟩

theorem reached_ends {i : Input} (hc : ∀ c ∈ i.chunks, c ≠ []) {w : PWorld Heap} {s : Stream} (h : s.Reached env n cv p wr i w) : s.Ends env n cv p wr (processInput env n cv p wr i w) := by
  induction h with
  | start => exact (stream_ends env n cv p wr hc w _).2 rfl
  | step _ hs ih =>
    cases ih with
    | now g => rw [hs] at g; cases g
    | later g h2 => rw [hs] at g; exact Sum.inl.inj g ▸ h2

/-- C90: if the program is killed, what it has written and logged is the beginning of what it would have written and logged. -/
theorem stream_killed (env : JEnv) (n : Nat) (cv : Conv) (p : Pipeline Builtin (Option Err)) (wr : Writer) {i : Input} (hc : ∀ c ∈ i.chunks, c ≠ []) {w : PWorld Heap} {s : Stream}
    (h : s.Reached env n cv p wr i w) : s.cli.out <+: (processInput env n cv p wr i w).1.out ∧ s.cli.log <+: (processInput env n cv p wr i w).1.log := ends_grows (reached_ends hc h)

/-- C90: what it does before it calls `Read` does not depend on what comes later: it has seen the same bytes, in whatever pieces, and so it has written and logged the same. -/
theorem stream_causal (env : JEnv) (n : Nat) (cv : Conv) (p : Pipeline Builtin (Option Err)) (wr : Writer) {i j : Input} (hi : ∀ c ∈ i.chunks, c ≠ []) (hj : ∀ c ∈ j.chunks, c ≠ []) {w : PWorld Heap} {s t : Stream}
    (hs : s.Reached env n cv p wr i w) (ht : t.Reached env n cv p wr j w) (hws : s.Waits) (hwt : t.Waits) (he : s.got = t.got) : s.cli = t.cli := by
  -- the bytes, cut after the last line feed
  obtain ⟨whole, rest, hg, hwh, hr⟩ : ∃ whole rest : Bytes, s.got = whole ++ rest ∧ (whole = [] ∨ whole.getLast? = some 10) ∧ (10 : UInt8) ∉ rest := by
    generalize s.got = d
    induction d using List.reverseRecOn with
    | nil => exact ⟨[], [], rfl, .inl rfl, by simp⟩
    | append_singleton d b ih =>
      obtain ⟨x, y, rfl, hx, hy⟩ := ih
      by_cases hb : b = 10
      · exact ⟨x ++ y ++ [b], [], by simp, .inr (by simp [hb]), by simp⟩
      · exact ⟨x, y ++ [b], by simp, hx, by simp [hy, Ne.symm hb]⟩
  let k : Input := { chunks := if whole = [] then [] else [whole] }
  have hk : k.chunks.flatten = whole := by simp only [k]; split <;> simp [*]
  have hkc : ∀ c ∈ k.chunks, c ≠ [] := by simp only [k]; split <;> simp [*]
  have h1 := ((stream_prompt env n cv p wr hi hs hws).2 whole rest hg hwh hr).2 k hk hkc rfl
  have h2 := ((stream_prompt env n cv p wr hj ht hwt).2 whole rest (he ▸ hg) hwh hr).2 k hk hkc rfl
  rw [h1] at h2
  exact congrArg Prod.fst h2

/-! ## A run -/

/-- What `markPipeline` makes of the line `x`. -/
def xText : Bytes := lit "{\"@metadata\":\"m\",\"event\":{\"original\":\"x\"}}"

theorem x_line : ∃ w, ({ world := markWorld } : Cli).line bitsEnv 5 noConv markPipeline (fun _ => none) (lit "x") = .ok { world := w, number := 1, out := xText ++ [10], writes := 1 } := by
  obtain ⟨w, h⟩ := mark_handled 1 (lit "x")
  refine ⟨w, ?_⟩
  have ht : trimSpace (lit "x") = lit "x" := by decide +kernel
  have hm : marshalEvent bitsEnv 5 (markHeap 1 (lit "x")) (some 2) = .ok xText := by decide +kernel
  simp only [Cli.line, ht, show ¬ lit "x" = [] by decide, if_false, Nat.zero_add, h, Cli.encode, Bool.false_eq_true, hm, List.nil_append]

/-- The scanner when the last line has begun. -/
def lastScanner : Scanner := { data := lit "<", start := 4, cap := 4096, chunks := [lit "y"], fails := false }

theorem lastScanner_room : lastScanner.makeRoom.isSome = true := by decide +kernel

/-- C90: the program has received `x`, a blank line and `<`, and waits: the answer to `x` has been written, the one to the last line not yet. -/
theorem stream_sample : ∃ s : Stream, s.Reached bitsEnv 5 noConv markPipeline (fun _ => none) someInput markWorld ∧ s.Waits ∧ s.got = lit "x\n \n<" ∧ s.cli.out = xText ++ [10] ∧ s.cli.log = [] ∧ s.cli.number = 2 := by
  obtain ⟨w, hx⟩ := x_line
  have hb : ({ world := w, number := 1, out := xText ++ [10], writes := 1 } : Cli).line bitsEnv 5 noConv markPipeline (fun _ => none) (lit " ") = .ok { world := w, number := 2, out := xText ++ [10], writes := 1 } := by
    have ht : trimSpace (lit " ") = [] := by decide +kernel
    simp only [Cli.line, ht, if_true]
  let c1 : Cli := { world := w, number := 1, out := xText ++ [10], writes := 1 }
  let c2 : Cli := { world := w, number := 2, out := xText ++ [10], writes := 1 }
  let s1 : Stream := ⟨{ data := lit "x\n \n<", start := 0, cap := 4096, chunks := [lit "y"], fails := false }, { world := markWorld }, lit "x\n \n<"⟩
  let s2 : Stream := ⟨{ data := lit " \n<", start := 2, cap := 4096, chunks := [lit "y"], fails := false }, c1, lit "x\n \n<"⟩
  let s3 : Stream := ⟨lastScanner, c2, lit "x\n \n<"⟩
  have r1 : s1.Reached bitsEnv 5 noConv markPipeline (fun _ => none) someInput markWorld := .step .start rfl
  have l1 : s1.scanner.look = some (2, lit "x") := by decide +kernel
  have r2 : s2.Reached bitsEnv 5 noConv markPipeline (fun _ => none) someInput markWorld := .step r1 (by simp only [Stream.step, l1]; rw [show s1.cli = { world := markWorld } from rfl, hx]; rfl)
  have l2 : s2.scanner.look = some (2, lit " ") := rfl
  have r3 : s3.Reached bitsEnv 5 noConv markPipeline (fun _ => none) someInput markWorld := .step r2 (by simp only [Stream.step, l2]; rw [show s2.cli = c1 from rfl, hb]; rfl)
  exact ⟨s3, r3, ⟨rfl, rfl, fun h => by have := lastScanner_room; rw [show lastScanner.makeRoom = none from h] at this; cases this⟩, rfl, rfl, rfl, rfl⟩

end Sawmill
