import Verif.Props.Cli
/-!
# C51: reads that deliver nothing

A reader may return no data and no error. `bufio.Scanner` tries again, up to a hundred times in a row.
-/

namespace Sawmill

/-- What the scanner sees of the reads: the empty ones are passed over, and everything from the first run of 101 of them on is never seen (`true`). `k` empty reads have just been made. -/
def settle : Nat → List Bytes → List Bytes × Bool
  | _, [] => ([], false)
  | k, [] :: cs => if k = 100 then ([], true) else settle (k + 1) cs
  | _, (b :: c) :: cs => ((b :: c) :: (settle 0 cs).1, (settle 0 cs).2)

/-- A scanner that gives up says so instead of naming the error of the reader. -/
def giveUp : Bool → Option ScanErr → Option ScanErr
  | true, some .read => some .noProgress
  | _, e => e

theorem settle_cons {k : Nat} {c : Bytes} (h : c ≠ []) (cs : List Bytes) : settle k (c :: cs) = (c :: (settle 0 cs).1, (settle 0 cs).2) := by
  cases c with
  | nil => exact absurd rfl h
  | cons => rfl

theorem readLoop_settle (room : Nat) (f : Bool) : ∀ (cs : List Bytes) (k : Nat), k ≤ 100 →
    let x := readLoop room f k cs
    let y := readLoop room (f || (settle k cs).2) 0 (settle k cs).1
    x.1 = y.1 ∧ ((x.2.2 = none ∧ y.2.2 = none ∧ y.2.1 = (settle 0 x.2.1).1 ∧ (settle k cs).2 = (settle 0 x.2.1).2) ∨ ∃ e, y.2.2 = some e ∧ x.2.2 = some (giveUp (settle k cs).2 e)) := by
  intro cs
  induction cs with
  | nil =>
    intro k hk
    refine ⟨rfl, .inr ⟨if f then some .read else none, ?_, ?_⟩⟩
    · simp [settle, readLoop]
    · simp [settle, readLoop, giveUp]
  | cons c cs ih =>
    intro k hk
    cases c with
    | nil =>
      simp only [readLoop, settle]
      by_cases h : k = 100
      · subst h
        refine ⟨rfl, .inr ⟨some .read, ?_, ?_⟩⟩
        · simp [readLoop]
        · simp [giveUp]
      · rw [if_neg (by omega), if_neg h]
        exact ih (k + 1) (by omega)
    | cons b c =>
      simp only [settle, readLoop]
      by_cases h : (b :: c).length ≤ room
      · simp only [if_pos h]
        exact ⟨trivial, .inl ⟨trivial, trivial, trivial, trivial⟩⟩
      · simp only [if_neg h]
        have hd : (b :: c).drop room ≠ [] := by
          intro he
          have := congrArg List.length he
          rw [List.length_drop] at this
          simp only [List.length_nil] at this
          omega
        refine ⟨trivial, .inl ⟨trivial, trivial, ?_, ?_⟩⟩ <;> rw [settle_cons hd]

/-- The second scanner reads from a reader that delivers what the first one sees. -/
structure Settled (cut : Bool) (s t : Scanner) : Prop where
  data : t.data = s.data
  start : t.start = s.start
  cap : t.cap = s.cap
  state : (s.stopped = none ∧ t.stopped = none ∧ t.chunks = (settle 0 s.chunks).1 ∧ (settle 0 s.chunks).2 = cut ∧ t.fails = (s.fails || cut)) ∨ ∃ e, t.stopped = some e ∧ s.stopped = some (giveUp cut e)

theorem Settled.isSome {cut : Bool} {s t : Scanner} (h : Settled cut s t) : t.stopped.isSome = s.stopped.isSome := by
  rcases h.state with ⟨a, b, _⟩ | ⟨e, a, b⟩ <;> rw [a, b] <;> rfl

theorem makeRoom_settled {cut : Bool} {s t : Scanner} (h : Settled cut s t) : (s.makeRoom = none ∧ t.makeRoom = none) ∨ ∃ s' t', s.makeRoom = some s' ∧ t.makeRoom = some t' ∧ Settled cut s' t' ∧ s'.stopped = s.stopped := by
  obtain ⟨h1, h2, h3, h4⟩ := h
  unfold Scanner.makeRoom
  rw [h1, h2, h3]
  by_cases ha : 0 < s.start ∧ (s.start + s.data.length = s.cap ∨ s.cap / 2 < s.start)
  · simp only [if_pos ha, h1, h3]
    by_cases hb : 0 + s.data.length = s.cap
    · simp only [if_pos hb]
      by_cases hc : maxScanTokenSize ≤ s.cap
      · simp only [if_pos hc]; exact .inl ⟨trivial, trivial⟩
      · simp only [if_neg hc]; exact .inr ⟨_, _, rfl, rfl, ⟨rfl, rfl, rfl, h4⟩, rfl⟩
    · simp only [if_neg hb]; exact .inr ⟨_, _, rfl, rfl, ⟨rfl, rfl, rfl, h4⟩, rfl⟩
  · simp only [if_neg ha, h1, h2, h3]
    by_cases hb : s.start + s.data.length = s.cap
    · simp only [if_pos hb]
      by_cases hc : maxScanTokenSize ≤ s.cap
      · simp only [if_pos hc]; exact .inl ⟨trivial, trivial⟩
      · simp only [if_neg hc]; exact .inr ⟨_, _, rfl, rfl, ⟨rfl, rfl, rfl, h4⟩, rfl⟩
    · simp only [if_neg hb]; exact .inr ⟨_, _, rfl, rfl, ⟨h1, h2, h3, h4⟩, rfl⟩

theorem read_settled {cut : Bool} {s t : Scanner} (h : Settled cut s t) (hs : s.stopped = none) : Settled cut s.read t.read := by
  obtain ⟨h1, h2, h3, h4⟩ := h
  rcases h4 with ⟨_, b, c, d, e⟩ | ⟨e, _, b⟩
  · have := readLoop_settle (s.cap - (s.start + s.data.length)) s.fails s.chunks 0 (by omega)
    unfold Scanner.read
    rw [h1, h2, h3, c, e]
    simp only [d] at this ⊢
    obtain ⟨k1, k2⟩ := this
    refine ⟨by simp only [h1]; rw [k1], rfl, rfl, ?_⟩
    rcases k2 with ⟨l1, l2, l3, l4⟩ | ⟨e, l1, l2⟩
    · exact .inl ⟨l1, l2, l3, l4.symm, rfl⟩
    · exact .inr ⟨e, l1, l2⟩
  · rw [hs] at b; cases b

theorem tokens_settled {cut : Bool} : ∀ (n : Nat) (s t : Scanner), Settled cut s t → Scanner.tokens n s = ((Scanner.tokens n t).1, giveUp cut (Scanner.tokens n t).2) := by
  intro n
  induction n with
  | zero => intro s t _; cases cut <;> rfl
  | succ n ih =>
    intro s t h
    simp only [Scanner.tokens, h.isSome, h.data]
    cases (if s.data ≠ [] ∨ s.stopped.isSome then scanLine s.data s.stopped.isSome else none) with
    | some x =>
      obtain ⟨adv, tok⟩ := x
      simp only
      have := ih { s with data := s.data.drop adv, start := s.start + adv } { t with data := s.data.drop adv, start := t.start + adv } ⟨rfl, by simp only [h.start], h.cap, h.state⟩
      rw [this]
    | none =>
      simp only
      rcases h.state with ⟨a, b, c, d, e⟩ | ⟨e, a, b⟩
      · rw [a, b]
        simp only
        rcases makeRoom_settled h with ⟨m1, m2⟩ | ⟨s', t', m1, m2, m3, m4⟩
        · rw [m1, m2]; cases cut <;> rfl
        · rw [m1, m2]
          exact ih _ _ (read_settled m3 (by rw [m4, a]))
      · rw [a, b]

/-! ## For the program -/

/-- Nowhere are there 101 empty reads in a row. -/
def Patient (cs : List Bytes) : Prop := ∀ pre post, cs ≠ pre ++ List.replicate 101 [] ++ post

/-- The reads that deliver something. -/
def Input.nonEmpty (i : Input) : Input := { i with chunks := i.chunks.filter (fun c => c ≠ []) }

theorem Patient.tail {c : Bytes} {cs : List Bytes} (h : Patient (c :: cs)) : Patient cs := by
  intro pre post he
  exact h (c :: pre) post (by rw [he]; rfl)

theorem Patient.suffix {as cs : List Bytes} (h : Patient (as ++ cs)) : Patient cs := by
  induction as with
  | nil => exact h
  | cons a as ih => exact ih (Patient.tail h)

theorem settle_patient : ∀ (cs : List Bytes) (k : Nat), Patient (List.replicate k [] ++ cs) → settle k cs = (cs.filter (fun c => c ≠ []), false) := by
  intro cs
  induction cs with
  | nil => intro k _; rfl
  | cons c cs ih =>
    intro k h
    cases c with
    | nil =>
      have hk : k ≠ 100 := by
        rintro rfl
        refine h [] cs ?_
        rw [List.nil_append, show (101 : Nat) = 100 + 1 from rfl, List.replicate_succ', List.append_assoc]
        rfl
      simp only [settle, if_neg hk]
      rw [ih (k + 1) (by rw [List.replicate_succ', List.append_assoc]; exact h)]
      simp
    | cons b c =>
      simp only [settle]
      rw [ih 0 (Patient.tail (Patient.suffix h))]
      simp

theorem settle_empties : ∀ (m k : Nat) (post : List Bytes), k ≤ 100 → 101 ≤ k + m → settle k (List.replicate m [] ++ post) = ([], true) := by
  intro m
  induction m with
  | zero => intro k post h1 h2; omega
  | succ m ih =>
    intro k post h1 h2
    rw [List.replicate_succ, List.cons_append]
    simp only [settle]
    split
    · rfl
    · exact ih (k + 1) post (by omega) (by omega)

theorem settle_stuck (post : List Bytes) : ∀ (pre : List Bytes) (k : Nat), k ≤ 100 → Patient (List.replicate k [] ++ pre) → settle k (pre ++ List.replicate 101 [] ++ post) = (pre.filter (fun c => c ≠ []), true) := by
  intro pre
  induction pre with
  | nil => intro k hk _; rw [List.nil_append]; exact settle_empties 101 k post hk (by omega)
  | cons c cs ih =>
    intro k hk h
    cases c with
    | nil =>
      have hk' : k ≠ 100 := by
        rintro rfl
        refine h [] cs ?_
        rw [List.nil_append, show (101 : Nat) = 100 + 1 from rfl, List.replicate_succ', List.append_assoc]
        rfl
      rw [List.cons_append, List.cons_append]
      simp only [settle, if_neg hk']
      rw [ih (k + 1) (by omega) (by rw [List.replicate_succ', List.append_assoc]; exact h)]
      simp
    | cons b c =>
      rw [List.cons_append, List.cons_append]
      simp only [settle]
      rw [ih 0 (by omega) (Patient.tail (Patient.suffix h))]
      simp

theorem flatten_filter (cs : List Bytes) : (cs.filter (fun c => c ≠ [])).flatten = cs.flatten := by
  induction cs with
  | nil => rfl
  | cons c cs ih =>
    cases c with
    | nil => simpa using ih
    | cons => simpa using ih

/-- **C51.** Reads that deliver nothing make no difference to anything, as long as there are never more than a hundred in a row: the run is that of the reader without them. -/
theorem cli_empty_reads (env : JEnv) (n : Nat) (cv : Conv) (p : Pipeline Builtin (Option Err)) (wr : Writer) (w : PWorld Heap) (i : Input) (h : Patient i.chunks) :
    processInput env n cv p wr i w = processInput env n cv p wr i.nonEmpty w := by
  have e := settle_patient i.chunks 0 (by simpa using h)
  have : scanAll i = scanAll i.nonEmpty := by
    unfold scanAll
    rw [tokens_settled (cut := false) _ { chunks := i.chunks, fails := i.fails } { chunks := i.nonEmpty.chunks, fails := i.nonEmpty.fails } ⟨rfl, rfl, rfl, .inl ⟨rfl, rfl, by rw [e]; rfl, by rw [e], by simp [Input.nonEmpty]⟩⟩]
    simp only [Input.nonEmpty, flatten_filter, giveUp]
  simp only [processInput, this]

/-- The run ends because the reader makes no progress, where it would end because the reader fails. -/
def CliEnd.stuck : CliEnd → CliEnd
  | .readFailed .read => .readFailed .noProgress
  | e => e

theorem line_end {env : JEnv} {n : Nat} {cv : Conv} {p : Pipeline Builtin (Option Err)} {wr : Writer} {s : Cli} {t : Bytes} {e : CliEnd} (h : s.line env n cv p wr t = .error e) : e.stuck = e := by
  simp only [Cli.line, Cli.encode] at h
  repeat' split at h
  all_goals first | cases h; rfl | cases h

theorem lines_end {env : JEnv} {n : Nat} {cv : Conv} {p : Pipeline Builtin (Option Err)} {wr : Writer} {s' : Cli} {e : CliEnd} : ∀ (ts : List Bytes) (s : Cli), Cli.lines env n cv p wr s ts = (s', some e) → e.stuck = e
  | [], s, h => by simp [Cli.lines] at h
  | t :: ts, s, h => by
    simp only [Cli.lines] at h
    cases hl : s.line env n cv p wr t with
    | error e0 =>
      rw [hl] at h
      simp only [Prod.mk.injEq, Option.some.injEq] at h
      exact h.2 ▸ line_end hl
    | ok s1 => rw [hl] at h; exact lines_end ts s1 h

/-- **C51.** 101 empty reads in a row end the input: what came before is treated as if the reader had failed there (a partial last line is processed), but the error says that the reader makes no progress. -/
theorem cli_no_progress (env : JEnv) (n : Nat) (cv : Conv) (p : Pipeline Builtin (Option Err)) (wr : Writer) (w : PWorld Heap) {i : Input} {pre post : List Bytes} (hi : i.chunks = pre ++ List.replicate 101 [] ++ post) (h : Patient pre) :
    let j : Input := { chunks := pre.filter (fun c => c ≠ []), fails := true }
    processInput env n cv p wr i w = ((processInput env n cv p wr j w).1, (processInput env n cv p wr j w).2.stuck) := by
  intro j
  have e := settle_stuck post pre 0 (by omega) (by simpa using h)
  have hj : ∀ c ∈ j.chunks, c ≠ [] := by intro c hc; simpa using (List.mem_filter.1 hc).2
  have hlen : j.chunks.flatten.length ≤ i.chunks.flatten.length := by
    simp only [j, flatten_filter, hi, List.flatten_append, List.length_append]; omega
  have key : Scanner.tokens (2 * i.chunks.flatten.length + 2) { chunks := j.chunks, fails := true } = scanAll j := by
    unfold scanAll
    rcases input_cases _ _ (Nat.le_refl j.chunks.flatten.length) with ⟨ls, last, h1, h2, h3, h4⟩ | ⟨ls, rest, h1, h2, h3, h4⟩
    · rw [tokens_all _ _ ls last ⟨by simp, by simp, hj, rfl⟩ (by simpa using h1) h2 h3 h4 (by simp only [List.length_nil]; omega), tokens_all _ _ ls last ⟨by simp, by simp, hj, rfl⟩ (by simpa using h1) h2 h3 h4 (by simp)]
    · rw [tokens_tooLong _ _ ls rest ⟨by simp, by simp, hj, rfl⟩ (by simpa using h1) h2 h3 h4 (by simp only [List.length_nil]; omega), tokens_tooLong _ _ ls rest ⟨by simp, by simp, hj, rfl⟩ (by simpa using h1) h2 h3 h4 (by simp)]
  have : scanAll i = ((scanAll j).1, giveUp true (scanAll j).2) := by
    rw [← key]
    exact tokens_settled (cut := true) _ { chunks := i.chunks, fails := i.fails } { chunks := j.chunks, fails := true } ⟨rfl, rfl, rfl, .inl ⟨rfl, rfl, by rw [hi, e], by rw [hi, e], by simp⟩⟩
  simp only [processInput, this]
  generalize scanAll j = x
  obtain ⟨ts, er⟩ := x
  simp only
  cases hl : Cli.lines env n cv p wr { world := w } ts with
  | mk s o =>
    cases o with
    | some e =>
      simp only
      rw [lines_end _ _ hl]
    | none =>
      simp only
      cases er with
      | none => rfl
      | some e => cases e <;> rfl

/-- A hundred empty reads are still fine. -/
theorem patient_sample : Patient (List.replicate 100 [] ++ [lit "x"]) := by
  intro pre post he
  have h1 := congrArg (List.countP (fun c : Bytes => c.isEmpty)) he
  simp only [List.countP_append, List.countP_replicate] at h1
  have h2 : List.countP (fun c : Bytes => c.isEmpty) [lit "x"] = 0 := by decide
  rw [h2] at h1
  simp only [List.isEmpty_nil, if_true] at h1
  omega

end Sawmill
