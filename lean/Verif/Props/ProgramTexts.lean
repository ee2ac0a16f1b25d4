import Verif.Model.ProgramTexts
import Verif.Spec.ProgramTexts
import Verif.Props.ErrTextsAny
import Verif.Props.ProgSamples
import Verif.Props.Main
/-!
# C89: what callers of the programs read
-/

namespace Sawmill
open Rfc

/-! ## The C library -/

/-- The bytes that a JSON text may begin with. -/
def jsonStarts : List UInt8 := [32, 9, 10, 13, 110, 116, 102, 34, 91, 123, 45, 48, 49, 50, 51, 52, 53, 54, 55, 56, 57]

theorem digit_starts {b : UInt8} (h : 48 ≤ b.toNat ∧ b.toNat ≤ 57) : b ∈ jsonStarts := by
  obtain ⟨h1, h2⟩ := h
  have : b = UInt8.ofNat b.toNat := by simp
  rw [this]
  generalize b.toNat = k at h1 h2
  have : k = 48 ∨ k = 49 ∨ k = 50 ∨ k = 51 ∨ k = 52 ∨ k = 53 ∨ k = 54 ∨ k = 55 ∨ k = 56 ∨ k = 57 := by omega
  rcases this with rfl | rfl | rfl | rfl | rfl | rfl | rfl | rfl | rfl | rfl <;> decide

theorem number_first {t : Bytes} (h : Number t) : ∃ b r, t = b :: r ∧ b ∈ jsonStarts := by
  obtain ⟨sign, int, frac, exp, rfl, hs, hi, _⟩ := h
  rcases hs with rfl | rfl
  · rcases hi with rfl | ⟨⟨hne, hd⟩, _⟩
    · exact ⟨48, _, rfl, by decide⟩
    · cases int with
      | nil => exact absurd rfl hne
      | cons b r => exact ⟨b, _, rfl, digit_starts (hd b (by simp))⟩
  · exact ⟨45, _, rfl, by decide⟩

/-- How a JSON text begins. -/
theorem text_first : ∀ {j : Json} {t : Bytes}, Text j t → ∃ b r, t = b :: r ∧ b ∈ jsonStarts
  | .null, t, h => ⟨110, _, h, by decide⟩
  | .bool true, t, h => ⟨116, _, h, by decide⟩
  | .bool false, t, h => ⟨102, _, h, by decide⟩
  | .num n, t, h => by obtain ⟨rfl, h⟩ := h; exact number_first h
  | .str s, t, h => by obtain ⟨u, e, _⟩ := h; exact ⟨_, _, e, by decide⟩
  | .arr [], t, h => by obtain ⟨u, e, _⟩ := h; exact ⟨_, _, e, by decide⟩
  | .arr (j :: js), t, h => by obtain ⟨_, _, _, _, e, _⟩ := h; exact ⟨_, _, e, by decide⟩
  | .obj [], t, h => by obtain ⟨u, e, _⟩ := h; exact ⟨_, _, e, by decide⟩
  | .obj ((k, j) :: es), t, h => by obtain ⟨_, _, _, _, _, _, _, e, _⟩ := h; exact ⟨_, _, e, by decide⟩

theorem document_first {j : Json} {b : UInt8} {r : Bytes} (h : Document j (b :: r)) : b ∈ jsonStarts := by
  obtain ⟨w, u, w', e, hw, _, ht⟩ := h
  cases w with
  | cons c w =>
    simp only [List.cons_append, List.cons.injEq] at e
    obtain ⟨rfl, _⟩ := e
    rcases hw b (by simp) with rfl | rfl | rfl | rfl <;> decide
  | nil =>
    obtain ⟨c, r', e', h1⟩ := text_first ht
    rw [e'] at e
    simp only [List.nil_append, List.cons_append, List.cons.injEq] at e
    rw [e.1]
    exact h1

/-- What an error of a pipeline begins with. -/
def Worded (t : Bytes) : Prop := ∃ b r, t = b :: r ∧ (b = 101 ∨ b = 107 ∨ b = 118)

theorem putTexts_worded {key t : Bytes} (h : t ∈ Spec.putTexts key) : Worded t := by
  unfold Spec.putTexts at h
  split at h
  · rw [List.mem_singleton.1 h]; exact ⟨101, _, rfl, .inl rfl⟩
  · rw [List.mem_singleton.1 h]; exact ⟨101, _, rfl, .inl rfl⟩

theorem step_worded {s : Spec.Step} {t : Bool × Bytes} (h : t ∈ s.texts) : Worded t.2 := by
  have miss : ∀ f, Worded (Spec.missingText f) := fun f => ⟨107, _, rfl, .inr (.inl rfl)⟩
  have put : ∀ {key : Bytes}, t ∈ (Spec.putTexts key).map (false, ·) → Worded t.2 := by
    intro key hk
    obtain ⟨x, hx, rfl⟩ := List.mem_map.1 hk
    exact putTexts_worded hx
  cases s with
  | lowercase f g =>
    simp only [Spec.Step.texts, List.mem_cons] at h
    rcases h with rfl | rfl | h
    · exact miss f
    · exact ⟨118, _, rfl, .inr (.inr rfl)⟩
    · exact put h
  | uppercase f g =>
    simp only [Spec.Step.texts, List.mem_cons] at h
    rcases h with rfl | rfl | h
    · exact miss f
    · exact ⟨118, _, rfl, .inr (.inr rfl)⟩
    · exact put h
  | append f v => simp only [Spec.Step.texts, List.mem_singleton] at h; subst h; exact ⟨118, _, rfl, .inr (.inr rfl)⟩
  | set x c g =>
    cases x <;> first
      | exact put h
      | skip
    simp only [Spec.Step.texts, List.mem_append] at h
    rcases h with h | h
    · split at h
      · cases h
      · rw [List.mem_singleton.1 h]; exact miss c
    · exact put h
  | remove => cases h
  | communityId => cases h

mutual
theorem proc_worded : ∀ (p : Spec.Proc) {t : Bool × Bytes}, t ∈ p.texts → Worded t.2
  | .mk step ignF ignM onF, t, h => by
    simp only [Spec.Proc.texts] at h
    split at h
    · cases h
    · split at h
      · exact step_worded (List.mem_filter.1 h).1
      · exact procs_worded onF h
theorem procs_worded : ∀ (ps : List Spec.Proc) {t : Bool × Bytes}, t ∈ Spec.textsAll ps → Worded t.2
  | [], t, h => by cases h
  | p :: ps, t, h => by
    simp only [Spec.textsAll, List.mem_append] at h
    rcases h with h | h
    · exact proc_worded p h
    · exact procs_worded ps h
end

theorem pipe_worded {q : Spec.Pipe} {t : Bytes} (h : t ∈ q.texts) : Worded t := by
  obtain ⟨x, hx, rfl⟩ := List.mem_map.1 h
  exact procs_worded _ hx

theorem cBytes_worded {t : Bytes} (h : Worded t) : Worded (cBytes t) := by
  obtain ⟨b, r, rfl, hb⟩ := h
  refine ⟨b, cBytes r, ?_, hb⟩
  rw [cBytes, if_neg]
  rintro rfl
  revert hb; decide

theorem worded_no_document {t : Bytes} (h : Worded t) {j : Json} : ¬ Document j t := by
  obtain ⟨b, r, rfl, hb⟩ := h
  intro hd
  have := document_first hd
  rcases hb with rfl | rfl | rfl <;> revert this <;> decide

/-- The errors of encoding/json begin with `invalid`, `unexpected` or `json:`, and so are no JSON. -/
theorem json_errors_no_document : ∀ t ∈ [lit "invalid character 'x' looking for beginning of value", lit "unexpected end of JSON input", lit "json: unsupported value: NaN"], ¬ ∃ j, Document j (cBytes t) := by
  rintro t ht ⟨j, hd⟩
  simp only [List.mem_cons, List.not_mem_nil, or_false] at ht
  rcases ht with rfl | rfl | rfl <;> exact absurd (document_first hd) (by decide)

theorem cBytes_all {t : Bytes} (h : ∀ b ∈ t, b ≠ 0) : cBytes t = t := by
  induction t with
  | nil => rfl
  | cons b r ih => rw [cBytes, if_neg (h b (by simp)), ih fun x hx => h x (by simp [hx])]

/-- The errors in a session come from pipelines. -/
theorem session_failed {env : JEnv} {n : Nat} {cv : Conv} {fill : ProcKind → JCfg → Except Err Opts} {q : Option Spec.Pipe} {cs : List CCall} {x : List CReply × Option CliEnd} (hs : Session env n cv fill q cs x) {r : Reply}
    (hr : CReply.reply r ∈ x.1) : (∃ err, r = .failed err ∧ ∃ q' : Spec.Pipe, err.text ∈ q'.texts) ∨ r = .badInput ∨ r = .unencodable ∨ ∃ out j, r = .text out ∧ Document j out ∧ (j = .null ∨ ∃ es, j = .obj es) := by
  have one : ∀ {q : Option Spec.Pipe} {t : Bytes} {r : Reply}, Answers env n cv q t (.ok r) →
      (∃ err, r = .failed err ∧ ∃ q' : Spec.Pipe, err.text ∈ q'.texts) ∨ r = .badInput ∨ r = .unencodable ∨ ∃ out j, r = .text out ∧ Document j out ∧ (j = .null ∨ ∃ es, j = .obj es) := by
    intro q t r h
    cases h with
    | bad _ => exact .inr (.inl rfl)
    | nullEmpty _ _ => exact .inr (.inr (.inr ⟨_, .null, rfl, ⟨[], _, [], by simp, by simp [Ws], by simp [Ws], rfl⟩, .inl rfl⟩))
    | failed h hq he => exact .inl ⟨_, rfl, _, by rw [procErrMatches_text he]; exact pipe_texts cv hq⟩
    | text h hq hn he ht hs => exact .inr (.inr (.inr ⟨_, _, rfl, ⟨[], _, [], by simp, by simp [Ws], by simp [Ws], ht⟩, .inr ⟨_, rfl⟩⟩))
    | deep _ _ _ => exact .inr (.inr (.inl rfl))
  generalize hx : x.1 = rs at hr
  induction hs generalizing rs with
  | nil => subst hx; cases hr
  | loadBad _ _ ih => subst hx; rcases List.mem_cons.1 hr with h | h; cases h; exact ih _ rfl h
  | loadNull _ => subst hx; cases hr
  | loadRefused _ _ _ ih => subst hx; rcases List.mem_cons.1 hr with h | h; cases h; exact ih _ rfl h
  | loaded _ _ _ ih => subst hx; rcases List.mem_cons.1 hr with h | h; cases h; exact ih _ rfl h
  | process ha _ ih =>
    subst hx
    rcases List.mem_cons.1 hr with h | h
    · cases h; exact one ha
    · exact ih _ rfl h
  | crash _ => subst hx; cases hr

/-- **C89.** The C caller, who gets a string for the result as well as for an error, can tell: for every sequence of calls, what an answer reads as is JSON exactly if it is the event (then `null` or an object, and all of it); the errors of pipelines are never JSON, even
if a zero byte cuts them short. (The errors of encoding/json must not be JSON either; they are not.) -/
theorem c_caller_tells {env : JEnv} (hl : env.Lawful) (n : Nat) (cv : Conv) {fill : ProcKind → JCfg → Except Err Opts} {r : Registry Opts (Built Builtin (Option Err))}
    (hr : Registered exampleKinds r) (hf : FillOk [] exampleKinds fill) (cs : List CCall) (w : PWorld Heap) {reply : Reply} (hm : CReply.reply reply ∈ (CLib.calls env n cv (registryFactory pr fill none r) ⟨none, w⟩ cs).1)
    {jsonError : Bytes} (hj : ¬ ∃ j, Document j (cBytes jsonError)) :
    ((∃ j, Document j (reply.seen jsonError)) ↔ ∃ out, reply = .text out) ∧
    ∀ out, reply = .text out → reply.seen jsonError = out ∧ ∃ j, Document j out ∧ (j = .null ∨ ∃ es, j = .obj es) := by
  have hs := c_session (pr := pr) hl n cv hr hf cs w
  rcases session_failed hs hm with ⟨err, rfl, q, hq⟩ | rfl | rfl | ⟨out, j, rfl, hd, hk⟩
  · refine ⟨⟨?_, by rintro ⟨_, h⟩; cases h⟩, by intro out h; cases h⟩
    rintro ⟨j, hd⟩
    simp only [Reply.seen, goString_eq, Reply.string] at hd
    exact absurd hd (worded_no_document (cBytes_worded (pipe_worded hq)))
  · refine ⟨⟨?_, by rintro ⟨_, h⟩; cases h⟩, by intro out h; cases h⟩
    rintro ⟨j, hd⟩
    simp only [Reply.seen, goString_eq, Reply.string] at hd
    exact absurd ⟨j, hd⟩ hj
  · refine ⟨⟨?_, by rintro ⟨_, h⟩; cases h⟩, by intro out h; cases h⟩
    rintro ⟨j, hd⟩
    simp only [Reply.seen, goString_eq, Reply.string] at hd
    exact absurd ⟨j, hd⟩ hj
  · have ha : (Reply.text out).seen jsonError = out := by
      simp only [Reply.seen, goString_eq, Reply.string]
      refine cBytes_all fun b hb => ?_
      have := answer_c_string hl n cv _ cs _ hm b hb
      rintro rfl
      simp at this
    refine ⟨⟨fun _ => ⟨_, rfl⟩, fun _ => ⟨j, by rw [ha]; exact hd⟩⟩, ?_⟩
    rintro out' h
    cases h
    exact ⟨ha, j, hd, hk⟩

/-! ## The WebAssembly demo -/

/-- **C89.** Whoever reads the string that the WebAssembly demo returns knows what went wrong: the number of arguments, the text of the configuration, the configuration, the text of the event, or the processing; and what comes after the prefix is the text of the error. -/
theorem wasm_tells {r1 r2 : WasmReply} {j1 j2 : Bytes} (h1 : r1.string j1 ≠ none) (h : r1.string j1 = r2.string j2) :
    (r1 = .usage ∧ r2 = .usage) ∨ (r1 = .badConfig ∧ r2 = .badConfig ∧ j1 = j2) ∨ (∃ e1 e2, r1 = .refused e1 ∧ r2 = .refused e2 ∧ e1.text Err.text = e2.text Err.text) ∨
    (r1 = .badEvent ∧ r2 = .badEvent ∧ j1 = j2) ∨ ∃ e1 e2, r1 = .failed e1 ∧ r2 = .failed e2 ∧ e1.text = e2.text := by
  cases r1 <;> cases r2 <;> simp [WasmReply.string, lit] at h h1 ⊢ <;> assumption

/-! ## The command line program -/

/-- What an entry of the log is about. -/
def CliLog.complaint (encodeError : Nat → Bytes) : CliLog → Complaint
  | .process number err => ⟨number, true, err.text⟩
  | .encode number => ⟨number, false, encodeError number⟩

theorem no_newline_itoa (n : Nat) : (10 : UInt8) ∉ itoa n := by
  intro h
  have := itoa_digits n 10 h
  revert this; decide

theorem complaint_line_clean {c : Complaint} (h : (10 : UInt8) ∉ c.text) : (10 : UInt8) ∉ c.line := by
  have hn := no_newline_itoa c.number
  have l1 : (10 : UInt8) ∉ lit "Error processing line " := by decide
  have l2 : (10 : UInt8) ∉ lit ": " := by decide
  have l3 : (10 : UInt8) ∉ lit "Unexpected error marshaling event from line " := by decide
  have l4 : (10 : UInt8) ∉ lit " to JSON: " := by decide
  unfold Complaint.line
  split <;> simp only [List.mem_append, not_or]
  · exact ⟨⟨⟨l1, hn⟩, l2⟩, h⟩
  · exact ⟨⟨⟨l3, hn⟩, l4⟩, h⟩

theorem digits_split {a b : Bytes} (ha : ∀ x ∈ a, isDigit x = true) (hb : ∀ x ∈ b, isDigit x = true) {c d : UInt8} {s t : Bytes} (hc : isDigit c = false) (hd : isDigit d = false) (h : a ++ c :: s = b ++ d :: t) : a = b ∧ c :: s = d :: t := by
  induction a generalizing b with
  | nil =>
    cases b with
    | nil => exact ⟨rfl, h⟩
    | cons y b =>
      simp only [List.nil_append, List.cons_append, List.cons.injEq] at h
      rw [h.1, hb y (by simp)] at hc
      cases hc
  | cons x a ih =>
    cases b with
    | nil =>
      simp only [List.nil_append, List.cons_append, List.cons.injEq] at h
      rw [← h.1, ha x (by simp)] at hd
      cases hd
    | cons y b =>
      simp only [List.cons_append, List.cons.injEq] at h
      obtain ⟨e, h⟩ := h
      obtain ⟨e1, e2⟩ := ih (fun z hz => ha z (by simp [hz])) (fun z hz => hb z (by simp [hz])) h
      exact ⟨by rw [e, e1], e2⟩

/-- C89: a line of the log says which line of the input it is about, whether processing it or writing the result failed, and why. -/
theorem complaint_line_inj {c d : Complaint} (h : c.line = d.line) : c = d := by
  obtain ⟨m, p, s⟩ := c
  obtain ⟨n, q, t⟩ := d
  have key : ∀ {u : Bytes} {x : UInt8} {r : Bytes}, isDigit x = false → ∀ {s t : Bytes}, u ++ itoa m ++ x :: r ++ s = u ++ itoa n ++ x :: r ++ t → m = n ∧ s = t := by
    intro u x r hx s t h
    simp only [List.append_assoc, List.append_cancel_left_eq, List.cons_append] at h
    obtain ⟨e1, e2⟩ := digits_split (itoa_digits m) (itoa_digits n) hx hx h
    simp only [List.cons.injEq, true_and, List.append_cancel_left_eq] at e2
    exact ⟨itoa_inj e1, e2⟩
  cases p <;> cases q
  · simp only [Complaint.line, Bool.false_eq_true, if_false] at h
    obtain ⟨rfl, rfl⟩ := key (x := 32) (r := lit "to JSON: ") (by decide) h
    rfl
  · simp [Complaint.line, lit] at h
  · simp [Complaint.line, lit] at h
  · simp only [Complaint.line, if_true] at h
    obtain ⟨rfl, rfl⟩ := key (x := 58) (r := lit " ") (by decide) h
    rfl

theorem printed_line {je : Nat → Bytes} {l : CliLog} (h : (10 : UInt8) ∉ (l.complaint je).text) : l.printed je = (l.complaint je).line ++ [10] := by
  have hc := complaint_line_clean h
  have : l.printed je = logOutput (l.complaint je).line := by cases l <;> simp [CliLog.printed, CliLog.complaint, Complaint.line]
  rw [this, logOutput, if_neg]
  intro hx
  exact hc (List.mem_of_getLast? hx)

theorem printed_lines {je : Nat → Bytes} : ∀ {log : List CliLog}, (∀ l ∈ log, (10 : UInt8) ∉ (l.complaint je).text) → log.flatMap (·.printed je) = joinLines (log.map fun l => (l.complaint je).line) []
  | [], _ => rfl
  | l :: log, h => by
    simp only [List.flatMap_cons, List.map_cons, joinLines, List.append_nil]
    rw [printed_line (h l (by simp)), printed_lines fun x hx => h x (by simp [hx])]
    simp [joinLines]

/-- **C89.** The log reads back: if no text has a line feed in it, the number of lines, what each of them is about and why it was printed can be recovered from what was printed. -/
theorem log_reads_back {je je' : Nat → Bytes} {log log' : List CliLog} (h : ∀ l ∈ log, (10 : UInt8) ∉ (l.complaint je).text) (h' : ∀ l ∈ log', (10 : UInt8) ∉ (l.complaint je').text)
    (he : log.flatMap (·.printed je) = log'.flatMap (·.printed je')) : log.map (·.complaint je) = log'.map (·.complaint je') := by
  rw [printed_lines h, printed_lines h'] at he
  have clean : ∀ {je : Nat → Bytes} {log : List CliLog}, (∀ l ∈ log, (10 : UInt8) ∉ (l.complaint je).text) → ∀ x ∈ log.map (fun l => (l.complaint je).line), (10 : UInt8) ∉ x := by
    intro je log h x hx
    obtain ⟨l, hl, rfl⟩ := List.mem_map.1 hx
    exact complaint_line_clean (h l hl)
  have := joinLines_injective (clean h) (clean h') he
  have hm : ∀ {je : Nat → Bytes} (log : List CliLog), log.map (fun l => (l.complaint je).line) = (log.map (·.complaint je)).map Complaint.line := by intro je log; simp
  rw [hm, hm] at this
  generalize log.map (·.complaint je) = xs at this
  generalize log'.map (·.complaint je') = ys at this
  clear he h h'
  induction xs generalizing ys with
  | nil => cases ys with
    | nil => rfl
    | cons y ys => cases this
  | cons x xs ih => cases ys with
    | nil => cases this
    | cons y ys =>
      simp only [List.map_cons, List.cons.injEq] at this
      rw [complaint_line_inj this.1, ih ys this.2]

theorem handleLine_says {cv : Conv} {p : Pipeline Builtin (Option Err)} {q : Spec.Pipe} {w : PWorld Heap} (hq : PipeIs w.world p q) {i : Nat} {l : Bytes} {w' : PWorld Heap} {r : Handled} {err : Err}
    (h : handleLine cv p w i l = .ok (w', r)) (he : r.err = some err) : err.text ∈ q.texts := by
  simp only [handleLine] at h
  split at h
  · cases h
  · next we hwe =>
    split at h
    · cases h
    · next x ret e hp =>
      simp only [Res.ok.injEq, Prod.mk.injEq] at h
      obtain ⟨_, rfl⟩ := h
      simp only at he
      subst he
      have hk : Keeps (fun c => c.type ≠ .array) w.world we.1 := keeps_lineEvent (e := we.2) (by exact hwe)
      exact process_says_any cv (w := ⟨we, w.counts, w.log⟩) ⟨procsAre_mono (scalars_of_keeps hk) _ _ hq.1, procsAre_mono (scalars_of_keeps hk) _ _ hq.2⟩ hp

theorem solo_failed {env : JEnv} {n : Nat} {cv : Conv} {p : Pipeline Builtin (Option Err)} {q : Spec.Pipe} {w : PWorld Heap} (hq : PipeIs w.world p q) {i : Nat} {l : Bytes} {err : Err}
    (h : soloOutcome env n cv p w i l = .failed err) : err.text ∈ q.texts := by
  simp only [soloOutcome] at h
  split at h
  · cases h
  · split at h
    · cases h
    · next w' r hh =>
      split at h
      · next e he => cases h; exact handleLine_says hq hh he
      · split at h <;> cases h

/-- What goes wrong with a line. -/
def LineOutcome.complaints (encodeError : Nat → Bytes) (number : Nat) : LineOutcome → List Complaint
  | .failed err => [⟨number, true, err.text⟩]
  | .unencodable => [⟨number, false, encodeError number⟩]
  | _ => []

theorem logged_complaints (je : Nat → Bytes) (o : Nat × LineOutcome) : (o.2.logged o.1).map (·.complaint je) = o.2.complaints je o.1 := by
  obtain ⟨i, o⟩ := o
  cases o <;> rfl

/-- **C89.** What the program prints to standard error, for every input: one line for each line of the input that failed, in their order, with its number and what was wrong; and nothing else, or at last the error of the reader. No input can make it look otherwise:
the texts come from the configuration, which must have no line feed in the names that the texts show. (As in C51; `Encode`'s errors have no line feed either.) -/
theorem cli_stderr (env : JEnv) (n : Nat) (cv : Conv) {p : Pipeline Builtin (Option Err)} {q : Spec.Pipe} {w : PWorld Heap} (hq : PipeIs w.world p q) (ht : ∀ t ∈ q.texts, (10 : UInt8) ∉ t)
    {i : Input} (hc : ∀ c ∈ i.chunks, c ≠ []) {ls : List Bytes} {last : Bytes} (h : i.chunks.flatten = joinLines ls last) (hls : ∀ x ∈ ls, (10 : UInt8) ∉ x ∧ x.length < 65536)
    (hlast : (10 : UInt8) ∉ last ∧ last.length < 65536) {je : Nat → Bytes} (hj : ∀ k, (10 : UInt8) ∉ je k) (re : Bytes) :
    let os := soloOutcomes env n cv p w 1 (linesOf ls last)
    let lines := ((beforeCrash os).flatMap fun o => o.2.complaints je o.1).map Complaint.line
    (∀ l ∈ lines, (10 : UInt8) ∉ l) ∧
    stderrText je re (processInput env n cv p (fun _ => none) i w) =
      joinLines lines [] ++ (if firstCrash os = none ∧ i.fails then logOutput (lit "Error:failed reading from input: " ++ re) else []) := by
  intro os lines
  obtain ⟨_, h2, h3⟩ := cli_spec env n cv p w (pipeIs_calls hq) hc h hls hlast
  have clean : ∀ l ∈ (beforeCrash os).flatMap (fun o => o.2.logged o.1), (10 : UInt8) ∉ (l.complaint je).text := by
    intro l hl
    obtain ⟨o, ho, hlo⟩ := List.mem_flatMap.1 hl
    obtain ⟨x, _, hx⟩ := soloOutcomes_mem ((List.takeWhile_sublist _).mem ho)
    cases hoo : o.2 with
    | failed err =>
      rw [hoo] at hlo hx
      rw [List.mem_singleton.1 hlo]
      exact ht _ (solo_failed hq hx.symm)
    | unencodable =>
      rw [hoo] at hlo
      rw [List.mem_singleton.1 hlo]
      exact hj _
    | _ => rw [hoo] at hlo; cases hlo
  have hlines : lines = ((beforeCrash os).flatMap fun o => o.2.logged o.1).map fun l => (l.complaint je).line := by
    have : (beforeCrash os).flatMap (fun o => o.2.complaints je o.1) = ((beforeCrash os).flatMap fun o => o.2.logged o.1).map (·.complaint je) := by
      rw [List.map_flatMap]
      exact congrArg (fun f => (beforeCrash os).flatMap f) (funext fun o => (logged_complaints je o).symm)
    simp only [lines, this, List.map_map]
    rfl
  refine ⟨?_, ?_⟩
  · rw [hlines]
    intro l hl
    obtain ⟨x, hx, rfl⟩ := List.mem_map.1 hl
    exact complaint_line_clean (clean x hx)
  · simp only [stderrText]
    rw [h2, h3, printed_lines clean, ← hlines]
    congr 1
    have hcr : ∀ e, firstCrash os = some e → e = .panic ∨ e = .overflow := by
      intro e he
      obtain ⟨o, _, ho⟩ := List.exists_of_findSome?_eq_some he
      cases hoo : o.2 <;> rw [hoo] at ho <;> simp [LineOutcome.crash] at ho
      · exact .inl ho.symm
      · exact .inr ho.symm
    cases hf : firstCrash os with
    | some e => rcases hcr e hf with rfl | rfl <;> simp
    | none => cases i.fails <;> simp [ScanErr.text, lit]

/-- With a line feed in the name of a field, one failing line can look like two. -/
theorem log_forged :
    (CliLog.process 1 (.keyMissing (lit "a> is missing from event\nError processing line 2: key <b"))).printed (fun _ => []) =
    (CliLog.process 1 (.keyMissing (lit "a"))).printed (fun _ => []) ++ (CliLog.process 2 (.keyMissing (lit "b"))).printed (fun _ => []) := by
  decide +kernel

/-! ## Samples -/

/-- What the caller reads, for each `Process` of a session. -/
def replySeen (jsonError : Bytes) : CReply → Option Bytes
  | .reply r => some (r.seen jsonError)
  | .code _ => none

/-- The hypotheses of `c_caller_tells` are those of `c_session` (`c_sample_registered`, `sampleFill_example`). A result, an error of the pipeline, and one of encoding/json. -/
theorem c_caller_sample : ((CLib.calls bitsEnv 10000 asciiConv cFactory ⟨none, ⟨[], noCounts, []⟩⟩ [.load cText, .process [123, 34, 97, 34, 58, 34, 88, 34, 125], .process [123, 125], .process [123]]).1.map (replySeen (lit "unexpected end of JSON input")) =
    [none, some (lit "{\"a\":\"x\"}"), some (lit "key <a> is missing from event"), some (lit "unexpected end of JSON input")]) := by
  decide +kernel

theorem wasm_text_sample : ∃ w, wasmProcess bitsEnv 10000 asciiConv cFactory ⟨[], noCounts, []⟩ [[123], [123]] = .ok (w, .badConfig) ∧
    WasmReply.badConfig.string (lit "unexpected end of JSON input") = some (lit "failed to unmarshal pipeline: unexpected end of JSON input") := ⟨_, rfl, rfl⟩

theorem main_says (i : Nat) (l : Bytes) (hl : ¬ Blank l) : soloOutcome bitsEnv 5 noConv mainPipeline markWorld i l = .failed (.keyMissing (lit "a")) := by
  have ht : trimSpace l ≠ [] := fun h => hl ((trimSpace_blank_iff l).1 h)
  have h : ∃ w r, mainPipeline.process (builtinCall noConv) () ⟨(lineHeap (strCell (lit "m")) i (trimSpace l), some 2), noCounts, []⟩ = .ok (w, r, some (.keyMissing (lit "a"))) := ⟨_, _, rfl⟩
  obtain ⟨w, r, h⟩ := h
  have : ∃ w r, handleLine noConv mainPipeline markWorld i (trimSpace l) = .ok (w, r) ∧ r.err = some (.keyMissing (lit "a")) := by
    simp only [handleLine, markWorld, startWorld, lineEvent_start, h]
    exact ⟨_, _, rfl, rfl⟩
  obtain ⟨w', r', h1, h2⟩ := this
  simp only [soloOutcome, if_neg ht, h1, h2]

theorem mainPipeline_is : PipeIs markWorld.world mainPipeline ⟨[.mk (.lowercase (lit "a") []) false false []], []⟩ := ⟨⟨_, _, rfl, ⟨_, _, _, rfl, rfl, rfl, rfl⟩, rfl⟩, rfl⟩

/-- Three lines, one of them blank: the others fail. -/
theorem stderr_sample : stderrText (fun _ => []) [] (processInput bitsEnv 5 noConv mainPipeline (fun _ => none) someInput markWorld) =
    lit "Error processing line 1: key <a> is missing from event\n" ++ lit "Error processing line 3: key <a> is missing from event\n" := by
  obtain ⟨hj, hi, hls, hlast⟩ := someInput_ok
  have ht : ∀ t ∈ Spec.Pipe.texts ⟨[.mk (.lowercase (lit "a") []) false false []], []⟩, (10 : UInt8) ∉ t := by decide +kernel
  have h := (cli_stderr bitsEnv 5 noConv mainPipeline_is ht hi hj hls hlast (je := fun _ => []) (by simp) []).2
  have h1 := main_says 1 (lit "x") (fun h => by have := (trimSpace_blank_iff _).2 h; revert this; decide)
  have h3 := main_says 3 (lit "<y") (fun h => by have := (trimSpace_blank_iff _).2 h; revert this; decide)
  have h2 : soloOutcome bitsEnv 5 noConv mainPipeline markWorld 2 (lit " ") = .blank := by
    have : trimSpace (lit " ") = [] := by decide
    simp [soloOutcome, this]
  have hos : soloOutcomes bitsEnv 5 noConv mainPipeline markWorld 1 (linesOf [lit "x", lit " "] (lit "<y")) = [(1, .failed (.keyMissing (lit "a"))), (2, .blank), (3, .failed (.keyMissing (lit "a")))] := by
    show [(1, _), (2, _), (3, _)] = _
    rw [h1, h2, h3]
  rw [hos] at h
  rw [h]
  decide +kernel

end Sawmill
