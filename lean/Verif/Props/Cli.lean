import Verif.Lemmas.CliRun
import Verif.Props.Json
import Verif.Lemmas.Convert
/-!
# The command line program (C51, C57)
-/

namespace Sawmill
open Rfc ATree

/-! ## The event of a line -/

/-- C51: the event that a line is turned into: its number and its text, in new memory; nothing that existed before is changed, and nothing panics. -/
theorem lineEvent_spec (h : Heap) (i : Nat) (l : Bytes) :
    ∃ (h' : Heap) (f : AFields), lineEvent h i l = .ok (h', f.event) ∧ Owns h' f ∧
      f.erase = some [(lit "@metadata", .obj [(lit "line_number", .scalar (.uint (BitVec.ofNat 64 i)))]), (lit "event", .obj [(lit "original", .scalar (.str l))])] ∧
      (∀ a ∈ f.fp, h.length ≤ a) ∧ Frame [] h h' := by
  have k1 : keyToPath (lit "@metadata.line_number") = [lit "@metadata", lit "line_number"] := by decide +kernel
  have k2 : keyToPath (lit "event.original") = [lit "event", lit "original"] := by decide +kernel
  have p1 := put_spec (h := h ++ [.cell (uintCell (BitVec.ofNat 64 i))]) (f := none) (t := .leaf h.length (.uint (BitVec.ofNat 64 i))) trivial (by simp [Rep, scalarCell]) (by simp [fp]) (by simp [AFields.fp])
    [lit "@metadata", lit "line_number"] true
  have r1 : Spec.putFields (AFields.erase none) [lit "@metadata", lit "line_number"] (ATree.erase (.leaf h.length (.uint (BitVec.ofNat 64 i)))) true =
      .ok (some [(lit "@metadata", .obj [(lit "line_number", .scalar (.uint (BitVec.ofNat 64 i)))])], .nilp, none) := rfl
  rw [r1] at p1
  obtain ⟨h1, f1, old1, err1, e1, o1, c1, _, _, _, fr1, n1, _⟩ := p1
  have o2 := o1.frame (frame_alloc h1 [.cell (strCell l)]) (by simp)
  have hfr : Frame [] h h1 := (frame_alloc h _).trans fr1 (by simp [AFields.fp])
  have hl1 : h.length ≤ h1.length := hfr.len
  have p2 := put_spec (h := h1 ++ [.cell (strCell l)]) (f := f1) (t := .leaf h1.length (.str l)) o2 (by simp [Rep, scalarCell]) (by simp [fp])
    (by simp [fp]) [lit "event", lit "original"] true
  rw [c1] at p2
  have r2 : Spec.putFields (some [(lit "@metadata", Val.obj [(lit "line_number", .scalar (.uint (BitVec.ofNat 64 i)))])]) [lit "event", lit "original"] (ATree.erase (.leaf h1.length (.str l))) true =
      .ok (some [(lit "@metadata", .obj [(lit "line_number", .scalar (.uint (BitVec.ofNat 64 i)))]), (lit "event", .obj [(lit "original", .scalar (.str l))])], .nilp, none) := rfl
  rw [r2] at p2
  obtain ⟨h2, f2, old2, err2, e2, o3, c2, _, _, _, fr2, n2, _⟩ := p2
  have f1new : ∀ a ∈ f1.fp, h.length ≤ a := by
    intro a ha
    rcases n1 a ha with hx | hx | hx
    · simp [AFields.fp] at hx
    · simp [fp] at hx
    · simp at hx; omega
  refine ⟨h2, f2, ?_, o3, c2, ?_, ?_⟩
  · simp only [lineEvent, Heap.alloc, apiPut, k1, k2, newEvent]
    simp only [AFields.event, ATree.ptr] at e1
    rw [e1]
    simp only [ATree.ptr] at e2
    show (match put (h1 ++ [.cell (strCell l)]) f1.event [lit "event", lit "original"] (some h1.length) true with
      | .panic => Res.panic
      | .ok (h, e, _, _) => Res.ok (h, e)) = _
    rw [e2]
  · intro a ha
    rcases n2 a ha with hx | hx | hx
    · exact f1new a hx
    · simp [fp] at hx
    · simp at hx; omega
  · exact (hfr.trans0 (frame_alloc h1 _)).trans fr2 fun a ha => .inr (f1new a ha)

/-! ## Lines -/

/-- C51: blank lines, and only those, are skipped. -/
theorem blank_line (env : JEnv) (n : Nat) (cv : Conv) (p : Pipeline Builtin (Option Err)) (w : PWorld Heap) (i : Nat) (l : Bytes) :
    soloOutcome env n cv p w i l = .blank ↔ Blank l := by
  rw [← trimSpace_blank_iff]
  simp only [soloOutcome]
  split
  · next h => simp [h]
  · next h =>
    refine ⟨fun hx => ?_, fun hx => absurd hx h⟩
    revert hx
    split
    · simp
    · split
      · simp
      · split <;> simp

theorem soloOutcomes_dropCR (env : JEnv) (n : Nat) (cv : Conv) (p : Pipeline Builtin (Option Err)) (w : PWorld Heap) : ∀ (ls : List Bytes) (i : Nat),
    soloOutcomes env n cv p w i (ls.map dropCR) = soloOutcomes env n cv p w i ls
  | [], _ => rfl
  | l :: ls, i => by simp only [List.map_cons, soloOutcomes, soloOutcome_dropCR, soloOutcomes_dropCR env n cv p w ls]

theorem processInput_emit (env : JEnv) (n : Nat) (cv : Conv) (p : Pipeline Builtin (Option Err)) (wr : Writer) (w : PWorld Heap) (hp : p.Calls (Builtin.LeafConfig w.world)) {i : Input} {ts : List Bytes} {err : Option ScanErr}
    (hs : scanAll i = (ts.map dropCR, err)) :
    (processInput env n cv p wr i w).1.out = (emit wr 0 false (soloOutcomes env n cv p w 1 ts)).1 ∧
    (processInput env n cv p wr i w).1.log = (emit wr 0 false (soloOutcomes env n cv p w 1 ts)).2.1 ∧
    (processInput env n cv p wr i w).2 = (emit wr 0 false (soloOutcomes env n cv p w 1 ts)).2.2.getD ((err.map .readFailed).getD .done) := by
  obtain ⟨s, e1, e2, e3⟩ := cli_lines_emit env n cv p wr w hp (ts.map dropCR) { world := w } (Keeps.refl _)
  rw [soloOutcomes_dropCR] at e1 e2 e3
  simp only [processInput, hs]
  rw [e1]
  simp only [List.nil_append, Nat.zero_add] at e2 e3 ⊢
  rw [← e2, ← e3]
  cases (emit wr 0 false (soloOutcomes env n cv p w 1 ts)).2.2 <;> cases err <;> exact ⟨rfl, rfl, rfl⟩

/-- The lines of a text: what is between the line feeds, and what is left after the last one if that is not empty. -/
def linesOf (ls : List Bytes) (last : Bytes) : List Bytes := ls ++ if last = [] then [] else [last]

/-- **C51.** The program treats every line as if it were the only one: the output consists of the texts of the events, each followed by a line feed, in the order of the lines; the log has the lines that failed; the program ends normally, with the error of the
reader (after all lines, a partial last one included), or with the first crash. However the input is divided into reads. (All lines shorter than 65536 bytes; the configured values are leaves, see C15.) -/
theorem cli_spec (env : JEnv) (n : Nat) (cv : Conv) (p : Pipeline Builtin (Option Err)) (w : PWorld Heap) (hp : p.Calls (Builtin.LeafConfig w.world)) {i : Input} (hc : ∀ c ∈ i.chunks, c ≠ [])
    {ls : List Bytes} {last : Bytes} (h : i.chunks.flatten = joinLines ls last) (hls : ∀ x ∈ ls, (10 : UInt8) ∉ x ∧ x.length < 65536) (hlast : (10 : UInt8) ∉ last ∧ last.length < 65536) :
    let os := soloOutcomes env n cv p w 1 (linesOf ls last)
    (processInput env n cv p (fun _ => none) i w).1.out = (beforeCrash os).flatMap (fun o => o.2.output) ∧
    (processInput env n cv p (fun _ => none) i w).1.log = (beforeCrash os).flatMap (fun o => o.2.logged o.1) ∧
    (processInput env n cv p (fun _ => none) i w).2 = (firstCrash os).getD (if i.fails then .readFailed .read else .done) := by
  intro os
  have hs := scanAll_lines hc h hls hlast.1 hlast.2
  obtain ⟨e1, e2, e3⟩ := processInput_emit env n cv p (fun _ => none) w hp (ts := linesOf ls last) hs
  rw [e1, e2, e3, emit_reliable]
  refine ⟨rfl, rfl, ?_⟩
  cases i.fails <;> rfl

/-- C51, a line that is too long: if 65536 or more bytes come without a line feed, the lines before them are treated as usual, and the rest of the input is lost. -/
theorem cli_too_long (env : JEnv) (n : Nat) (cv : Conv) (p : Pipeline Builtin (Option Err)) (w : PWorld Heap) (hp : p.Calls (Builtin.LeafConfig w.world)) {i : Input} (hc : ∀ c ∈ i.chunks, c ≠ [])
    {ls : List Bytes} {rest : Bytes} (h : i.chunks.flatten = joinLines ls rest) (hls : ∀ x ∈ ls, (10 : UInt8) ∉ x ∧ x.length < 65536) (hlen : 65536 ≤ rest.length) (hrest : (10 : UInt8) ∉ rest.take 65536) :
    let os := soloOutcomes env n cv p w 1 ls
    (processInput env n cv p (fun _ => none) i w).1.out = (beforeCrash os).flatMap (fun o => o.2.output) ∧
    (processInput env n cv p (fun _ => none) i w).1.log = (beforeCrash os).flatMap (fun o => o.2.logged o.1) ∧
    (processInput env n cv p (fun _ => none) i w).2 = (firstCrash os).getD (.readFailed .tooLong) := by
  intro os
  obtain ⟨e1, e2, e3⟩ := processInput_emit env n cv p (fun _ => none) w hp (scanAll_tooLong hc h hls hlen hrest)
  rw [e1, e2, e3, emit_reliable]
  exact ⟨rfl, rfl, rfl⟩

/-- Every input is of one of the two kinds. -/
theorem input_cases : ∀ (k : Nat) (d : Bytes), d.length ≤ k → (∃ ls last, d = joinLines ls last ∧ (∀ x ∈ ls, (10 : UInt8) ∉ x ∧ x.length < 65536) ∧ (10 : UInt8) ∉ last ∧ last.length < 65536) ∨
    ∃ ls rest, d = joinLines ls rest ∧ (∀ x ∈ ls, (10 : UInt8) ∉ x ∧ x.length < 65536) ∧ 65536 ≤ rest.length ∧ (10 : UInt8) ∉ rest.take 65536 := by
  intro k
  induction k with
  | zero =>
    intro d hd
    have : d = [] := List.length_eq_zero_iff.1 (by omega)
    subst this
    exact .inl ⟨[], [], rfl, by simp, by simp, by decide⟩
  | succ k ih =>
    intro d hd
    rcases has_line d with ⟨l, r, rfl, hl⟩ | hn
    · by_cases hlen : l.length < 65536
      · have hr : r.length ≤ k := by simp at hd; omega
        rcases ih r hr with ⟨ls, last, rfl, h1, h2⟩ | ⟨ls, rest, rfl, h1, h2⟩
        · refine .inl ⟨l :: ls, last, by simp [joinLines], ?_, h2⟩
          intro x hx
          rcases List.mem_cons.1 hx with rfl | hx
          · exact ⟨hl, hlen⟩
          · exact h1 x hx
        · refine .inr ⟨l :: ls, rest, by simp [joinLines], ?_, h2⟩
          intro x hx
          rcases List.mem_cons.1 hx with rfl | hx
          · exact ⟨hl, hlen⟩
          · exact h1 x hx
      · refine .inr ⟨[], l ++ 10 :: r, rfl, by simp, by simp; omega, ?_⟩
        rw [List.take_append_of_le_length (by omega)]
        exact fun hm => hl (List.mem_of_mem_take hm)
    · by_cases hlen : d.length < 65536
      · exact .inl ⟨[], d, rfl, by simp, hn, hlen⟩
      · exact .inr ⟨[], d, rfl, by simp, by omega, fun hm => hn (List.mem_of_mem_take hm)⟩

/-- C51: how the input is divided into reads makes no difference, to anything; for every input, pipeline and writer. -/
theorem cli_chunking (env : JEnv) (n : Nat) (cv : Conv) (p : Pipeline Builtin (Option Err)) (wr : Writer) (w : PWorld Heap) {i j : Input} (hi : ∀ c ∈ i.chunks, c ≠ []) (hj : ∀ c ∈ j.chunks, c ≠ [])
    (h : i.chunks.flatten = j.chunks.flatten) (hf : i.fails = j.fails) : processInput env n cv p wr i w = processInput env n cv p wr j w := by
  have : scanAll i = scanAll j := by
    rcases input_cases _ _ (Nat.le_refl i.chunks.flatten.length) with ⟨ls, last, h1, h2, h3, h4⟩ | ⟨ls, rest, h1, h2, h3, h4⟩
    · rw [scanAll_lines hi h1 h2 h3 h4, scanAll_lines hj (h ▸ h1) h2 h3 h4, hf]
    · rw [scanAll_tooLong hi h1 h2 h3 h4, scanAll_tooLong hj (h ▸ h1) h2 h3 h4]
  simp only [processInput, this]

/-! ## Output -/

/-- The text of a line that is written has no line feed in it. -/
theorem solo_text_one_line {env : JEnv} (hl : env.Lawful) {n : Nat} {cv : Conv} {p : Pipeline Builtin (Option Err)} {w : PWorld Heap} {i : Nat} {l bs : Bytes}
    (h : soloOutcome env n cv p w i l = .text bs) : Tidy bs ∧ (10 : UInt8) ∉ bs := by
  simp only [soloOutcome] at h
  revert h
  split
  · simp
  · split
    · simp
    · split
      · simp
      · split
        · next hm =>
          intro h
          simp only [LineOutcome.text.injEq] at h
          subst h
          exact ⟨marshalEvent_tidy hl hm, fun hb => (marshalEvent_one_line hl hm _ hb).2.1 rfl⟩
        · simp
        · simp

/-- Lines that are written one after another can be told apart. -/
theorem joinLines_injective : ∀ {xs ys : List Bytes}, (∀ x ∈ xs, (10 : UInt8) ∉ x) → (∀ y ∈ ys, (10 : UInt8) ∉ y) → joinLines xs [] = joinLines ys [] → xs = ys
  | [], [], _, _, _ => rfl
  | [], y :: ys, _, _, h => by simp [joinLines] at h
  | x :: xs, ys, hx, hy, h => by
    have h0 : x ++ 10 :: joinLines xs [] = joinLines ys [] := by rw [← h]; simp [joinLines]
    obtain ⟨ys', rfl, h1⟩ := joinLines_first (hx x (by simp)) hy (by simp) h0
    rw [joinLines_injective (fun z hz => hx z (by simp [hz])) (fun z hz => hy z (by simp [hz])) h1]

/-- The texts that are written. -/
def textsOf : List (Nat × LineOutcome) → List Bytes
  | [] => []
  | (_, .text bs) :: os => bs :: textsOf os
  | _ :: os => textsOf os

theorem textsOf_mem : ∀ {os : List (Nat × LineOutcome)} {bs : Bytes}, bs ∈ textsOf os → ∃ o ∈ os, o.2 = .text bs
  | (i, o) :: os, bs, h => by
    have : (∃ t, o = .text t ∧ (bs = t ∨ bs ∈ textsOf os)) ∨ bs ∈ textsOf os := by
      cases o with
      | text t => simp only [textsOf, List.mem_cons] at h; exact .inl ⟨t, rfl, h⟩
      | _ => exact .inr h
    rcases this with ⟨t, rfl, rfl | h⟩ | h
    · exact ⟨_, List.mem_cons_self, rfl⟩
    · obtain ⟨o, ho, e⟩ := textsOf_mem h; exact ⟨o, List.mem_cons_of_mem _ ho, e⟩
    · obtain ⟨o, ho, e⟩ := textsOf_mem h; exact ⟨o, List.mem_cons_of_mem _ ho, e⟩

theorem output_joinLines : ∀ os : List (Nat × LineOutcome), os.flatMap (fun o => o.2.output) = joinLines (textsOf os) []
  | [] => rfl
  | (i, o) :: os => by
    rw [List.flatMap_cons, output_joinLines os]
    cases o <;> simp [textsOf, LineOutcome.output, joinLines]

theorem soloOutcomes_mem {env : JEnv} {n : Nat} {cv : Conv} {p : Pipeline Builtin (Option Err)} {w : PWorld Heap} : ∀ {ls : List Bytes} {i : Nat} {o : Nat × LineOutcome}, o ∈ soloOutcomes env n cv p w i ls →
    ∃ l ∈ ls, o.2 = soloOutcome env n cv p w o.1 l
  | l :: ls, i, o, h => by
    simp only [soloOutcomes, List.mem_cons] at h
    rcases h with rfl | h
    · exact ⟨l, by simp, rfl⟩
    · obtain ⟨l', h1, h2⟩ := soloOutcomes_mem h; exact ⟨l', by simp [h1], h2⟩

/-- C51, C57, framing: splitting the output at its line feeds gives back the texts of the events, whatever lines were read; no other way of reading it is possible. -/
theorem cli_framing {env : JEnv} (hl : env.Lawful) (n : Nat) (cv : Conv) (p : Pipeline Builtin (Option Err)) (w : PWorld Heap) (ls : List Bytes) :
    let os := beforeCrash (soloOutcomes env n cv p w 1 ls)
    os.flatMap (fun o => o.2.output) = joinLines (textsOf os) [] ∧ (∀ t ∈ textsOf os, Tidy t ∧ (10 : UInt8) ∉ t) ∧
      ∀ ts : List Bytes, (∀ t ∈ ts, (10 : UInt8) ∉ t) → os.flatMap (fun o => o.2.output) = joinLines ts [] → ts = textsOf os := by
  intro os
  have ht : ∀ t ∈ textsOf os, Tidy t ∧ (10 : UInt8) ∉ t := by
    intro t h
    obtain ⟨o, ho, e⟩ := textsOf_mem h
    obtain ⟨l, _, h2⟩ := soloOutcomes_mem ((List.takeWhile_sublist _).mem ho)
    exact solo_text_one_line hl (h2.symm.trans e)
  refine ⟨output_joinLines os, ht, fun ts hts h => ?_⟩
  rw [output_joinLines] at h
  exact (joinLines_injective (fun t h => (ht t h).2) hts h).symm

open Classical in
theorem outcomes_conservation {env : JEnv} {n : Nat} {cv : Conv} {p : Pipeline Builtin (Option Err)} {w : PWorld Heap} (ls : List Bytes) : ∀ i, firstCrash (soloOutcomes env n cv p w i ls) = none →
    (textsOf (beforeCrash (soloOutcomes env n cv p w i ls))).length + ((beforeCrash (soloOutcomes env n cv p w i ls)).flatMap fun o => o.2.logged o.1).length + ls.countP (fun l => decide (Blank l)) = ls.length := by
  induction ls with
  | nil => intro i _; rfl
  | cons l ls ih =>
    intro i h
    simp only [soloOutcomes] at h ⊢
    have hb := blank_line env n cv p w i l
    generalize soloOutcome env n cv p w i l = o at h hb ⊢
    have h' : firstCrash (soloOutcomes env n cv p w (i + 1) ls) = none ∧ o.crash = none := by
      simp only [firstCrash, List.findSome?_cons] at h
      cases hc : o.crash with
      | none => rw [hc] at h; exact ⟨h, rfl⟩
      | some c => rw [hc] at h; simp at h
    have := ih _ h'.1
    cases o <;> simp [LineOutcome.crash] at h' <;> simp at hb <;> simp [beforeCrash, LineOutcome.crash, textsOf, LineOutcome.logged, List.takeWhile_cons, List.countP_cons, hb] at this ⊢ <;> omega

open Classical in
/-- C51, nothing is lost silently: if nothing crashes, the lines of the output, the lines of the log and the blank lines of the input are together as many as the lines of the input. -/
theorem cli_conservation {env : JEnv} (hl : env.Lawful) (n : Nat) (cv : Conv) (p : Pipeline Builtin (Option Err)) (w : PWorld Heap) (hp : p.Calls (Builtin.LeafConfig w.world)) {i : Input} (hc : ∀ c ∈ i.chunks, c ≠ [])
    {ls : List Bytes} {last : Bytes} (h : i.chunks.flatten = joinLines ls last) (hls : ∀ x ∈ ls, (10 : UInt8) ∉ x ∧ x.length < 65536) (hlast : (10 : UInt8) ∉ last ∧ last.length < 65536)
    (hcr : (processInput env n cv p (fun _ => none) i w).2 ≠ .panic ∧ (processInput env n cv p (fun _ => none) i w).2 ≠ .overflow) :
    ∃ ts : List Bytes, (processInput env n cv p (fun _ => none) i w).1.out = joinLines ts [] ∧ (∀ t ∈ ts, Tidy t ∧ (10 : UInt8) ∉ t) ∧
      ts.length + (processInput env n cv p (fun _ => none) i w).1.log.length + (linesOf ls last).countP (fun l => decide (Blank l)) = (linesOf ls last).length := by
  obtain ⟨e1, e2, e3⟩ := cli_spec env n cv p w hp hc h hls hlast
  obtain ⟨g1, g2, _⟩ := cli_framing hl n cv p w (linesOf ls last)
  refine ⟨_, e1.trans g1, g2, ?_⟩
  rw [e2]
  refine outcomes_conservation _ 1 ?_
  cases hfc : firstCrash (soloOutcomes env n cv p w 1 (linesOf ls last)) with
  | none => rfl
  | some c =>
    exfalso
    rw [e3, hfc] at hcr
    obtain ⟨o, _, ho⟩ := List.exists_of_findSome?_eq_some hfc
    cases h : o.2 <;> rw [h] at ho <;> simp [LineOutcome.crash] at ho <;> subst ho <;> simp at hcr

/-- C51, a writer that fails: whatever it does, what it has taken is the beginning of what should have been written … -/
theorem cli_write_prefix (env : JEnv) (n : Nat) (cv : Conv) (p : Pipeline Builtin (Option Err)) (w : PWorld Heap) (hp : p.Calls (Builtin.LeafConfig w.world)) (wr : Writer) (i : Input) (hc : ∀ c ∈ i.chunks, c ≠ []) :
    (processInput env n cv p wr i w).1.out <+: (processInput env n cv p (fun _ => none) i w).1.out := by
  obtain ⟨ts, err, hs⟩ : ∃ (ts : List Bytes) (err : Option ScanErr), scanAll i = (ts.map dropCR, err) := by
    rcases input_cases _ _ (Nat.le_refl i.chunks.flatten.length) with ⟨ls, last, h1, h2, h3, h4⟩ | ⟨ls, rest, h1, h2, h3, h4⟩
    · exact ⟨_, _, scanAll_lines hc h1 h2 h3 h4⟩
    · exact ⟨_, _, scanAll_tooLong hc h1 h2 h3 h4⟩
  rw [(processInput_emit env n cv p wr w hp hs).1, (processInput_emit env n cv p (fun _ => none) w hp hs).1]
  exact emit_prefix wr _ 0

/-- … and the failure is not reported: unless a line crashes the program or the input fails, it ends normally. -/
theorem cli_write_error_hidden (env : JEnv) (n : Nat) (cv : Conv) (p : Pipeline Builtin (Option Err)) (w : PWorld Heap) (hp : p.Calls (Builtin.LeafConfig w.world)) (wr : Writer) {i : Input} (hc : ∀ c ∈ i.chunks, c ≠ [])
    {ls : List Bytes} {last : Bytes} (h : i.chunks.flatten = joinLines ls last) (hls : ∀ x ∈ ls, (10 : UInt8) ∉ x ∧ x.length < 65536) (hlast : (10 : UInt8) ∉ last ∧ last.length < 65536)
    (hf : i.fails = false) (hcr : firstCrash (soloOutcomes env n cv p w 1 (linesOf ls last)) = none) : (processInput env n cv p wr i w).2 = .done := by
  have hs := scanAll_lines hc h hls hlast.1 hlast.2
  rw [(processInput_emit env n cv p wr w hp (ts := linesOf ls last) hs).2.2, emit_no_crash wr _ hcr, hf]
  rfl

/-! ## Examples -/

/-- Replace `@metadata` by the configured value, which is at address 0. -/
def markPipeline : Pipeline Builtin (Option Err) where
  id := lit "p"
  processors := [.mk (lit "p.s") [] false false [] (Builtin.set 0 [] (lit "@metadata")).prog]
  onFailure := []

/-- Copy the event into its own field `@a`. -/
def selfPipeline : Pipeline Builtin (Option Err) where
  id := lit "p"
  processors := [.mk (lit "p.s") [] false false [] (Builtin.set 0 (lit ".") (lit "@a")).prog]
  onFailure := []

/-- As long as the conversion of case is not used it does not matter. -/
def noConv : Conv := ⟨id, id⟩

/-- A state of the program before the first line: only the configured value is there. -/
def startWorld (c : Cell) : PWorld Heap := ⟨[.cell c], noCounts, []⟩

/-- The configured value of `markPipeline`: the string `m`. -/
def markWorld : PWorld Heap := startWorld (strCell (lit "m"))

theorem markPipeline_calls : markPipeline.Calls (Builtin.LeafConfig markWorld.world) :=
  ⟨⟨⟨⟨⟨.str (lit "m"), rfl⟩, fun _ => trivial⟩, trivial⟩, trivial⟩, trivial⟩

theorem selfPipeline_calls : selfPipeline.Calls (Builtin.LeafConfig (startWorld nullCell).world) :=
  ⟨⟨⟨⟨⟨.null, rfl⟩, fun _ => trivial⟩, trivial⟩, trivial⟩, trivial⟩

/-- The memory with the event of a line. -/
def lineHeap (c : Cell) (i : Nat) (l : Bytes) : Heap :=
  [.cell c, .cell (uintCell (BitVec.ofNat 64 i)), .map [(lit "@metadata", some 4), (lit "event", some 7)], .map [(lit "line_number", some 1)], .cell (objCell (some 3)), .cell (strCell l), .map [(lit "original", some 5)], .cell (objCell (some 6))]

/-- … after `markPipeline`. -/
def markHeap (i : Nat) (l : Bytes) : Heap :=
  [.cell (strCell (lit "m")), .cell (uintCell (BitVec.ofNat 64 i)), .map [(lit "@metadata", some 0), (lit "event", some 7)], .map [(lit "line_number", some 1)], .cell (objCell (some 3)), .cell (strCell l), .map [(lit "original", some 5)],
    .cell (objCell (some 6))]

/-- … after `selfPipeline`. -/
def selfHeap (i : Nat) (l : Bytes) : Heap :=
  [.cell nullCell, .cell (uintCell (BitVec.ofNat 64 i)), .map [(lit "@a", some 8), (lit "@metadata", some 4), (lit "event", some 7)], .map [(lit "line_number", some 1)], .cell (objCell (some 3)), .cell (strCell l), .map [(lit "original", some 5)],
    .cell (objCell (some 6)), .cell (objCell (some 2))]

theorem lineEvent_start (c : Cell) (i : Nat) (l : Bytes) : lineEvent [.cell c] i l = .ok (lineHeap c i l, some 2) := rfl

theorem self_process (i : Nat) (l : Bytes) : ∃ c g, selfPipeline.process (builtinCall noConv) () ⟨(lineHeap nullCell i l, some 2), noCounts, []⟩ = .ok (⟨(selfHeap i l, some 2), c, g⟩, some (), none) := ⟨_, _, rfl⟩

theorem self_handled (i : Nat) (l : Bytes) : ∃ w, handleLine noConv selfPipeline (startWorld nullCell) i l = .ok (w, ⟨some (), none, selfHeap i l, some 2⟩) := by
  obtain ⟨c, g, h⟩ := self_process i l
  exact ⟨⟨selfHeap i l, c, g⟩, by simp only [handleLine, startWorld, lineEvent_start, h]⟩

theorem mark_process (i : Nat) (l : Bytes) : ∃ c g, markPipeline.process (builtinCall noConv) () ⟨(lineHeap (strCell (lit "m")) i l, some 2), noCounts, []⟩ = .ok (⟨(markHeap i l, some 2), c, g⟩, some (), none) := ⟨_, _, rfl⟩

theorem mark_handled (i : Nat) (l : Bytes) : ∃ w, handleLine noConv markPipeline markWorld i l = .ok (w, ⟨some (), none, markHeap i l, some 2⟩) := by
  obtain ⟨c, g, h⟩ := mark_process i l
  exact ⟨⟨markHeap i l, c, g⟩, by simp only [handleLine, markWorld, startWorld, lineEvent_start, h]⟩

/-- What becomes of a line that is not blank, with `markPipeline`. -/
theorem mark_outcome (n i : Nat) (l t bs : Bytes) (hl : trimSpace l = t) (ht : t ≠ []) (hm : marshalEvent bitsEnv n (markHeap i t) (some 2) = .ok bs) : soloOutcome bitsEnv n noConv markPipeline markWorld i l = .text bs := by
  obtain ⟨w, h⟩ := mark_handled i t
  simp only [soloOutcome, hl, if_neg ht, h, hm]

/-- `x`, a line with a space, and `<y` without a line feed, in two reads. -/
def someInput : Input := { chunks := [lit "x\n \n<", lit "y"] }

theorem someInput_ok : someInput.chunks.flatten = joinLines [lit "x", lit " "] (lit "<y") ∧ (∀ c ∈ someInput.chunks, c ≠ []) ∧ (∀ x ∈ [lit "x", lit " "], (10 : UInt8) ∉ x ∧ x.length < 65536) ∧
    (10 : UInt8) ∉ lit "<y" ∧ (lit "<y").length < 65536 := by
  decide +kernel

theorem some_outcomes : soloOutcomes bitsEnv 5 noConv markPipeline markWorld 1 (linesOf [lit "x", lit " "] (lit "<y")) =
    [(1, .text (lit "{\"@metadata\":\"m\",\"event\":{\"original\":\"x\"}}")), (2, .blank), (3, .text (lit "{\"@metadata\":\"m\",\"event\":{\"original\":\"\\u003cy\"}}"))] := by
  have h1 := mark_outcome 5 1 (lit "x") (lit "x") (lit "{\"@metadata\":\"m\",\"event\":{\"original\":\"x\"}}") (by decide +kernel) (by decide) (by decide +kernel)
  have h2 : soloOutcome bitsEnv 5 noConv markPipeline markWorld 2 (lit " ") = .blank := (blank_line ..).2 ((trimSpace_blank_iff _).1 (by decide +kernel))
  have h3 := mark_outcome 5 3 (lit "<y") (lit "<y") (lit "{\"@metadata\":\"m\",\"event\":{\"original\":\"\\u003cy\"}}") (by decide +kernel) (by decide) (by decide +kernel)
  show soloOutcomes bitsEnv 5 noConv markPipeline markWorld 1 [lit "x", lit " ", lit "<y"] = _
  simp only [soloOutcomes, h1, h2, h3]

/-- C51: a run of the program (which meets the hypotheses of `cli_spec`). The output has `<` escaped, although the program asks the encoder not to. -/
theorem cli_sample : (processInput bitsEnv 5 noConv markPipeline (fun _ => none) someInput markWorld).1.out =
      lit "{\"@metadata\":\"m\",\"event\":{\"original\":\"x\"}}\n{\"@metadata\":\"m\",\"event\":{\"original\":\"\\u003cy\"}}\n" ∧
    (processInput bitsEnv 5 noConv markPipeline (fun _ => none) someInput markWorld).1.log = [] ∧
    (processInput bitsEnv 5 noConv markPipeline (fun _ => none) someInput markWorld).2 = .done := by
  obtain ⟨a, b, c, d⟩ := someInput_ok
  have := cli_spec bitsEnv 5 noConv markPipeline markWorld markPipeline_calls b a c d
  simp only [some_outcomes] at this
  obtain ⟨e1, e2, e3⟩ := this
  rw [e1, e2, e3]
  exact ⟨by decide +kernel, rfl, rfl⟩

/-- C51: a reader that fails in the middle of a line: the part that has come is handled as a line, and then the error is reported. -/
theorem cli_partial_line : (processInput bitsEnv 5 noConv markPipeline (fun _ => none) { someInput with fails := true } markWorld).1.out =
      lit "{\"@metadata\":\"m\",\"event\":{\"original\":\"x\"}}\n{\"@metadata\":\"m\",\"event\":{\"original\":\"\\u003cy\"}}\n" ∧
    (processInput bitsEnv 5 noConv markPipeline (fun _ => none) { someInput with fails := true } markWorld).2 = .readFailed .read := by
  obtain ⟨a, b, c, d⟩ := someInput_ok
  have := cli_spec bitsEnv 5 noConv markPipeline markWorld markPipeline_calls (i := { someInput with fails := true }) b a c d
  simp only [some_outcomes] at this
  obtain ⟨e1, e2, e3⟩ := this
  rw [e1, e3]
  exact ⟨by decide +kernel, rfl⟩

/-- C51: a writer that fails on the first write after three bytes: half a line is written, nothing after that, and the program ends normally. -/
theorem cli_lost_output : (processInput bitsEnv 5 noConv markPipeline (fun k => if k = 0 then some 3 else none) someInput markWorld).1.out = lit "{\"@" ∧
    (processInput bitsEnv 5 noConv markPipeline (fun k => if k = 0 then some 3 else none) someInput markWorld).2 = .done := by
  obtain ⟨a, b, c, d⟩ := someInput_ok
  obtain ⟨e1, _, e3⟩ := processInput_emit bitsEnv 5 noConv markPipeline (fun k => if k = 0 then some 3 else none) markWorld markPipeline_calls (ts := linesOf [lit "x", lit " "] (lit "<y")) (scanAll_lines b a c d.1 d.2)
  rw [e1, e3, some_outcomes]
  exact ⟨by decide +kernel, rfl⟩

theorem self_marshal (env : JEnv) (i : Nat) (l : Bytes) : ∀ n, marshalPtr env (selfHeap i l) n (some 8) = .fuel := by
  intro n
  induction n with
  | zero => rfl
  | succ n ih =>
    have hd : deref (selfHeap i l) (some 8) = some (objCell (some 2)) := rfl
    have hm : mapOf (selfHeap i l) (some 2) = [(lit "@a", some 8), (lit "@metadata", some 4), (lit "event", some 7)] := rfl
    simp only [marshalPtr, hd, objCell, hm]
    rw [joinText_cons, ih]
    rfl

/-- C51: a processor that copies the whole event into one of its fields. The first line that is not blank ends the program, however large its stack is; nothing is written and nothing is logged. -/
theorem cli_self_copy (env : JEnv) (n : Nat) (i : Nat) (l : Bytes) (hl : ¬ Blank l) : soloOutcome env n noConv selfPipeline (startWorld nullCell) i l = .overflow := by
  have ht : trimSpace l ≠ [] := fun h => hl ((trimSpace_blank_iff l).1 h)
  obtain ⟨w, h⟩ := self_handled i (trimSpace l)
  have hm : mapOf (selfHeap i (trimSpace l)) (some 2) = [(lit "@a", some 8), (lit "@metadata", some 4), (lit "event", some 7)] := rfl
  have : marshalEvent env n (selfHeap i (trimSpace l)) (some 2) = .fuel := by
    simp only [marshalEvent, hm]
    rw [joinText_cons, self_marshal]
    rfl
  simp only [soloOutcome, if_neg ht, h, this]

/-- An event of a line that is written has been through the pipeline without an error, and its text is the JSON of it (see C49 for what that is). -/
theorem solo_text_iff (env : JEnv) (n : Nat) (cv : Conv) (p : Pipeline Builtin (Option Err)) (w : PWorld Heap) (i : Nat) (l bs : Bytes) :
    soloOutcome env n cv p w i l = .text bs ↔
      ∃ t, Trimmed l t ∧ t ≠ [] ∧ ∃ w0 w1 h0 e0, lineEvent w.world i t = .ok (h0, e0) ∧ w0 = ⟨(h0, e0), w.counts, w.log⟩ ∧ p.process (builtinCall cv) () w0 = .ok (w1, some (), none) ∧
        marshalEvent env n w1.world.1 w1.world.2 = .ok bs := by
  constructor
  · intro h
    refine ⟨trimSpace l, trimSpace_spec l, ?_⟩
    simp only [soloOutcome] at h
    revert h
    split
    · simp
    · next ht =>
      intro h
      refine ⟨ht, ?_⟩
      cases hl : handleLine cv p w i (trimSpace l) with
      | panic => rw [hl] at h; simp at h
      | ok x =>
        obtain ⟨w', r⟩ := x
        rw [hl] at h
        simp only at h
        cases he : r.err with
        | some e => rw [he] at h; simp at h
        | none =>
          rw [he] at h
          simp only at h
          have hret := handleLine_returned hl he
          have hbs : marshalEvent env n r.heap r.event = .ok bs := by
            cases hm : marshalEvent env n r.heap r.event <;> rw [hm] at h <;> simp at h
            rw [h]
          simp only [handleLine] at hl
          split at hl
          · simp at hl
          · next we hwe =>
            split at hl
            · simp at hl
            · next w1 ret err hx =>
              simp only [Res.ok.injEq, Prod.mk.injEq] at hl
              obtain ⟨rfl, rfl⟩ := hl
              simp only at he hret hbs
              subst he hret
              exact ⟨_, w1, we.1, we.2, hwe, rfl, hx, hbs⟩
  · rintro ⟨t, ht, hne, w0, w1, h0, e0, hle, rfl, hp, hm⟩
    have := trimmed_unique ht (trimSpace_spec l)
    subst this
    simp only [soloOutcome, if_neg hne, handleLine, hle, hp, hm]

end Sawmill
