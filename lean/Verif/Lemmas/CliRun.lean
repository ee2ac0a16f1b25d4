import Verif.Lemmas.CliSim
import Verif.Lemmas.JsonTidy
import Verif.Props.Pipeline
/-!
# The run of the program, from the outcomes of its lines
-/

namespace Sawmill
open Rfc ATree

/-- What is written and logged, and the crash, when the lines have these outcomes: `k` writes have been made, `broken` says that one has failed. -/
def emit (wr : Writer) : Nat → Bool → List (Nat × LineOutcome) → Bytes × List CliLog × Option CliEnd
  | _, _, [] => ([], [], none)
  | k, b, (i, o) :: os =>
    match o with
    | .blank => emit wr k b os
    | .failed err => let r := emit wr k b os; (r.1, .process i err :: r.2.1, r.2.2)
    | .panic => ([], [], some .panic)
    | .unencodable => let r := emit wr k b os; (r.1, .encode i :: r.2.1, r.2.2)
    | .overflow => if b then let r := emit wr k b os; (r.1, .encode i :: r.2.1, r.2.2) else ([], [], some .overflow)
    | .text bs =>
      if b then let r := emit wr k b os; (r.1, .encode i :: r.2.1, r.2.2)
      else match wr k with
        | none => let r := emit wr (k + 1) b os; (bs ++ [10] ++ r.1, r.2.1, r.2.2)
        | some m => let r := emit wr (k + 1) true os; ((bs ++ [10]).take m ++ r.1, .encode i :: r.2.1, r.2.2)

theorem handleLine_returned {cv : Conv} {p : Pipeline Builtin (Option Err)} {w w' : PWorld Heap} {i : Nat} {l : Bytes} {r : Handled} (hh : handleLine cv p w i l = .ok (w', r)) (he : r.err = none) :
    r.returned = some () := by
  simp only [handleLine] at hh
  split at hh
  · simp at hh
  · split at hh
    · simp at hh
    · next x =>
      simp only [Res.ok.injEq, Prod.mk.injEq] at hh
      obtain ⟨_, rfl⟩ := hh
      simp only at he
      rcases process_returns x with h | ⟨_, e, h⟩
      · exact h.1
      · rw [h] at he; simp at he

theorem cli_lines_emit (env : JEnv) (n : Nat) (cv : Conv) (p : Pipeline Builtin (Option Err)) (wr : Writer) (w : PWorld Heap) (hp : p.Calls (Builtin.LeafConfig w.world)) :
    ∀ (ts : List Bytes) (s : Cli), Keeps (fun c => c.type ≠ .array) w.world s.world.world →
      ∃ s', Cli.lines env n cv p wr s ts = (s', (emit wr s.writes s.broken (soloOutcomes env n cv p w (s.number + 1) ts)).2.2) ∧
        s'.out = s.out ++ (emit wr s.writes s.broken (soloOutcomes env n cv p w (s.number + 1) ts)).1 ∧
        s'.log = s.log ++ (emit wr s.writes s.broken (soloOutcomes env n cv p w (s.number + 1) ts)).2.1 := by
  intro ts
  induction ts with
  | nil => intro s _; exact ⟨s, rfl, by simp [soloOutcomes, emit], by simp [soloOutcomes, emit]⟩
  | cons t ts ih =>
    intro s hk
    have hso := soloOutcome_same env n cv p w s.world (s.number + 1) t hp hk
    simp only [soloOutcomes]
    rw [hso]
    simp only [Cli.lines, Cli.line, soloOutcome]
    by_cases hb : trimSpace t = []
    · rw [if_pos hb, if_pos hb]
      simp only [emit]
      exact ih { s with number := s.number + 1 } hk
    · rw [if_neg hb, if_neg hb]
      cases hl : handleLine cv p s.world (s.number + 1) (trimSpace t) with
      | panic => exact ⟨s, by simp [emit], by simp [emit], by simp [emit]⟩
      | ok wr' =>
        obtain ⟨w1, r⟩ := wr'
        have hk' := hk.trans (keeps_handleLine cv p hl)
        simp only
        cases he : r.err with
        | some err =>
          simp only [emit]
          obtain ⟨s', e1, e2, e3⟩ := ih { s with number := s.number + 1, world := w1, log := s.log ++ [.process (s.number + 1) err] } hk'
          exact ⟨s', e1, e2, by rw [e3]; simp⟩
        | none =>
          simp only [Cli.encode, handleLine_returned hl he]
          obtain ⟨s1, f1, f2, f3⟩ := ih { s with number := s.number + 1, world := w1, log := s.log ++ [.encode (s.number + 1)] } hk'
          simp only at f1 f2 f3
          by_cases hbr : s.broken = true
          · rw [if_pos hbr]
            rw [hbr] at f1 f2 f3
            refine ⟨s1, ?_⟩
            cases marshalEvent env n r.heap r.event <;> simp only [emit, hbr, if_true] <;> exact ⟨f1, f2, by rw [f3]; simp⟩
          · have hbf : s.broken = false := by simpa using hbr
            rw [if_neg hbr]
            cases marshalEvent env n r.heap r.event with
            | fuel => exact ⟨s, by simp [emit, hbf], by simp [emit, hbf], by simp [emit, hbf]⟩
            | error => exact ⟨s1, by simp only [emit]; exact f1, f2, by rw [f3]; simp [emit]⟩
            | ok bs =>
              simp only [emit, hbf, Bool.false_eq_true, if_false]
              cases hw : wr s.writes with
              | none =>
                simp only
                obtain ⟨s', e1, e2, e3⟩ := ih { s with number := s.number + 1, world := w1, out := s.out ++ (bs ++ [10]), writes := s.writes + 1 } hk'
                simp only [hbf] at e1 e2 e3
                exact ⟨s', e1, by rw [e2]; simp, e3⟩
              | some k =>
                simp only
                obtain ⟨s', e1, e2, e3⟩ := ih { s with number := s.number + 1, world := w1, out := s.out ++ (bs ++ [10]).take k, writes := s.writes + 1, broken := true, log := s.log ++ [.encode (s.number + 1)] } hk'
                exact ⟨s', e1, by rw [e2]; simp, by rw [e3]; simp⟩

/-- A writer that never fails. -/
theorem emit_reliable (os : List (Nat × LineOutcome)) : ∀ k, emit (fun _ => none) k false os =
    ((beforeCrash os).flatMap fun o => o.2.output, (beforeCrash os).flatMap fun o => o.2.logged o.1, firstCrash os) := by
  induction os with
  | nil => intro k; rfl
  | cons o os ih =>
    intro k
    obtain ⟨i, o⟩ := o
    cases o <;> simp [emit, beforeCrash, firstCrash, LineOutcome.crash, LineOutcome.output, LineOutcome.logged, List.takeWhile_cons] <;>
      simp only [ih, beforeCrash, firstCrash, LineOutcome.crash, LineOutcome.output, LineOutcome.logged] <;> simp

theorem emit_broken_out (wr : Writer) (os : List (Nat × LineOutcome)) : ∀ k, (emit wr k true os).1 = [] := by
  induction os with
  | nil => intro k; rfl
  | cons o os ih =>
    intro k
    obtain ⟨i, o⟩ := o
    cases o <;> simp [emit, ih]

/-- Whatever the writer does, what it takes is the beginning of what a reliable one gets. -/
theorem emit_prefix (wr : Writer) (os : List (Nat × LineOutcome)) : ∀ k, (emit wr k false os).1 <+: (emit (fun _ => none) k false os).1 := by
  induction os with
  | nil => intro k; exact List.prefix_rfl
  | cons o os ih =>
    intro k
    obtain ⟨i, o⟩ := o
    cases o <;> simp only [emit, Bool.false_eq_true, if_false] <;> try exact ih _
    · cases hw : wr k with
      | none => simp only; exact List.prefix_append_right_inj _ |>.2 (ih _)
      | some m =>
        simp only
        rw [emit_broken_out, List.append_nil]
        exact (List.take_prefix _ _).trans (List.prefix_append _ _)
    · exact List.prefix_rfl
    · exact List.prefix_rfl

theorem emit_no_crash (wr : Writer) (os : List (Nat × LineOutcome)) (h : firstCrash os = none) : ∀ k b, (emit wr k b os).2.2 = none := by
  induction os with
  | nil => intro k b; rfl
  | cons o os ih =>
    intro k b
    obtain ⟨i, o⟩ := o
    have h' : firstCrash os = none ∧ o.crash = none := by
      simp only [firstCrash, List.findSome?_cons] at h
      cases hc : o.crash with
      | none => rw [hc] at h; exact ⟨h, rfl⟩
      | some c => rw [hc] at h; simp at h
    cases o <;> simp only [emit] <;> try exact ih h'.1 _ _
    · split
      · exact ih h'.1 _ _
      · split <;> exact ih h'.1 _ _
    · simp [LineOutcome.crash] at h'
    · simp [LineOutcome.crash] at h'

end Sawmill
