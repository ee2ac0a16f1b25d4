import Verif.Model.Pool
import Verif.Props.Goro
/-!
# C76: workers that hand events on
-/

namespace Sawmill
namespace Goro
open Mem

variable {X : Type}

theorem mem_bind_assoc {α β γ : Type} (m : Mem α) (f : α → Mem β) (g : β → Mem γ) : (m.bind f).bind g = m.bind fun x => (f x).bind g := by
  induction m <;> simp_all [Mem.bind]

theorem mem_andThen (env : Env) {Y : Type} (p : Prog X) (f : X → Prog Y) : ∀ L, (p.andThen f).mem env L = (p.mem env L).bind fun r => (f r.2).mem env r.1 := by
  induction p with
  | ret x => intro L; rfl
  | call c k ih =>
    intro L
    simp only [Prog.andThen, Prog.mem]
    rw [mem_bind_assoc]
    congr 1
    funext r
    exact ih r.2 r.1

theorem step_bind_next {α β : Type} {m m' : Mem α} {h h' : Heap} {inc : Option (Bytes × Kind)} (hs : m.step h = .next h' inc m') (f : α → Mem β) : (m.bind f).step h = .next h' inc (m'.bind f) := by
  cases m <;> simp only [Mem.step, Mem.bind] at hs ⊢
  case ret => cases hs
  case crash => cases hs
  case readCell p k => split at hs <;> simp_all
  case writeMap p k => split at hs <;> simp_all
  case append p k => split at hs <;> simp_all
  all_goals (simp only [Next.next.injEq] at hs ⊢; obtain ⟨rfl, rfl, rfl⟩ := hs; simp)

theorem step_bind_crash {α β : Type} {m : Mem α} {h : Heap} (hs : m.step h = .crash) (f : α → Mem β) : (m.bind f).step h = .crash := by
  cases m <;> simp only [Mem.step, Mem.bind] at hs ⊢
  case ret => cases hs
  case readCell p k => split at hs <;> simp_all
  case writeMap p k => split at hs <;> simp_all
  case append p k => split at hs <;> simp_all
  all_goals simp_all

theorem access_bind {α β : Type} {m : Mem α} {x : Nat × Bool} (h : m.access = some x) (f : α → Mem β) : (m.bind f).access = some x := by
  cases m <;> simp_all [Mem.access, Mem.bind]

/-- The rest of the way of a message, as one program. -/
def rest (P : Plant X) : Msg X → Mem (Locals × X)
  | .queued k L x => (through (P.stages.drop k) x).mem P.env L
  | .worked _ k m => m.bind fun r => (through (P.stages.drop (k + 1)) r.2).mem P.env r.1
  | .out L x => .ret (L, x)

/-- The same state, with one goroutine per message. -/
def Pool.flat (P : Plant X) (s : Pool X) : Shared (Locals × X) := ⟨s.heap, s.counts, s.msgs.map (rest P)⟩

theorem set_same {α : Type} {l : List α} {i : Nat} {x : α} (h : l[i]? = some x) : l.set i x = l := by
  apply List.ext_getElem?
  intro j
  rw [List.getElem?_set]
  split
  · next e => subst e; rw [h]; simp [(List.getElem?_eq_some_iff.mp h).1]
  · rfl

theorem rest_queued {P : Plant X} {k : Nat} {p : Stage X} (hp : P.stages[k]? = some p) (L : Locals) (x : X) : rest P (.queued k L x) = (((p x).mem P.env L).bind fun r => (through (P.stages.drop (k + 1)) r.2).mem P.env r.1) := by
  have : P.stages.drop k = p :: P.stages.drop (k + 1) := by
    obtain ⟨hk, rfl⟩ := List.getElem?_eq_some_iff.mp hp
    exact List.drop_eq_getElem_cons hk
  simp only [rest, this, through, mem_andThen]

/-- Receives and sends that a message has before it. -/
def Msg.ahead (K : Nat) : Msg X → Nat
  | .queued k _ _ => 2 * (K - k)
  | .worked _ k _ => 2 * (K - k) - 1
  | .out _ _ => 0

def ahead (K : Nat) : List (Msg X) → Nat
  | [] => 0
  | m :: ms => m.ahead K + ahead K ms

theorem ahead_set (K : Nat) {ms : List (Msg X)} {j : Nat} {m : Msg X} (h : ms[j]? = some m) (m' : Msg X) : ahead K (ms.set j m') + m.ahead K = ahead K ms + m'.ahead K := by
  induction ms generalizing j with
  | nil => simp at h
  | cons a ms ih =>
    cases j with
    | zero => simp only [List.getElem?_cons_zero, Option.some.injEq] at h; subst h; simp only [List.set_cons_zero, ahead]; omega
    | succ j => simp only [List.getElem?_cons_succ] at h; have := ih h; simp only [List.set_cons_succ, ahead]; omega

/-- Messages are in stages that exist, and with workers of that stage. -/
def Msg.Fine (P : Plant X) : Msg X → Prop
  | .queued k _ _ => k < P.stages.length
  | .worked w k _ => k < P.stages.length ∧ P.workers[w]? = some k
  | .out _ _ => True

theorem all_set {α : Type} {p : α → Prop} {l : List α} (h : ∀ x ∈ l, p x) {y : α} (hy : p y) (i : Nat) : ∀ x ∈ l.set i y, p x := by
  intro x hx
  rcases List.mem_or_eq_of_mem_set hx with h1 | h1
  · exact h x h1
  · exact h1 ▸ hy

/-- One step of the pool: a receive or send, which the flat state does not show, or one memory access. -/
theorem pool_step {P : Plant X} {s s' : Pool X} (h : Pool.Step P s s') (hf : ∀ m ∈ s.msgs, m.Fine P) :
    ((s'.flat P = s.flat P ∧ ahead P.stages.length s'.msgs + 1 = ahead P.stages.length s.msgs) ∨ (Shared.Step (s.flat P) (s'.flat P) ∧ ahead P.stages.length s'.msgs = ahead P.stages.length s.msgs)) ∧
    (∀ m ∈ s'.msgs, m.Fine P) ∧ s'.msgs.length = s.msgs.length := by
  cases h with
  | @take j k w L x p hj hw hi hp =>
    have hk := (List.getElem?_eq_some_iff.mp hp).1
    have ha := ahead_set P.stages.length hj (.worked w k ((p x).mem P.env L))
    simp only [Msg.ahead] at ha
    refine ⟨.inl ⟨?_, by dsimp only; omega⟩, all_set hf (show Msg.Fine P (.worked w k _) from ⟨hk, hw⟩) _, by simp⟩
    simp only [Pool.flat, List.map_set, Shared.mk.injEq, true_and]
    exact set_same (by rw [List.getElem?_map, hj, Option.map_some, rest_queued hp]; rfl)
  | @work j w k m m' h inc hj hs =>
    have ha := ahead_set P.stages.length hj (.worked w k m')
    simp only [Msg.ahead] at ha
    have hm := hf _ (List.mem_of_getElem? hj)
    refine ⟨.inr ⟨?_, by dsimp only; omega⟩, all_set hf (show Msg.Fine P (.worked w k m') from hm) _, by simp⟩
    simp only [Pool.flat, List.map_set]
    exact .mk (s := s.flat P) (t := rest P (.worked w k m)) (by simp only [Pool.flat, List.getElem?_map, hj, Option.map_some]) (step_bind_next hs _)
  | @hand j w k L x hj hk hc =>
    have ha := ahead_set P.stages.length hj (.queued (k + 1) L x)
    simp only [Msg.ahead] at ha
    refine ⟨.inl ⟨?_, by dsimp only; omega⟩, all_set hf (show Msg.Fine P (.queued (k + 1) L x) from hk) _, by simp⟩
    simp only [Pool.flat, List.map_set, Shared.mk.injEq, true_and]
    exact set_same (by rw [List.getElem?_map, hj, Option.map_some]; rfl)
  | @finish j w k L x hj hk =>
    have ha := ahead_set P.stages.length hj (.out L x)
    simp only [Msg.ahead] at ha
    refine ⟨.inl ⟨?_, by dsimp only; omega⟩, all_set hf (show Msg.Fine P (.out L x) from trivial) _, by simp⟩
    simp only [Pool.flat, List.map_set, Shared.mk.injEq, true_and]
    exact set_same (by rw [List.getElem?_map, hj, Option.map_some]; simp [rest, hk, through, Prog.mem, Mem.bind])

/-- Where a run of the pool is: the flat state, and how many steps it took. -/
theorem pool_flat {P : Plant X} {h : Heap} {cs : Counters} {ms : List (Locals × X)} (hK : P.stages ≠ []) {n : Nat} {s : Pool X} (hs : Pool.Steps P n (Pool.start h cs ms) s) :
    ∃ m, Shared.Steps m ((Pool.start h cs ms).flat P) (s.flat P) ∧ n + ahead P.stages.length s.msgs = m + 2 * P.stages.length * ms.length ∧ (∀ m ∈ s.msgs, m.Fine P) ∧ s.msgs.length = ms.length := by
  generalize hs0 : Pool.start h cs ms = s0 at hs
  induction hs with
  | refl =>
    subst hs0
    refine ⟨0, .refl, ?_, ?_, by simp [Pool.start]⟩
    · simp only [Pool.start]
      induction ms with
      | nil => rfl
      | cons a ms ih =>
        simp only [List.map_cons, ahead, Msg.ahead, List.length_cons, Nat.sub_zero] at ih ⊢
        rw [Nat.mul_add]; omega
    · intro m hm
      simp only [Pool.start, List.mem_map] at hm
      obtain ⟨_, _, rfl⟩ := hm
      exact List.length_pos_iff.mpr hK
  | step _ hst ih =>
    obtain ⟨m, h1, h2, h3, h4⟩ := ih hs0
    obtain ⟨h5, h6, h7⟩ := pool_step hst h3
    rcases h5 with ⟨e, ha⟩ | ⟨e, ha⟩
    · exact ⟨m, by rw [e]; exact h1, by omega, h6, by omega⟩
    · exact ⟨m + 1, .step h1 e, by omega, h6, by omega⟩

theorem ahead_pos {P : Plant X} {ms : List (Msg X)} (hf : ∀ m ∈ ms, m.Fine P) (h0 : ahead P.stages.length ms = 0) : ∀ m ∈ ms, ∃ L x, m = .out L x := by
  induction ms with
  | nil => simp
  | cons a ms ih =>
    simp only [ahead] at h0
    intro m hm
    rcases List.mem_cons.mp hm with rfl | hm
    · have := hf m (by simp)
      cases m with
      | out L x => exact ⟨L, x, rfl⟩
      | queued k L x => simp only [Msg.Fine] at this; simp only [Msg.ahead] at h0; omega
      | worked w k m => simp only [Msg.Fine] at this; simp only [Msg.ahead] at h0; omega
    · exact ih (fun m hm => hf m (by simp [hm])) (by omega) m hm

theorem ahead_out (K : Nat) {ms : List (Msg X)} (h : ∀ m ∈ ms, ∃ L x, m = .out L x) : ahead K ms = 0 := by
  induction ms with
  | nil => rfl
  | cons a ms ih =>
    obtain ⟨L, x, rfl⟩ := h a (by simp)
    simp only [ahead, Msg.ahead, Nat.zero_add]
    exact ih fun m hm => h m (by simp [hm])

/-- The stage of a message that has not come out. -/
def Msg.stage : Msg X → Option Nat
  | .queued k _ _ => some k
  | .worked _ k _ => some k
  | .out _ _ => none

/-- A pool that is not finished can go on. -/
theorem pool_progress {P : Plant X} (hw : ∀ k, k < P.stages.length → k ∈ P.workers) (hc : ∀ k, 0 < P.cap k) {s : Pool X} (hf : ∀ m ∈ s.msgs, m.Fine P) (hcr : ¬ s.Crashing) (hn : ¬ s.Finished) :
    ∃ s', Pool.Step P s s' := by
  -- the last stage with a message in it
  have hex : ∃ k, (∃ m ∈ s.msgs, m.stage = some k) ∧ ∀ k', (∃ m ∈ s.msgs, m.stage = some k') → k' ≤ k := by
    have lt : ∀ k, (∃ m ∈ s.msgs, m.stage = some k) → k < P.stages.length := by
      rintro k ⟨m, hm, hk⟩
      have := hf m hm
      cases m <;> simp only [Msg.stage, Option.some.injEq, reduceCtorEq] at hk
      · subst hk; exact this
      · subst hk; exact this.1
    have some_k : ∃ k, ∃ m ∈ s.msgs, m.stage = some k := by
      simp only [Pool.Finished, not_forall] at hn
      obtain ⟨m, hm, hn⟩ := hn
      cases m with
      | queued k L x => exact ⟨k, _, hm, rfl⟩
      | worked w k m => exact ⟨k, _, hm, rfl⟩
      | out L x => exact absurd ⟨L, x, rfl⟩ hn
    have climb : ∀ d k, P.stages.length - k ≤ d → (∃ m ∈ s.msgs, m.stage = some k) → ∃ k, (∃ m ∈ s.msgs, m.stage = some k) ∧ ∀ k', (∃ m ∈ s.msgs, m.stage = some k') → k' ≤ k := by
      intro d
      induction d with
      | zero => intro k hd hk; have := lt k hk; omega
      | succ d ih =>
        intro k hd hk
        by_cases hall : ∀ k', (∃ m ∈ s.msgs, m.stage = some k') → k' ≤ k
        · exact ⟨k, hk, hall⟩
        · simp only [not_forall] at hall
          obtain ⟨k', hk', hlt⟩ := hall
          have := lt k' hk'
          exact ih k' (by omega) hk'
    obtain ⟨k, hk⟩ := some_k
    exact climb _ k (Nat.le_refl _) hk
  obtain ⟨k, ⟨m, hm, hk⟩, hmax⟩ := hex
  by_cases hrun : ∃ w m, Msg.worked w k m ∈ s.msgs
  · obtain ⟨w, t, ht⟩ := hrun
    have hfine := hf _ ht
    obtain ⟨j, hj⟩ := List.mem_iff_getElem?.mp ht
    cases hst : t.step s.heap with
    | crash => exact absurd ⟨w, k, t, ht, hst⟩ hcr
    | next h inc t' => exact ⟨_, .work hj hst⟩
    | finished x =>
      obtain ⟨L, x⟩ := x
      have : t = .ret (L, x) := by
        cases t <;> simp only [Mem.step] at hst <;> first | (cases hst; rfl) | cases hst | (split at hst <;> cases hst)
      subst this
      rcases Nat.lt_or_ge (k + 1) P.stages.length with h1 | h1
      · refine ⟨_, .hand hj h1 ?_⟩
        have : s.msgs.countP (Msg.waits (k + 1)) = 0 := by
          rw [List.countP_eq_zero]
          intro m' hm' hw'
          cases m' with
          | queued k' L x =>
            simp only [Msg.waits, beq_iff_eq] at hw'
            have := hmax (k + 1) ⟨_, hm', by simp [Msg.stage, hw']⟩
            omega
          | worked => simp [Msg.waits] at hw'
          | out => simp [Msg.waits] at hw'
        rw [this]; exact hc _
      · exact ⟨_, .finish hj (by have := hfine.1; omega)⟩
  · cases m with
    | out L x => simp [Msg.stage] at hk
    | worked w k' t =>
      simp only [Msg.stage, Option.some.injEq] at hk
      subst hk
      exact absurd ⟨w, t, hm⟩ hrun
    | queued k' L x =>
      simp only [Msg.stage, Option.some.injEq] at hk
      subst hk
      have hlt : k' < P.stages.length := hf _ hm
      obtain ⟨w, hw⟩ := List.mem_iff_getElem?.mp (hw k' hlt)
      obtain ⟨j, hj⟩ := List.mem_iff_getElem?.mp hm
      refine ⟨_, .take hj hw ?_ (List.getElem?_eq_getElem hlt)⟩
      rw [List.countP_eq_zero]
      intro m' hm' hw'
      cases m' with
      | worked w' k2 t =>
        simp only [Msg.with, beq_iff_eq] at hw'
        subst hw'
        have := (hf _ hm').2
        rw [hw, Option.some.injEq] at this
        subst this
        exact hrun ⟨_, _, hm'⟩
      | queued => simp [Msg.with] at hw'
      | out => simp [Msg.with] at hw'

theorem flat_start (P : Plant X) (h : Heap) (cs : Counters) (ms : List (Locals × X)) : (Pool.start h cs ms).flat P = Goro.start P.env h cs (ms.map fun m => (m.1, through P.stages m.2)) := by
  simp [Pool.flat, Pool.start, Goro.start, rest]

/-- **C76.** Stages of workers that hand events on through channels. What two messages reach is disjoint (up to values without parts, and shared events are only read), and every message can go through all stages with a single worker, without panic. Then with any number of workers per
stage, whatever the scheduler does after each single memory access, and in whatever order the channels hand out the messages: nothing panics, no two workers race, there is no deadlock, the number of steps is fixed, every message comes out with what a single worker gets for it,
and the counters are the same in the end. -/
theorem workers {P : Plant X} {h : Heap} {ms : List (Locals × X)} {cs cs' : Counters} {rs : List (Heap × Locals × X)} (hK : P.stages ≠ []) (hsep : Apart P.env h (ms.map Prod.fst))
    (hp : ∀ p ∈ P.env.pipes, p.Calls (Builtin.LeafConfig h)) (hrun : aloneAll P.env h (ms.map fun m => (m.1, through P.stages m.2)) cs = .ok (rs, cs')) :
    ∃ N, ∀ n s, Pool.Steps P n (Pool.start h cs ms) s →
      ¬ s.Crashing ∧ ¬ s.Racing ∧ n ≤ N ∧ (s.Finished ↔ n = N) ∧
      (¬ s.Finished → (∀ k, k < P.stages.length → k ∈ P.workers) → (∀ k, 0 < P.cap k) → ∃ s', Pool.Step P s s') ∧
      (∀ (i : Nat) L x, s.msgs[i]? = some (.out L x) → ∃ w M, rs[i]? = some (w, M, x) ∧ SameSight s.heap L w M) ∧
      (∀ a, P.env.Reaches h a → s.heap[a]? = h[a]?) ∧
      (s.Finished → s.counts = cs') := by
  have hsep' : Apart P.env h ((ms.map fun m => (m.1, through P.stages m.2)).map Prod.fst) := by
    rw [List.map_map]; exact hsep
  obtain ⟨N, hN⟩ := goroutines hsep' hp hrun
  refine ⟨N + 2 * P.stages.length * ms.length, fun n s hs => ?_⟩
  obtain ⟨m, h1, h2, h3, h4⟩ := pool_flat hK hs
  rw [flat_start] at h1
  obtain ⟨g1, g2, g3, g4, g5, g6, g7, g8⟩ := hN m _ h1
  have hcr : ¬ s.Crashing := by
    rintro ⟨w, k, t, ht, hst⟩
    exact g1 ⟨_, List.mem_map.mpr ⟨_, ht, rfl⟩, step_bind_crash hst _⟩
  have hfin : s.Finished → (s.flat P).Finished := by
    intro hf t ht
    simp only [Pool.flat, List.mem_map] at ht
    obtain ⟨m, hm, rfl⟩ := ht
    obtain ⟨L, x, rfl⟩ := hf m hm
    exact ⟨_, rfl⟩
  refine ⟨hcr, ?_, by omega, ⟨fun hf => ?_, fun hn => ?_⟩, fun hf hw hc => pool_progress hw hc h3 hcr hf, ?_, g7, fun hf => g8 (hfin hf)⟩
  · rintro ⟨i, j, w, k, w', k', t, t', a, b, hij, hi, hj, ha, hb⟩
    exact g2 ⟨i, j, _, _, a, b, hij, by simp only [Pool.flat, List.getElem?_map, hi, Option.map_some]; rfl, by simp only [Pool.flat, List.getElem?_map, hj, Option.map_some]; rfl, access_bind ha _, access_bind hb _⟩
  · have := ahead_out P.stages.length hf
    have := g4.mp (hfin hf)
    omega
  · exact ahead_pos h3 (by omega)
  · intro i L x hi
    exact g6 i L x (by simp only [Pool.flat, List.getElem?_map, hi, Option.map_some, rest])

end Goro
end Sawmill
