import Verif.Spec.Goro
import Verif.Lemmas.GoroSim
/-!
# C73, C74: goroutines that use the library as they like
-/

namespace Sawmill
namespace Goro
open Mem

/-- Without interruption, the goroutine's program of single memory accesses is the program of calls. -/
theorem goroutine_refines {X : Type} (env : Env) (p : Prog X) (s : State) :
    match p.run env s with
    | .panic => (p.mem env s.locals).solo s.heap = .panic
    | .ok (s', x) => ∃ incs n, (p.mem env s.locals).solo s.heap = .ok (s'.heap, incs, n, (s'.locals, x)) ∧ s'.counts = s.counts.incAll incs := by
  have := prog_runs env p s
  unfold RunsC at this
  split at this <;> simp_all

theorem ptrsSim_of_get {R : Nat → Nat → Prop} {ps qs : List Ptr} (h : PtrsSim R ps qs) {i : Nat} {p q : Ptr} (hp : ps[i]? = some p) (hq : qs[i]? = some q) : PtrSim R p q := by
  rcases ptrsSim_get h i with ⟨e1, _⟩ | ⟨p', q', e1, e2, e3⟩
  · simp [hp] at e1
  · rw [hp, Option.some.injEq] at e1
    rw [hq, Option.some.injEq] at e2
    subst e1 e2
    exact e3

theorem SameUpTo.sight {R : Nat → Nat → Prop} {h h' : Heap} {L L' : Locals} (s : SameUpTo R h L h' L') : SameSight h L h' L' := by
  refine ⟨⟨ptrsSim_length s.events, fun i e e' he he' F => ?_⟩, ptrsSim_length s.vals, fun i p p' hp hp' v => ?_⟩
  · have := ptrsSim_of_get s.events he he'
    exact ⟨holds_sim s.heaps this, holds_sim s.heaps.flip (ptrSim_flip this)⟩
  · have := ptrsSim_of_get s.vals hp hp'
    exact ⟨reads_sim s.heaps v this, reads_sim s.heaps.flip v (ptrSim_flip this)⟩

/-- The addresses of a goroutine, and the leaves. -/
def MyR (h : Heap) (L : Locals) : Nat → Nat → Prop := fun a b => a = b ∧ (L.Reaches h a ∨ h.Leaf a)

theorem myR_sim {h : Heap} {L : Locals} (hin : ∀ a, L.Reaches h a → a < h.length) : Sim (MyR h L) h h := by
  refine ⟨fun h1 h2 => h1.1.symm.trans h2.1, fun h1 h2 => h1.1.trans h2.1.symm, ?_⟩
  rintro a b ⟨rfl, hr | ⟨s, hl, _, hl1, hl2⟩⟩
  · obtain ⟨o, ho⟩ : ∃ o, h[a]? = some o := ⟨_, List.getElem?_eq_getElem (hin a hr)⟩
    obtain ⟨p, hp, hr⟩ := hr
    refine ⟨o, o, ho, ho, ?_⟩
    cases o with
    | map es => exact mapSim_self fun k b hb => ⟨rfl, .inl ⟨p, hp, .entry hr ho hb⟩⟩
    | cell c =>
      refine ⟨rfl, rfl, rfl, rfl, rfl, ?_, ?_, rfl, rfl⟩
      · cases ha : c.array with
        | none => trivial
        | some ps => exact ptrsSim_self fun b hb => ⟨rfl, .inl ⟨p, hp, .item hr ho ha hb⟩⟩
      · exact ptrSim_self fun b hb => ⟨rfl, .inl ⟨p, hp, .object hr ho hb⟩⟩
  · exact ⟨_, _, hl, hl, cellSim_self hl1 hl2⟩

/-- The zone of the shared events. -/
def zone (env : Env) (h : Heap) : Zone := ⟨h.Leaf, env.Reaches h, h⟩

theorem zone_closed (env : Env) (h : Heap) : (zone env h).Closed where
  entry := fun ⟨e, he, hr⟩ hm hk => ⟨e, he, .entry hr hm hk⟩
  item := fun ⟨e, he, hr⟩ hc ha hp => ⟨e, he, .item hr hc ha hp⟩
  object := fun ⟨e, he, hr⟩ hc ho => ⟨e, he, .object hr hc ho⟩

theorem alone_solo {X : Type} (env : Env) (h : Heap) (gs : List (Locals × Prog X)) {cs cs' : Counters} {rs : List (Heap × Locals × X)} (ha : aloneAll env h gs cs = .ok (rs, cs')) :
    ∃ l, soloAllM h (gs.map fun g => g.2.mem env g.1) = .ok (rs, l) ∧ cs' = cs.incAll l := by
  induction gs generalizing cs rs with
  | nil =>
    simp only [aloneAll, Res.ok.injEq, Prod.mk.injEq] at ha
    obtain ⟨rfl, rfl⟩ := ha
    exact ⟨[], rfl, rfl⟩
  | cons g gs ih =>
    obtain ⟨L, p⟩ := g
    have h1 := prog_runs env p ⟨h, cs, L⟩
    simp only [aloneAll] at ha
    cases hr : p.run env ⟨h, cs, L⟩ with
    | panic => simp [hr] at ha
    | ok q =>
      obtain ⟨s, x⟩ := q
      rw [hr] at h1 ha
      obtain ⟨incs, n, h1, h2⟩ := h1
      simp only at ha
      cases h3 : aloneAll env h gs s.counts with
      | panic => simp [h3] at ha
      | ok q2 =>
        obtain ⟨rs2, cs2⟩ := q2
        simp only [h3, Res.ok.injEq, Prod.mk.injEq] at ha
        obtain ⟨rfl, rfl⟩ := ha
        obtain ⟨l, h4, h5⟩ := ih h3
        refine ⟨incs ++ l, ?_, by rw [h5, h2, incAll_append]⟩
        simp only [List.map_cons, soloAllM]
        simp only at h1
        rw [h1]
        simp only [h4]

/-- **C73.** Goroutines that keep pointers and call what they like, each on its own events and values and reading the shared events; their own memory is disjoint up to values without parts. If every one of them ends when it runs alone, then whatever the scheduler does after each single
memory access: nothing crashes, no two goroutines race, the number of steps is fixed, a goroutine that has not returned can go on, and one that has returned has returned what it returns alone, and sees in its events and values what it sees then. The shared events
stay as they are, to the last address. When all have returned, the counters are those of running one after another. -/
theorem goroutines {X : Type} {env : Env} {h : Heap} {gs : List (Locals × Prog X)} {cs cs' : Counters} {rs : List (Heap × Locals × X)} (hsep : Apart env h (gs.map Prod.fst))
    (hp : ∀ p ∈ env.pipes, p.Calls (Builtin.LeafConfig h)) (hrun : aloneAll env h gs cs = .ok (rs, cs')) :
    ∃ N, ∀ n s, Shared.Steps n (start env h cs gs) s →
      ¬ s.Crashing ∧ ¬ s.Racing ∧ n ≤ N ∧ (s.Finished ↔ n = N) ∧ (¬ s.Finished → ∃ s', Shared.Step s s') ∧
      (∀ (i : Nat) L x, s.gs[i]? = some (.ret (L, x)) → ∃ w M, rs[i]? = some (w, M, x) ∧ SameSight s.heap L w M) ∧
      (∀ a, env.Reaches h a → s.heap[a]? = h[a]?) ∧
      (s.Finished → s.counts = cs') := by
  obtain ⟨l, hs, rfl⟩ := alone_solo env h gs hrun
  have hi := inv_start_any (Z := zone env h) (post := ProgSim (zone env h)) rfl hsep.sharedInside (fun a ha => ha) _ (fun i => MyR h ((gs[i]?).map Prod.fst |>.getD {})) hs ?_ ?_ cs
  · obtain ⟨N, sides, hi⟩ := hi
    refine ⟨N, fun n s hs => ?_⟩
    obtain ⟨h1, h2, h3, h4, h5, h6, h7, h8⟩ := hi.all n s hs
    refine ⟨h1, h2, h3, h4, h5, fun i L x hg => ?_, fun a ha => (h7.shared a ha).2, h8⟩
    obtain ⟨w, y, R, hr, ⟨hp, hx⟩, hsim⟩ := h6 i (L, x) hg
    obtain ⟨M, y⟩ := y
    simp only at hx hp
    subst hx
    exact ⟨w, M, hr, SameUpTo.sight ⟨hsim, hp.events, hp.vals⟩⟩
  · intro i t ht
    simp only [List.getElem?_map, Option.map_eq_some_iff] at ht
    obtain ⟨⟨L, p⟩, hg, rfl⟩ := ht
    simp only [hg, Option.map_some, Option.getD_some]
    have hmem : L ∈ gs.map Prod.fst := List.mem_map.mpr ⟨_, List.mem_iff_getElem?.mpr ⟨i, hg⟩, rfl⟩
    have hsim := myR_sim (hsep.inside L hmem)
    have mine : ∀ q a, (q ∈ L.events ∨ q ∈ L.vals) → q = some a → MyR h L a a := fun q a hq ha => ⟨rfl, .inl ⟨q, hq, .root ha⟩⟩
    have conf : ∀ b : Builtin, b.LeafConfig h → ∀ v, b.valueAddr = some v → MyR h L v v := by
      intro b hb v hv
      refine ⟨rfl, .inr ?_⟩
      cases b <;> simp only [Builtin.valueAddr, Option.some.injEq, reduceCtorEq] at hv
      subst hv
      exact leaf_of_scalar hb
    refine ⟨prog_sim (zone_closed env h) env (fun e he a ha => ⟨e, he, .root ha⟩) (fun q hq => pipeline_calls_mono conf (hp q hq)) hsim.one ⟨?_, ?_, rfl, ?_⟩ p, hsim, ?_⟩
    · exact ptrsSim_self fun a ha => mine _ a (.inl ha) rfl
    · exact ptrsSim_self fun a ha => mine _ a (.inr ha) rfl
    · rintro q hq a rfl; exact hsep.seen L hmem a hq
    · rintro a b ⟨rfl, hr | hl⟩
      · exact .inl ⟨rfl, hsep.inside L hmem a hr, fun hS => hsep.sharedApart L hmem a hr hS⟩
      · exact .inl ⟨rfl, by obtain ⟨c, hc, _⟩ := hl; exact lt_of_some hc, fun _ => hl⟩
  · intro i j t t' a b b' hij ht ht' hab hab'
    simp only [List.getElem?_map, Option.map_eq_some_iff] at ht ht'
    obtain ⟨⟨L, p⟩, hg, rfl⟩ := ht
    obtain ⟨⟨M, q⟩, hg', rfl⟩ := ht'
    simp only [hg, hg', Option.map_some, Option.getD_some] at hab hab'
    rcases hab.2 with h1 | h1
    · rcases hab'.2 with h2 | h2
      · exact hsep.apart i j L M a hij (by simp [hg]) (by simp [hg']) h1 h2
      · exact h2
    · exact h1

/-! ## C74: addresses do not matter -/

/-- Nothing is shared. -/
def noZone : Zone := ⟨fun _ => False, fun _ => False, []⟩

theorem noZone_kept (h : Heap) : noZone.Kept h := ⟨fun _ hf => hf.elim, Nat.zero_le _⟩

theorem memSim_solo {X Y : Type} {post : (Nat → Nat → Prop) → X → Y → Prop} {n : Nat} {t : Mem X} {t' : Mem Y} {R : Nat → Nat → Prop} {H h : Heap} (hm : MemSim noZone post t t' R) (hs : Sim R H h)
    {w : Heap} {l : List (Bytes × Kind)} {y : Y} (hr : t'.solo h = .ok (w, l, n, y)) :
    ∃ R' W x, t.solo H = .ok (W, l, n, x) ∧ Ext R R' ∧ Sim R' W w ∧ post R' x y := by
  induction n generalizing t t' R H h l with
  | zero =>
    cases hst : t'.step h with
    | crash => rw [solo_crash hst] at hr; cases hr
    | next h2 inc k =>
      rw [solo_next hst] at hr
      cases hk : k.solo h2 with
      | panic => simp [hk] at hr
      | ok q => simp [hk] at hr
    | finished z =>
      cases t' <;> simp only [Mem.step] at hst <;> first | cases hst | (split at hst <;> cases hst) | skip
      cases t <;> simp only [MemSim] at hm
      simp only [solo, Res.ok.injEq, Prod.mk.injEq] at hr
      obtain ⟨rfl, rfl, _, rfl⟩ := hr
      exact ⟨R, H, _, rfl, Ext.refl R, hs, hm⟩
  | succ n ih =>
    have hok : t'.solo h ≠ .panic := by simp [hr]
    cases hst : t.step H with
    | crash => exact absurd hst (memSim_safe hm hs (noZone_kept _) (noZone_kept _) hok)
    | finished z =>
      cases t <;> simp only [Mem.step] at hst <;> first | cases hst | (split at hst <;> cases hst) | skip
      cases t' <;> simp only [MemSim] at hm
      simp [solo] at hr
    | next H2 inc k =>
      obtain ⟨h2, k', R2, e1, e2, e3, e4, _⟩ := memSim_step hm hs (noZone_kept _) (noZone_kept _) (fun a b _ => .inr ⟨Nat.zero_le _, Nat.zero_le _⟩) hok (fun _ hf => hf.elim) hst
      rw [solo_next e1] at hr
      cases hk : k'.solo h2 with
      | panic => simp [hk] at hr
      | ok q =>
        obtain ⟨w2, l2, n2, y2⟩ := q
        simp only [hk, Res.map_ok, Res.ok.injEq, Prod.mk.injEq] at hr
        obtain ⟨rfl, rfl, h3, rfl⟩ := hr
        have : n2 = n := by omega
        subst this
        obtain ⟨R', W, x, f1, f2, f3, f4⟩ := ih e3 e4 hk
        refine ⟨R', W, x, ?_, e2.1.trans f2, f3, f4⟩
        rw [solo_next hst, f1]
        rfl

/-- **C74.** Where things are does not matter. A program that makes any calls, adaptively, on memories that are equal up to addresses (with the same sharing, and the same cycles): it panics in both or in neither, returns the same, counts the same, and leaves the
memories equal up to addresses again. -/
theorem addresses {X : Type} {env : Env} (hsh : env.shared = []) {R : Nat → Nat → Prop} {s s' : State} (hs : SameUpTo R s.heap s.locals s'.heap s'.locals) (hseen : s.locals.seen = [] ∧ s'.locals.seen = [])
    (hcs : s.counts = s'.counts) (hp : ∀ p ∈ env.pipes, p.Calls fun b => ∀ v, b.valueAddr = some v → R v v) (p : Prog X) :
    match p.run env s, p.run env s' with
    | .panic, .panic => True
    | .ok (t, x), .ok (t', x') => x = x' ∧ t.counts = t'.counts ∧ ∃ R', Ext R R' ∧ SameUpTo R' t.heap t.locals t'.heap t'.locals
    | _, _ => False := by
  have hZ : noZone.Closed := ⟨fun hf => hf.elim, fun hf => hf.elim, fun hf => hf.elim⟩
  have h1 := prog_runs env p s
  have h2 := prog_runs env p s'
  have hL : LocalsSim noZone R s.locals s'.locals := ⟨hs.events, hs.vals, by rw [hseen.1, hseen.2], by simp [hseen.1]⟩
  have hM : LocalsSim noZone (Flip R) s'.locals s.locals := ⟨ptrsSim_flip hs.events, ptrsSim_flip hs.vals, by rw [hseen.1, hseen.2], by simp [hseen.2]⟩
  have m1 := prog_sim hZ env (by simp [hsh]) hp hs.heaps.one hL p
  have m2 := prog_sim (R := Flip R) hZ env (by simp [hsh]) hp hs.heaps.flip.one hM p
  cases hr : p.run env s with
  | panic =>
    rw [hr] at h1
    cases hr' : p.run env s' with
    | panic => trivial
    | ok q =>
      obtain ⟨t', x'⟩ := q
      rw [hr'] at h2
      obtain ⟨incs, n, h2, _⟩ := h2
      obtain ⟨R', W, x, f1, _⟩ := memSim_solo m1 hs.heaps h2
      rw [h1] at f1
      cases f1
  | ok q =>
    obtain ⟨t, x⟩ := q
    rw [hr] at h1
    obtain ⟨incs, n, h1, h3⟩ := h1
    cases hr' : p.run env s' with
    | panic =>
      rw [hr'] at h2
      obtain ⟨R', W, x, f1, _⟩ := memSim_solo m2 hs.heaps.flip h1
      rw [h2] at f1
      cases f1
    | ok q' =>
      obtain ⟨t', x'⟩ := q'
      rw [hr'] at h2
      obtain ⟨incs', n', h2, h4⟩ := h2
      obtain ⟨R', W, y, f1, f2, f3, f4, f5⟩ := memSim_solo m1 hs.heaps h2
      rw [h1] at f1
      simp only [Res.ok.injEq, Prod.mk.injEq] at f1
      obtain ⟨rfl, rfl, _, rfl⟩ := f1
      exact ⟨f5, by rw [h3, h4, hcs], R', f2, f3, f4.events, f4.vals⟩

end Goro
end Sawmill
