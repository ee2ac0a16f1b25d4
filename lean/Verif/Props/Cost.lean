import Verif.Spec.Cost
import Verif.Lemmas.JsonDoc
import Verif.Props.Json
import Verif.Props.Path
import Verif.Model.Cli
/-!
# C102: what things take in memory
-/

namespace Sawmill
open Rfc Spec

/-! ## Sizes -/

theorem size_append (h g : Heap) : Heap.size (h ++ g) = Heap.size h + Heap.size g := by simp [Heap.size]

theorem size_alloc (h : Heap) (o : HObj) : Heap.size (h.alloc o).1 = Heap.size h + o.size := by simp [Heap.alloc, Heap.size]

theorem size_set {h : Heap} {a : Nat} {o : HObj} (hg : h[a]? = some o) (o' : HObj) : Heap.size (h.set a o') + o.size = Heap.size h + o'.size := by
  induction h generalizing a with
  | nil => simp at hg
  | cons x h ih =>
    cases a with
    | zero => simp at hg; subst hg; simp [Heap.size]; omega
    | succ a => have := ih (a := a) (by simpa using hg); simp [Heap.size] at this ⊢; omega

theorem insert_count (es : AMap Ptr) (k : Bytes) (p : Ptr) : (es.insert k p).length ≤ es.length + 1 := by
  induction es with
  | nil => simp [AMap.insert]
  | cons e es ih =>
    obtain ⟨k', v'⟩ := e
    simp only [AMap.insert]
    split
    · simp
    · split <;> simp; omega

theorem erase_count (es : AMap Ptr) (k : Bytes) : (es.erase k).length ≤ es.length := by
  induction es with
  | nil => simp [AMap.erase]
  | cons e es ih =>
    obtain ⟨k', v'⟩ := e
    simp only [AMap.erase]
    split
    · simp; omega
    · simp; omega

theorem mapWrite_cost {h h' : Heap} {m : Option Nat} {k : Bytes} {p : Ptr} (hw : mapWrite h m k p = .ok h') : h'.size ≤ h.size + 1 := by
  cases m with
  | none => simp [mapWrite] at hw
  | some m =>
    simp only [mapWrite] at hw
    split at hw
    · rename_i es he
      cases hw
      have := size_set he (.map (es.insert k p))
      have := insert_count es k p
      simp only [HObj.size] at *
      omega
    · simp at hw

theorem mapDelete_cost (h : Heap) (m : Option Nat) (k : Bytes) : (mapDelete h m k).size ≤ h.size := by
  cases m with
  | none => simp [mapDelete]
  | some m =>
    simp only [mapDelete]
    split
    · rename_i es he
      have := size_set he (.map (es.erase k))
      have := erase_count es k
      simp only [HObj.size] at *
      omega
    · omega

/-! ## The event API -/

theorem get_cost {h h' : Heap} {e : Event} {path : List Bytes} {p : Ptr} (hg : get h e path = .ok (h', p)) : h'.size ≤ h.size + 1 ∧ (path ≠ [] → h' = h) := by
  unfold get at hg
  split at hg
  · cases hg; exact ⟨by omega, fun _ => rfl⟩
  · split at hg
    · cases hg
      exact ⟨by simp [size_append, Heap.size, HObj.size, objCell], fun hp => absurd rfl hp⟩
    · cases hl : getLoop h e path with
      | panic => simp [hl, Res.map] at hg
      | ok q => simp only [hl, Res.map, Res.ok.injEq, Prod.mk.injEq] at hg; exact ⟨by rw [hg.1]; omega, fun _ => hg.1.symm⟩

theorem putLoop_cost : ∀ (path : List Bytes) {h h' : Heap} {m : Option Nat} {v : Ptr} {b : Bool}, putLoop h m path v = .ok (h', b) → h'.size + 2 ≤ h.size + 3 * path.length ∨ (path = [] ∧ h' = h) ∨ h'.size + 3 ≤ h.size + 3 * path.length
  | [], h, h', m, v, b, hp => by simp only [putLoop, Res.ok.injEq, Prod.mk.injEq] at hp; exact .inr (.inl ⟨rfl, hp.1.symm⟩)
  | [last], h, h', m, v, b, hp => by
    simp only [putLoop] at hp
    cases hw : mapWrite h m last v with
    | panic => simp [hw, Res.map] at hp
    | ok g =>
      simp only [hw, Res.map, Res.ok.injEq, Prod.mk.injEq] at hp
      have := mapWrite_cost hw
      rw [← hp.1]; left; simp; omega
  | key :: k2 :: rest, h, h', m, v, b, hp => by
    have ih := @putLoop_cost (k2 :: rest)
    simp only [putLoop] at hp
    split at hp
    · split at hp
      · simp at hp
      · rename_i c _
        split at hp
        · simp only [Res.ok.injEq, Prod.mk.injEq] at hp; rw [← hp.1]; right; right; simp; omega
        · have := ih hp
          simp at this ⊢; omega
    · split at hp
      · simp at hp
      · rename_i h3 hw
        have h1 := ih hp
        have h2 := mapWrite_cost hw
        simp [Heap.alloc, size_append] at h2
        simp [Heap.size, HObj.size, objCell] at h1 h2 ⊢
        omega

theorem put_cost_some {g h' : Heap} {m : Nat} {e' : Event} {path : List Bytes} {v old : Ptr} {ow : Bool} {err : Option PutErr} (hp : put g (some m) path v ow = .ok (h', e', old, err)) :
    h'.size ≤ g.size + (3 * path.length - 1) ∧ (path ≠ [] → h'.size + 2 ≤ g.size + 3 * path.length) := by
  have hlen : path ≠ [] → 1 ≤ path.length := fun h => by cases path with | nil => exact absurd rfl h | cons => simp
  suffices hh : h' = g ∨ (path ≠ [] ∧ h'.size + 2 ≤ g.size + 3 * path.length) by
    rcases hh with hh | ⟨hh, hk⟩
    · subst hh; exact ⟨by omega, fun hne => by have := hlen hne; omega⟩
    · exact ⟨by omega, fun _ => hk⟩
  unfold put at hp
  split at hp
  · simp only [Res.ok.injEq, Prod.mk.injEq] at hp; exact .inl hp.1.symm
  · rename_i hpath
    split at hp
    · simp only [Res.ok.injEq, Prod.mk.injEq] at hp; exact .inl hp.1.symm
    · have hne : path ≠ [] := by intro hh; simp [hh] at hpath
      have hl1 := hlen hne
      simp only at hp
      cases hg : get g (some m) path with
      | panic => simp [hg] at hp
      | ok r =>
        obtain ⟨g', old'⟩ := r
        have hgg := (get_cost hg).2 hne; subst hgg
        simp only [hg] at hp
        split at hp
        · simp only [Res.ok.injEq, Prod.mk.injEq] at hp; exact .inl hp.1.symm
        · right
          split at hp
          · simp at hp
          all_goals
            rename_i h1 hl
            simp only [Res.ok.injEq, Prod.mk.injEq] at hp
            have := putLoop_cost path hl
            rw [← hp.1]
            rcases this with h | ⟨h, _⟩ | h
            · exact ⟨hne, by omega⟩
            · exact absurd h hne
            · exact ⟨hne, by omega⟩

theorem put_cost {h h' : Heap} {e e' : Event} {path : List Bytes} {v old : Ptr} {ow : Bool} {err : Option PutErr} (hp : put h e path v ow = .ok (h', e', old, err)) : h'.size ≤ h.size + (3 * path.length - 1) := by
  cases e with
  | some m => exact (put_cost_some hp).1
  | none =>
    by_cases hpath : path = []
    · subst hpath; simp [put] at hp; rw [← hp.1]; simp
    · have : put h none path v ow = put (h.alloc (.map [])).1 (some (h.alloc (.map [])).2) path v ow ∨ h' = h := by
        by_cases hv : v = none
        · right; simp [put, hpath, hv] at hp; exact hp.1.symm
        · left; simp [put, hpath, hv]
      rcases this with h1 | h1
      · rw [h1] at hp
        have := (put_cost_some hp).2 hpath
        simp [Heap.alloc, size_append] at this
        simp [Heap.size, HObj.size] at this ⊢
        omega
      · subst h1; omega

/-- **C102.** `Get` takes at most one (and only for the whole event), `Delete` nothing, `Put` and `TryPut` at most three for each name of the key (less one), whatever is in memory. (`cost_sharp`: no less will do.) -/
theorem api_cost {h h' : Heap} {e e' : Event} {key : Bytes} {v p : Ptr} {err : Option PutErr} :
    (apiGet h e key = .ok (h', p) → h'.size ≤ h.size + 1 ∧ (keyToPath key ≠ [] → h' = h)) ∧ (apiDelete h e key = .ok (h', p) → h'.size ≤ h.size) ∧
    (apiPut h e key v = .ok (h', e', p, err) → h'.size ≤ h.size + (3 * nameCount key - 1)) ∧ (apiTryPut h e key v = .ok (h', e', p, err) → h'.size ≤ h.size + (3 * nameCount key - 1)) := by
  refine ⟨get_cost, ?_, put_cost, put_cost⟩
  intro hd
  unfold apiDelete delete at hd
  split at hd
  · cases hd; omega
  · rename_i first rest hpath
    split at hd
    · cases hd; omega
    · split at hd
      · simp at hd
      · rename_i g w hg
        have hgg := (get_cost hg).2 (by rw [hpath]; simp)
        subst hgg
        split at hd
        · cases hd; exact mapDelete_cost _ _ _
        · cases hd; omega

/-! ## Processors -/

theorem putThen_cost {h h' : Heap} {e e' : Event} {key : Bytes} {v : Ptr} {err : Option Err} (hp : putThen h e key v = .ok (h', e', err)) : h'.size ≤ h.size + 3 * nameCount key := by
  unfold putThen at hp
  cases hq : apiPut h e key v with
  | panic => simp [hq, Res.map] at hp
  | ok r =>
    obtain ⟨g, f, o, er⟩ := r
    simp only [hq, Res.map, Res.ok.injEq, Prod.mk.injEq] at hp
    have := (api_cost (h := h) (h' := g) (e := e) (e' := f) (key := key) (v := v) (p := o) (err := er)).2.2.1 hq
    rw [← hp.1]; omega

theorem appendTo_cost {h h' : Heap} {a : Nat} {ps : List Ptr} (hp : appendTo h a ps = .ok h') : h'.size ≤ h.size + ps.length := by
  unfold appendTo at hp
  split at hp
  · simp at hp
  · rename_i c hc
    cases hp
    have hh : h[a]? = some (.cell c) := by
      simp only [deref] at hc
      split at hc <;> simp_all
    have := size_set hh (.cell { c with array := some (c.array.getD [] ++ ps) })
    simp [HObj.size] at this ⊢
    omega

theorem conv_cost {conv : Bytes → Bytes} {msg field target : Bytes} {h h' : Heap} {e e' : Event} {err : Option Err} (hs : convProcess conv msg field target h e = .ok (h', e', err)) :
    h'.size ≤ h.size + (2 + 3 * nameCount (if target ≠ [] then target else field)) := by
  unfold convProcess at hs
  split at hs
  · simp at hs
  · rename_i g hg
    simp only [Res.ok.injEq, Prod.mk.injEq] at hs
    have := (get_cost hg).1
    rw [← hs.1]; omega
  · rename_i g a hg
    have h1 := (get_cost hg).1
    split at hs
    · simp at hs
    · split at hs
      · simp only [Res.ok.injEq, Prod.mk.injEq] at hs; rw [← hs.1]; omega
      · have := putThen_cost hs
        simp [Heap.alloc, size_append] at this
        simp [Heap.size, HObj.size, strCell] at this h1 ⊢
        omega

theorem step_cost {cv : Conv} {b : Builtin} {h h' : Heap} {e e' : Event} {err : Option Err} (hs : b.step cv h e = .ok (h', e', err)) : h'.size ≤ h.size + b.allowance := by
  cases b with
  | lowercase field target => exact conv_cost hs
  | uppercase field target => exact conv_cost hs
  | remove fs => simp only [Builtin.step, removeProcess, Res.ok.injEq, Prod.mk.injEq] at hs; rw [← hs.1]; simp
  | communityId => simp only [Builtin.step, communityIdProcess, Res.ok.injEq, Prod.mk.injEq] at hs; rw [← hs.1]; simp
  | set value copyFrom target =>
    simp only [Builtin.step, setProcess] at hs
    simp only [Builtin.allowance]
    split at hs
    · simp at hs
    · split at hs
      · have := putThen_cost hs; omega
      · split at hs
        · split at hs
          · simp at hs
          · rename_i g hg
            simp only [Res.ok.injEq, Prod.mk.injEq] at hs
            have := (get_cost hg).1
            rw [← hs.1]; omega
          · rename_i g a hg
            have := (get_cost hg).1
            have := putThen_cost hs
            omega
        · have := putThen_cost hs; omega
  | append field value dup =>
    simp only [Builtin.step, appendProcess] at hs
    simp only [Builtin.allowance]
    split at hs
    · simp at hs
    · rename_i g hg
      have h1 := (get_cost hg).1
      split at hs
      · simp at hs
      · rename_i g2 f _ _ hp
        have h2 := (api_cost.2.2.1 hp)
        cases ha : appendTo (g2.alloc (.cell (strCell value))).1 (g.alloc (.cell (arrCell none))).2 [some (g2.alloc (.cell (strCell value))).2] with
        | panic => simp only [ha, Res.map] at hs; simp at hs
        | ok g3 =>
          simp only [ha, Res.map, Res.ok.injEq, Prod.mk.injEq] at hs
          have h3 := appendTo_cost ha
          rw [← hs.1]
          simp [Heap.alloc, size_append] at h2 h3
          simp [Heap.size, HObj.size, strCell, arrCell] at h1 h2 h3 ⊢
          omega
    · rename_i g a hg
      have h1 := (get_cost hg).1
      split at hs
      · simp at hs
      · rename_i c hc
        split at hs
        · cases ha : appendTo ((g.alloc (.cell (arrCell (some [some a])))).1.alloc (.cell (strCell value))).1 (g.alloc (.cell (arrCell (some [some a])))).2 [some ((g.alloc (.cell (arrCell (some [some a])))).1.alloc (.cell (strCell value))).2] with
          | panic => simp only [ha, Res.map] at hs; simp at hs
          | ok g3 =>
            simp only [ha, Res.map, Res.ok.injEq, Prod.mk.injEq] at hs
            have h3 := appendTo_cost ha
            rw [← hs.1]
            simp [Heap.alloc, size_append] at h3
            simp [Heap.size, HObj.size, strCell, arrCell] at h1 h3 ⊢
            omega
        · split at hs
          · simp only [Res.ok.injEq, Prod.mk.injEq] at hs; rw [← hs.1]; omega
          · cases ha : appendTo (g.alloc (.cell (strCell value))).1 a [some (g.alloc (.cell (strCell value))).2] with
            | panic => simp only [ha, Res.map] at hs; simp at hs
            | ok g3 =>
              simp only [ha, Res.map, Res.ok.injEq, Prod.mk.injEq] at hs
              have h3 := appendTo_cost ha
              rw [← hs.1]
              simp [Heap.alloc, size_append] at h3
              simp [Heap.size, HObj.size, strCell, arrCell] at h1 h3 ⊢
              omega


/-! ## Pipelines -/

theorem run_cost {cv : Conv} {b : Builtin} {ev ev' : PEvent Unit} {w w' : Heap × Event} {err : Option Err} (h : b.prog.run (builtinCall cv) ev w = .ok (ev', w', err)) : w'.1.size ≤ w.1.size + b.allowance := by
  simp only [Builtin.prog, Prog.run, builtinCall] at h
  cases hs : b.step cv w.1 w.2 with
  | panic => simp [hs, Res.map] at h
  | ok r =>
    obtain ⟨h', e', er⟩ := r
    simp only [hs, Res.map, Res.ok.injEq, Prod.mk.injEq] at h
    have := step_cost hs
    rw [← h.2.1]; exact this

mutual
theorem node_cost {cv : Conv} : ∀ {n : Node Builtin (Option Err)} {bs : List Builtin} {s s' : PState Unit (Heap × Event)} {e : Option Err}, n.Uses bs → n.process (builtinCall cv) s = .ok (s', e) →
    s'.world.1.size ≤ s.world.1.size + (bs.map Builtin.allowance).sum
  | .mk id c ignF ignM onF proc, bs, s, s', e, hu, h => by
    simp only [Node.Uses] at hu
    obtain ⟨b, rest, hb, hbs, hr⟩ := hu
    subst hb; subst hbs
    have ih := fun {s s' : PState Unit (Heap × Event)} {e0 e : Option Err} => nodes_cost (cv := cv) (ns := onF) (bs := rest) (s := s) (s' := s') (e0 := e0) (e := e) hr
    simp only [Node.process] at h
    simp only [List.map_cons, List.sum_cons]
    split at h
    · simp at h
    · rename_i ev w hrun
      have := run_cost hrun
      simp only [Res.ok.injEq, Prod.mk.injEq] at h
      rw [← h.1]; simp only [PState.inc, PState.note] at this ⊢; omega
    · rename_i ev w err hrun
      have := run_cost hrun
      split at h
      · simp only [Res.ok.injEq, Prod.mk.injEq] at h
        rw [← h.1]; simp only [PState.inc, PState.note] at this ⊢; omega
      · split at h
        · simp only [Res.ok.injEq, Prod.mk.injEq] at h
          rw [← h.1]; simp only [PState.inc, PState.note] at this ⊢; omega
        · split at h
          · simp at h
          · rename_i s2 err' hall
            have h2 := ih hall
            split at h <;>
            · simp only [Res.ok.injEq, Prod.mk.injEq] at h
              rw [← h.1]; simp only [PState.inc, PState.note] at this h2 ⊢; omega
theorem nodes_cost {cv : Conv} : ∀ {ns : List (Node Builtin (Option Err))} {bs : List Builtin} {s s' : PState Unit (Heap × Event)} {e0 e : Option Err}, Node.UsesAll ns bs → Node.processAll (builtinCall cv) ns s e0 = .ok (s', e) →
    s'.world.1.size ≤ s.world.1.size + (bs.map Builtin.allowance).sum
  | [], bs, s, s', e0, e, hu, h => by
    simp only [Node.processAll, Res.ok.injEq, Prod.mk.injEq] at h; rw [← h.1]; omega
  | n :: ns, bs, s, s', e0, e, hu, h => by
    simp only [Node.UsesAll] at hu
    obtain ⟨l, r, hbs, hl, hr⟩ := hu
    subst hbs
    have ih1 := fun {s s' : PState Unit (Heap × Event)} {e : Option Err} => node_cost (cv := cv) (n := n) (bs := l) (s := s) (s' := s') (e := e) hl
    have ih2 := fun {s s' : PState Unit (Heap × Event)} {e0 e : Option Err} => nodes_cost (cv := cv) (ns := ns) (bs := r) (s := s) (s' := s') (e0 := e0) (e := e) hr
    simp only [Node.processAll] at h
    simp only [List.map_append, List.sum_append]
    split at h
    · simp at h
    · rename_i s1 err hp
      have := ih1 hp
      simp only [Res.ok.injEq, Prod.mk.injEq] at h
      rw [← h.1]; omega
    · rename_i s1 hp
      have := ih1 hp
      have := ih2 h
      omega
end

/-- **C102.** Processing an event takes no more than the sum of what the pipeline's processors may take, whatever the event holds and whatever happens on the way: the bound depends on the configuration alone. -/
theorem process_cost {cv : Conv} {p : Pipeline Builtin (Option Err)} {bs : List Builtin} (hu : p.Uses bs) {w w' : PWorld (Heap × Event)} {o : Option Unit} {e : Option Err}
    (h : p.process (builtinCall cv) () w = .ok (w', o, e)) : w'.world.1.size ≤ w.world.1.size + (bs.map Builtin.allowance).sum := by
  obtain ⟨l, r, hbs, hl, hr⟩ := hu
  subst hbs
  unfold Pipeline.process at h
  have key : ∀ {s s' : PState Unit (Heap × Event)} {e : Option Err}, p.run (builtinCall cv) s = .ok (s', e) → s'.world.1.size ≤ s.world.1.size + ((l ++ r).map Builtin.allowance).sum := by
    intro s s' e hrun
    simp only [List.map_append, List.sum_append]
    unfold Pipeline.run at hrun
    split at hrun
    · simp at hrun
    · rename_i s1 h1
      have := nodes_cost hl h1
      simp only [Res.ok.injEq, Prod.mk.injEq] at hrun
      rw [← hrun.1]; omega
    · rename_i s1 er h1
      have := nodes_cost hl h1
      split at hrun
      · have := nodes_cost hr hrun; omega
      · simp only [Res.ok.injEq, Prod.mk.injEq] at hrun
        rw [← hrun.1]; omega
  split at h
  · simp at h
  · rename_i s er hrun
    have := key hrun
    simp only [Res.ok.injEq, Prod.mk.injEq] at h
    rw [← h.1]; exact this
  · rename_i s hrun
    have := key hrun
    split at h <;>
    · simp only [Res.ok.injEq, Prod.mk.injEq] at h
      rw [← h.1]; exact this

/-! ## Decoding -/

mutual
def jcost : Json → Nat
  | .null => 0
  | .bool _ => 1
  | .num _ => 1
  | .str _ => 1
  | .arr js => 1 + jcostL js
  | .obj es => 2 + jcostE es
def jcostL : List Json → Nat
  | [] => 0
  | j :: js => 1 + jcost j + jcostL js
def jcostE : List (Bytes × Json) → Nat
  | [] => 0
  | (_, j) :: es => 1 + jcost j + jcostE es
end

mutual
theorem ptr_cost {env : JEnv} : ∀ (j : Json) {h h' : Heap} {p : Ptr}, decodePtr env j h = some (h', p) → h'.size ≤ h.size + jcost j
  | .null, h, h', p, hd => by simp only [decodePtr, Option.some.injEq, Prod.mk.injEq] at hd; rw [← hd.1]; omega
  | .bool b, h, h', p, hd => by simp only [decodePtr, Option.some.injEq, Prod.mk.injEq] at hd; rw [← hd.1]; simp [jcost, Heap.size, HObj.size, boolCell]
  | .num t, h, h', p, hd => by
    simp only [decodePtr] at hd
    split at hd
    · simp at hd
    · simp only [Option.some.injEq, Prod.mk.injEq] at hd; rw [← hd.1]; simp [jcost, Heap.size, HObj.size, floatCell]
  | .str b, h, h', p, hd => by simp only [decodePtr, Option.some.injEq, Prod.mk.injEq] at hd; rw [← hd.1]; simp [jcost, Heap.size, HObj.size, strCell]
  | .arr js, h, h', p, hd => by
    have ih := @items_cost env js
    simp only [decodePtr] at hd
    split at hd
    · simp at hd
    · rename_i g ps hg
      have := ih hg
      simp only [Option.some.injEq, Prod.mk.injEq] at hd; rw [← hd.1, size_append]
      simp [jcost, Heap.size, HObj.size, arrCell] at this ⊢; omega
  | .obj es, h, h', p, hd => by
    have ih := @entries_cost env es
    simp only [decodePtr] at hd
    split at hd
    · simp at hd
    · rename_i g hg
      have := ih hg
      simp only [Option.some.injEq, Prod.mk.injEq] at hd; rw [← hd.1, size_append]
      rw [size_append] at this
      simp [jcost, Heap.size, HObj.size, objCell] at this ⊢; omega
theorem items_cost {env : JEnv} : ∀ (js : List Json) {h h' : Heap} {ps : List Ptr}, decodeItems env js h = some (h', ps) → h'.size + ps.length ≤ h.size + jcostL js
  | [], h, h', p, hd => by simp only [decodeItems, Option.some.injEq, Prod.mk.injEq] at hd; rw [← hd.1, ← hd.2]; simp
  | j :: js, h, h', ps, hd => by
    have ih1 := @ptr_cost env j
    have ih2 := @items_cost env js
    simp only [decodeItems] at hd
    split at hd
    · simp at hd
    · rename_i g q hg
      have := ih1 hg
      split at hd
      · simp at hd
      · rename_i g2 qs hg2
        have := ih2 hg2
        simp only [Option.some.injEq, Prod.mk.injEq] at hd
        rw [← hd.1, ← hd.2]; simp [jcostL]; omega
theorem entries_cost {env : JEnv} : ∀ (es : List (Bytes × Json)) {m : Nat} {h h' : Heap}, decodeEntries env m es h = some h' → h'.size ≤ h.size + jcostE es
  | [], m, h, h', hd => by simp only [decodeEntries, Option.some.injEq] at hd; rw [← hd]; simp
  | (k, j) :: es, m, h, h', hd => by
    have ih1 := @ptr_cost env j
    have ih2 := @entries_cost env es
    simp only [decodeEntries] at hd
    split at hd
    · simp at hd
    · rename_i g q hg
      have := ih1 hg
      split at hd
      · simp at hd
      · rename_i g2 hw
        have := mapWrite_cost hw
        have := ih2 hd
        simp [jcostE]; omega
end

mutual
theorem text_cost : ∀ (j : Json) {t : Bytes}, Text j t → jcost j ≤ t.length
  | .null, t, h => by simp [jcost]
  | .bool b, t, h => by simp only [Text] at h; subst h; cases b <;> decide
  | .num n, t, h => by
    simp only [Text] at h
    obtain ⟨h1, sg, i, f, x, h2, _, hi, _, _⟩ := h
    rw [h1, h2]
    have : 1 ≤ i.length := by
      rcases hi with hi | ⟨hi, _⟩
      · simp [hi]
      · have := hi.1; cases i with | nil => exact absurd rfl this | cons => simp
    simp [jcost]; omega
  | .str s, t, h => by simp only [Text] at h; obtain ⟨u, h1, _⟩ := h; subst h1; simp [jcost]
  | .arr [], t, h => by simp only [Text] at h; obtain ⟨u, h1, _⟩ := h; subst h1; simp [jcost, jcostL]
  | .arr (j :: js), t, h => by
    have ih1 := @text_cost j
    have ih2 := @textL_cost js
    simp only [Text] at h
    obtain ⟨w, u, w', r, h1, _, _, h2, h3⟩ := h
    have := ih1 h2; have := ih2 h3
    subst h1; simp [jcost, jcostL]; omega
  | .obj [], t, h => by simp only [Text] at h; obtain ⟨u, h1, _⟩ := h; subst h1; simp [jcost, jcostE]
  | .obj ((k, j) :: es), t, h => by
    have ih1 := @text_cost j
    have ih2 := @textE_cost es
    simp only [Text] at h
    obtain ⟨w, q, w1, w2, u, w3, r, h1, _, _, _, _, _, h2, h3⟩ := h
    have := ih1 h2; have := ih2 h3
    subst h1; simp [jcost, jcostE]; omega
theorem textL_cost : ∀ (js : List Json) {t : Bytes}, TextItems js t → jcostL js ≤ t.length
  | [], t, h => by simp [jcostL]
  | j :: js, t, h => by
    have ih1 := @text_cost j
    have ih2 := @textL_cost js
    simp only [TextItems] at h
    obtain ⟨w, u, w', r, h1, _, _, h2, h3⟩ := h
    have := ih1 h2; have := ih2 h3
    subst h1; simp [jcostL]; omega
theorem textE_cost : ∀ (es : List (Bytes × Json)) {t : Bytes}, TextEntries es t → jcostE es ≤ t.length
  | [], t, h => by simp [jcostE]
  | (k, j) :: es, t, h => by
    have ih1 := @text_cost j
    have ih2 := @textE_cost es
    simp only [TextEntries] at h
    obtain ⟨w, q, w1, w2, u, w3, r, h1, _, _, _, _, _, h2, h3⟩ := h
    have := ih1 h2; have := ih2 h3
    subst h1; simp [jcostE]; omega
end

/-- **C102.** Decoding a JSON text takes at most one for each byte of the text. -/
theorem json_cost {env : JEnv} {t : Bytes} {h h' : Heap} {e : Event} (hd : unmarshalEvent env t h = some (h', e)) : h'.size ≤ h.size + t.length := by
  unfold unmarshalEvent at hd
  split at hd
  · simp only [Option.some.injEq, Prod.mk.injEq] at hd; rw [← hd.1]; omega
  · rename_i es hp
    obtain ⟨⟨w, u, w', ht, _, _, hx⟩, _⟩ := parseDoc_iff.mp hp
    have h1 := text_cost _ hx
    cases hde : decodeEntries env h.length es (h ++ [.map []]) with
    | none => simp [hde] at hd
    | some g =>
      simp only [hde, Option.map_some, Option.some.injEq, Prod.mk.injEq] at hd
      have := entries_cost es hde
      rw [size_append] at this
      rw [← hd.1, ht]
      simp [Heap.size, HObj.size, jcost] at this h1 ⊢; omega
  · simp at hd


/-! ## Copies of copies -/

theorem growName_path (i : Nat) : keyToPath (growName i) = [growName i] := by
  have h := keyToPath_joinKey [growName i] (by intro n hn; simp at hn; subst hn; simp [Spec.GoodName, growName, bsl])
  have hd : dot ∉ growName i := by simp [growName, dot]
  simpa [Spec.joinKey, escapeKey, hd] using h

theorem grow_path (i : Nat) (c : UInt8) (h1 : keyToPath [c] = [[c]]) : keyToPath (growName i ++ 46 :: [c]) = [growName i, [c]] := by
  have := keyToPath_split (growName i) [c] (by simp [growName, List.getLast?_replicate, bsl])
  rw [show dot = (46 : UInt8) from rfl] at this
  rw [this, growName_path, h1]; rfl

def growPtr : Nat → Ptr
  | 0 => some 1
  | n + 1 => some (4 + 2 * n)

def growEnts : Nat → AMap Ptr
  | 0 => [(growName 0, growPtr 0)]
  | n + 1 => growEnts n ++ [(growName (n + 1), growPtr (n + 1))]

def growBlocks : Nat → Heap
  | 0 => []
  | n + 1 => growBlocks n ++ [.map [([108], growPtr n), ([114], growPtr n)], .cell (objCell (some (3 + 2 * n)))]

def growHeap (s : Bytes) (n : Nat) : Heap := .map (growEnts n) :: .cell (strCell s) :: .cell nullCell :: growBlocks n

theorem growBlocks_length (n : Nat) : (growBlocks n).length = 2 * n := by
  induction n with
  | zero => rfl
  | succ n ih => simp [growBlocks, ih]; omega

theorem growName_inj {i j : Nat} (h : growName i = growName j) : i = j := by
  have := congrArg List.length h; simp [growName] at this; exact this

theorem growEnts_lookup (n i : Nat) : AMap.lookup (growEnts n) (growName i) = if i ≤ n then some (growPtr i) else none := by
  have happ : ∀ (a b : AMap Ptr) (k : Bytes), AMap.lookup (a ++ b) k = (AMap.lookup a k).or (AMap.lookup b k) := by
    intro a b k
    induction a with
    | nil => rfl
    | cons x a ih => obtain ⟨k', v⟩ := x; simp only [List.cons_append, AMap.lookup_cons, ih]; split <;> rfl
  induction n with
  | zero =>
    simp only [growEnts, AMap.lookup_cons, AMap.lookup_nil]
    by_cases hi : i = 0
    · subst hi; simp
    · rw [if_neg (fun h => hi (growName_inj h).symm), if_neg (by omega)]
  | succ n ih =>
    simp only [growEnts, happ, ih, AMap.lookup_cons, AMap.lookup_nil]
    by_cases hi : i ≤ n
    · simp [hi, show i ≤ n + 1 by omega]
    · by_cases h2 : i = n + 1
      · subst h2; rw [if_neg hi]; simp
      · rw [if_neg hi, if_neg (fun h => h2 (growName_inj h).symm), if_neg (by omega)]; rfl

theorem growName_lt {i j : Nat} (h : i < j) : bLt (growName j) (growName i) = false := by
  induction i generalizing j with
  | zero => obtain ⟨j, rfl⟩ : ∃ k, j = k + 1 := ⟨j - 1, by omega⟩; simp [growName, List.replicate_succ, bLt]
  | succ i ih =>
    obtain ⟨j, rfl⟩ : ∃ k, j = k + 1 := ⟨j - 1, by omega⟩
    have := ih (j := j) (by omega)
    simp only [growName, List.replicate_succ, bLt] at this ⊢
    simpa using this

theorem growEnts_keys (n : Nat) : ∀ e ∈ growEnts n, ∃ i, i ≤ n ∧ e.1 = growName i := by
  induction n with
  | zero => intro e he; simp [growEnts] at he; subst he; exact ⟨0, by omega, rfl⟩
  | succ n ih =>
    intro e he
    simp only [growEnts, List.mem_append, List.mem_singleton] at he
    rcases he with he | he
    · obtain ⟨i, hi, h⟩ := ih e he; exact ⟨i, by omega, h⟩
    · subst he; exact ⟨n + 1, by omega, rfl⟩

theorem growEnts_insert (n : Nat) (p : Ptr) : AMap.insert (growEnts n) (growName (n + 1)) p = growEnts n ++ [(growName (n + 1), p)] := by
  have : ∀ (m : AMap Ptr), (∀ e ∈ m, ∃ i, i ≤ n ∧ e.1 = growName i) → AMap.insert m (growName (n + 1)) p = m ++ [(growName (n + 1), p)] := by
    intro m hm
    induction m with
    | nil => rfl
    | cons x m ih =>
      obtain ⟨k, v⟩ := x
      obtain ⟨i, hi, hk⟩ := hm (k, v) (by simp)
      simp only at hk; subst hk
      simp only [AMap.insert]
      rw [if_neg (fun h => by have := growName_inj h; omega), growName_lt (by omega), ih (fun e he => hm e (by simp [he]))]
      simp
  exact this _ (growEnts_keys n)

theorem growEnts_ne (n : Nat) : (growEnts n).length ≠ 0 := by cases n <;> simp [growEnts]

/-- One pair of processors. -/
theorem grow_left (s : Bytes) (n : Nat) : setProcess 2 (growName n) (growName (n + 1) ++ lit ".l") (growHeap s n) (some 0) =
    .ok (.map (growEnts (n + 1)) :: .cell (strCell s) :: .cell nullCell :: (growBlocks n ++ [.map [([108], growPtr n)], .cell (objCell (some (3 + 2 * n)))]), some 0, none) := by
  have hp : ∃ a, growPtr n = some a := by cases n <;> exact ⟨_, rfl⟩
  obtain ⟨a, ha⟩ := hp
  have hl := growBlocks_length n
  have he := growEnts_ne n
  have hname : growName n ≠ [] := by simp [growName]
  have hpath : keyToPath (growName (n + 1) ++ lit ".l") = [growName (n + 1), [108]] := by
    rw [show lit ".l" = [46, 108] by decide]; exact grow_path _ _ (by decide)
  have hm : mapOf (growHeap s n) (some 0) = growEnts n := rfl
  have hget : apiGet (growHeap s n) (some 0) (growName n) = .ok (growHeap s n, some a) := by
    simp [apiGet, get, hm, he, growName_path, getLoop, growEnts_lookup, ha, Res.map]
  have hlk : AMap.lookup (growEnts n) (growName (n + 1)) = none := by rw [growEnts_lookup, if_neg (by omega)]
  have hget2 : get (growHeap s n) (some 0) [growName (n + 1), [108]] = .ok (growHeap s n, none) := by
    simp [get, hm, he, getLoop, hlk, Res.map]
  have hd : deref (growHeap s n) (some 2) = some nullCell := rfl
  have hput : putLoop (growHeap s n) (some 0) [growName (n + 1), [108]] (some a) =
      .ok (.map (growEnts (n + 1)) :: .cell (strCell s) :: .cell nullCell :: (growBlocks n ++ [.map [([108], growPtr n)], .cell (objCell (some (3 + 2 * n)))]), true) := by
    simp only [putLoop, hm, hlk]
    simp [Heap.alloc, mapWrite, growHeap, hl, growEnts_insert, Res.map, growEnts, growPtr, ha, AMap.insert]
    refine ⟨by omega, ha.symm, ?_⟩
    rw [show 2 * n + 1 + 1 + 1 = 3 + 2 * n by omega]
  have hty : nullCell.type = .null := rfl
  simp only [setProcess, hd, hty, ne_eq, not_true_eq_false, if_false, hname, not_false_eq_true, if_true, hget]
  simp only [putThen, apiPut, hpath, put, hget2, hput]
  simp [Res.map]

theorem grow_right (s : Bytes) (n : Nat) :
    setProcess 2 (growName n) (growName (n + 1) ++ lit ".r") (.map (growEnts (n + 1)) :: .cell (strCell s) :: .cell nullCell :: (growBlocks n ++ [.map [([108], growPtr n)], .cell (objCell (some (3 + 2 * n)))])) (some 0) =
    .ok (growHeap s (n + 1), some 0, none) := by
  have hp : ∃ a, growPtr n = some a := by cases n <;> exact ⟨_, rfl⟩
  obtain ⟨a, ha⟩ := hp
  have hl := growBlocks_length n
  have he := growEnts_ne (n + 1)
  have hname : growName n ≠ [] := by simp [growName]
  have hpath : keyToPath (growName (n + 1) ++ lit ".r") = [growName (n + 1), [114]] := by
    rw [show lit ".r" = [46, 114] by decide]; exact grow_path _ _ (by decide)
  generalize hH : (HObj.map (growEnts (n + 1)) :: .cell (strCell s) :: .cell nullCell :: (growBlocks n ++ [.map [([108], growPtr n)], .cell (objCell (some (3 + 2 * n)))]) : Heap) = H
  have hm : mapOf H (some 0) = growEnts (n + 1) := by subst hH; rfl
  have h0 : H[(0 : Nat)]? = some (.map (growEnts (n + 1))) := by subst hH; rfl
  have h3 : H[3 + 2 * n]? = some (.map [([108], growPtr n)]) := by
    subst hH
    rw [show 3 + 2 * n = 2 * n + 1 + 1 + 1 by omega]
    simp only [List.getElem?_cons_succ]
    rw [List.getElem?_append_right (by omega)]
    simp [hl]
  have h4 : H[4 + 2 * n]? = some (.cell (objCell (some (3 + 2 * n)))) := by
    subst hH
    rw [show 4 + 2 * n = 2 * n + 1 + 1 + 1 + 1 by omega]
    simp only [List.getElem?_cons_succ]
    rw [List.getElem?_append_right (by omega)]
    simp [hl]
  have hd4 : deref H (some (4 + 2 * n)) = some (objCell (some (3 + 2 * n))) := by simp [deref, h4]
  have hm3 : mapOf H (some (3 + 2 * n)) = [([108], growPtr n)] := by simp [mapOf, h3]
  have hget : apiGet H (some 0) (growName n) = .ok (H, some a) := by
    simp [apiGet, get, hm, he, growName_path, getLoop, growEnts_lookup, ha, Res.map]
  have hlk : AMap.lookup (growEnts (n + 1)) (growName (n + 1)) = some (some (4 + 2 * n)) := by rw [growEnts_lookup, if_pos (by omega)]; rfl
  have hget2 : get H (some 0) [growName (n + 1), [114]] = .ok (H, none) := by
    simp only [get, hm, he, if_false, getLoop, hlk, hd4]
    simp [objCell, hm3, AMap.lookup, Res.map]
  have hput : putLoop H (some 0) [growName (n + 1), [114]] (some a) = .ok (growHeap s (n + 1), true) := by
    simp only [putLoop, hm, hlk, hd4]
    simp only [objCell, ne_eq, not_true_eq_false, if_false, mapWrite, h3]
    subst hH
    rw [show 3 + 2 * n = 2 * n + 1 + 1 + 1 by omega]
    simp only [List.set_cons_succ]
    rw [List.set_append_right _ _ (by omega)]
    simp [hl, Res.map, growHeap, growBlocks, AMap.insert, ha, objCell, bLt]
    omega
  have hd : deref H (some 2) = some nullCell := by subst hH; rfl
  have hty : nullCell.type = .null := rfl
  simp only [setProcess, hd, hty, ne_eq, not_true_eq_false, if_false, hname, not_false_eq_true, if_true, hget]
  simp only [putThen, apiPut, hpath, put, hget2, hput]
  simp [Res.map]

theorem set_node {cv : Conv} {id copy target : Bytes} {v : Nat} {h h' : Heap} {e e' : Event} (hs : setProcess v copy target h e = .ok (h', e', none)) (s : PState Unit (Heap × Event)) (hw : s.world = (h, e)) :
    ∃ s', (Node.mk id [] false false [] (Builtin.set v copy target).prog).process (builtinCall cv) s = .ok (s', none) ∧ s'.world = (h', e') ∧ s'.ev = s.ev := by
  simp [Node.process, Builtin.prog, Prog.run, builtinCall, PState.inc, hw, Builtin.step, hs, Res.map, PState.note]

theorem processAll_two {cv : Conv} : ∀ (xs ys : List (Node Builtin (Option Err))) {s s1 : PState Unit (Heap × Event)}, Node.processAll (builtinCall cv) xs s none = .ok (s1, none) →
    Node.processAll (builtinCall cv) (xs ++ ys) s none = Node.processAll (builtinCall cv) ys s1 none
  | [], ys, s, s1, h => by simp only [Node.processAll, Res.ok.injEq, Prod.mk.injEq] at h; rw [← h.1]; rfl
  | x :: xs, ys, s, s1, h => by
    simp only [List.cons_append, Node.processAll] at h ⊢
    split at h
    · simp at h
    · simp at h
    · rename_i s2 hx; exact processAll_two xs ys h

theorem growing_runs (cv : Conv) (ids : Nat → Bytes) (t : Bytes) (n : Nat) (s : PState Unit (Heap × Event)) (hw : s.world = (growHeap t 0, some 0)) :
    ∃ s', Node.processAll (builtinCall cv) (growing ids 2 n) s none = .ok (s', none) ∧ s'.world = (growHeap t n, some 0) ∧ s'.ev = s.ev := by
  induction n with
  | zero => exact ⟨s, rfl, hw, rfl⟩
  | succ n ih =>
    obtain ⟨s1, h1, hw1, he1⟩ := ih
    obtain ⟨s2, h2, hw2, he2⟩ := set_node (cv := cv) (id := ids (2 * n)) (grow_left t n) s1 hw1
    obtain ⟨s3, h3, hw3, he3⟩ := set_node (cv := cv) (id := ids (2 * n + 1)) (grow_right t n) s2 hw2
    refine ⟨s3, ?_, hw3, by rw [he3, he2, he1]⟩
    simp only [growing]
    rw [processAll_two _ _ h1]
    simp only [Node.processAll, h2, h3]

/-! What the event then says -/

def growVal (t : Bytes) : Nat → Val
  | 0 => .scalar (.str t)
  | n + 1 => .obj [([108], growVal t n), ([114], growVal t n)]

def growVals (t : Bytes) : Nat → AMap Val
  | 0 => [(growName 0, growVal t 0)]
  | n + 1 => growVals t n ++ [(growName (n + 1), growVal t (n + 1))]

theorem growBlocks_get {n j : Nat} (h : j < n) (i : Nat) (hi : i < 2) : (growBlocks n)[2 * j + i]? = [HObj.map [([108], growPtr j), ([114], growPtr j)], .cell (objCell (some (3 + 2 * j)))][i]? := by
  induction n with
  | zero => omega
  | succ n ih =>
    simp only [growBlocks]
    have hl := growBlocks_length n
    by_cases hj : j < n
    · rw [List.getElem?_append_left (by omega), ih hj]
    · have : j = n := by omega
      subst this
      rw [List.getElem?_append_right (by omega), hl]
      congr 1; omega

theorem growVal_reads (t : Bytes) (n : Nat) : ∀ j, j ≤ n → Reads (growHeap t n) (growPtr j) (growVal t j) := by
  intro j
  induction j with
  | zero => intro _; simp only [growVal, Reads, growPtr]; rfl
  | succ j ih =>
    intro hj
    have hr := ih (by omega)
    simp only [growVal, Reads, growPtr]
    have h4 : (growHeap t n)[4 + 2 * j]? = some (.cell (objCell (some (3 + 2 * j)))) := by
      have := growBlocks_get (n := n) (j := j) (by omega) 1 (by omega)
      rw [show 4 + 2 * j = 2 * j + 1 + 1 + 1 + 1 by omega]
      simp only [growHeap, List.getElem?_cons_succ, this]; rfl
    have h3 : (growHeap t n)[3 + 2 * j]? = some (.map [([108], growPtr j), ([114], growPtr j)]) := by
      have := growBlocks_get (n := n) (j := j) (by omega) 0 (by omega)
      rw [show 3 + 2 * j = 2 * j + 0 + 1 + 1 + 1 by omega]
      simp only [growHeap, List.getElem?_cons_succ]; exact this
    refine ⟨3 + 2 * j, _, by simp [deref, h4], h3, ?_⟩
    simp only [ReadsE]
    exact ⟨trivial, hr, trivial, hr, trivial⟩

theorem readsE_app {h : Heap} : ∀ {ps qs : List (Bytes × Ptr)} {vs ws : List (Bytes × Val)}, ReadsE h ps vs → ReadsE h qs ws → ReadsE h (ps ++ qs) (vs ++ ws)
  | [], qs, [], ws, _, h2 => h2
  | (k, p) :: ps, qs, (k', v) :: vs, ws, h1, h2 => by
    simp only [List.cons_append, ReadsE] at h1 ⊢
    exact ⟨h1.1, h1.2.1, readsE_app h1.2.2 h2⟩
  | [], _, _ :: _, _, h1, _ => by simp [ReadsE] at h1
  | _ :: _, _, [], _, h1, _ => by simp [ReadsE] at h1

theorem growHeap_holds (t : Bytes) (n : Nat) : Holds (growHeap t n) (some 0) (some (growVals t n)) := by
  refine ⟨0, growEnts n, rfl, rfl, ?_⟩
  have : ∀ k, k ≤ n → ReadsE (growHeap t n) (growEnts k) (growVals t k) := by
    intro k
    induction k with
    | zero => intro _; simp only [growEnts, growVals, ReadsE]; exact ⟨trivial, growVal_reads t n 0 (by omega), trivial⟩
    | succ k ih =>
      intro hk
      simp only [growEnts, growVals]
      refine readsE_app (ih (by omega)) ?_
      simp only [ReadsE]
      exact ⟨trivial, growVal_reads t n (k + 1) hk, trivial⟩
  exact this n (Nat.le_refl n)

theorem growVal_says {env : JEnv} {t : Bytes} : ∀ (n : Nat) {j : Json}, Says env (growVal t n) j → 2 ^ n ≤ jcost j
  | 0, j, h => by
    simp only [growVal, Says] at h
    obtain ⟨s', hj, _⟩ := h
    subst hj; simp [jcost]
  | n + 1, j, h => by
    simp only [growVal, Says, SaysE] at h
    obtain ⟨js, hj, k1, j1, r1, hjs, _, h1, k2, j2, r2, hr1, _, h2, hr2⟩ := h
    subst hj; subst hjs; subst hr1; subst hr2
    have := growVal_says n h1
    have := growVal_says n h2
    simp only [jcost, jcostE, Nat.pow_succ]; omega

theorem saysE_app {env : JEnv} : ∀ {xs ys : List (Bytes × Val)} {js : List (Bytes × Json)}, SaysE env (xs ++ ys) js → ∃ as bs, js = as ++ bs ∧ SaysE env xs as ∧ SaysE env ys bs
  | [], ys, js, h => ⟨[], js, rfl, by simp [SaysE], h⟩
  | (k, v) :: xs, ys, js, h => by
    simp only [List.cons_append, SaysE] at h
    obtain ⟨k', j, r, hjs, hk, hv, hr⟩ := h
    obtain ⟨as, bs, h1, h2, h3⟩ := saysE_app hr
    refine ⟨(k', j) :: as, bs, by rw [hjs, h1]; rfl, ?_, h3⟩
    simp only [SaysE]; exact ⟨k', j, as, rfl, hk, hv, h2⟩

theorem jcostE_app (xs ys : List (Bytes × Json)) : jcostE (xs ++ ys) = jcostE xs + jcostE ys := by
  induction xs with
  | nil => simp [jcostE]
  | cons x xs ih => obtain ⟨k, j⟩ := x; simp [jcostE, ih]; omega

theorem growVals_says {env : JEnv} {t : Bytes} {n : Nat} {js : List (Bytes × Json)} (h : SaysE env (growVals t n) js) : 2 ^ n ≤ jcostE js := by
  have last : ∀ {k : Bytes} {js}, SaysE env [(k, growVal t n)] js → 2 ^ n ≤ jcostE js := by
    intro k js h
    simp only [SaysE] at h
    obtain ⟨k', j, r, hjs, _, hv, hr⟩ := h
    subst hjs; subst hr
    have := growVal_says n hv
    simp only [jcostE]; omega
  cases n with
  | zero => exact last h
  | succ n =>
    simp only [growVals] at h
    obtain ⟨as, bs, h1, _, h3⟩ := saysE_app h
    have := last h3
    rw [h1, jcostE_app]; omega

theorem growVal_fine (t : Bytes) (n : Nat) : (growVal t n).FiniteFloats ∧ (growVal t n).nest = n := by
  induction n with
  | zero => simp [growVal, Val.FiniteFloats, Val.nest]
  | succ n ih => simp [growVal, Val.FiniteFloats, Val.FiniteFloatsE, Val.nest, Val.nestE, ih]

theorem growVals_fine (t : Bytes) (n : Nat) : Val.FiniteFloatsE (growVals t n) ∧ Val.nestE (growVals t n) = n := by
  have app : ∀ (xs ys : List (Bytes × Val)), (Val.FiniteFloatsE (xs ++ ys) ↔ Val.FiniteFloatsE xs ∧ Val.FiniteFloatsE ys) ∧ Val.nestE (xs ++ ys) = max (Val.nestE xs) (Val.nestE ys) := by
    intro xs ys
    induction xs with
    | nil => simp [Val.FiniteFloatsE, Val.nestE]
    | cons x xs ih =>
      obtain ⟨k, v⟩ := x
      simp only [List.cons_append, Val.FiniteFloatsE, Val.nestE, ih.1, ih.2]
      exact ⟨by rw [and_assoc], by omega⟩
  induction n with
  | zero => simp [growVals, Val.FiniteFloatsE, Val.nestE, growVal_fine]
  | succ n ih =>
    have h1 := growVal_fine t (n + 1)
    simp only [growVals]
    rw [(app _ _).1, (app _ _).2, ih.2]
    simp only [Val.FiniteFloatsE, Val.nestE, h1.2]
    exact ⟨⟨ih.1, h1.1, trivial⟩, by omega⟩

theorem growHeap_size (t : Bytes) (n : Nat) : (growHeap t n).size = 4 + 5 * n := by
  have h1 : ∀ n, (growEnts n).length = n + 1 := by
    intro n; induction n with
    | zero => rfl
    | succ n ih => simp [growEnts, ih]
  have h2 : ∀ n, Heap.size (growBlocks n) = 4 * n := by
    intro n; induction n with
    | zero => rfl
    | succ n ih => rw [growBlocks, size_append, ih]; simp [Heap.size, HObj.size, objCell]; omega
  have := h2 n
  simp [growHeap, Heap.size, HObj.size, h1, strCell, nullCell] at this ⊢; omega

/-- **C102.** But what an event takes says little about what it takes to write it out: for every number `n` below 10000 there is a pipeline of 2n `set` processors that leaves an event with one string in it at 5n more than before, while its JSON text has at least 2^n bytes. -/
theorem copies_of_copies {env : JEnv} (hl : env.Lawful) (cv : Conv) (id : Bytes) (ids : Nat → Bytes) (t : Bytes) (n : Nat) (hn : n < 10000) (counts : Counters) (log : List Invocation) :
    ∃ w N text, (Pipeline.mk id (growing ids 2 n) []).process (builtinCall cv) () ⟨([.map [(lit "a", some 1)], .cell (strCell t), .cell nullCell], some 0), counts, log⟩ = .ok (w, some (), none) ∧
      w.world.2 = some 0 ∧ w.world.1.size = 4 + 5 * n ∧ (∀ m, N ≤ m → marshalEvent env m w.world.1 w.world.2 = .ok text) ∧ 2 ^ n ≤ text.length := by
  obtain ⟨s', hrun, hw, hev⟩ := growing_runs cv ids t n ⟨{ data := () }, ([.map [(lit "a", some 1)], .cell (strCell t), .cell nullCell], some 0), counts, log⟩ (by simp only; rfl)
  obtain ⟨N, hN, _⟩ := marshalEvent_spec hl (growHeap_holds t n)
  obtain ⟨hf1, hf2⟩ := growVals_fine t n
  obtain ⟨bs, js, hm, htext, hsays⟩ := hN ⟨hf1, by omega⟩
  refine ⟨⟨s'.world, s'.counts, s'.log⟩, N, bs, ?_, by rw [hw], by rw [hw]; exact growHeap_size t n, ?_, ?_⟩
  · simp [Pipeline.process, Pipeline.run, hrun, hev]
  · simpa [hw] using hm
  · have h1 := text_cost _ htext
    have h2 := growVals_says hsays
    simp only [jcost] at h1; omega

/-! ## The command line tool -/

theorem lineEvent_cost {h h' : Heap} {k : Nat} {l : Bytes} {e : Event} (hl : lineEvent h k l = .ok (h', e)) : h'.size ≤ h.size + 14 := by
  unfold lineEvent at hl
  simp only at hl
  split at hl
  · simp at hl
  · rename_i g f _ _ hp
    split at hl
    · simp at hl
    · rename_i g2 f2 _ _ hp2
      simp only [Res.ok.injEq, Prod.mk.injEq] at hl
      have h1 := api_cost.2.2.1 hp
      have h2 := api_cost.2.2.1 hp2
      have n1 : nameCount (lit "@metadata.line_number") = 2 := by decide
      have n2 : nameCount (lit "event.original") = 2 := by decide
      rw [n1] at h1; rw [n2] at h2
      simp only [size_alloc, HObj.size, uintCell, strCell, Option.getD_none, List.length_nil] at h1 h2
      rw [← hl.1]; omega

theorem line_cost {env : JEnv} {n : Nat} {cv : Conv} {p : Pipeline Builtin (Option Err)} {bs : List Builtin} (hu : p.Uses bs) {wr : Writer} {s s' : Cli} {t : Bytes} (h : s.line env n cv p wr t = .ok s') :
    s'.world.world.size ≤ s.world.world.size + (14 + (bs.map Builtin.allowance).sum) := by
  unfold Cli.line at h
  simp only at h
  split at h
  · cases h; simp only; omega
  · split at h
    · simp at h
    · rename_i w r hh
      have hw : w.world.size ≤ s.world.world.size + (14 + (bs.map Builtin.allowance).sum) := by
        unfold handleLine at hh
        split at hh
        · simp at hh
        · rename_i we hle
          split at hh
          · simp at hh
          · rename_i w' ret err hp
            simp only [Res.ok.injEq, Prod.mk.injEq] at hh
            have h1 := lineEvent_cost (h := s.world.world) (h' := we.1) (e := we.2) hle
            have h2 := process_cost hu hp
            rw [← hh.1]; simp only at h2 ⊢; omega
      split at h
      · cases h; exact hw
      · unfold Cli.encode at h
        split at h
        · cases h; exact hw
        · split at h
          · simp at h
          · cases h; exact hw
          · split at h
            · cases h; exact hw
            · cases h; exact hw

/-- **C102.** The tool takes for each line of its input no more than a fixed amount, which depends on the configuration alone, besides the line itself and what it takes to write the answer. -/
theorem cli_cost {env : JEnv} {n : Nat} {cv : Conv} {p : Pipeline Builtin (Option Err)} {bs : List Builtin} (hu : p.Uses bs) {wr : Writer} (tokens : List Bytes) (s : Cli) :
    (Cli.lines env n cv p wr s tokens).1.world.world.size ≤ s.world.world.size + tokens.length * (14 + (bs.map Builtin.allowance).sum) := by
  induction tokens generalizing s with
  | nil => simp [Cli.lines]
  | cons t ts ih =>
    simp only [Cli.lines]
    split
    · simp only; omega
    · rename_i s' hs
      have h1 := line_cost hu hs
      have h2 := ih s'
      simp only [List.length_cons, Nat.add_mul, Nat.one_mul]
      omega

/-! ## Samples -/

/-- A pipeline with a processor that has an on_failure processor, and a global one. -/
def costPipeline : Pipeline Builtin (Option Err) :=
  ⟨lit "p", [.mk (lit "1") [] false false [.mk (lit "2") [] false false [] (Builtin.set 2 [] (lit "x.y")).prog] (Builtin.lowercase (lit "a.b") []).prog], [.mk (lit "3") [] false false [] (Builtin.append (lit "c") (lit "v") false).prog]⟩

theorem cost_sample : costPipeline.Uses [.lowercase (lit "a.b") [], .set 2 [] (lit "x.y"), .append (lit "c") (lit "v") false] ∧
    ([Builtin.lowercase (lit "a.b") [], .set 2 [] (lit "x.y"), .append (lit "c") (lit "v") false].map Builtin.allowance).sum = 23 := by
  refine ⟨⟨[.lowercase (lit "a.b") [], .set 2 [] (lit "x.y")], [.append (lit "c") (lit "v") false], rfl, ?_, ?_⟩, by decide⟩
  · simp only [costPipeline, Node.UsesAll, Node.Uses]
    exact ⟨[.lowercase (lit "a.b") [], .set 2 [] (lit "x.y")], [], rfl, ⟨_, _, rfl, rfl, [.set 2 [] (lit "x.y")], [], rfl, ⟨_, _, rfl, rfl, rfl⟩, rfl⟩, rfl⟩
  · simp only [costPipeline, Node.UsesAll, Node.Uses]
    exact ⟨[.append (lit "c") (lit "v") false], [], rfl, ⟨_, _, rfl, rfl, rfl⟩, rfl⟩

/-- A new name of two parts in an event without contents takes five: two maps with an entry each, and a value around the second. The text `[[1]]` takes five, as a field with its map two more. -/
theorem cost_sharp : (∃ h' e' p err, apiPut [.cell nullCell] none (lit "a.b") (some 0) = .ok (h', e', p, err) ∧ h'.size = 6 ∧ Heap.size [.cell nullCell] = 1 ∧ nameCount (lit "a.b") = 2) ∧
    (∃ h' e, unmarshalEvent bitsEnv [123, 34, 97, 34, 58, 91, 91, 49, 93, 93, 125] [] = some (h', e) ∧ h'.size = 7) := by
  refine ⟨⟨_, _, _, _, rfl, by decide, by decide, by decide⟩, ⟨_, _, rfl, by decide⟩⟩

end Sawmill
