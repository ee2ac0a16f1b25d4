import Verif.Spec.Mem
import Verif.Lemmas.HeapSim
import Verif.Props.PipelineConc
/-!
# Programs with single memory accesses: running alone
-/

namespace Sawmill
namespace Mem
variable {α β : Type}

/-- Running without interruption: the memory, the increments, the number of steps, the result. -/
def solo : Mem α → Heap → Res (Heap × List (Bytes × Kind) × Nat × α)
  | .ret x, h => .ok (h, [], 0, x)
  | .readCell p k, h =>
    match deref h p with
    | none => .panic
    | some c => ((k c).solo h).map fun (g, l, n, x) => (g, l, n + 1, x)
  | .readMap m k, h => ((k (mapOf h m)).solo h).map fun (g, l, n, x) => (g, l, n + 1, x)
  | .writeMap m key p k, h =>
    match mapWrite h m key p with
    | .panic => .panic
    | .ok h' => (k.solo h').map fun (g, l, n, x) => (g, l, n + 1, x)
  | .alloc o k, h => ((k h.length).solo (h ++ [o])).map fun (g, l, n, x) => (g, l, n + 1, x)
  | .append a items k, h =>
    match appendTo h a items with
    | .panic => .panic
    | .ok h' => (k.solo h').map fun (g, l, n, x) => (g, l, n + 1, x)
  | .count id kind k, h => (k.solo h).map fun (g, l, n, x) => (g, (id, kind) :: l, n + 1, x)
  | .peek p k, h => ((k (deref h p)).solo h).map fun (g, l, n, x) => (g, l, n + 1, x)
  | .eraseMap m key k, h => (k.solo (mapDelete h m key)).map fun (g, l, n, x) => (g, l, n + 1, x)
  | .crash, _ => .panic

theorem solo_next {t t' : Mem α} {h h' : Heap} {inc : Option (Bytes × Kind)} (hs : t.step h = .next h' inc t') :
    t.solo h = (t'.solo h').map fun (g, l, n, x) => (g, inc.toList ++ l, n + 1, x) := by
  cases t with
  | ret x => simp [step] at hs
  | readCell p k =>
    simp only [step] at hs
    simp only [solo]
    cases hd : deref h p with
    | none => simp [hd] at hs
    | some c =>
      simp only [hd, Next.next.injEq] at hs
      obtain ⟨rfl, rfl, rfl⟩ := hs
      rfl
  | readMap m k =>
    simp only [step, Next.next.injEq] at hs
    obtain ⟨rfl, rfl, rfl⟩ := hs
    rfl
  | writeMap m key p k =>
    simp only [step] at hs
    simp only [solo]
    cases hd : mapWrite h m key p with
    | panic => simp [hd] at hs
    | ok c =>
      simp only [hd, Next.next.injEq] at hs
      obtain ⟨rfl, rfl, rfl⟩ := hs
      rfl
  | alloc o k =>
    simp only [step, Next.next.injEq] at hs
    obtain ⟨rfl, rfl, rfl⟩ := hs
    rfl
  | append a items k =>
    simp only [step] at hs
    simp only [solo]
    cases hd : appendTo h a items with
    | panic => simp [hd] at hs
    | ok c =>
      simp only [hd, Next.next.injEq] at hs
      obtain ⟨rfl, rfl, rfl⟩ := hs
      rfl
  | count id kind k =>
    simp only [step, Next.next.injEq] at hs
    obtain ⟨rfl, rfl, rfl⟩ := hs
    rfl
  | peek p k =>
    simp only [step, Next.next.injEq] at hs
    obtain ⟨rfl, rfl, rfl⟩ := hs
    rfl
  | eraseMap m key k =>
    simp only [step, Next.next.injEq] at hs
    obtain ⟨rfl, rfl, rfl⟩ := hs
    rfl
  | crash => simp [step] at hs

theorem solo_crash {t : Mem α} {h : Heap} (hs : t.step h = .crash) : t.solo h = .panic := by
  cases t with
  | readCell p k =>
    simp only [step] at hs
    simp only [solo]
    cases hd : deref h p with
    | none => rfl
    | some c => simp [hd] at hs
  | writeMap m key p k =>
    simp only [step] at hs
    simp only [solo]
    cases hd : mapWrite h m key p with
    | panic => rfl
    | ok c => simp [hd] at hs
  | append a items k =>
    simp only [step] at hs
    simp only [solo]
    cases hd : appendTo h a items with
    | panic => rfl
    | ok c => simp [hd] at hs
  | crash => rfl
  | _ => simp [step] at hs

theorem solo_bind (t : Mem α) (f : α → Mem β) (h : Heap) :
    (t.bind f).solo h = match t.solo h with
      | .panic => .panic
      | .ok (g, l, n, x) => ((f x).solo g).map fun (g', l', n', y) => (g', l ++ l', n + n', y) := by
  have key : ∀ (r : Res (Heap × List (Bytes × Kind) × Nat × α)) (l0 : List (Bytes × Kind)),
      (match r with
        | .panic => Res.panic
        | .ok (g, l, n, x) => ((f x).solo g).map fun (g', l', n', y) => (g', l ++ l', n + n', y) : Res (Heap × List (Bytes × Kind) × Nat × β)).map (fun (g, l, n, x) => (g, l0 ++ l, n + 1, x)) =
      match r.map (fun (g, l, n, x) => (g, l0 ++ l, n + 1, x)) with
        | .panic => .panic
        | .ok (g, l, n, x) => ((f x).solo g).map fun (g', l', n', y) => (g', l ++ l', n + n', y) := by
    intro r l0
    cases r with
    | panic => rfl
    | ok q =>
      obtain ⟨g, l, n, x⟩ := q
      simp only [Res.map_ok]
      cases (f x).solo g with
      | panic => rfl
      | ok q' => obtain ⟨g', l', n', y⟩ := q'; simp only [Res.map_ok, List.append_assoc]; rw [show n + n' + 1 = n + 1 + n' by omega]
  induction t generalizing h with
  | ret x =>
    simp only [bind, solo]
    cases (f x).solo h with
    | panic => rfl
    | ok q => obtain ⟨g', l', n', y⟩ := q; simp
  | readCell p k ih =>
    simp only [bind, solo]
    cases deref h p with
    | none => rfl
    | some c => simp only [ih]; exact key _ []
  | readMap m k ih => simp only [bind, solo, ih]; exact key _ []
  | writeMap m key' p k ih =>
    simp only [bind, solo]
    cases mapWrite h m key' p with
    | panic => rfl
    | ok c => simp only [ih]; exact key _ []
  | alloc o k ih => simp only [bind, solo, ih]; exact key _ []
  | append a items k ih =>
    simp only [bind, solo]
    cases appendTo h a items with
    | panic => rfl
    | ok c => simp only [ih]; exact key _ []
  | count id kind k ih => simp only [bind, solo, ih]; exact key _ [(id, kind)]
  | peek p k ih => simp only [bind, solo, ih]; exact key _ []
  | eraseMap m key' k ih => simp only [bind, solo, ih]; exact key _ []
  | crash => rfl

/-- Go on after a step that may panic. -/
def andThen : Res α → (α → Res β) → Res β
  | .panic, _ => .panic
  | .ok x, f => f x

/-- Without interruption `t` does `r`, and no increments. -/
def Runs (t : Mem α) (h : Heap) (r : Res (Heap × α)) : Prop :=
  match r with
  | .panic => t.solo h = .panic
  | .ok (g, x) => ∃ n, t.solo h = .ok (g, [], n, x)

theorem Runs.ret (x : α) (h : Heap) : Runs (.ret x) h (.ok (h, x)) := ⟨0, rfl⟩

theorem Runs.readCell {p : Ptr} {k : Cell → Mem α} {h : Heap} {c : Cell} {r : Res (Heap × α)} (hd : deref h p = some c) (hk : Runs (k c) h r) : Runs (.readCell p k) h r := by
  unfold Runs at hk ⊢
  cases r with
  | panic => simp only at hk ⊢; simp [solo, hd, hk]
  | ok q => obtain ⟨n, hn⟩ := hk; exact ⟨n + 1, by simp [solo, hd, hn]⟩

theorem Runs.readCell_none {p : Ptr} {k : Cell → Mem α} {h : Heap} (hd : deref h p = none) : Runs (.readCell p k) h .panic := by simp [Runs, solo, hd]

theorem Runs.readMap {m : Option Nat} {k : AMap Ptr → Mem α} {h : Heap} {r : Res (Heap × α)} (hk : Runs (k (mapOf h m)) h r) : Runs (.readMap m k) h r := by
  unfold Runs at hk ⊢
  cases r with
  | panic => simp only at hk ⊢; simp [solo, hk]
  | ok q => obtain ⟨n, hn⟩ := hk; exact ⟨n + 1, by simp [solo, hn]⟩

theorem Runs.peek {p : Ptr} {k : Option Cell → Mem α} {h : Heap} {r : Res (Heap × α)} (hk : Runs (k (deref h p)) h r) : Runs (.peek p k) h r := by
  unfold Runs at hk ⊢
  cases r with
  | panic => simp only at hk ⊢; simp [solo, hk]
  | ok q => obtain ⟨n, hn⟩ := hk; exact ⟨n + 1, by simp [solo, hn]⟩

theorem Runs.eraseMap {m : Option Nat} {key : Bytes} {k : Mem α} {h : Heap} {r : Res (Heap × α)} (hk : Runs k (mapDelete h m key) r) : Runs (.eraseMap m key k) h r := by
  unfold Runs at hk ⊢
  cases r with
  | panic => simp only at hk ⊢; simp [solo, hk]
  | ok q => obtain ⟨n, hn⟩ := hk; exact ⟨n + 1, by simp [solo, hn]⟩

theorem Runs.crash {h : Heap} : Runs (.crash : Mem α) h .panic := rfl

theorem Runs.alloc {o : HObj} {k : Nat → Mem α} {h : Heap} {r : Res (Heap × α)} (hk : Runs (k h.length) (h ++ [o]) r) : Runs (.alloc o k) h r := by
  unfold Runs at hk ⊢
  cases r with
  | panic => simp only at hk ⊢; simp [solo, hk]
  | ok q => obtain ⟨n, hn⟩ := hk; exact ⟨n + 1, by simp [solo, hn]⟩

theorem Runs.writeMap {m : Option Nat} {key : Bytes} {p : Ptr} {k : Mem α} {h : Heap} {r : Heap → Res (Heap × α)} (hk : ∀ h', mapWrite h m key p = .ok h' → Runs k h' (r h')) :
    Runs (.writeMap m key p k) h (andThen (mapWrite h m key p) r) := by
  cases hw : mapWrite h m key p with
  | panic => simp [Runs, solo, hw, andThen]
  | ok h' =>
    have hk := hk h' hw
    simp only [andThen]
    unfold Runs at hk ⊢
    revert hk
    cases r h' with
    | panic => intro hk; simp only at hk ⊢; simp [solo, hw, hk]
    | ok q => rintro ⟨n, hn⟩; exact ⟨n + 1, by simp [solo, hw, hn]⟩

theorem Runs.append {a : Nat} {items : List Ptr} {k : Mem α} {h : Heap} {r : Heap → Res (Heap × α)} (hk : ∀ h', appendTo h a items = .ok h' → Runs k h' (r h')) :
    Runs (.append a items k) h (andThen (appendTo h a items) r) := by
  cases hw : appendTo h a items with
  | panic => simp [Runs, solo, hw, andThen]
  | ok h' =>
    have hk := hk h' hw
    simp only [andThen]
    unfold Runs at hk ⊢
    revert hk
    cases r h' with
    | panic => intro hk; simp only at hk ⊢; simp [solo, hw, hk]
    | ok q => rintro ⟨n, hn⟩; exact ⟨n + 1, by simp [solo, hw, hn]⟩

theorem Runs.bind {t : Mem α} {f : α → Mem β} {h : Heap} {r : Res (Heap × α)} {r' : Heap → α → Res (Heap × β)} (ht : Runs t h r) (hf : ∀ g x, r = .ok (g, x) → Runs (f x) g (r' g x)) :
    Runs (t.bind f) h (andThen r fun q => r' q.1 q.2) := by
  cases r with
  | panic => simp only [Runs, andThen] at ht ⊢; simp [solo_bind, ht]
  | ok q =>
    obtain ⟨g, x⟩ := q
    obtain ⟨n, hn⟩ := ht
    have hf := hf g x rfl
    simp only [andThen]
    unfold Runs at hf ⊢
    revert hf
    cases r' g x with
    | panic => intro hf; simp only at hf ⊢; simp [solo_bind, hn, hf]
    | ok q => rintro ⟨n', hn'⟩; exact ⟨n + n', by simp [solo_bind, hn, hn']⟩

theorem Runs.of_eq {t : Mem α} {h : Heap} {r r' : Res (Heap × α)} (hr : Runs t h r) (he : r = r') : Runs t h r' := he ▸ hr

end Mem

open Mem

/-! ## The programs are the functions of the model -/

theorem getLoopM_runs (path : List Bytes) (m : Option Nat) (h : Heap) : Runs (getLoopM m path) h ((getLoop h m path).map (h, ·)) := by
  induction path generalizing m with
  | nil => exact .ret _ _
  | cons k ks ih =>
    cases ks with
    | nil => simp only [getLoopM, getLoop]; exact .readMap (.ret _ _)
    | cons k2 ks =>
      simp only [getLoopM, getLoop]
      refine .readMap ?_
      cases hl : (mapOf h m).lookup k with
      | none => exact .ret _ _
      | some inner =>
        simp only
        cases hd : deref h inner with
        | none => exact .readCell_none hd
        | some c =>
          refine .readCell hd (.readMap ?_)
          simp only
          split
          · exact .ret _ _
          · exact ih c.object

theorem getM_runs (path : List Bytes) (e : Event) (h : Heap) : Runs (getM e path) h (get h e path) := by
  simp only [getM, get]
  refine .readMap ?_
  split
  · exact .ret _ _
  · cases path with
    | nil => exact .alloc (.ret _ _)
    | cons k ks => exact getLoopM_runs _ _ _

theorem putLoopM_runs (path : List Bytes) (m : Option Nat) (val : Ptr) (h : Heap) : Runs (putLoopM m path val) h (putLoop h m path val) := by
  induction path generalizing m h with
  | nil => exact .ret _ _
  | cons k ks ih =>
    cases ks with
    | nil =>
      simp only [putLoopM, putLoop]
      refine (Runs.writeMap (r := fun h' => .ok (h', true)) fun h' _ => .ret _ _).of_eq ?_
      cases mapWrite h m k val <;> rfl
    | cons k2 ks =>
      simp only [putLoopM, putLoop]
      refine .readMap ?_
      cases hl : (mapOf h m).lookup k with
      | some inner =>
        simp only
        cases hd : deref h inner with
        | none => exact .readCell_none hd
        | some c =>
          refine .readCell hd ?_
          simp only
          split
          · exact .ret _ _
          · exact ih c.object h
      | none =>
        simp only [Heap.alloc]
        refine .alloc (.alloc ?_)
        refine (Runs.writeMap (r := fun h' => putLoop h' (some h.length) (k2 :: ks) val) fun h' _ => ih _ _).of_eq ?_
        cases mapWrite (h ++ [HObj.map []] ++ [HObj.cell (objCell (some (List.length h)))]) m k (some (List.length (h ++ [HObj.map []]))) <;> rfl

theorem putM'_runs (path : List Bytes) (e : Event) (val : Ptr) (ow : Bool) (h : Heap) :
    Runs (putM' e path val ow) h (match get h e path with
      | .panic => .panic
      | .ok (h, old) =>
        if old ≠ none ∧ ow = false then .ok (h, e, old, some (PutErr.keyExists path))
        else match putLoop h e path val with
          | .panic => .panic
          | .ok (h', true) => .ok (h', e, old, none)
          | .ok (h', false) => .ok (h', e, none, some (PutErr.notObject path))) := by
  unfold putM'
  refine (Runs.bind (getM_runs path e h) (r' := fun g old => if old ≠ none ∧ ow = false then .ok (g, e, old, some (PutErr.keyExists path))
        else match putLoop g e path val with
          | .panic => .panic
          | .ok (h', true) => .ok (h', e, old, none)
          | .ok (h', false) => .ok (h', e, none, some (PutErr.notObject path))) ?_).of_eq ?_
  rotate_left
  · cases get h e path <;> rfl
  intro g old _
  split
  · exact .ret _ _
  · refine (Runs.bind (putLoopM_runs path e val g) (r' := fun g' ok => if ok then .ok (g', e, old, none) else .ok (g', e, none, some (PutErr.notObject path))) ?_).of_eq ?_
    · intro g' ok _; cases ok <;> exact .ret _ _
    · rcases putLoop g e path val with ⟨g', _ | _⟩ | _ <;> rfl

theorem putM_runs (path : List Bytes) (e : Event) (val : Ptr) (ow : Bool) (h : Heap) : Runs (putM e path val ow) h (put h e path val ow) := by
  simp only [putM, put]
  split
  · exact .ret _ _
  · split
    · exact .ret _ _
    · cases e with
      | none => simp only [Heap.alloc]; exact .alloc (putM'_runs _ _ _ _ _)
      | some m => exact putM'_runs _ _ _ _ _

theorem putThenM_runs (key : Bytes) (e : Event) (v : Ptr) (h : Heap) : Runs (putThenM e key v) h (putThen h e key v) := by
  simp only [putThenM, putThen, apiPut]
  refine (Runs.bind (putM_runs _ e v true h) (r' := fun g r => .ok (g, r.1, r.2.2.map PutErr.toErr)) fun g r _ => .ret _ _).of_eq ?_
  rcases put h e (keyToPath key) v true with ⟨g, e', o, er⟩ | _ <;> rfl

theorem builtin_runs (cv : Conv) (b : Builtin) (e : Event) (h : Heap) : Runs (b.mem cv e) h (b.step cv h e) := by
  have conv : ∀ f msg field target, Runs (convM f msg field target e) h (convProcess f msg field target h e) := by
    intro f msg field target
    simp only [convM, convProcess, apiGet]
    refine (Runs.bind (getM_runs (keyToPath field) e h) (r' := fun g p => match p with
      | none => .ok (g, e, some (Err.keyMissing field))
      | some a => match deref g (some a) with
        | none => .panic
        | some c => if c.type ≠ .string then .ok (g, e, some (Err.other msg)) else putThen (g ++ [HObj.cell (strCell (f c.string))]) e (if target ≠ [] then target else field) (some g.length)) ?_).of_eq ?_
    · intro g p _
      cases p with
      | none => exact .ret _ _
      | some a =>
        simp only
        cases hd : deref g (some a) with
        | none => exact .readCell_none hd
        | some c =>
          refine .readCell hd ?_
          simp only
          split
          · exact .ret _ _
          · exact .alloc (putThenM_runs _ _ _ _)
    · rcases get h e (keyToPath field) with ⟨g, _ | a⟩ | _ <;> rfl
  cases b with
  | lowercase f t => exact conv _ _ _ _
  | uppercase f t => exact conv _ _ _ _
  | remove fs => exact .ret _ _
  | communityId => exact .ret _ _
  | set v c t =>
    simp only [Builtin.mem, Builtin.step, setM, setProcess]
    cases hd : deref h (some v) with
    | none => exact .readCell_none hd
    | some x =>
      refine .readCell hd ?_
      simp only
      split
      · exact putThenM_runs _ _ _ _
      · split
        · simp only [apiGet]
          refine (Runs.bind (getM_runs (keyToPath c) e h) (r' := fun g p => match p with
            | none => .ok (g, e, some (Err.keyMissing c))
            | some a => putThen g e t (some a)) ?_).of_eq ?_
          · intro g p _
            cases p with
            | none => exact .ret _ _
            | some a => exact putThenM_runs _ _ _ _
          · rcases get h e (keyToPath c) with ⟨g, _ | a⟩ | _ <;> rfl
        · exact putThenM_runs _ _ _ _
  | append f v d =>
    simp only [Builtin.mem, Builtin.step, appendM, appendProcess, apiGet, apiPut, Heap.alloc]
    have app : ∀ (g : Heap) (a : Nat) (s : Nat) (e' : Event), Runs (.append a [some s] (.ret (e', none))) g ((appendTo g a [some s]).map (·, e', (none : Option Err))) := by
      intro g a s e'
      refine (Runs.append (r := fun h' => .ok (h', e', none)) fun h' _ => .ret _ _).of_eq ?_
      cases appendTo g a [some s] <;> rfl
    refine (Runs.bind (getM_runs (keyToPath f) e h) (r' := fun g p => match p with
      | none => match put (g ++ [HObj.cell (arrCell none)]) e (keyToPath f) (some g.length) true with
        | .panic => .panic
        | .ok (h, e, _, _) => (appendTo (h ++ [HObj.cell (strCell v)]) g.length [some h.length]).map (·, e, none)
      | some a => match deref g (some a) with
        | none => .panic
        | some c =>
          if c.type = .string then
            (appendTo (g ++ [HObj.cell (arrCell (some [some a]))] ++ [HObj.cell (strCell v)]) g.length [some (g ++ [HObj.cell (arrCell (some [some a]))]).length]).map (·, e, none)
          else if c.type ≠ .array then .ok (g, e, some (Err.other (lit "value to append to is not array")))
          else (appendTo (g ++ [HObj.cell (strCell v)]) a [some g.length]).map (·, e, none)) ?_).of_eq ?_
    · intro g p _
      cases p with
      | none =>
        refine .alloc ?_
        refine (Runs.bind (putM_runs _ e _ true _) (r' := fun h r => (appendTo (h ++ [HObj.cell (strCell v)]) g.length [some h.length]).map (·, r.1, none)) ?_).of_eq ?_
        · intro h' r _; exact .alloc (app _ _ _ _)
        · rcases put (g ++ [HObj.cell (arrCell none)]) e (keyToPath f) (some g.length) true with ⟨h', e', o, er⟩ | _ <;> rfl
      | some a =>
        simp only
        cases hd : deref g (some a) with
        | none => exact .readCell_none hd
        | some c =>
          refine .readCell hd ?_
          simp only
          split
          · exact .alloc (.alloc (app _ _ _ _))
          · split
            · exact .ret _ _
            · exact .alloc (app _ _ _ _)
    · rcases get h e (keyToPath f) with ⟨g, _ | a⟩ | _ <;> rfl

/-- A goroutine's run, step by step, is its run processor by processor. -/
theorem thr_mem_solo {X : Type} (cv : Conv) (t : Thr Builtin (Option Err) X) (h : Heap) (e : Event) :
    match t.solo (builtinCall cv) () (h, e) with
    | .panic => (t.mem cv e).solo h = .panic
    | .ok (w, l, _, x) => ∃ n, (t.mem cv e).solo h = .ok (w.1, l, n, (w.2, x)) := by
  induction t generalizing h e with
  | ret x => exact ⟨0, rfl⟩
  | inc id k next ih =>
    have := ih h e
    simp only [Thr.solo, Thr.mem, Mem.solo]
    revert this
    cases next.solo (builtinCall cv) () (h, e) with
    | panic => intro this; simp only at this; simp [this]
    | ok q => obtain ⟨w, l, n, x⟩ := q; rintro ⟨n', hn'⟩; exact ⟨n' + 1, by simp [hn']⟩
  | call b next ih =>
    have hb := builtin_runs cv b e h
    simp only [Thr.solo, Thr.mem, solo_bind, builtinCall]
    revert hb
    cases b.step cv h e with
    | panic => intro hb; simp only [Runs] at hb; simp [hb]
    | ok q =>
      obtain ⟨h', e', err⟩ := q
      rintro ⟨n, hn⟩
      have := ih err h' e'
      simp only [Res.map_ok, hn]
      revert this
      cases (next err).solo (builtinCall cv) () (h', e') with
      | panic => intro this; simp only at this; simp [this]
      | ok q => obtain ⟨w, l, n', x⟩ := q; rintro ⟨n'', hn''⟩; exact ⟨n + n'', by simp [hn'']⟩

end Sawmill
