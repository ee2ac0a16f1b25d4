import Verif.Props.ProcessBeside
import Verif.Props.AppendShared
import Verif.Spec.WorksToo
/-! # All the work on one of two events (C118) -/

namespace Sawmill
open Wire ATree

theorem set_back {h : Heap} {a : Nat} {c c' : Cell} (hc : h[a]? = some (.cell c)) : (h.set a (.cell c')).set a (.cell c) = h := by
  rw [List.set_set]
  apply List.ext_getElem?
  intro b
  by_cases hb : a = b
  · subst hb; rw [List.getElem?_set_self (lt_of_getElem? hc), hc]
  · rw [List.getElem?_set_ne hb]

theorem owned_set {R : Option Nat → Prop} {h : Heap} {a : Nat} {c c' : Cell} (hc : h[a]? = some (.cell c)) (ho : c'.object = c.object) {m : Option Nat} (o : Owned R h m) : Owned R (h.set a (.cell c')) m := by
  obtain ⟨r, p, hr, hp⟩ := o
  refine ⟨r, p, hr, reaches_set (h := h.set a (.cell c')) (a := a) (c := c') (c' := c) (List.getElem?_set_self (lt_of_getElem? hc)) ho.symm p ?_⟩
  rw [set_back hc]
  exact hp

theorem Roots.withItems {R : Option Nat → Prop} {T : Nat → Prop} {h : Heap} (i : Roots R T h) {a : Nat} {c : Cell} (hc : h[a]? = some (.cell c)) (ht : c.type = .array) {items : List Ptr} (hi : ∀ q ∈ items, InMemory h q) :
    Roots R T (h.set a (.cell (Sawmill.withItems c items))) ∧ KeptMaps T h (h.set a (.cell (Sawmill.withItems c items))) := by
  unfold Sawmill.withItems
  split
  · have : h.set a (.cell c) = h := by
      have := set_back (c' := c) hc
      rwa [List.set_set] at this
    rw [this]
    exact ⟨i, .refl⟩
  · exact i.longer hc ht hi

/-- `eventutil.Append` on an event of which `R` are the maps. -/
theorem Roots.utilAppend {R : Option Nat → Prop} {T : Nat → Prop} {h h' : Heap} {e e' : Event} (i : Roots R T h) (he : R e) {key : Bytes} {item : Ptr} {err : Option PutErr} (hs : Sawmill.utilAppend h e key item = .ok (h', e', err)) : GoesBeside R T h h' e' := by
  cases item with
  | none =>
    simp only [Sawmill.utilAppend, Res.ok.injEq, Prod.mk.injEq] at hs
    obtain ⟨rfl, rfl, -⟩ := hs
    exact i.stay he
  | some n =>
    unfold Sawmill.utilAppend at hs
    cases hg : apiGet h e key with
    | panic => rw [hg] at hs; cases hs
    | ok r =>
      obtain ⟨h1, p⟩ := r
      rw [hg] at hs
      obtain ⟨i1, k1, l1, m1, o1⟩ := i.get he hg
      -- a list to which one appends and which one puts
      have last : ∀ {g : Heap} {a : Nat} {ca c : Cell}, Roots R T g → KeptMaps T h g → h.length ≤ g.length → g[a]? = some (.cell ca) → ca.type = .array → Owned R g ca.object → deref g (some n) = some c →
          (match (if appendItems n c = [] then Res.ok g else appendTo g a (appendItems n c)) with
            | Res.panic => (Res.panic : Res (Heap × Event × Option PutErr))
            | Res.ok h => (apiPut h e key (some a)).map fun (x : Heap × Event × Ptr × Option PutErr) => (x.1, x.2.1, x.2.2.2)) = .ok (h', e', err) → GoesBeside R T h h' e' := by
        intro g a ca c ig kg lg hca hty hown hc hs
        have hnc : g[n]? = some (.cell c) := by
          simp only [deref] at hc
          split at hc
          · rename_i x hx; cases hc; exact hx
          · cases hc
        have hi : ∀ q ∈ appendItems n c, InMemory g q := by
          intro q hq
          unfold appendItems at hq
          split at hq
          · cases har : c.array with
            | none => rw [har] at hq; cases hq
            | some ps => rw [har] at hq; exact ig.proper.1.1 n c ps hnc har q hq
          · simp at hq; subst hq; intro x hx; cases hx; exact lt_of_getElem? hnc
        cases hap : (if appendItems n c = [] then Res.ok g else appendTo g a (appendItems n c)) with
        | panic => rw [hap] at hs; cases hs
        | ok g2 =>
          rw [hap] at hs
          dsimp only at hs
          obtain ⟨hg2, -⟩ := append_step ig.proper hca hi hap
          obtain ⟨i2, k2⟩ := ig.withItems hca hty hi
          rw [← hg2] at i2 k2
          have hobj : (Sawmill.withItems ca (appendItems n c)).object = ca.object := by unfold Sawmill.withItems; split <;> rfl
          have hown2 : Owned R g2 ca.object := by rw [hg2]; exact owned_set hca hobj hown
          have hda : deref g2 (some a) = some (Sawmill.withItems ca (appendItems n c)) := by rw [hg2]; simp [deref, List.getElem?_set_self (lt_of_getElem? hca)]
          have l2 : g.length = g2.length := by rw [hg2]; simp
          cases hput : apiPut g2 e key (some a) with
          | panic => rw [hput] at hs; cases hs
          | ok r =>
            obtain ⟨h3, e3, old, er⟩ := r
            rw [hput] at hs
            simp only [Res.map_ok, Res.ok.injEq, Prod.mk.injEq] at hs
            obtain ⟨rfl, rfl, rfl⟩ := hs
            have s := i2.put he (v := some a) (by intro x hx; cases hx; rw [← l2]; exact lt_of_getElem? hca) (fun d hd => by rw [hda] at hd; cases hd; rw [hobj]; exact hown2) hput
            exact (s.after k2 (Nat.le_of_eq l2)).after kg lg
      cases p with
      | none =>
        simp only [Heap.alloc] at hs
        obtain ⟨i2, k2⟩ := i1.cell (c := arrCell none) (by intro ps hc; cases hc) rfl
        cases hc : deref (h1 ++ [HObj.cell (arrCell none)]) (some n) with
        | none => simp only [hc] at hs; cases hs
        | some c =>
          simp only [hc] at hs
          exact last (a := h1.length) (ca := arrCell none) i2 (k1.trans l1 k2) (by simp; omega) (by simp) rfl ⟨none, [], i2.nil, rfl⟩ hc hs
      | some a =>
        cases hd : deref h1 (some a) with
        | none => simp only [hd] at hs; cases hs
        | some cp =>
          have hca : h1[a]? = some (.cell cp) := by
            simp only [deref] at hd
            split at hd
            · rename_i x hx; cases hd; exact hx
            · cases hd
          by_cases hty : cp.type = .array
          · simp only [hd, hty, ne_eq, not_true, if_false] at hs
            cases hc : deref h1 (some n) with
            | none => simp only [hc] at hs; cases hs
            | some c =>
              simp only [hc] at hs
              exact last i1 k1 l1 hca hty (o1 cp hd) hc hs
          · simp only [hd, hty, ne_eq, not_false_eq_true, if_true, Heap.alloc] at hs
            obtain ⟨i2, k2⟩ := i1.cell (c := arrCell (some [some a])) (by intro ps hc q hq; cases hc; simp at hq; subst hq; exact m1) rfl
            cases hc : deref (h1 ++ [HObj.cell (arrCell (some [some a]))]) (some n) with
            | none => simp only [hc] at hs; cases hs
            | some c =>
              simp only [hc] at hs
              exact last (a := h1.length) (ca := arrCell (some [some a])) i2 (k1.trans l1 k2) (by simp; omega) (by simp) rfl ⟨none, [], i2.nil, rfl⟩ hc hs

theorem utilAppend_beside {h h' : Heap} {e e' e2 : Event} (i : Beside2 h e e2) {key : Bytes} {item : Ptr} {err : Option PutErr} (hs : utilAppend h e key item = .ok (h', e', err)) : Beside2 h' e' e2 ∧ KeptGrow h h' e2 ∧ h.length ≤ h'.length := by
  let T : Nat → Prop := fun x => ∃ path, Reaches h e2 path (some x)
  have start : Roots (fun m => m = none ∨ m = e) T h := by
    refine ⟨i.proper, .inl rfl, ?_, fun x ⟨path, hx⟩ => reaches_is_map path i.map2 hx, ?_⟩
    · rintro m (rfl | rfl)
      · exact ⟨fun m hm => (by cases hm), i.proper.2⟩
      · exact i.map1
    · rintro x hx ⟨r, path, rfl | rfl, hr⟩
      · cases path with
        | nil => cases hr
        | cons y ys => obtain ⟨q, c, h1, _⟩ := hr; simp [mapOf] at h1
      · exact i.no x ⟨path, hr⟩ hx
  have all := start.utilAppend (.inr rfl) hs
  have kept : KeptGrow h h' e2 := ⟨all.kept.none, all.kept.vals, fun path b hr => all.kept.same b ⟨path, hr⟩⟩
  refine ⟨⟨all.roots.proper, all.roots.each _ (.inr rfl), mapsAreMaps_of all.roots.proper fun b hb => ?_, fun x ⟨p1, r1⟩ ⟨p2, r2⟩ => all.roots.apart x ⟨p2, kept.back i.proper.1 p2 r2⟩ ⟨_, p1, .inr rfl, r1⟩⟩, kept, all.grow⟩
  rw [all.kept.same b ⟨[], hb⟩]
  exact i.map2.1 b hb

theorem worksToo_beside {cv : Conv} {h h' : Heap} {e e' e2 : Event} (i : Beside2 h e e2) (hw : WorksToo cv e2 h e h' e') : Beside2 h' e' e2 ∧ KeptGrow h h' e2 ∧ h.length ≤ h'.length := by
  induction hw with
  | nothing => exact ⟨i, KeptAt.grow ⟨fun _ _ => rfl, fun _ _ _ => rfl⟩, Nat.le_refl _⟩
  | calls _ hc ih =>
    obtain ⟨i1, k1, l1⟩ := ih i
    obtain ⟨i2, k2, l2⟩ := works_beside i1 hc
    exact ⟨i2, k1.trans i.proper.1 l1 k2.grow, Nat.le_trans l1 l2⟩
  | append _ _ hc ih =>
    obtain ⟨i1, k1, l1⟩ := ih i
    obtain ⟨i2, k2, l2⟩ := utilAppend_beside i1 hc
    exact ⟨i2, k1.trans i.proper.1 l1 k2, Nat.le_trans l1 l2⟩
  | process _ hv hc ih =>
    obtain ⟨i1, k1, l1⟩ := ih i
    obtain ⟨k2, l2, a1, a2, a3, a4, -⟩ := process_beside_grow cv _ i1.proper i1.map1 i1.map2 i1.no hv hc
    exact ⟨⟨a1, a2, a3, a4⟩, k1.trans i.proper.1 l1 k2, Nat.le_trans l1 l2⟩

/-- **C118.** Whatever a program does with one event (`Put`, `TryPut`, `Get`, `Delete`, `eventutil.Append`, `Process`, in any order and as often as it likes), another event with which it has no map in common is not disturbed. -/
theorem all_work_beside {cv : Conv} {h h' : Heap} {e e' e2 : Event} (hp : Proper h) (hw : MapsAreMaps h e) (hw2 : MapsAreMaps h e2) (hno : NoCommon h e e2) (work : WorksToo cv e2 h e h' e') :
    (∀ key, keyToPath key ≠ [] → (apiGet h e2 key = .panic ∧ apiGet h' e2 key = .panic) ∨ ∃ q, apiGet h e2 key = .ok (h, q) ∧ apiGet h' e2 key = .ok (h', q) ∧ ∀ c, deref h q = some c → ∃ c', deref h' q = some c' ∧ Longer c c') ∧
    Proper h' ∧ MapsAreMaps h' e' ∧ MapsAreMaps h' e2 ∧ NoCommon h' e' e2 := by
  obtain ⟨i, k, -⟩ := worksToo_beside ⟨hp, hw, hw2, hno⟩ work
  exact ⟨k.get hp.1, i.proper, i.map1, i.map2, i.no⟩

/-- A case, in the memory of `process_beside_kept_sample`: after the pipeline has processed event 0, `eventutil.Append` appends the list that both events have to itself. -/
theorem all_work_sample (cv : Conv) : ∃ (h h' : Heap), Proper h ∧ MapsAreMaps h (some 0) ∧ MapsAreMaps h (some 1) ∧ NoCommon h (some 0) (some 1) ∧ WorksToo cv (some 1) h (some 0) h' (some 0) ∧
    (apiGet h (some 1) (lit "b") = .ok (h, some 4) ∧ deref h (some 4) = some (arrCell (some [some 3]))) ∧ deref h' (some 4) = some (arrCell (some [some 3, some 6, some 3, some 6])) := by
  obtain ⟨h, _, rfl, hp, hno, _⟩ := no_common_sample
  have hv : (⟨lit "p", [.mk (lit "1") [] false false [] (Builtin.append (lit "a") (lit "w") false).prog, .mk (lit "2") [] false false [] (Builtin.set 5 [] (lit "c.d")).prog], []⟩ : Pipeline Builtin (Option Err)).Calls
      (Builtin.ValueApart [.map [(lit "a", some 4)], .map [(lit "b", some 4)], .map [(lit "x", some 5)], .cell (objCell (some 2)), .cell (arrCell (some [some 3])), .cell (strCell (lit "v"))] (some 1)) := by
    refine ⟨⟨⟨⟨?_, fun _ => trivial⟩, trivial⟩, ⟨⟨?_, fun _ => trivial⟩, trivial⟩, trivial⟩, trivial⟩
    · intro v x t hb; cases hb
    · intro v x t hb
      cases hb
      refine ⟨by decide, fun c hc d ⟨path, hr⟩ => ?_⟩
      cases hc
      cases path with
      | nil => cases hr
      | cons y ys => obtain ⟨q, c, h1, _⟩ := hr; simp [strCell, mapOf] at h1
  refine ⟨_, _, hp, mapsAreMaps_of hp ?_, mapsAreMaps_of hp ?_, hno, .append (key := lit "a") (item := some 4) (err := none) (.process .nothing hv (counts := noCounts) (log := []) (r := (some (), none)) rfl) ?_ rfl, ⟨rfl, rfl⟩, rfl⟩
  · intro b hb; cases hb; exact ⟨_, rfl⟩
  · intro b hb; cases hb; exact ⟨_, rfl⟩
  · intro x hx; cases hx; decide

end Sawmill
