import Verif.Spec.Leaves
import Verif.Props.Reorder
import Verif.Props.Path
/-!
# C68: an event is the sum of its leaves
-/

namespace Sawmill
open Spec

/-- Storing these, one after another, where there was nothing. -/
inductive Stores : AMap Val → List (List Bytes × Val) → AMap Val → Prop where
  | nil (m) : Stores m [] m
  | cons {m m1 m2 p v ls} : Spec.get m p = .ok .nilp → Spec.store m p v = .ok (some m1) → Stores m1 ls m2 → Stores m ((p, v) :: ls) m2

theorem Stores.append {m m1 m2 : AMap Val} {ls ms : List (List Bytes × Val)} (h1 : Stores m ls m1) (h2 : Stores m1 ms m2) : Stores m (ls ++ ms) m2 := by
  induction h1 with
  | nil => exact h2
  | cons a b _ ih => exact .cons a b (ih h2)

theorem get_under {m : AMap Val} {k : Bytes} {es : AMap Val} {p : List Bytes} (hp : p ≠ []) (hl : m.lookup k = some (.obj es)) : Spec.get m (k :: p) = Spec.get es p := by
  cases p with
  | nil => exact absurd rfl hp
  | cons a p => simp [Spec.get, hl]

theorem store_under {m : AMap Val} {k : Bytes} {es : AMap Val} {p : List Bytes} (v : Val) (hp : p ≠ []) (hl : m.lookup k = some (.obj es)) :
    Spec.store m (k :: p) v = (Spec.store es p v).map (·.map fun es' => m.insert k (.obj es')) := by
  cases p with
  | nil => exact absurd rfl hp
  | cons a p => simp [Spec.store, hl]

theorem Stores.under (m : AMap Val) (k : Bytes) {es0 es1 : AMap Val} {ls : List (List Bytes × Val)} (h : Stores es0 ls es1) (hp : ∀ e ∈ ls, e.1 ≠ []) :
    Stores (m.insert k (.obj es0)) (ls.map fun (path, leaf) => (k :: path, leaf)) (m.insert k (.obj es1)) := by
  induction h with
  | nil => exact .nil _
  | cons a b _ ih =>
    rename_i m1 m2 p v ls _
    have hp0 : p ≠ [] := hp (p, v) (by simp)
    refine .cons ?_ ?_ (ih (fun e he => hp e (by simp [he])))
    · rw [get_under hp0 (AMap.lookup_insert_self _ _ _)]; exact a
    · rw [store_under v hp0 (AMap.lookup_insert_self _ _ _), b]
      simp [AMap.insert_insert]

theorem Stores.under_new {m : AMap Val} {k : Bytes} (hk : m.lookup k = none) {es1 : AMap Val} {ls : List (List Bytes × Val)} (h : Stores [] ls es1) (hne : ls ≠ []) (hp : ∀ e ∈ ls, e.1 ≠ []) :
    Stores m (ls.map fun (path, leaf) => (k :: path, leaf)) (m.insert k (.obj es1)) := by
  cases h with
  | nil => exact absurd rfl hne
  | cons a b c =>
    rename_i m1 p v ls
    have hp0 : p ≠ [] := hp (p, v) (by simp)
    refine .cons ?_ ?_ (c.under m k (fun e he => hp e (by simp [he])))
    · cases p with
      | nil => exact absurd rfl hp0
      | cons x p => simp [Spec.get, hk]
    · cases p with
      | nil => exact absurd rfl hp0
      | cons x p => simp [Spec.store, hk, b]

mutual
theorem leaves_ne_nil : ∀ v : Val, leaves v ≠ []
  | .obj (e :: es) => by
    simp only [leaves]; exact leavesE_ne_nil e es
  | .obj [] => by simp [leaves]
  | .nilp => by simp [leaves]
  | .scalar _ => by simp [leaves]
  | .arrNil => by simp [leaves]
  | .objNil => by simp [leaves]
  | .arr _ => by simp [leaves]
theorem leavesE_ne_nil : ∀ (e : Bytes × Val) (es : List (Bytes × Val)), leavesE (e :: es) ≠ []
  | (k, v), es => by simp [leavesE, leaves_ne_nil v]
end

theorem leavesE_paths {es : List (Bytes × Val)} {e : List Bytes × Val} (he : e ∈ leavesE es) : ∃ k p v, e = (k :: p, e.2) ∧ (k, v) ∈ es ∧ (p, e.2) ∈ leaves v := by
  induction es with
  | nil => simp [leavesE] at he
  | cons x es ih =>
    obtain ⟨k, v⟩ := x
    simp only [leavesE, List.mem_append, List.mem_map] at he
    rcases he with ⟨y, hy, rfl⟩ | he
    · exact ⟨k, y.1, v, rfl, by simp, hy⟩
    · obtain ⟨k', p, v', a, b, c⟩ := ih he
      exact ⟨k', p, v', a, by simp [b], c⟩

theorem leavesE_path_ne {es : List (Bytes × Val)} {e : List Bytes × Val} (he : e ∈ leavesE es) : e.1 ≠ [] := by
  obtain ⟨k, p, v, a, _⟩ := leavesE_paths he
  rw [a]; simp

mutual
theorem stores_val : ∀ (v : Val) (m : AMap Val) (k : Bytes), m.lookup k = none → AMap.Sorted m → v.Canon → Stores m ((leaves v).map fun (path, leaf) => (k :: path, leaf)) (m.insert k v)
  | .obj (e :: es), m, k, hk, _, hc => by
    simp only [leaves]
    have h := stores_entries (e :: es) [] .nil hc.1 hc.2 (by simp)
    rw [AMap.ofEntries_perm hc.1 (.refl _)] at h
    exact h.under_new hk (leavesE_ne_nil e es) (fun _ he => leavesE_path_ne he)
  | .obj [], m, k, hk, _, _ => by simp only [leaves]; exact .cons (by simp [Spec.get, hk]) rfl (.nil _)
  | .nilp, m, k, hk, _, _ => by simp only [leaves]; exact .cons (by simp [Spec.get, hk]) rfl (.nil _)
  | .scalar _, m, k, hk, _, _ => by simp only [leaves]; exact .cons (by simp [Spec.get, hk]) rfl (.nil _)
  | .arrNil, m, k, hk, _, _ => by simp only [leaves]; exact .cons (by simp [Spec.get, hk]) rfl (.nil _)
  | .objNil, m, k, hk, _, _ => by simp only [leaves]; exact .cons (by simp [Spec.get, hk]) rfl (.nil _)
  | .arr _, m, k, hk, _, _ => by simp only [leaves]; exact .cons (by simp [Spec.get, hk]) rfl (.nil _)
theorem stores_entries : ∀ (es : List (Bytes × Val)) (m : AMap Val), AMap.Sorted m → AMap.Sorted es → Val.CanonE es → (∀ e ∈ es, m.lookup e.1 = none) → Stores m (leavesE es) (AMap.ofEntries es m)
  | [], m, _, _, _, _ => by simp only [leavesE, AMap.ofEntries_nil]; exact .nil _
  | (k, v) :: es, m, hs, hes, hc, hn => by
    simp only [leavesE, AMap.ofEntries_cons]
    have h1 := List.pairwise_cons.mp hes
    refine (stores_val v m k (hn (k, v) (by simp)) hs hc.1).append (stores_entries es _ (AMap.sorted_insert _ _ hs) h1.2 hc.2 fun e he => ?_)
    rw [AMap.lookup_insert_of_ne]
    · exact hn e (by simp [he])
    · intro hk
      have := h1.1 e he
      rw [hk] at this
      simp [bLt_irrefl] at this
end

mutual
theorem leaves_unrelated : ∀ v : Val, v.Canon → (leaves v).Pairwise fun a b => ¬ Related a.1 b.1
  | .obj (e :: es), hc => by simp only [leaves]; exact leavesE_unrelated (e :: es) hc.1 hc.2
  | .obj [], _ => by simp [leaves]
  | .nilp, _ => by simp [leaves]
  | .scalar _, _ => by simp [leaves]
  | .arrNil, _ => by simp [leaves]
  | .objNil, _ => by simp [leaves]
  | .arr _, _ => by simp [leaves]
theorem leavesE_unrelated : ∀ es : List (Bytes × Val), AMap.Sorted es → Val.CanonE es → (leavesE es).Pairwise fun a b => ¬ Related a.1 b.1
  | [], _, _ => by simp [leavesE]
  | (k, v) :: es, hs, hc => by
    simp only [leavesE]
    have h1 := List.pairwise_cons.mp hs
    refine List.pairwise_append.mpr ⟨?_, leavesE_unrelated es h1.2 hc.2, ?_⟩
    · rw [List.pairwise_map]
      refine (leaves_unrelated v hc.1).imp fun {a b} hab hr => hab ?_
      rcases hr with hr | hr
      · exact .inl (List.cons_prefix_cons.mp hr).2
      · exact .inr (List.cons_prefix_cons.mp hr).2
    · intro a ha b hb hr
      obtain ⟨x, _, rfl⟩ := List.mem_map.mp ha
      obtain ⟨k', p, v', e, hm, _⟩ := leavesE_paths hb
      rw [e] at hr
      have hk : k = k' := by
        rcases hr with hr | hr
        · exact (List.cons_prefix_cons.mp hr).1
        · exact (List.cons_prefix_cons.mp hr).1.symm
      have := h1.1 _ hm
      rw [← hk] at this
      simp [bLt_irrefl] at this
end

mutual
theorem leaves_good : ∀ (v : Val), Writable v → v.Canon → v.NoNil → ∀ e ∈ leaves v, (∀ n ∈ e.1, GoodName n) ∧ e.2.Canon ∧ e.2.NoNil
  | .obj (e :: es), hw, hc, hn => by
    simp only [leaves]
    exact leavesE_good (e :: es) (by simpa only [Writable] using hw) hc.2 (by simpa only [Val.NoNil] using hn)
  | .obj [], _, hc, hn => by simp only [leaves]; intro e he; simp at he; subst he; exact ⟨by simp, hc, hn⟩
  | .nilp, _, hc, hn => by simp only [leaves]; intro e he; simp at he; subst he; exact ⟨by simp, hc, hn⟩
  | .scalar _, _, hc, hn => by simp only [leaves]; intro e he; simp at he; subst he; exact ⟨by simp, hc, hn⟩
  | .arrNil, _, hc, hn => by simp only [leaves]; intro e he; simp at he; subst he; exact ⟨by simp, hc, hn⟩
  | .objNil, _, hc, hn => by simp only [leaves]; intro e he; simp at he; subst he; exact ⟨by simp, hc, hn⟩
  | .arr _, _, hc, hn => by simp only [leaves]; intro e he; simp at he; subst he; exact ⟨by simp, hc, hn⟩
theorem leavesE_good : ∀ (es : List (Bytes × Val)), WritableE es → Val.CanonE es → Val.NoNilEs es → ∀ e ∈ leavesE es, (∀ n ∈ e.1, GoodName n) ∧ e.2.Canon ∧ e.2.NoNil
  | [], _, _, _ => by simp [leavesE]
  | (k, v) :: es, hw, hc, hn => by
    simp only [leavesE]
    simp only [WritableE] at hw
    simp only [Val.NoNilEs] at hn
    intro e he
    rcases List.mem_append.mp he with he | he
    · obtain ⟨x, hx, rfl⟩ := List.mem_map.mp he
      obtain ⟨a, b, c⟩ := leaves_good v hw.2.1 hc.1 hn.1 x hx
      refine ⟨?_, b, c⟩
      intro n hm
      rcases List.mem_cons.mp hm with rfl | hm
      · exact hw.1
      · exact a n hm
    · exact leavesE_good es hw.2.2 hc.2 hn.2 e he
end

/-- The calls that put leaves into event number 0. -/
def putLeaf (e : List Bytes × Val) : Nat × Call := (0, .put (joinKey e.1) e.2)

theorem run_stores {m m2 : AMap Val} {ls : List (List Bytes × Val)} (h : Stores m ls m2) (hp : ∀ e ∈ ls, e.1 ≠ [] ∧ (∀ n ∈ e.1, GoodName n) ∧ e.2.isNil = false) (F : Fields) (hF : F.getD [] = m) :
    Spec.run [F] (ls.map putLeaf) = .ok ([if ls = [] then F else some m2], ls.map fun _ => (Val.nilp, none)) := by
  induction h generalizing F with
  | nil => rfl
  | cons a b hst ih =>
    rename_i m m1 m2 p v ls
    obtain ⟨h1, h2, h3⟩ := hp (p, v) (by simp)
    have hk : keyToPath (joinKey p) = p := keyToPath_joinKey p h2
    have hput : Spec.putFields F p v true = .ok (some m1, .nilp, none) := by
      rw [putFields_cases h1 h3, hF, a]
      simp only [Res.bind_ok, Bool.not_true, Bool.and_false, Bool.false_eq_true, if_false, b]
      rfl
    have ih' := ih (fun e he => hp e (by simp [he])) (some m1) rfl
    simp only [List.map_cons, putLeaf, Spec.run, Spec.call, List.getElem?_cons_zero, hk, hput, Res.map_ok, Res.bind_ok, List.set_cons_zero]
    rw [show List.map putLeaf ls = ls.map putLeaf from rfl, ih']
    simp only [Res.bind_ok, reduceCtorEq, if_false]
    by_cases hl : ls = []
    · subst hl
      cases hst
      simp
    · simp [hl]

theorem allShow_length : ∀ {rets : List Ret} {rs : List (Val × Option Spec.Error)}, AllShow rets rs → rets.length = rs.length
  | [], [], _ => rfl
  | _ :: _, _ :: _, h => by simp [allShow_length h.2]

theorem allShow_mem : ∀ {rets : List Ret} {rs : List (Val × Option Spec.Error)}, AllShow rets rs → ∀ {r}, r ∈ rets → ∃ x ∈ rs, r.Shows x
  | _ :: _, y :: _, h, r, hr => by
    rcases List.mem_cons.mp hr with rfl | hr
    · exact ⟨y, by simp, h.1⟩
    · obtain ⟨x, hx, h⟩ := allShow_mem h.2 hr
      exact ⟨x, by simp [hx], h⟩

/-- **C68.** The leaves of an event, put into a new event in any order, restore it, and no `Put` finds anything in its place. -/
theorem leaves_restore {es : AMap Val} (hne : es ≠ []) (hc : (Val.obj es).Canon) (hn : (Val.obj es).NoNil) (hw : Writable (.obj es)) {cs : List (Nat × Call)} (hp : cs.Perm ((leaves (.obj es)).map fun (path, leaf) => (0, .put (joinKey path) leaf))) :
    ∃ w rets, World.run ⟨[], [newEvent]⟩ cs = .ok (w, rets) ∧ w.Contains [some es] ∧ rets.length = cs.length ∧ ∀ r ∈ rets, r.Shows (.nilp, none) := by
  obtain ⟨e, es', rfl⟩ : ∃ e es', es = e :: es' := by cases es with
    | nil => exact absurd rfl hne
    | cons e es' => exact ⟨e, es', rfl⟩
  have hl : leaves (.obj (e :: es')) = leavesE (e :: es') := by simp only [leaves]
  rw [hl] at hp
  change cs.Perm ((leavesE (e :: es')).map putLeaf) at hp
  have hgood := leavesE_good (e :: es') (by simpa only [Writable] using hw) hc.2 (by simpa only [Val.NoNil] using hn)
  have hst := stores_entries (e :: es') [] .nil hc.1 hc.2 (by simp)
  rw [AMap.ofEntries_perm hc.1 (.refl _)] at hst
  have hrun := run_stores hst (fun x hx => ⟨leavesE_path_ne hx, (hgood x hx).1, by
    have := (hgood x hx).2.2
    cases hx2 : x.2 <;> simp [hx2, Val.NoNil, Val.isNil] at this ⊢⟩) none rfl
  simp only [leavesE_ne_nil, if_false] at hrun
  have hind : ((leavesE (e :: es')).map putLeaf).Pairwise Independent := by
    rw [List.pairwise_map]
    refine List.Pairwise.imp_of_mem ?_ (leavesE_unrelated (e :: es') hc.1 hc.2)
    intro a b ha hb hab
    refine .inr (.inr ?_)
    simp only [putLeaf, Call.area, keyToPath_joinKey _ (hgood a ha).1, keyToPath_joinKey _ (hgood b hb).1]
    exact hab
  have hpass : ∀ c ∈ cs, c.2.Good Val.Passable := by
    intro c hcm
    obtain ⟨x, hx, rfl⟩ := List.mem_map.mp (hp.mem_iff.mp hcm)
    exact ⟨(hgood x hx).2.1, .inr (hgood x hx).2.2⟩
  obtain ⟨w, rets, s, rs, a1, a2, a3, a4, a5⟩ := history_refines_nested_map 1 cs hpass
  rcases spec_reorder (reorder_of_perm hp.symm (fun _ _ => Independent.symm) hind) (s := [none]) (by intro f hf es he; simp at hf; subst hf; cases he) with ⟨x, _⟩ | ⟨s', rs', ss, x, y, l1, l2, p⟩
  · rw [hrun] at x; cases x
  · have a2' : Spec.run [none] cs = .ok (s, rs) := a2
    rw [a2'] at y
    rw [hrun] at x
    simp only [Res.ok.injEq, Prod.mk.injEq] at x y
    obtain ⟨rfl, rfl⟩ := x
    obtain ⟨rfl, rfl⟩ := y
    have hall : ∀ r ∈ rs, r = (Val.nilp, none) := by
      intro r hr
      obtain ⟨i, hi, rfl⟩ := List.getElem_of_mem hr
      have hm : (cs[i]'(l2 ▸ hi), rs[i]) ∈ cs.zip rs := by
        rw [List.mem_iff_getElem]
        exact ⟨i, by rw [List.length_zip]; omega, by simp⟩
      have := (List.of_mem_zip (p.mem_iff.mpr hm)).2
      simpa using (List.mem_map.mp this).choose_spec.2.symm
    refine ⟨w, rets, a1, ⟨a4, a5⟩, ?_, ?_⟩
    · have := allShow_length a3
      omega
    · intro r hr
      obtain ⟨x, hx, h⟩ := allShow_mem a3 hr
      exact hall x hx ▸ h

/-- An event with nested objects, an array with an object in it, an empty object and a name with a dot. -/
def leafySample : Val := .obj [(lit "a", .obj [(lit "b.c", .scalar (.int 1)), (lit "d", .obj [])]), (lit "e", .arr [.obj [(lit "f", .scalar .null)]])]

theorem leafySample_ok : leafySample.Canon ∧ leafySample.NoNil ∧ Writable leafySample := by
  refine ⟨?_, ?_, ?_⟩
  · simp only [leafySample, Val.Canon, Val.CanonE, Val.CanonL]; decide +kernel
  · simp [leafySample, Val.NoNil, Val.NoNilEs]
  · simp only [leafySample, Writable, WritableE]; decide +kernel

theorem leafySample_leaves : (leaves leafySample).map (fun e => (joinKey e.1, e.2)) =
    [(lit "a.b\\.c", .scalar (.int 1)), (lit "a.d", .obj []), (lit "e", .arr [.obj [(lit "f", .scalar .null)]])] := by rfl

end Sawmill
