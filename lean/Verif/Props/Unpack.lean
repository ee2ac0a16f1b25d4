import Verif.Model.Unpack
import Verif.Props.Reflect
import Verif.Props.SetProc
/-!
# C72: configured values
-/

namespace Sawmill
open ATree

/-- The tree with its root at another address. -/
def ATree.moveRoot (a : Nat) : ATree → ATree
  | .nilp => .nilp
  | .leaf _ s => .leaf a s
  | .arrNil _ => .arrNil a
  | .arr _ vs => .arr a vs
  | .objNil _ => .objNil a
  | .obj _ m es => .obj a m es

theorem moveRoot_erase (a : Nat) (t : ATree) : (t.moveRoot a).erase = t.erase := by cases t <;> rfl

/-- Copying the struct of a value to a new address. -/
theorem moveRoot_spec {h : Heap} {t : ATree} (ht : Rep h t) (hd : t.fp.Nodup) (hl : ∀ a ∈ t.fp, a < h.length) {c : Cell} (hc : deref h t.ptr = some c) :
    Rep (h ++ [.cell c]) (t.moveRoot h.length) ∧ (t.moveRoot h.length).ptr = some h.length ∧ (t.moveRoot h.length).fp.Nodup ∧ ∀ a ∈ (t.moveRoot h.length).fp, a ∈ t.fp ∨ a = h.length := by
  have fr : Frame [] h (h ++ [.cell c]) := frame_alloc _ _
  have at_ : (h ++ [.cell c])[h.length]? = some (.cell c) := by simp
  have ht' := rep_frame0 fr ht
  cases t with
  | nilp => simp [ptr, deref] at hc
  | leaf a s =>
    simp only [Rep] at ht
    simp only [ptr, deref, ht, Option.some.injEq] at hc
    subst hc
    exact ⟨by simp only [moveRoot, Rep]; exact at_, rfl, by simp [moveRoot, fp], by simp [moveRoot, fp]⟩
  | arrNil a =>
    simp only [Rep] at ht
    simp only [ptr, deref, ht, Option.some.injEq] at hc
    subst hc
    exact ⟨by simp only [moveRoot, Rep]; exact at_, rfl, by simp [moveRoot, fp], by simp [moveRoot, fp]⟩
  | arr a vs =>
    simp only [Rep] at ht ht'
    simp only [ptr, deref, ht.1, Option.some.injEq] at hc
    subst hc
    simp only [fp, List.nodup_cons, List.mem_cons] at hd hl
    refine ⟨by simp only [moveRoot, Rep]; exact ⟨at_, ht'.2⟩, rfl, ?_, ?_⟩
    · simp only [moveRoot, fp, List.nodup_cons]
      exact ⟨fun hm => by have := hl _ (.inr hm); omega, hd.2⟩
    · intro x hx
      simp only [moveRoot, fp, List.mem_cons] at hx ⊢
      rcases hx with rfl | hx
      · exact .inr rfl
      · exact .inl (.inr hx)
  | objNil a =>
    simp only [Rep] at ht
    simp only [ptr, deref, ht, Option.some.injEq] at hc
    subst hc
    exact ⟨by simp only [moveRoot, Rep]; exact at_, rfl, by simp [moveRoot, fp], by simp [moveRoot, fp]⟩
  | obj a m es =>
    simp only [Rep] at ht ht'
    simp only [ptr, deref, ht.1, Option.some.injEq] at hc
    subst hc
    refine ⟨by simp only [moveRoot, Rep]; exact ⟨at_, ht'.2⟩, rfl, ?_, ?_⟩
    · simpa [moveRoot, fp] using hd
    · intro x hx
      simp only [moveRoot, fp] at hx ⊢
      exact .inl hx

/-- **C72.** `Unpack` on any Go value. If something inside is unsupported it returns an error and the variable is as before; it panics only if something inside does. Otherwise a processor made from the options holds the
value that the Go value stands for; everything mutable in it is new, and nothing that existed before is changed. -/
theorem unpack_spec {env : REnv} {h : Heap} (hn : IsNull h env.nul) (x : GIface) (v : Cell) :
    match unpackValue env x v h with
    | .panic => ∃ n, Inside (.iface x) n ∧ Panicky n
    | .ok (h', v', some _) => h' = h ∧ v' = v ∧ ∃ n, Inside (.iface x) n ∧ Unsupported n
    | .ok (h', v', none) => (∀ n, Inside (.iface x) n → ¬ Unsupported n ∧ ¬ Panicky n) ∧ Frame [] h h' ∧
        ∃ t : ATree, Rep (newSet v' h').1 t ∧ t.ptr = some (newSet v' h').2 ∧ t.erase = valI env x ∧ Reads (newSet v' h').1 (some (newSet v' h').2) (valI env x) ∧ t.fp.Nodup ∧ (∀ a ∈ t.fp, h.length ≤ a) := by
  have key := reflectValue_outcome hn x
  unfold unpackValue
  cases hr : ifaceToValue env x h with
  | panic => rw [hr] at key; exact key
  | unsupported => rw [hr] at key; exact ⟨rfl, rfl, key⟩
  | ok r =>
    obtain ⟨h', p⟩ := r
    rw [hr] at key
    obtain ⟨⟨t, rfl, k1, k2, k3, k4, k5⟩, k6⟩ := key
    have hnil : t ≠ .nilp := by
      rintro rfl
      exact clean_not_nilI x k6 k2.symm
    obtain ⟨a, c, d1, d2, _⟩ := deref_rep k1 hnil
    rw [← d1] at d2
    simp only [d2]
    obtain ⟨m1, m2, m3, m4⟩ := moveRoot_spec k1 k3 (fun a ha => (fp_lt t k1) a ha) d2
    refine ⟨k6, k5, t.moveRoot h'.length, m1, m2, by rw [moveRoot_erase, k2], ?_, m3, ?_⟩
    · have := rep_reads _ m1
      rw [moveRoot_erase, k2, m2] at this
      exact this
    · intro a ha
      rcases m4 a ha with h1 | rfl
      · exact k4 a h1
      · exact k5.len

/-- C72, all the way: options with a Go value (other than nil and what else stands for null), then the `set` processor, on an event that owned its contents before. The value that the Go value stands for is put at the target. -/
theorem configured_set {env : REnv} {h : Heap} (hn : IsNull h env.nul) {x : GIface} {v v' : Cell} {h' : Heap} (hu : unpackValue env x v h = .ok (h', v', none)) (hx : valI env x ≠ .scalar .null) {f : AFields} (o : Owns h f)
    (copyFrom target : Bytes) :
    ∃ S, ProcPostWith S (newSet v' h').1 f (setProcess (newSet v' h').2 copyFrom target (newSet v' h').1 f.event) (Spec.set (valI env x) copyFrom target f.erase) := by
  have key := unpack_spec hn x v
  rw [hu] at key
  obtain ⟨_, fr, t, k1, k2, k3, _, k5, k6⟩ := key
  have fr2 : Frame [] h (newSet v' h').1 := fr.trans0 (frame_alloc _ _)
  have o2 := o.frame fr2 (by simp)
  refine ⟨t.fp, ?_⟩
  have := set_value_spec (t := t) o2 k1 k5 (fun a ha hc => by have := o.lt a hc; have := k6 a ha; omega) k2 (by rw [k3]; exact hx) copyFrom target
  rwa [k3] at this

/-- C72: the options hold a copy of `NullValue` for nil, not `NullValue` itself. -/
theorem unpack_nil {env : REnv} {h : Heap} (hn : IsNull h env.nul) (v : Cell) : unpackValue env .nil v h = .ok (h, nullCell, none) := by
  have hn' : deref h env.nul = some nullCell := hn
  simp [unpackValue, ifaceToValue, hn']

/-- C72: a copied struct still shares its map: of two processors made from the same options, an event that one of them was applied to changes what the other one sets. (Object `{"k": true}`; after `Put("t.x", …)` on the event the other
processor's value has two fields.) -/
theorem unpack_copies_share :
    ∃ (h1 h2 h3 : Heap) (v : Cell) (e : Event) (a b n : Nat), unpackValue ⟨some 0, id, fun _ => 0⟩ (.val (.mk true {} (.map [(lit "k", .val (.mk true {} (.bool true)))]))) nullCell [.cell nullCell] = .ok (h1, v, none) ∧
      newSet v h1 = (h2, a) ∧ newSet v h2 = (h3, b) ∧ a ≠ b ∧
      Reads h3 (some b) (.obj [(lit "k", .scalar (.bool true))]) ∧
      (∃ h4, setProcess a [] (lit "t") h3 none = .ok (h4, e, none) ∧
        ∃ h5 e5, apiPut (h4 ++ [.cell (boolCell false)]) e (lit "t.x") (some n) = .ok (h5, e5, none, none) ∧
          Reads h5 (some b) (.obj [(lit "k", .scalar (.bool true)), (lit "x", .scalar (.bool false))])) := by
  refine ⟨_, _, _, _, _, _, _, 7, rfl, rfl, rfl, by decide, ?_, ⟨_, rfl, _, _, rfl, ?_⟩⟩
  · exact ⟨_, _, rfl, rfl, rfl, rfl, trivial⟩
  · exact ⟨_, _, rfl, rfl, rfl, rfl, rfl, rfl, trivial⟩

/-- The hypotheses of `configured_set` can be met. -/
theorem unpack_sample : ∃ h' v', unpackValue sampleEnv (.val (sampleStruct (.uintptr (lit "uintptr") 7))) nullCell [.cell nullCell] = .ok (h', v', none) ∧ valI sampleEnv (.val (sampleStruct (.uintptr (lit "uintptr") 7))) ≠ .scalar .null := by
  refine ⟨_, _, rfl, ?_⟩
  show Val.obj _ ≠ _
  simp

end Sawmill
