import Verif.Spec.Hops
import Verif.Props.Convert
import Verif.Props.GoJson
import Verif.Lemmas.JsonDec
/-!
# C100: events that travel several times
-/

namespace Sawmill
open Wire Spec

theorem stuff_nil (n : Nat) : stuff n [] = [] := rfl

theorem stuff_one (k : Bytes) : stuff 1 k = escapeKey k := by
  rw [escapeKey_eq]
  simp [stuff]

theorem stuff_append (n : Nat) (a b : Bytes) : stuff n (a ++ b) = stuff n a ++ stuff n b := by simp [stuff]

theorem stuff_bsl (m n : Nat) : stuff m (List.replicate n bsl) = List.replicate n bsl := by
  induction n with
  | zero => rfl
  | succ n ih =>
    rw [List.replicate_succ, show bsl :: List.replicate n bsl = [bsl] ++ List.replicate n bsl from rfl, stuff_append, ih]
    rfl

/-- Stuffing twice. -/
theorem stuff_stuff (m n : Nat) (k : Bytes) : stuff m (stuff n k) = stuff (n + m) k := by
  induction k with
  | nil => rfl
  | cons b k ih =>
    rw [show b :: k = [b] ++ k from rfl, stuff_append, stuff_append, stuff_append, ih]
    congr 1
    by_cases hb : b = dot
    · subst hb
      show stuff m (stuff n [dot]) = stuff (n + m) [dot]
      have h1 : stuff n [dot] = List.replicate n bsl ++ [dot] := by simp [stuff]
      have h2 : ∀ j, stuff j [dot] = List.replicate j bsl ++ [dot] := by intro j; simp [stuff]
      rw [h1, stuff_append, stuff_bsl, h2, h2, ← List.append_assoc, List.replicate_append_replicate]
    · have h1 : ∀ j, stuff j [b] = [b] := by intro j; simp [stuff, hb]
      rw [h1, h1, h1]

theorem stuff_inj (n : Nat) {a b : Bytes} (h : stuff n a = stuff n b) : a = b := by
  induction n with
  | zero => 
    have hz : ∀ k, stuff 0 k = k := by
      intro k
      induction k with
      | nil => rfl
      | cons c k ih =>
        rw [show c :: k = [c] ++ k from rfl, stuff_append, ih]
        by_cases hc : c = dot <;> simp [stuff, hc]
    rwa [hz, hz] at h
  | succ n ih =>
    rw [← stuff_stuff, ← stuff_stuff, stuff_one, stuff_one] at h
    exact ih (escapeKey_inj h)

theorem stuff_length (n : Nat) (k : Bytes) : (stuff n k).length = k.length + n * k.count dot := by
  induction k with
  | nil => rfl
  | cons b k ih =>
    rw [show b :: k = [b] ++ k from rfl, stuff_append, List.length_append, ih, List.length_append, List.count_append]
    by_cases hb : b = dot
    · subst hb
      simp [stuff, Nat.mul_add]
      omega
    · have : [b].count dot = 0 := by simp [hb]
      simp [stuff, hb, this]
      omega

theorem stuffedE_eq (n : Nat) (es : List (Bytes × Val)) : Val.stuffedE n es = es.map fun e => (stuff n e.1, e.2.stuffed n) := by
  induction es with
  | nil => rfl
  | cons e es ih => obtain ⟨k, v⟩ := e; simp [Val.stuffedE, ih]

theorem hopE_eq (es : List (Bytes × Val)) : Val.hopE es = es.map fun e => (escapeKey e.1, e.2.hop) := by
  induction es with
  | nil => rfl
  | cons e es ih => obtain ⟨k, v⟩ := e; simp [Val.hopE, ih]

theorem solidE_iff {es : List (Bytes × Val)} : Val.SolidE es ↔ ∀ e ∈ es, e.2.Solid := by
  induction es with
  | nil => simp [Val.SolidE]
  | cons e es ih => obtain ⟨k, v⟩ := e; simp [Val.SolidE, ih]

/-- The listing of an object under injectively changed names has the entries in some order. -/
theorem stuffedE_perm (n : Nat) {es : List (Bytes × Val)} (hs : AMap.Sorted es) : (AMap.ofEntries (Val.stuffedE n es) []).Perm (Val.stuffedE n es) := by
  have hn : ((Val.stuffedE n es ++ ([] : AMap Val)).map (·.1)).Nodup := by
    rw [List.append_nil, stuffedE_eq, List.map_map]
    have := nodup_map_inj (f := stuff n) (fun _ _ => stuff_inj n) (AMap.sorted_nodup hs)
    rwa [AMap.keys, List.map_map] at this
  simpa using ofEntries_perm_self (Val.stuffedE n es) [] hn

/-! ## One more trip -/

mutual
theorem stuffed_hop (n : Nat) : ∀ (v : Val), v.Canon → (v.stuffed n).hop = v.stuffed (n + 1)
  | .nilp, _ => rfl
  | .scalar _, _ => rfl
  | .arrNil, _ => rfl
  | .objNil, _ => rfl
  | .arr vs, hc => by simp only [Val.stuffed, Val.hop, stuffedL_hop n vs hc]
  | .obj es, hc => by
    have ih := stuffedE_hop n es hc.2
    simp only [Val.stuffed, Val.hop]
    congr 1
    rw [← ih]
    rw [hopE_eq, hopE_eq]
    refine ofEntries_congr ((stuffedE_perm n hc.1).map _) ?_
    rw [List.map_map]
    have h1 : ((AMap.ofEntries (Val.stuffedE n es) []).map (·.1)).Nodup := AMap.sorted_nodup (AMap.sorted_ofEntries (by simp [AMap.Sorted]))
    have := nodup_map_inj (f := escapeKey) (fun _ _ => escapeKey_inj) h1
    rwa [List.map_map] at this
theorem stuffedL_hop (n : Nat) : ∀ (vs : List Val), Val.CanonL vs → Val.hopL (Val.stuffedL n vs) = Val.stuffedL (n + 1) vs
  | [], _ => rfl
  | v :: vs, hc => by simp only [Val.stuffedL, Val.hopL, stuffed_hop n v hc.1, stuffedL_hop n vs hc.2]
theorem stuffedE_hop (n : Nat) : ∀ (es : List (Bytes × Val)), Val.CanonE es → Val.hopE (Val.stuffedE n es) = Val.stuffedE (n + 1) es
  | [], _ => rfl
  | (k, v) :: es, hc => by
    simp only [Val.stuffedE, Val.hopE, stuffed_hop n v hc.1, stuffedE_hop n es hc.2]
    rw [← stuff_one, stuff_stuff]
end

mutual
theorem hop_stuffed : ∀ (v : Val), v.hop = v.stuffed 1
  | .nilp => rfl
  | .scalar _ => rfl
  | .arrNil => rfl
  | .objNil => rfl
  | .arr vs => by simp only [Val.stuffed, Val.hop, hopL_stuffed vs]
  | .obj es => by simp only [Val.stuffed, Val.hop, hopE_stuffed es]
theorem hopL_stuffed : ∀ (vs : List Val), Val.hopL vs = Val.stuffedL 1 vs
  | [] => rfl
  | v :: vs => by simp only [Val.stuffedL, Val.hopL, hop_stuffed v, hopL_stuffed vs]
theorem hopE_stuffed : ∀ (es : List (Bytes × Val)), Val.hopE es = Val.stuffedE 1 es
  | [] => rfl
  | (k, v) :: es => by simp only [Val.stuffedE, Val.hopE, hop_stuffed v, hopE_stuffed es, stuff_one]
end

mutual
theorem tripped_hop : ∀ (v : Val), v.Solid → v.tripped = v.hop
  | .nilp, h => h.elim
  | .scalar _, _ => rfl
  | .arrNil, _ => rfl
  | .objNil, _ => rfl
  | .arr vs, h => by simp only [Val.tripped, Val.hop, trippedL_hop vs h]
  | .obj es, h => by simp only [Val.tripped, Val.hop, trippedE_hop es h]
theorem trippedL_hop : ∀ (vs : List Val), Val.SolidL vs → Val.trippedL vs = Val.hopL vs
  | [], _ => rfl
  | v :: vs, h => by simp only [Val.trippedL, Val.hopL, tripped_hop v h.1, trippedL_hop vs h.2]
theorem trippedE_hop : ∀ (es : List (Bytes × Val)), Val.SolidE es → Val.trippedE es = Val.hopE es
  | [], _ => rfl
  | (k, v) :: es, h => by simp only [Val.trippedE, Val.hopE, tripped_hop v h.1, trippedE_hop es h.2]
end

/-! ## The contents stay fit for travel -/

mutual
theorem stuffed_canon (n : Nat) : ∀ (v : Val), v.Canon → (v.stuffed n).Canon
  | .nilp, _ => trivial
  | .scalar _, _ => trivial
  | .arrNil, _ => trivial
  | .objNil, _ => ⟨by simp [AMap.Sorted], trivial⟩
  | .arr vs, h => stuffedL_canon n vs h
  | .obj es, h => by
    have ih := stuffedE_canon n es h.2
    refine ⟨AMap.sorted_ofEntries (by simp [AMap.Sorted]), canonE_iff.2 fun e he => ?_⟩
    exact canonE_iff.1 ih e ((stuffedE_perm n h.1).mem_iff.1 he)
theorem stuffedL_canon (n : Nat) : ∀ (vs : List Val), Val.CanonL vs → Val.CanonL (Val.stuffedL n vs)
  | [], _ => trivial
  | v :: vs, h => ⟨stuffed_canon n v h.1, stuffedL_canon n vs h.2⟩
theorem stuffedE_canon (n : Nat) : ∀ (es : List (Bytes × Val)), Val.CanonE es → Val.CanonE (Val.stuffedE n es)
  | [], _ => trivial
  | (_, v) :: es, h => ⟨stuffed_canon n v h.1, stuffedE_canon n es h.2⟩
end

mutual
theorem stuffed_solid (n : Nat) : ∀ (v : Val), v.Solid → (v.stuffed n).Solid
  | .nilp, h => h.elim
  | .scalar _, _ => trivial
  | .arrNil, _ => trivial
  | .objNil, _ => trivial
  | .arr vs, h => stuffedL_solid n vs h
  | .obj es, h => by
    have ih := stuffedE_solid n es h
    refine solidE_iff.2 fun e he => ?_
    rcases mem_ofEntries he with h | h
    · exact solidE_iff.1 ih e h
    · simp at h
theorem stuffedL_solid (n : Nat) : ∀ (vs : List Val), Val.SolidL vs → Val.SolidL (Val.stuffedL n vs)
  | [], _ => trivial
  | v :: vs, h => ⟨stuffed_solid n v h.1, stuffedL_solid n vs h.2⟩
theorem stuffedE_solid (n : Nat) : ∀ (es : List (Bytes × Val)), Val.SolidE es → Val.SolidE (Val.stuffedE n es)
  | [], _ => trivial
  | (_, v) :: es, h => ⟨stuffed_solid n v h.1, stuffedE_solid n es h.2⟩
end

theorem carried_travel (n : Nat) {es : AMap Val} (h : CanTravel es) : CanTravel (carried n es) := by
  cases n with
  | zero => exact h
  | succ n =>
    refine ⟨AMap.sorted_mapVals h.sorted, canonE_iff.2 ?_, solidE_iff.2 ?_, ?_, ?_⟩
    · intro e he
      obtain ⟨x, hx, rfl⟩ := List.mem_map.1 he
      exact stuffed_canon _ _ (canonE_iff.1 h.canon x hx)
    · intro e he
      obtain ⟨x, hx, rfl⟩ := List.mem_map.1 he
      exact stuffed_solid _ _ (solidE_iff.1 h.solid x hx)
    · simpa [carried] using h.nonempty
    · intro e he
      obtain ⟨x, hx, rfl⟩ := List.mem_map.1 he
      exact h.names x hx

theorem carried_hop (n : Nat) {es : AMap Val} (h : CanTravel es) : AMap.mapVals Val.hop (carried n es) = carried (n + 1) es := by
  cases n with
  | zero => exact List.map_congr_left fun e _ => by simp only [hop_stuffed]
  | succ n =>
    simp only [carried, AMap.mapVals, List.map_map]
    exact List.map_congr_left fun e he => by simp only [Function.comp_apply, stuffed_hop _ _ (canonE_iff.1 h.canon e he)]

/-! ## C100 -/

/-- **C100.** One trip, by either way. -/
theorem trip_contents {w w' : Heap × Event} {es : AMap Val} (ht : Trip w w') (hh : Holds w.1 w.2 (some es)) (hc : CanTravel es) (hsize : sizeWrapper (messageOf (some es)) < 2 ^ 63 - 8) :
    Holds w'.1 w'.2 (some (carried 1 es)) := by
  rw [← carried_hop 0 hc]
  cases ht with
  | wire h1 h2 h3 h4 h5 h6 =>
    obtain ⟨N, m, a1, a2⟩ := protobuf_round_trip hh hc.sorted hc.canon hc.solid hc.nonempty hc.names hsize
    rename_i N' m0 m' m'' bs nul hp hq eq
    have hm : m0 = m := by
      have b1 := h1 (max N N') (Nat.le_max_right _ _)
      have b2 := a1 (max N N') (Nat.le_max_left _ _)
      rw [b1] at b2
      cases b2; rfl
    subst hm
    obtain ⟨bs', m3, c1, c2, c3⟩ := a2 _ h2
    rw [h3] at c1
    cases c1
    rw [h4] at c2
    cases c2
    obtain ⟨h7, f, d1, d2, d3, _⟩ := c3 _ _ h5
    rw [h6] at d1
    cases d1
    exact d3
  | goMap h1 h2 h3 h4 =>
    rename_i N' text m env order hp hq eq
    obtain ⟨N, hN⟩ := mapFromEvent_spec (text := text) hh
    have hm := (h1 (max N N') (Nat.le_max_right _ _)).symm.trans (hN (max N N') (Nat.le_max_left _ _))
    simp only [Option.getD_some, if_neg hc.nonempty, Option.some.injEq, Res.ok.injEq] at hm
    subst hm
    obtain ⟨h', e', g1, _, ts, g3, g4⟩ := toEvent_goOf h2 h3 text hc.sorted
    simp only [Option.getD_some] at h4
    rw [h4] at g1
    cases g1
    rw [putContents_tripped hc.sorted hc.names g3, if_neg hc.nonempty] at g4
    have : (es.map fun x => (x.1, x.2.tripped)) = AMap.mapVals Val.hop es := List.map_congr_left fun x hx => by rw [tripped_hop _ (solidE_iff.1 hc.solid x hx)]
    show Holds hq eq (some (AMap.mapVals Val.hop es))
    rw [← this]
    exact g4

/-- **C100.** The contents after any number of trips, in any mixture of the two ways: every dot in a name inside an object has one more backslash in front of it for every trip; everything else is as after the first trip. -/
theorem trips_contents {n : Nat} {w w' : Heap × Event} {es : AMap Val} (ht : Trips n w w') (hh : Holds w.1 w.2 (some es)) (hc : CanTravel es) (hf : FitsFor n es) : Holds w'.1 w'.2 (some (carried n es)) := by
  induction ht with
  | zero => exact hh
  | succ ht t ih =>
    rename_i n w1 w2 w3
    have h1 := ih hh (fun j hj => hf j (by omega))
    have h2 := trip_contents t h1 (carried_travel n hc) (hf n (by omega))
    rw [← carried_hop 0 (carried_travel n hc)] at h2
    exact (carried_hop n hc) ▸ h2

/-- **C100.** The next trip always succeeds, by protobuf (in whatever order maps are iterated) and by Go maps. -/
theorem trip_goes {w : Heap × Event} {es : AMap Val} (hh : Holds w.1 w.2 (some es)) (hc : CanTravel es) (hsize : sizeWrapper (messageOf (some es)) < 2 ^ 63 - 8) :
    (∃ N m, (∀ n, N ≤ n → fromEvent n w.1 w.2 = .ok m) ∧ ∀ m', SameMessage m m' → ∃ bs m'', marshal m' = .ok bs ∧ unmarshal bs = .ok m'' ∧
      ∀ (nul : Ptr) (h2 : Heap), IsNull h2 nul → ∃ w', toLogEvent nul m''.getLog h2 = .ok (w'.1, some w'.2) ∧ Trip w w') ∧
    (∀ (text : GoTime → Bytes), ∃ N m, (∀ n, N ≤ n → mapFromEvent text n w.1 w.2 = some (.ok m)) ∧
      ∀ (env : REnv) (order : List (Bytes × Ptr) → List (Bytes × Ptr)) (h2 : Heap), IsNull h2 env.nul → (∀ l, (order l).Perm l) → ∃ w', mapToEvent env order (m.getD []) h2 = .ok w' ∧ Trip w w') := by
  constructor
  · obtain ⟨N, m, a1, a2⟩ := protobuf_round_trip hh hc.sorted hc.canon hc.solid hc.nonempty hc.names hsize
    refine ⟨N, m, a1, fun m' hm => ?_⟩
    obtain ⟨bs, m'', b1, b2, b3⟩ := a2 m' hm
    refine ⟨bs, m'', b1, b2, fun nul h2 hn => ?_⟩
    obtain ⟨h3, f, c1, _⟩ := b3 nul h2 hn
    exact ⟨(h3, f.event), c1, .wire a1 hm b1 b2 hn c1⟩
  · intro text
    obtain ⟨N, hN⟩ := mapFromEvent_spec (text := text) hh
    refine ⟨N, _, hN, fun env order h2 hn ho => ?_⟩
    obtain ⟨h', e', g1, _⟩ := toEvent_goOf hn ho text hc.sorted
    have key : (if (some es).getD [] = [] then none else some (goOfE text ((some es).getD []))).getD [] = goOfE text es := by
      simp only [Option.getD_some, if_neg hc.nonempty]
    refine ⟨(h', e'), by rw [key]; exact g1, .goMap hN hn ho (by rw [key]; exact g1)⟩

/-- **C100.** So any number of trips can be made, as long as the messages on the way are not too long. -/
theorem trips_go {w : Heap × Event} {es : AMap Val} (hh : Holds w.1 w.2 (some es)) (hc : CanTravel es) (n : Nat) (hf : FitsFor n es) : ∃ w', Trips n w w' := by
  induction n with
  | zero => exact ⟨w, .zero⟩
  | succ n ih =>
    obtain ⟨w', h1⟩ := ih (fun j hj => hf j (by omega))
    have h2 := trips_contents h1 hh hc (fun j hj => hf j (by omega))
    obtain ⟨_, g⟩ := trip_goes h2 (carried_travel n hc) (hf n (by omega))
    obtain ⟨N, m, _, g2⟩ := g fun _ => []
    obtain ⟨w'', _, t⟩ := g2 ⟨some 0, id, fun _ => 0⟩ id [.cell nullCell] rfl (fun l => .refl _)
    exact ⟨w'', .succ h1 t⟩

/-! ## What never settles -/

mutual
/-- The length of all names inside objects. -/
def Val.nameBytes : Val → Nat
  | .arr vs => Val.nameBytesL vs
  | .obj es => Val.nameBytesE es
  | _ => 0
def Val.nameBytesL : List Val → Nat
  | [] => 0
  | v :: vs => v.nameBytes + Val.nameBytesL vs
def Val.nameBytesE : List (Bytes × Val) → Nat
  | [] => 0
  | (k, v) :: es => k.length + v.nameBytes + Val.nameBytesE es
end

theorem nameBytesE_eq (es : List (Bytes × Val)) : Val.nameBytesE es = (es.map fun e => e.1.length + e.2.nameBytes).sum := by
  induction es with
  | nil => rfl
  | cons e es ih => obtain ⟨k, v⟩ := e; simp [Val.nameBytesE, ih]

mutual
theorem nameBytes_stuffed (n : Nat) : ∀ (v : Val), v.Canon → (v.stuffed n).nameBytes = v.nameBytes + n * v.dots
  | .nilp, _ => by simp [Val.stuffed, Val.nameBytes, Val.dots]
  | .scalar _, _ => by simp [Val.stuffed, Val.nameBytes, Val.dots]
  | .arrNil, _ => by simp [Val.stuffed, Val.nameBytes, Val.dots, Val.nameBytesL]
  | .objNil, _ => by simp [Val.stuffed, Val.nameBytes, Val.dots, Val.nameBytesE]
  | .arr vs, h => by simp only [Val.stuffed, Val.nameBytes, Val.dots, nameBytesL_stuffed n vs h]
  | .obj es, h => by
    have ih := nameBytesE_stuffed n es h.2
    simp only [Val.stuffed, Val.nameBytes, Val.dots]
    rw [← ih, nameBytesE_eq, nameBytesE_eq]
    exact ((stuffedE_perm n h.1).map _).sum_nat
theorem nameBytesL_stuffed (n : Nat) : ∀ (vs : List Val), Val.CanonL vs → Val.nameBytesL (Val.stuffedL n vs) = Val.nameBytesL vs + n * Val.dotsL vs
  | [], _ => rfl
  | v :: vs, h => by simp only [Val.stuffedL, Val.nameBytesL, Val.dotsL, nameBytes_stuffed n v h.1, nameBytesL_stuffed n vs h.2, Nat.mul_add]; omega
theorem nameBytesE_stuffed (n : Nat) : ∀ (es : List (Bytes × Val)), Val.CanonE es → Val.nameBytesE (Val.stuffedE n es) = Val.nameBytesE es + n * Val.dotsE es
  | [], _ => rfl
  | (k, v) :: es, h => by simp only [Val.stuffedE, Val.nameBytesE, Val.dotsE, nameBytes_stuffed n v h.1, nameBytesE_stuffed n es h.2, Nat.mul_add, stuff_length]; omega
end

mutual
theorem nameBytes_size : ∀ (v : Val), v.nameBytes ≤ sizeValue (protoOf v)
  | .nilp => by simp [Val.nameBytes]
  | .scalar _ => by simp [Val.nameBytes]
  | .arrNil => by simp [Val.nameBytes]
  | .objNil => by simp [Val.nameBytes]
  | .arr vs => by
    have := nameBytesL_size vs
    simp only [Val.nameBytes, protoOf, sizeValue, sizeKind, PArray.isNil, sizeArray]
    simp
    omega
  | .obj es => by
    have := nameBytesE_size es
    simp only [Val.nameBytes, protoOf, sizeValue, sizeKind, PObject.isNil, sizeObject]
    simp
    omega
theorem nameBytesL_size : ∀ (vs : List Val), Val.nameBytesL vs ≤ sizeItems (protoOfL vs)
  | [] => Nat.le_refl _
  | v :: vs => by
    have h1 := nameBytes_size v
    have h2 := nameBytesL_size vs
    simp only [Val.nameBytesL, protoOfL, sizeItems]
    omega
theorem nameBytesE_size : ∀ (es : List (Bytes × Val)), Val.nameBytesE es ≤ sizeFields (protoOfE es)
  | [] => Nat.le_refl _
  | (k, v) :: es => by
    have h1 := nameBytes_size v
    have h2 := nameBytesE_size es
    have h3 : v.nameBytes ≤ (if (protoOf v).isNil then 0 else (sizeValue (protoOf v) + (1 + sov (sizeValue (protoOf v))))) := by
      cases v with
      | nilp => simp [Val.nameBytes]
      | scalar s => simp [Val.nameBytes]
      | arrNil => simp [Val.nameBytes]
      | objNil => simp [Val.nameBytes]
      | arr vs => rw [if_neg (by simp [protoOf, PValue.isNil])]; omega
      | obj es => rw [if_neg (by simp [protoOf, PValue.isNil])]; omega
    simp only [Val.nameBytesE, protoOfE, sizeFields]
    omega
end

theorem carried_nameBytes (n : Nat) {es : AMap Val} (h : CanTravel es) : (es.map fun e => e.2.nameBytes).sum + n * dotsInside es = ((carried n es).map fun e => e.2.nameBytes).sum := by
  cases n with
  | zero => simp [carried]
  | succ n =>
    have hc := h.canon
    clear h
    rw [dotsInside, carried, List.map_map]
    induction es with
    | nil => simp
    | cons e es ih =>
      obtain ⟨k, v⟩ := e
      simp only [List.map_cons, List.sum_cons, Function.comp_apply, Nat.mul_add, nameBytes_stuffed (n + 1) v hc.1]
      have := ih hc.2
      simp only [Function.comp_def] at this ⊢
      omega

/-- **C100.** The message for the event grows with every trip: after `n` trips it has at least `n` bytes for every dot in a name inside an object. -/
theorem trips_grow (n : Nat) {es : AMap Val} (h : CanTravel es) : n * dotsInside es ≤ sizeWrapper (messageOf (some (carried n es))) := by
  have hb := carried_nameBytes n h
  have hne := (carried_travel n h).nonempty
  generalize carried n es = cs at *
  have h1 : (cs.map fun e => e.2.nameBytes).sum ≤ Val.nameBytesE cs := by
    rw [nameBytesE_eq]
    clear hb hne
    induction cs with
    | nil => simp
    | cons e cs ih => simp only [List.map_cons, List.sum_cons]; omega
  have h2 := nameBytesE_size cs
  have h3 : messageOf (some cs) = ⟨some (.mk (.mk (protoOfE cs) []) []), []⟩ := by
    cases cs with
    | nil => exact absurd rfl hne
    | cons => rfl
  rw [h3]
  simp only [sizeWrapper, sizeLogField, PLog.isNil, sizeLog, PObject.isNil, sizeObject]
  simp
  omega

/-- **C100.** So with a dot in a name inside an object, no two numbers of trips give the same contents. -/
theorem trips_differ {es : AMap Val} (h : CanTravel es) (hd : dotsInside es ≠ 0) {n m : Nat} (he : carried n es = carried m es) : n = m := by
  have h1 := carried_nameBytes n h
  have h2 := carried_nameBytes m h
  rw [he] at h1
  have : n * dotsInside es = m * dotsInside es := by omega
  exact Nat.eq_of_mul_eq_mul_right (Nat.pos_of_ne_zero hd) this

theorem stuff_plain (n : Nat) {k : Bytes} (h : k.count dot = 0) : stuff n k = k := by
  induction k with
  | nil => rfl
  | cons b k ih =>
    by_cases hb : b = dot
    · subst hb; simp at h
    · rw [List.count_cons_of_ne hb] at h
      rw [show b :: k = [b] ++ k from rfl, stuff_append, ih h]
      simp [stuff, hb]

mutual
theorem stuffed_settled (n : Nat) : ∀ (v : Val), v.dots = 0 → v.stuffed n = v.stuffed 1
  | .nilp, _ => rfl
  | .scalar _, _ => rfl
  | .arrNil, _ => rfl
  | .objNil, _ => rfl
  | .arr vs, h => by simp only [Val.stuffed, stuffedL_settled n vs h]
  | .obj es, h => by simp only [Val.stuffed, stuffedE_settled n es h]
theorem stuffedL_settled (n : Nat) : ∀ (vs : List Val), Val.dotsL vs = 0 → Val.stuffedL n vs = Val.stuffedL 1 vs
  | [], _ => rfl
  | v :: vs, h => by
    simp only [Val.dotsL, Nat.add_eq_zero_iff] at h
    simp only [Val.stuffedL, stuffed_settled n v h.1, stuffedL_settled n vs h.2]
theorem stuffedE_settled (n : Nat) : ∀ (es : List (Bytes × Val)), Val.dotsE es = 0 → Val.stuffedE n es = Val.stuffedE 1 es
  | [], _ => rfl
  | (k, v) :: es, h => by
    simp only [Val.dotsE, Nat.add_eq_zero_iff] at h
    simp only [Val.stuffedE, stuffed_settled n v h.1.2, stuffedE_settled n es h.2, stuff_plain _ h.1.1]
end

/-- **C100.** Without one, the contents are settled after the first trip. -/
theorem trips_settle {es : AMap Val} (hd : dotsInside es = 0) (n : Nat) : carried (n + 1) es = carried 1 es := by
  refine List.map_congr_left fun e he => ?_
  have : e.2.dots = 0 := by
    have hm : e.2.dots ∈ es.map fun e => e.2.dots := List.mem_map.2 ⟨e, he, rfl⟩
    exact List.sum_eq_zero_iff_forall_eq_nat.1 hd _ hm
  rw [stuffed_settled _ _ this]

/-- **C100.** If also no slice and no map is nil, nothing changes at all, and the JSON of the event is the same text after any number of trips. -/
theorem trips_same {env : JEnv} (hl : env.Lawful) {n : Nat} {w w' : Heap × Event} {es : AMap Val} (ht : Trips n w w') (hh : Holds w.1 w.2 (some es)) (hc : CanTravel es) (hp : ∀ e ∈ es, e.2.Plain)
    (hsize : sizeWrapper (messageOf (some es)) < 2 ^ 63 - 8) : Holds w'.1 w'.2 (some es) ∧ ∃ N, ∀ k, N ≤ k → marshalEvent env k w'.1 w'.2 = marshalEvent env k w.1 w.2 := by
  have hsame : ∀ j, carried j es = es := by
    intro j
    induction j with
    | zero => rfl
    | succ j ih =>
      rw [← carried_hop j hc, ih]
      conv => rhs; rw [← List.map_id es]
      exact List.map_congr_left fun e he => by simp only [id_eq, hop_plain e.2 (hp e he) (canonE_iff.1 hc.canon e he)]
  have h1 := trips_contents ht hh hc (fun j _ => by rw [hsame j]; exact hsize)
  rw [hsame] at h1
  refine ⟨h1, Val.depthE es, fun k hk => ?_⟩
  rcases marshalEvent_cases hl h1 k with ⟨_, a⟩ | ⟨a1, a2⟩ | ⟨o, _, a1, a2, a3, _⟩
  · omega
  · rcases marshalEvent_cases hl hh k with ⟨_, b⟩ | ⟨b1, b2⟩ | ⟨_, _, b1, b2, _⟩
    · omega
    · rw [a1, b1]
    · exact absurd b2 a2
  · rcases marshalEvent_cases hl hh k with ⟨_, b⟩ | ⟨b1, b2⟩ | ⟨_, _, b1, b2, b3, _⟩
    · omega
    · exact absurd a2 b2
    · rw [a1, b1]
      rw [a3] at b3
      cases b3; rfl

/-! ## Samples -/

/-- `{"a":{"x.y":1},"b.c":[nil slice]}` -/
def travelSample : AMap Val := [(lit "a", .obj [(lit "x.y", .scalar (.int 1))]), (lit "b.c", .arr [.arrNil])]

theorem travelSample_ok : CanTravel travelSample ∧ dotsInside travelSample = 1 ∧ FitsFor 3 travelSample ∧
    carried 3 travelSample = [(lit "a", .obj [(lit "x\\\\\\.y", .scalar (.int 1))]), (lit "b.c", .arr [.arr []])] := by
  refine ⟨⟨by decide, ?_, ?_, by decide, by decide⟩, by decide +kernel, ?_, by rfl⟩
  · simp [travelSample, Val.CanonE, Val.Canon, Val.CanonL, AMap.Sorted]
  · simp [travelSample, Val.SolidE, Val.Solid, Val.SolidL]
  · intro j hj
    match j, hj with
    | 0, _ => decide +kernel
    | 1, _ => decide +kernel
    | 2, _ => decide +kernel

/-- An event with these contents. -/
def travelHeap : Heap := [.map [(lit "a", some 1), (lit "b.c", some 4)], .cell (objCell (some 2)), .map [(lit "x.y", some 3)], .cell (intCell 1), .cell (arrCell (some [some 5])), .cell (arrCell none)]

theorem travelSample_goes : ∃ w, Trips 3 (travelHeap, some 0) w ∧ Holds w.1 w.2 (some [(lit "a", .obj [(lit "x\\\\\\.y", .scalar (.int 1))]), (lit "b.c", .arr [.arr []])]) := by
  have hh : Holds travelHeap (some 0) (some travelSample) := by
    refine ⟨0, _, rfl, rfl, ?_⟩
    simp [travelSample, travelHeap, ReadsE, Reads, ReadsL, deref, objCell, arrCell, scalarCell]
  obtain ⟨h1, _, h3, h4⟩ := travelSample_ok
  obtain ⟨w, hw⟩ := trips_go (w := (travelHeap, some 0)) hh h1 3 h3
  exact ⟨w, hw, h4 ▸ trips_contents hw hh h1 h3⟩

end Sawmill
