import Verif.Spec.Format
import Verif.Spec.Reads
/-!
# C71: printing values
-/

namespace Sawmill

theorem timeString_intText (i : Int) : timeString i = intText i := by simp [timeString, appendInt, intText]

theorem printAll_spaced {α : Type} {f : α → Option Bytes} : ∀ {xs : List α} {ws : List Bytes}, xs.map f = ws.map some → printAll f xs = some (spaced ws)
  | [], [], _ => rfl
  | [x], [w], h => by simp at h; simp [printAll, spaced, h]
  | x :: y :: xs, w :: u :: ws, h => by
    simp only [List.map_cons, List.cons.injEq] at h
    have ih := printAll_spaced (f := f) (xs := y :: xs) (ws := u :: ws) (by simp [h.2.1, h.2.2])
    simp [printAll, spaced, h.1, ih]
  | [], _ :: _, h => by simp at h
  | _ :: _, [], h => by simp at h
  | [_], _ :: _ :: _, h => by simp at h
  | _ :: _ :: _, [_], h => by simp at h

mutual
theorem formatPtr_spec {ftoa : BitVec 64 → Bytes} {h : Heap} : ∀ (v : Val) {p : Ptr}, Reads h p v → ∀ (n : Nat), v.depth ≤ n → formatPtr ftoa h n p = some (v.print ftoa)
  | .nilp, p, hr, n, hn => by
    simp only [Val.depth] at hn
    obtain ⟨n, rfl⟩ : ∃ k, n = k + 1 := ⟨n - 1, by omega⟩
    simp only [Reads] at hr
    subst hr
    simp [formatPtr, deref, Val.print]
  | .scalar s, p, hr, n, hn => by
    simp only [Val.depth] at hn
    obtain ⟨n, rfl⟩ : ∃ k, n = k + 1 := ⟨n - 1, by omega⟩
    simp only [Reads] at hr
    simp only [formatPtr, hr]
    cases s
    case bool b => cases b <;> rfl
    all_goals simp [scalarCell, nullCell, boolCell, intCell, uintCell, floatCell, strCell, tsCell, Val.print, Scalar.typeName, Scalar.plain, VType.name, timeString_intText]
  | .arrNil, p, hr, n, hn => by
    simp only [Val.depth] at hn
    obtain ⟨n, rfl⟩ : ∃ k, n = k + 1 := ⟨n - 1, by omega⟩
    simp only [Reads] at hr
    simp [formatPtr, hr, arrCell, Val.print, printAll, VType.name]
    decide
  | .objNil, p, hr, n, hn => by
    simp only [Val.depth] at hn
    obtain ⟨n, rfl⟩ : ∃ k, n = k + 1 := ⟨n - 1, by omega⟩
    simp only [Reads] at hr
    simp [formatPtr, hr, objCell, Val.print, printAll, VType.name, mapOf]
    decide
  | .arr vs, p, hr, n, hn => by
    simp only [Val.depth] at hn
    obtain ⟨n, rfl⟩ : ∃ k, n = k + 1 := ⟨n - 1, by omega⟩
    simp only [Reads] at hr
    obtain ⟨ps, h1, h2⟩ := hr
    have := formatItems_spec (ftoa := ftoa) vs h2 n (by omega)
    simp only [formatPtr, h1, arrCell, Val.print, Option.getD_some, printAll_spaced this, Option.map_some, VType.name]
    rw [show lit "array_type:[" = lit "array_type" ++ [58, 91] from by decide, show lit "]" = [93] from by decide]
    simp
  | .obj es, p, hr, n, hn => by
    simp only [Val.depth] at hn
    obtain ⟨n, rfl⟩ : ∃ k, n = k + 1 := ⟨n - 1, by omega⟩
    simp only [Reads] at hr
    obtain ⟨m, ps, h1, h2, h3⟩ := hr
    have := formatFields_spec (ftoa := ftoa) es h3 n (by omega)
    simp only [formatPtr, h1, objCell, Val.print, mapOf, h2, printAll_spaced this, Option.map_some, VType.name]
    rw [show lit "object_type:map[" = lit "object_type" ++ 58 :: lit "map[" from by decide, show lit "]" = [93] from by decide]
    simp
theorem formatItems_spec {ftoa : BitVec 64 → Bytes} {h : Heap} : ∀ (vs : List Val) {ps : List Ptr}, ReadsL h ps vs → ∀ (n : Nat), Val.depthL vs ≤ n →
    ps.map (formatPtr ftoa h n) = (Val.printL ftoa vs).map some
  | [], ps, hr, n, hn => by
    cases ps <;> simp [ReadsL] at hr
    rfl
  | v :: vs, ps, hr, n, hn => by
    cases ps with
    | nil => simp [ReadsL] at hr
    | cons p ps =>
      simp only [ReadsL] at hr
      simp only [Val.depthL] at hn
      simp [Val.printL, formatPtr_spec v hr.1 n (by omega), formatItems_spec vs hr.2 n (by omega)]
theorem formatFields_spec {ftoa : BitVec 64 → Bytes} {h : Heap} : ∀ (es : List (Bytes × Val)) {ps : List (Bytes × Ptr)}, ReadsE h ps es → ∀ (n : Nat), Val.depthE es ≤ n →
    ps.map (fun e : Bytes × Ptr => (formatPtr ftoa h n e.2).map fun t => e.1 ++ 58 :: t) = (Val.printE ftoa es).map some
  | [], ps, hr, n, hn => by
    cases ps <;> simp [ReadsE] at hr
    rfl
  | (k, v) :: vs, ps, hr, n, hn => by
    cases ps with
    | nil => simp [ReadsE] at hr
    | cons p ps =>
      obtain ⟨k', p⟩ := p
      simp only [ReadsE] at hr
      simp only [Val.depthE] at hn
      simp [Val.printE, formatPtr_spec v hr.2.1 n (by omega), formatFields_spec vs hr.2.2 n (by omega), hr.1]
end

/-- **C71.** Printing a pointer from which the finite tree `v` is seen gives the text of `v`: it depends on the contents only, and it needs no more stack than the tree is deep. -/
theorem format_spec {ftoa : BitVec 64 → Bytes} {h : Heap} {p : Ptr} {v : Val} (hr : Reads h p v) (n : Nat) (hn : v.depth ≤ n) : formatPtr ftoa h n p = some (v.print ftoa) := formatPtr_spec v hr n hn

/-- C71: a value that contains itself cannot be printed. -/
theorem format_cycle (ftoa : BitVec 64 → Bytes) : ∀ n : Nat, formatPtr ftoa [.cell (arrCell (some [some 0]))] n (some 0) = none
  | 0 => rfl
  | n + 1 => by
    have ih := format_cycle ftoa n
    show ((printAll (formatPtr ftoa [.cell (arrCell (some [some 0]))] n) [some 0]).map fun t => 91 :: (t ++ [93])).map _ = none
    simp only [printAll, ih, Option.map_none]

/-- **C71.** A value whose type is none of the nine is printed as one of an unknown type, whatever else is in it. -/
theorem format_unknown {ftoa : BitVec 64 → Bytes} {h : Heap} {p : Ptr} {c : Cell} (hd : deref h p = some c) (hu : c.type = .unknown) (n : Nat) : formatPtr ftoa h (n + 1) p = some (lit "unknown_type:<nil>") := by
  simp only [formatPtr, hd, hu, Option.map_some, VType.name]
  decide

example : formatPtr (fun _ => []) [.cell { type := .unknown, string := lit "a" }] 1 (some 0) = some (lit "unknown_type:<nil>") := format_unknown (c := { type := .unknown, string := lit "a" }) rfl rfl 0

/-! ## What the text says -/

/-- The bytes before the first colon. -/
def beforeColon (bs : Bytes) : Bytes := bs.takeWhile (· ≠ 58)

theorem beforeColon_append {a b : Bytes} (h : (58 : UInt8) ∉ a) : beforeColon (a ++ 58 :: b) = a := by
  induction a with
  | nil => simp [beforeColon]
  | cons x a ih =>
    simp only [List.mem_cons, not_or] at h
    have := ih h.2
    simp only [beforeColon] at this
    simp only [beforeColon, List.cons_append, List.takeWhile_cons, this]
    simp [Ne.symm h.1]

theorem name_inj {s t : VType} (h : s.name = t.name) : s = t := by
  cases s <;> cases t <;> first | rfl | (exfalso; revert h; decide)

theorem print_kind (ftoa : BitVec 64 → Bytes) (v : Val) : (v.kind = none ∧ v.print ftoa = lit "<nil>") ∨ ∃ k rest, v.kind = some k ∧ v.print ftoa = k.name ++ 58 :: rest := by
  cases v with
  | nilp => exact .inl ⟨rfl, rfl⟩
  | scalar s => cases s <;> exact .inr ⟨_, _, rfl, rfl⟩
  | arrNil => exact .inr ⟨_, lit "[]", rfl, by simp only [Val.print]; decide⟩
  | objNil => exact .inr ⟨_, lit "map[]", rfl, by simp only [Val.print]; decide⟩
  | arr vs => exact .inr ⟨.array, lit "[" ++ (spaced (Val.printL ftoa vs) ++ lit "]"), rfl, by simp only [Val.print, VType.name]; rw [show lit "array_type:[" = lit "array_type" ++ 58 :: lit "[" from by decide]; simp⟩
  | obj es => exact .inr ⟨.object, lit "map[" ++ (spaced (Val.printE ftoa es) ++ lit "]"), rfl, by simp only [Val.print, VType.name]; rw [show lit "object_type:map[" = lit "object_type" ++ 58 :: lit "map[" from by decide]; simp⟩

/-- C71: the text shows the type. -/
theorem print_shows_type {ftoa : BitVec 64 → Bytes} {v w : Val} (h : v.print ftoa = w.print ftoa) : v.kind = w.kind := by
  have nc : ∀ k : VType, (58 : UInt8) ∉ k.name := by intro k; cases k <;> decide
  have nn : ∀ (k : VType) (rest : Bytes), k.name ++ 58 :: rest ≠ lit "<nil>" := by
    intro k rest e
    have : (58 : UInt8) ∈ lit "<nil>" := by rw [← e]; simp
    exact absurd this (by decide)
  rcases print_kind ftoa v with ⟨h1, h2⟩ | ⟨k, r, h1, h2⟩ <;> rcases print_kind ftoa w with ⟨h3, h4⟩ | ⟨k', r', h3, h4⟩
  · rw [h1, h3]
  · exact absurd (h4 ▸ h ▸ h2) (nn k' r')
  · exact absurd (h2 ▸ h.symm ▸ h4) (nn k r)
  · rw [h2, h4] at h
    have := congrArg beforeColon h
    rw [beforeColon_append (nc k), beforeColon_append (nc k')] at this
    rw [h1, h3, name_inj this]

theorem intText_inj {i j : Int} (h : intText i = intText j) : i = j := by
  have nd : ∀ (n m : Nat), itoa n ≠ 45 :: itoa m := by
    intro n m e
    have := itoa_digits n 45 (by rw [e]; simp)
    revert this; decide
  simp only [intText] at h
  by_cases hi : i < 0 <;> by_cases hj : j < 0 <;> simp only [hi, hj, if_true, if_false, List.nil_append, List.cons_append] at h
  · have := itoa_inj (List.cons.inj h).2; omega
  · exact absurd h.symm (nd _ _)
  · exact absurd h (nd _ _)
  · have := itoa_inj h; omega

/-- C71: the text of a leaf (other than a float, whose text is left to package fmt) determines the leaf. -/
theorem print_leaf_inj {ftoa : BitVec 64 → Bytes} {s t : Scalar} (hs : ∀ f, s ≠ .float f) (h : (Val.scalar s).print ftoa = (Val.scalar t).print ftoa) : s = t := by
  have hk := print_shows_type h
  have key : ∀ a b c : Bytes, a ++ 58 :: b = a ++ 58 :: c → b = c := fun a b c h => (List.cons.inj (List.append_cancel_left h)).2
  cases s <;> cases t <;> simp only [Val.kind, Option.some.injEq, reduceCtorEq] at hk
  · rfl
  · rename_i a b
    have := key _ _ _ h
    simp only [Scalar.plain] at this
    cases a <;> cases b <;> first | rfl | (exfalso; revert this; decide)
  · have := intText_inj (key _ _ _ h)
    rw [BitVec.toInt_inj] at this
    rw [this]
  · have := itoa_inj (key _ _ _ h)
    rw [BitVec.toNat_inj] at this
    rw [this]
  · exact absurd rfl (hs _)
  · have := key _ _ _ h
    simp only [Scalar.plain] at this
    rw [this]
  · have := intText_inj (key _ _ _ h)
    rw [BitVec.toInt_inj] at this
    rw [this]

/-- C71: but the text of an object does not determine it: a string can look like a further field, a nil map like an empty one. -/
theorem print_ambiguous (ftoa : BitVec 64 → Bytes) :
    (Val.obj [(lit "a", .scalar (.str (lit "x b:string_type:y")))]).print ftoa = (Val.obj [(lit "a", .scalar (.str (lit "x"))), (lit "b", .scalar (.str (lit "y")))]).print ftoa ∧
    Val.objNil.print ftoa = (Val.obj []).print ftoa ∧ Val.arrNil.print ftoa = (Val.arr []).print ftoa := by
  refine ⟨?_, ?_, ?_⟩ <;> simp only [Val.print, Val.printE, Val.printL, spaced, Scalar.typeName, Scalar.plain] <;> decide

/-- A sample: an object with an integer, an array with a nil pointer, and a null. -/
theorem print_sample (ftoa : BitVec 64 → Bytes) : (Val.obj [(lit "a", .scalar (.bool true)), (lit "b", .arr [.nilp, .scalar (.str (lit "x"))]), (lit "c", .scalar .null)]).print ftoa =
    lit "object_type:map[a:bool_type:true b:array_type:[<nil> string_type:x] c:null_type:<nil>]" := by
  simp only [Val.print, Val.printE, Val.printL, spaced, Scalar.typeName, Scalar.plain]; decide

theorem format_sample (ftoa : BitVec 64 → Bytes) : formatPtr ftoa [.cell (arrCell (some [none, some 1])), .cell (boolCell false)] 2 (some 0) = some (lit "array_type:[<nil> bool_type:false]") :=
  (format_spec (h := [.cell (arrCell (some [none, some 1])), .cell (boolCell false)]) (p := some 0) (v := .arr [.nilp, .scalar (.bool false)]) ⟨[none, some 1], rfl, rfl, rfl, trivial⟩ 2 (by simp [Val.depth, Val.depthL])).trans (by simp only [Val.print, Val.printL, spaced, Scalar.typeName, Scalar.plain]; decide)

end Sawmill
