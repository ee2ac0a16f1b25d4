import Verif.Lemmas.JsonEnc
import Verif.Model.ConfigJson
/-!
# The text of an event is a function of its contents
-/

namespace Sawmill
open Rfc

theorem bind_compact {r : JOut Bytes} {t : Bytes} (h : r.bind compact = .ok t) : r = .ok t := by
  cases r with
  | ok x => simp only [JOut.bind, compact] at h; split at h <;> simp_all
  | error => cases h
  | fuel => cases h

theorem bind_eq_ok {α β : Type} {r : JOut α} {f : α → JOut β} {t : β} (h : r.bind f = .ok t) : ∃ x, r = .ok x ∧ f x = .ok t := by
  cases r with
  | ok x => exact ⟨x, rfl, h⟩
  | error => cases h
  | fuel => cases h

mutual
theorem marshalPtr_enc {env : JEnv} {h : Heap} : ∀ (v : Val) {p : Ptr}, Reads h p v → ∀ (n : Nat) (t : Bytes), marshalPtr env h n p = .ok t → encI env v = .ok t
  | v, p, hr, 0, t, ht => by cases ht
  | .nilp, p, hr, n + 1, t, ht => by rw [show p = _ from hr] at ht; exact ht
  | .scalar .null, p, hr, n + 1, t, ht => by
    simp only [marshalPtr, show deref h p = _ from hr, scalarCell, nullCell] at ht; exact bind_compact ht
  | .scalar (.bool b), p, hr, n + 1, t, ht => by
    simp only [marshalPtr, show deref h p = _ from hr, scalarCell, boolCell] at ht; exact bind_compact ht
  | .scalar (.int b), p, hr, n + 1, t, ht => by
    simp only [marshalPtr, show deref h p = _ from hr, scalarCell, intCell] at ht; exact bind_compact ht
  | .scalar (.uint b), p, hr, n + 1, t, ht => by
    simp only [marshalPtr, show deref h p = _ from hr, scalarCell, uintCell] at ht; exact bind_compact ht
  | .scalar (.float b), p, hr, n + 1, t, ht => by
    simp only [marshalPtr, show deref h p = _ from hr, scalarCell, floatCell] at ht; exact bind_compact ht
  | .scalar (.str b), p, hr, n + 1, t, ht => by
    simp only [marshalPtr, show deref h p = _ from hr, scalarCell, strCell] at ht; exact bind_compact ht
  | .scalar (.ts b), p, hr, n + 1, t, ht => by
    simp only [marshalPtr, show deref h p = _ from hr, scalarCell, tsCell] at ht; exact bind_compact ht
  | .arrNil, p, hr, n + 1, t, ht => by
    simp only [marshalPtr, show deref h p = _ from hr, arrCell] at ht; exact bind_compact ht
  | .objNil, p, hr, n + 1, t, ht => by
    simp only [marshalPtr, show deref h p = _ from hr, objCell] at ht; exact bind_compact ht
  | .arr vs, p, hr, n + 1, t, ht => by
    obtain ⟨ps, h1, h2⟩ := hr
    simp only [marshalPtr, h1, arrCell] at ht
    obtain ⟨x, e1, e2⟩ := bind_eq_ok (bind_compact ht)
    simp only [encI, arrText, marshalItems_enc vs h2 n x e1]
    exact e2
  | .obj es, p, hr, n + 1, t, ht => by
    obtain ⟨m, ps, h1, hm, h2⟩ := hr
    simp only [marshalPtr, h1, objCell, mapOf_at hm] at ht
    obtain ⟨x, e1, e2⟩ := bind_eq_ok (bind_compact ht)
    simp only [encI, mapText, marshalFields_enc es h2 n x e1]
    exact e2
theorem marshalItems_enc {env : JEnv} {h : Heap} : ∀ (vs : List Val) {ps : List Ptr}, ReadsL h ps vs → ∀ (n : Nat) (t : Bytes), joinText (marshalPtr env h n) ps = .ok t → joinText id (encIL env vs) = .ok t
  | [], ps, hr, n, t, ht => by
    cases ps with
    | nil => exact ht
    | cons => simp [ReadsL] at hr
  | [v], ps, hr, n, t, ht => by
    match ps with
    | [] => simp [ReadsL] at hr
    | p :: p' :: ps => simp [ReadsL] at hr
    | [p] => exact marshalPtr_enc v hr.1 n t ht
  | v :: v' :: vs, ps, hr, n, t, ht => by
    match ps with
    | [] => simp [ReadsL] at hr
    | [p] => simp [ReadsL] at hr
    | p :: p' :: ps =>
      obtain ⟨h1, h2⟩ := hr
      rw [joinText_cons] at ht
      obtain ⟨x, e1, e2⟩ := bind_eq_ok ht
      obtain ⟨y, e3, e4⟩ := bind_eq_ok e2
      have k1 := marshalPtr_enc v h1 n x e1
      have k2 := marshalItems_enc (v' :: vs) h2 n y e3
      simp only [encIL] at k2 ⊢
      rw [joinText_cons, k2]
      simp only [id, k1]
      exact e4
theorem marshalFields_enc {env : JEnv} {h : Heap} : ∀ (es : List (Bytes × Val)) {ps : List (Bytes × Ptr)}, ReadsE h ps es → ∀ (n : Nat) (t : Bytes),
    joinText (fun e : Bytes × Ptr => (marshalPtr env h n e.2).bind fun t => .ok (encStr e.1 ++ 58 :: t)) ps = .ok t →
    joinText (fun e : Bytes × JOut Bytes => e.2.bind fun t => .ok (encStr e.1 ++ 58 :: t)) (encIE env es) = .ok t
  | [], ps, hr, n, t, ht => by
    cases ps with
    | nil => exact ht
    | cons => simp [ReadsE] at hr
  | [(k, v)], ps, hr, n, t, ht => by
    match ps with
    | [] => simp [ReadsE] at hr
    | p :: p' :: ps => simp [ReadsE] at hr
    | [(k', p)] =>
      obtain ⟨rfl, h1, _⟩ := hr
      obtain ⟨x, e1, e2⟩ := bind_eq_ok (show (marshalPtr env h n p).bind _ = _ from ht)
      have k1 := marshalPtr_enc v h1 n x e1
      simp only [encIE, joinText, k1]
      exact e2
  | (k, v) :: kv' :: es, ps, hr, n, t, ht => by
    match ps with
    | [] => simp [ReadsE] at hr
    | [p] => simp [ReadsE] at hr
    | (k', p) :: p' :: ps =>
      obtain ⟨rfl, h1, h2⟩ := hr
      rw [joinText_cons] at ht
      obtain ⟨x, e1, e2⟩ := bind_eq_ok ht
      obtain ⟨y, e3, e4⟩ := bind_eq_ok e2
      obtain ⟨z, e5, e6⟩ := bind_eq_ok e1
      have k1 := marshalPtr_enc v h1 n z e5
      have k2 := marshalFields_enc (kv' :: es) h2 n y e3
      simp only [encIE] at k2 ⊢
      rw [joinText_cons, k2, k1]
      simp only [bind_ok] at e6 e4 ⊢
      simp only [JOut.ok.injEq] at e6
      rw [e6]
      exact e4
end

/-- The text of an event is a function of its contents. -/
theorem marshalEvent_enc {env : JEnv} {h : Heap} {e : Event} {es : AMap Val} (hh : Holds h e (some es)) {n : Nat} {t : Bytes} (ht : marshalEvent env n h e = .ok t) : encI env (.obj es) = .ok t := by
  obtain ⟨m, ps, rfl, hm, hr⟩ := hh
  simp only [marshalEvent, mapOf_at hm] at ht
  obtain ⟨x, e1, e2⟩ := bind_eq_ok (bind_compact ht)
  simp only [encI, mapText, marshalFields_enc es hr n x e1]
  exact e2

/-- How the event is encoded. -/
theorem marshalEvent_cases {env : JEnv} (hl : env.Lawful) {h : Heap} {e : Event} {gs : AMap Val} (hh : Holds h e (some gs)) (n : Nat) :
    (marshalEvent env n h e = .fuel ∧ n < Val.depthE gs) ∨ (marshalEvent env n h e = .error ∧ ¬ (Val.FiniteFloatsE gs ∧ Val.nestE gs < 10000)) ∨
    ∃ out js, marshalEvent env n h e = .ok out ∧ (Val.FiniteFloatsE gs ∧ Val.nestE gs < 10000) ∧ encI env (.obj gs) = .ok out ∧ Text (.obj js) out ∧ SaysE env gs js := by
  have hh' := hh
  obtain ⟨m, ps, rfl, hm, hr⟩ := hh'
  have key : ∀ n, Val.depthE gs ≤ n → EncVal env (.obj gs) (marshalEvent env n h (some m)) := by
    intro n hn
    simp only [marshalEvent, mapOf_at hm]
    exact encObj (marshalFields_spec hl gs hr n hn)
  have key2 : marshalEvent env n h (some m) ≠ .fuel → EncVal env (.obj gs) (marshalEvent env n h (some m)) := by
    intro hne
    have := marshalEvent_mono env h (some m) (Nat.le_max_left n (Val.depthE gs)) hne
    rw [← this]
    exact key _ (Nat.le_max_right _ _)
  cases hx : marshalEvent env n h (some m) with
  | fuel =>
    refine .inl ⟨rfl, ?_⟩
    refine Nat.lt_of_not_le fun hle => ?_
    rcases key n hle with ⟨_, t, he, _⟩ | ⟨_, he⟩ <;> rw [hx] at he <;> cases he
  | error =>
    rcases key2 (by rw [hx]; simp) with ⟨_, t, he, _⟩ | ⟨hno, _⟩
    · rw [hx] at he; cases he
    · refine .inr (.inl ⟨rfl, ?_⟩)
      exact fun h => hno ⟨h.1, by simp only [Val.nest]; have := h.2; omega⟩
  | ok out =>
    rcases key2 (by rw [hx]; simp) with ⟨⟨hf, hn⟩, t, he, j, ht, hs⟩ | ⟨_, he⟩
    · rw [hx] at he
      simp only [JOut.ok.injEq] at he; subst he
      obtain ⟨js, rfl, hse⟩ := hs
      exact .inr (.inr ⟨out, js, rfl, ⟨hf, by simp only [Val.nest] at hn; omega⟩, marshalEvent_enc hh hx, ht, hse⟩)
    · rw [hx] at he; cases he

theorem marshalEvent_finite {env : JEnv} (hl : env.Lawful) {h : Heap} {e : Event} {gs : AMap Val} (hh : Holds h e (some gs)) (hf : Val.FiniteFloatsE gs) (n : Nat) :
    (marshalEvent env n h e = .fuel ∧ n < Val.depthE gs) ∨ (marshalEvent env n h e = .error ∧ 10000 ≤ Val.nestE gs) ∨
    ∃ out js, marshalEvent env n h e = .ok out ∧ Val.nestE gs < 10000 ∧ encI env (.obj gs) = .ok out ∧ Text (.obj js) out ∧ SaysE env gs js := by
  rcases marshalEvent_cases hl hh n with h | ⟨h1, h2⟩ | ⟨out, js, h1, h2, h3⟩
  · exact .inl h
  · exact .inr (.inl ⟨h1, Nat.le_of_not_lt fun h => h2 ⟨hf, h⟩⟩)
  · exact .inr (.inr ⟨out, js, h1, h2.2, h3⟩)

/-- The contents of an event are determined. -/
theorem Holds.unique {h : Heap} {e : Event} {f g : Fields} (hf : Holds h e f) (hg : Holds h e g) : f = g := by
  cases f with
  | none =>
    cases g with
    | none => rfl
    | some gs => obtain ⟨m, ps, h1, _⟩ := hg; rw [show e = none from hf] at h1; cases h1
  | some fs =>
    cases g with
    | none => obtain ⟨m, ps, h1, _⟩ := hf; rw [show e = none from hg] at h1; cases h1
    | some gs =>
      obtain ⟨m, ps, h1, h2, h3⟩ := hf
      obtain ⟨m', ps', k1, k2, k3⟩ := hg
      rw [h1] at k1
      simp only [Option.some.injEq] at k1; subst k1
      rw [h2] at k2
      simp only [Option.some.injEq, HObj.map.injEq] at k2; subst k2
      rw [readsE_inj _ _ h3 k3]

end Sawmill
