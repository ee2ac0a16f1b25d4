import Verif.Spec.Divide
import Verif.Props.Pipeline
import Verif.Props.PipelineNew
/-!
# C96: dividing a pipeline, and names
-/
namespace Sawmill
variable {A R C Ev W : Type}

mutual
/-- The same processor, aside from the ID and the condition. -/
inductive Node.Twin : Node A R → Node A R → Prop
  | mk (i i' c c' : Bytes) (f m : Bool) (o o' : List (Node A R)) (p : Prog A R) (h : Node.Twins o o') : Node.Twin (.mk i c f m o p) (.mk i' c' f m o' p)
inductive Node.Twins : List (Node A R) → List (Node A R) → Prop
  | nil : Node.Twins [] []
  | cons (n n' : Node A R) (ns ns' : List (Node A R)) (h1 : Node.Twin n n') (h2 : Node.Twins ns ns') : Node.Twins (n :: ns) (n' :: ns')
end

/-- The same event and the same memory, whatever the counters. -/
def PState.Like (s t : PState Ev W) : Prop := s.ev.data = t.ev.data ∧ s.ev.dropped = t.ev.dropped ∧ s.world = t.world

def LikeRes : Res (PState Ev W × Option Err) → Res (PState Ev W × Option Err) → Prop
  | .panic, .panic => True
  | .ok (s, e), .ok (t, e') => s.Like t ∧ e = e'
  | _, _ => False

mutual
theorem twin_process (call : Ev → W → A → Res (W × R)) {n n' : Node A R} (h : Node.Twin n n') {s t : PState Ev W} (hs : s.Like t) : LikeRes (Node.process call n s) (Node.process call n' t) := by
  match n, n', h with
  | _, _, .mk i i' c c' f m o o' p ho =>
    have ih := fun (s t : PState Ev W) (hs : s.Like t) e => twins_process call ho hs e
    obtain ⟨hev, hdr, hw⟩ := hs
    simp only [Node.process, PState.inc]
    rw [hw]
    have hrun := run_same (call := call) id (.inl rfl) p s.ev t.ev t.world hev hdr
    simp only [id] at hrun
    revert hrun
    generalize p.run call s.ev t.world = ra
    generalize p.run call t.ev t.world = rb
    intro hrun
    match ra, rb, hrun with
    | .panic, .panic, _ => trivial
    | .ok (ev, w, none), .ok (ev', _, _), ⟨q1, q2, rfl, rfl⟩ => exact ⟨⟨q1, q2, rfl⟩, rfl⟩
    | .ok (ev, w, some err), .ok (ev', _, _), ⟨q1, q2, rfl, rfl⟩ =>
        simp only
        by_cases hd : ev.dropped = true
        · have hd' : ev'.dropped = true := by rw [← q2]; exact hd
          rw [if_pos hd, if_pos hd']; exact ⟨⟨q1, q2, rfl⟩, rfl⟩
        · have hd' : ¬ ev'.dropped = true := by rw [← q2]; exact hd
          rw [if_neg hd, if_neg hd']
          by_cases hm : (m && err.isMissing) = true
          · rw [if_pos hm, if_pos hm]; exact ⟨⟨q1, q2, rfl⟩, rfl⟩
          · rw [if_neg hm, if_neg hm]
            have := ih { s with ev := ev, world := w, counts := s.counts.inc i .received } { t with ev := ev', world := w, counts := t.counts.inc i' .received } ⟨q1, q2, rfl⟩ (some err)
            revert this
            generalize Node.processAll call o _ (some err) = a
            generalize Node.processAll call o' _ (some err) = b
            intro this
            match a, b, this with
            | .panic, .panic, _ => trivial
            | .ok (s1, e1), .ok (t1, _), ⟨⟨h1, h2⟩, rfl⟩ =>
              simp only
              by_cases hf : (f && e1.isSome) = true
              · rw [if_pos hf, if_pos hf]; exact ⟨⟨h1, h2⟩, rfl⟩
              · rw [if_neg hf, if_neg hf]; exact ⟨⟨h1, h2⟩, rfl⟩
theorem twins_process (call : Ev → W → A → Res (W × R)) {ns ns' : List (Node A R)} (h : Node.Twins ns ns') {s t : PState Ev W} (hs : s.Like t) (e : Option Err) : LikeRes (Node.processAll call ns s e) (Node.processAll call ns' t e) := by
  match ns, ns', h with
  | _, _, .nil => exact ⟨hs, rfl⟩
  | _, _, .cons n n' ns ns' h1 h2 =>
    have ih1 := twin_process call h1 hs
    have ih2 := fun (s t : PState Ev W) (hs : s.Like t) e => twins_process call h2 hs e
    simp only [Node.processAll]
    revert ih1
    generalize Node.process call n s = a
    generalize Node.process call n' t = b
    intro ih1
    match a, b, ih1 with
    | .panic, .panic, _ => trivial
    | .ok (s1, none), .ok (t1, _), ⟨hl, rfl⟩ => exact ih2 s1 t1 hl none
    | .ok (s1, some e1), .ok (t1, _), ⟨hl, rfl⟩ => exact ⟨hl, rfl⟩
end

theorem twins_pipeline (call : Ev → W → A → Res (W × R)) {p p' : Pipeline A R} (h1 : Node.Twins p.processors p'.processors) (h2 : Node.Twins p.onFailure p'.onFailure) {s t : PState Ev W} (hs : s.Like t) : LikeRes (p.run call s) (p'.run call t) := by
  have ih := twins_process call h1 hs none
  have ih2 := fun (s t : PState Ev W) (hs : s.Like t) e => twins_process call h2 hs e
  have hlen : p.onFailure.length > 0 ↔ p'.onFailure.length > 0 := by
    revert h2
    generalize p.onFailure = a
    generalize p'.onFailure = b
    intro h2
    match a, b, h2 with
    | _, _, .nil => exact Iff.rfl
    | _, _, .cons .. => simp
  simp only [Pipeline.run]
  revert ih
  generalize Node.processAll call p.processors s none = a
  generalize Node.processAll call p'.processors t none = b
  intro ih
  match a, b, ih with
  | .panic, .panic, _ => trivial
  | .ok (s1, none), .ok (t1, _), ⟨hl, rfl⟩ => exact ⟨hl, rfl⟩
  | .ok (s1, some e1), .ok (t1, _), ⟨hl, rfl⟩ =>
    simp only
    by_cases hn : p.onFailure.length > 0
    · rw [if_pos hn, if_pos (hlen.1 hn)]; exact ih2 s1 t1 hl _
    · rw [if_neg hn, if_neg (fun h => hn (hlen.2 h))]; exact ⟨hl, rfl⟩

/-- From runs to what is returned. -/
theorem like_result (call : Ev → W → A → Res (W × R)) {p p' : Pipeline A R} {evt : Ev} {w w' : PWorld W} (h : LikeRes (p.run call ⟨{ data := evt }, w.world, w.counts, w.log⟩) (p'.run call ⟨{ data := evt }, w'.world, w'.counts, w'.log⟩)) :
    SameResult (p.process call evt w) (p'.process call evt w') := by
  simp only [Pipeline.process]
  revert h
  generalize p.run call _ = a
  generalize p'.run call _ = b
  intro h
  match a, b, h with
  | .panic, .panic, _ => trivial
  | .ok (s1, some e1), .ok (t1, _), ⟨⟨h1, h3, h2⟩, rfl⟩ => exact ⟨h2, rfl, rfl⟩
  | .ok (s1, none), .ok (t1, _), ⟨⟨h1, h3, h2⟩, rfl⟩ =>
    simp only [h1, h3]
    by_cases hd : t1.ev.dropped = true
    · rw [if_pos hd, if_pos hd]; exact ⟨h2, rfl, rfl⟩
    · rw [if_neg hd, if_neg hd]; exact ⟨h2, rfl, rfl⟩

/-! ## What `New` builds -/

theorem builds_unique {F : Factory A R C} {name : Bytes} {config : C} {p p' : Prog A R} {m m' f f' : Bool} (h : Builds F name config p m f) (h' : Builds F name config p' m' f') : p = p' ∧ m = m' ∧ f = f' := by
  obtain ⟨a, h1, _, _, _, h2, h3⟩ := h
  obtain ⟨b, h4, _, _, _, h5, h6⟩ := h'
  rw [h1] at h4
  cases h4
  exact ⟨rfl, h2.trans h5.symm, h3.trans h6.symm⟩

mutual
theorem mirrors_twin {F : Factory A R C} {c c' : ProcCfg C} (hc : SameProc F.nilConfig c c') {base base' : Bytes} {i i' : Nat} {n n' : Node A R} (h : Mirrors F base i c n) (h' : Mirrors F base' i' c' n') : Node.Twin n n' := by
  match c, c', hc with
  | _, _, .options name id cond id' cond' onF onF' config hs =>
    have ih := fun (b b' : Bytes) (ns ns' : List (Node A R)) h h' => mirrorsAll_twin (F := F) hs (base := b) (base' := b') (i := 0) (i' := 0) (ns := ns) (ns' := ns') h h'
    cases h with
    | mk hn hb ho =>
      cases h' with
      | mk hn' hb' ho' =>
        cases hn
        cases hn'
        obtain ⟨rfl, rfl, rfl⟩ := builds_unique hb hb'
        exact .mk _ _ _ _ _ _ _ _ _ (ih _ _ _ _ ho ho')
  | _, _, .none name =>
    cases h with
    | mk hn hb ho =>
      cases h' with
      | mk hn' hb' ho' =>
        cases hn
        cases hn'
        obtain ⟨rfl, rfl, rfl⟩ := builds_unique hb hb'
        cases ho; cases ho'
        exact .mk _ _ _ _ _ _ _ _ _ .nil
  | _, _, .left name id cond =>
    cases h with
    | mk hn hb ho =>
      cases h' with
      | mk hn' hb' ho' =>
        cases hn
        cases hn'
        obtain ⟨rfl, rfl, rfl⟩ := builds_unique hb hb'
        cases ho; cases ho'
        exact .mk _ _ _ _ _ _ _ _ _ .nil
  | _, _, .right name id cond =>
    cases h with
    | mk hn hb ho =>
      cases h' with
      | mk hn' hb' ho' =>
        cases hn
        cases hn'
        obtain ⟨rfl, rfl, rfl⟩ := builds_unique hb hb'
        cases ho; cases ho'
        exact .mk _ _ _ _ _ _ _ _ _ .nil
theorem mirrorsAll_twin {F : Factory A R C} {cs cs' : List (ProcCfg C)} (hc : SameProcs F.nilConfig cs cs') {base base' : Bytes} {i i' : Nat} {ns ns' : List (Node A R)} (h : MirrorsAll F base i cs ns) (h' : MirrorsAll F base' i' cs' ns') : Node.Twins ns ns' := by
  match cs, cs', hc with
  | _, _, .nil => cases h; cases h'; exact .nil
  | _, _, .cons c c' cs cs' h1 h2 =>
    have ih1 := fun (n n' : Node A R) (i i' : Nat) h h' => mirrors_twin (F := F) h1 (base := base) (base' := base') (i := i) (i' := i') (n := n) (n' := n') h h'
    have ih2 := fun (ns ns' : List (Node A R)) (i i' : Nat) h h' => mirrorsAll_twin (F := F) h2 (base := base) (base' := base') (i := i) (i' := i') (ns := ns) (ns' := ns') h h'
    cases h with
    | cons a b =>
      cases h' with
      | cons a' b' => exact .cons _ _ _ _ (ih1 _ _ _ _ a a') (ih2 _ _ _ _ b b')
end

/-- **C96.** Two configurations that differ only in the ID of the pipeline, and in the IDs and conditions of processors: the pipelines do the same. -/
theorem names_aside {F : Factory A R C} (call : Ev → W → A → Res (W × R)) {c c' : Config C} (hp : SameProcs F.nilConfig c.processors c'.processors) (hf : SameProcs F.nilConfig c.onFailure c'.onFailure)
    {p p' : Pipeline A R} (h : Pipeline.new F c = .ok (.ok p)) (h' : Pipeline.new F c' = .ok (.ok p')) (evt : Ev) {w w' : PWorld W} (hw : w.world = w'.world) : SameResult (p.process call evt w) (p'.process call evt w') := by
  obtain ⟨_, _, h1, h2⟩ := new_iff.1 h
  obtain ⟨_, _, h3, h4⟩ := new_iff.1 h'
  exact like_result call (twins_pipeline call (mirrorsAll_twin hp h1 h3) (mirrorsAll_twin hf h2 h4) ⟨rfl, rfl, hw⟩)

mutual
theorem sameProc_self {F : Factory A R C} {c : ProcCfg C} {base : Bytes} {i : Nat} {n : Node A R} (h : Mirrors F base i c n) : SameProc F.nilConfig c c := by
  match h with
  | .mk hn hb ho =>
    have ih := sameProcs_self ho
    cases hn with
    | withOptions => exact .options _ _ _ _ _ _ _ _ ih
    | nilOptions => exact .none _
theorem sameProcs_self {F : Factory A R C} {cs : List (ProcCfg C)} {base : Bytes} {i : Nat} {ns : List (Node A R)} (h : MirrorsAll F base i cs ns) : SameProcs F.nilConfig cs cs := by
  match h with
  | .nil => exact .nil
  | .cons a b => exact .cons _ _ _ _ (sameProc_self a) (sameProcs_self b)
end

theorem mirrorsAll_append {F : Factory A R C} {base : Bytes} {cs ds : List (ProcCfg C)} {i : Nat} {ns : List (Node A R)} (h : MirrorsAll F base i (cs ++ ds) ns) : ∃ ns1 ns2, ns = ns1 ++ ns2 ∧ MirrorsAll F base i cs ns1 ∧ MirrorsAll F base (i + cs.length) ds ns2 := by
  induction cs generalizing i ns with
  | nil => exact ⟨[], ns, rfl, .nil, h⟩
  | cons c cs ih =>
    cases h with
    | cons a b =>
      obtain ⟨n1, n2, rfl, h1, h2⟩ := ih b
      exact ⟨_ :: n1, n2, rfl, .cons a h1, by rw [List.length_cons, show i + (cs.length + 1) = i + 1 + cs.length by omega]; exact h2⟩

theorem validAll_append {F : Factory A R C} {cs ds : List (ProcCfg C)} : ValidAll F (cs ++ ds) ↔ ValidAll F cs ∧ ValidAll F ds := by
  induction cs with
  | nil => exact ⟨fun h => ⟨.nil, h⟩, fun h => h.2⟩
  | cons c cs ih =>
    constructor
    · intro h
      cases h with
      | cons a b => exact ⟨.cons a (ih.1 b).1, (ih.1 b).2⟩
    · rintro ⟨h, h2⟩
      cases h with
      | cons a b => exact .cons a (ih.2 ⟨b, h2⟩)

theorem divide_all (call : Ev → W → A → Res (W × R)) (ns ms : List (Node A R)) (s : PState Ev W) : Node.processAll call (ns ++ ms) s none = match Node.processAll call ns s none with
    | .ok (s, none) => Node.processAll call ms s none
    | r => r := by
  induction ns generalizing s with
  | nil => rfl
  | cons n ns ih =>
    simp only [List.cons_append, Node.processAll]
    cases Node.process call n s with
    | panic => rfl
    | ok r =>
      obtain ⟨s1, e⟩ := r
      cases e with
      | none => exact ih s1
      | some e => rfl

/-- **C96.** `New` accepts a pipeline exactly if it accepts both parts of it (whatever their IDs are). -/
theorem divide_new {F : Factory A R C} {id id1 id2 : Bytes} (h : id ≠ []) (h1 : id1 ≠ []) (h2 : id2 ≠ []) (ps qs hs : List (ProcCfg C)) :
    (∃ p : Pipeline A R, Pipeline.new F ⟨id, ps ++ qs, hs⟩ = .ok (.ok p)) ↔ (∃ p : Pipeline A R, Pipeline.new F ⟨id1, ps, hs⟩ = .ok (.ok p)) ∧ ∃ p : Pipeline A R, Pipeline.new F ⟨id2, qs, hs⟩ = .ok (.ok p) := by
  simp only [new_succeeds_iff, h, h1, h2, ne_eq, not_false_eq_true, true_and, validAll_append]
  constructor
  · rintro ⟨⟨a, b⟩, c⟩; exact ⟨⟨a, c⟩, b, c⟩
  · rintro ⟨⟨a, c⟩, b, _⟩; exact ⟨⟨a, b⟩, c⟩

/-- **C96.** A pipeline does what its first processors do and, if these return the event without an error (where no global on_failure processors hide one), then the others; and otherwise it does what a pipeline of the first processors does. -/
theorem divide_any {F : Factory A R C} (call : Ev → W → A → Res (W × R)) {id id0 id1 id2 : Bytes} {ps qs hs : List (ProcCfg C)} {p p0 p1 p2 : Pipeline A R} (h : Pipeline.new F ⟨id, ps ++ qs, hs⟩ = .ok (.ok p))
    (h0 : Pipeline.new F ⟨id0, ps, []⟩ = .ok (.ok p0)) (h1 : Pipeline.new F ⟨id1, ps, hs⟩ = .ok (.ok p1)) (h2 : Pipeline.new F ⟨id2, qs, hs⟩ = .ok (.ok p2)) (evt : Ev) {w w' : PWorld W} (hw : w.world = w'.world) :
    SameResult (p.process call evt w) (inTurnOr (p0.process call) (p2.process call) (p1.process call) evt w') := by
  obtain ⟨_, _, a, b⟩ := new_iff.1 h
  obtain ⟨_, _, a0, b0⟩ := new_iff.1 h0
  obtain ⟨_, _, a1, b1⟩ := new_iff.1 h1
  obtain ⟨_, _, a2, b2⟩ := new_iff.1 h2
  have hf0 : p0.onFailure = [] := by cases p0; cases b0; rfl
  obtain ⟨n1, n2, hn, c1, c2⟩ := mirrorsAll_append a
  have t0 := mirrorsAll_twin (sameProcs_self a0) c1 a0
  have t1 := mirrorsAll_twin (sameProcs_self a1) c1 a1
  have t2 := mirrorsAll_twin (sameProcs_self a2) c2 a2
  have tf1 := mirrorsAll_twin (sameProcs_self b1) b b1
  have tf2 := mirrorsAll_twin (sameProcs_self b2) b b2
  have first := twins_process call t0 (s := ⟨{ data := evt }, w.world, w.counts, w.log⟩) (t := ⟨{ data := evt }, w'.world, w'.counts, w'.log⟩) ⟨rfl, rfl, hw⟩ none
  have alone := like_result call (twins_pipeline call (p := { p with processors := n1 }) (p' := p1) t1 tf1 (s := ⟨{ data := evt }, w.world, w.counts, w.log⟩) (t := ⟨{ data := evt }, w'.world, w'.counts, w'.log⟩) ⟨rfl, rfl, hw⟩)
  generalize hx : Node.processAll call n1 _ none = x at first
  generalize hy : Node.processAll call p0.processors _ none = y at first
  have same : ∀ s e, x = .ok (s, some e) → p.process call evt w = ({ p with processors := n1 } : Pipeline A R).process call evt w := by
    intro s e hs
    subst hs
    simp only [Pipeline.process, Pipeline.run, hn, divide_all, hx]
  match x, y, first with
  | .panic, .panic, _ =>
    have : p.process call evt w = .panic := by simp only [Pipeline.process, Pipeline.run, hn, divide_all, hx]
    have h0 : p0.process call evt w' = .panic := by simp only [Pipeline.process, Pipeline.run, hy]
    simp only [inTurnOr, this, h0]
    have : ({ p with processors := n1 } : Pipeline A R).process call evt w = .panic := by simp only [Pipeline.process, Pipeline.run, hx]
    rw [this] at alone
    exact alone
  | .ok (s, some e), .ok (t, _), ⟨⟨_, _, l2⟩, rfl⟩ =>
    rw [same s e rfl]
    have h0 : p0.process call evt w' = .ok (⟨t.world, t.counts, t.log⟩, none, some e) := by simp [Pipeline.process, Pipeline.run, hy, hf0]
    simp only [inTurnOr, h0]
    exact alone
  | .ok (s, none), .ok (t, _), ⟨⟨l1, ld, l2⟩, rfl⟩ =>
    have kept := processAll_ev hy
    simp only at kept
    have h0 : p0.process call evt w' = .ok (⟨t.world, t.counts, t.log⟩, some evt, none) := by simp [Pipeline.process, Pipeline.run, hy, kept.1, kept.2]
    simp only [inTurnOr, h0]
    have second := twins_pipeline call (p := { p with processors := n2 }) (p' := p2) t2 tf2 (s := s) (t := ⟨{ data := evt }, t.world, t.counts, t.log⟩) ⟨l1.trans kept.2, ld.trans kept.1, l2⟩
    have hrun : p.run call ⟨{ data := evt }, w.world, w.counts, w.log⟩ = ({ p with processors := n2 } : Pipeline A R).run call s := by
      simp only [Pipeline.run, hn, divide_all, hx]
    simp only [Pipeline.process, hrun]
    revert second
    generalize Pipeline.run call _ s = x2
    generalize Pipeline.run call p2 _ = y2
    intro second
    match x2, y2, second with
    | .panic, .panic, _ => trivial
    | .ok (s2, some e), .ok (t2, _), ⟨⟨_, _, m2⟩, rfl⟩ => exact ⟨m2, rfl, rfl⟩
    | .ok (s2, none), .ok (t2, _), ⟨⟨m1, md, m2⟩, rfl⟩ =>
      simp only [m1, md]
      by_cases hd : t2.ev.dropped = true
      · rw [if_pos hd, if_pos hd]; exact ⟨m2, rfl, rfl⟩
      · rw [if_neg hd, if_neg hd]; exact ⟨m2, rfl, rfl⟩

/-- **C96.** A pipeline without global on_failure processors does the same as two pipelines in turn, of which the first has its first processors and the second the others. -/
theorem divide_process {F : Factory A R C} (call : Ev → W → A → Res (W × R)) {id id1 id2 : Bytes} {ps qs : List (ProcCfg C)} {p p1 p2 : Pipeline A R} (h : Pipeline.new F ⟨id, ps ++ qs, []⟩ = .ok (.ok p))
    (h1 : Pipeline.new F ⟨id1, ps, []⟩ = .ok (.ok p1)) (h2 : Pipeline.new F ⟨id2, qs, []⟩ = .ok (.ok p2)) (evt : Ev) {w w' : PWorld W} (hw : w.world = w'.world) :
    SameResult (p.process call evt w) (inTurn (p1.process call) (p2.process call) evt w') := by
  have := divide_any call h h1 h1 h2 evt hw
  have e : inTurnOr (p1.process call) (p2.process call) (p1.process call) evt w' = inTurn (p1.process call) (p2.process call) evt w' := by
    simp only [inTurnOr, inTurn]
    split <;> rfl
  rw [← e]
  exact this

/-! ## Samples -/

/-- Processors that note their name and, those called `bad`, fail. -/
def noteFactory : Factory Bytes (Option Err) Unit := ⟨fun name _ => .ok (.ok ⟨.call name .done, some {}⟩), ()⟩

def noteCall : Unit → List Bytes → Bytes → Res (List Bytes × Option Err) := fun _ w name => .ok (w ++ [name], if name = lit "bad" then some (.other (lit "bad")) else none)

def noteStart : PWorld (List Bytes) := ⟨[], fun _ => {}, []⟩

def notes (c : Config Unit) : Res (List Bytes × Option Unit × Option Err) :=
  match Pipeline.new noteFactory c with
  | .ok (.ok p) => match p.process noteCall () noteStart with
    | .ok (w, r) => .ok (w.world, r)
    | .panic => .panic
  | _ => .panic

/-- The hypotheses of `names_aside`, `divide_new`, `divide_any` and `divide_process` hold of pipelines that run processors, and one that fails. -/
theorem divide_sample : SameProcs () [[(lit "a", some (.mk (lit "x") (lit "y") [] ()))], [(lit "bad", none)]] [[(lit "a", none)], [(lit "bad", some (.mk (lit "z") [] [] ()))]]
    ∧ (∃ p, Pipeline.new noteFactory ⟨lit "p", [[(lit "a", none)], [(lit "bad", none)]] ++ [[(lit "b", none)]], []⟩ = .ok (.ok p))
    ∧ notes ⟨lit "p", [[(lit "a", none)], [(lit "bad", none)]] ++ [[(lit "b", none)]], []⟩ = .ok ([lit "a", lit "bad"], none, some (.other (lit "bad")))
    ∧ notes ⟨lit "p", [[(lit "a", none)]] ++ [[(lit "b", none)]], []⟩ = .ok ([lit "a", lit "b"], some (), none) :=
  ⟨.cons _ _ _ _ (.right _ _ _) (.cons _ _ _ _ (.left _ _ _) .nil), ⟨_, rfl⟩, rfl, rfl⟩

/-- **C96.** With a global on_failure processor the division changes what happens: here the first part's failure is handled, and so the second part runs, which it does not in the whole pipeline. -/
theorem divide_handled : ∃ p p1 p2, Pipeline.new noteFactory ⟨lit "p", [[(lit "bad", none)]] ++ [[(lit "b", none)]], [[(lit "h", none)]]⟩ = .ok (.ok p)
    ∧ Pipeline.new noteFactory ⟨lit "p", [[(lit "bad", none)]], [[(lit "h", none)]]⟩ = .ok (.ok p1) ∧ Pipeline.new noteFactory ⟨lit "p", [[(lit "b", none)]], [[(lit "h", none)]]⟩ = .ok (.ok p2)
    ∧ ¬ SameResult (p.process noteCall () noteStart) (inTurn (p1.process noteCall) (p2.process noteCall) () noteStart) := by
  refine ⟨_, _, _, rfl, rfl, rfl, ?_⟩
  rintro ⟨h, _⟩
  revert h
  decide

end Sawmill
