import Verif.Spec.GenDocs
import Verif.Props.GenRun
/-!
# Generated documentation
-/

namespace Sawmill
namespace Gen
open Rfc

theorem docsRow_eq (o : Opt) : docsRow o = tableRow (docCells o) ++ [10] := by
  have e : lit " |\n" = lit " |" ++ [10] := by decide
  unfold docsRow tableRow docCells
  simp only [join, e, List.append_assoc]
  rfl

theorem unlines_cons (l : Bytes) (ls : List Bytes) : joinLines (l :: ls) [] = l ++ 10 :: joinLines ls [] := by simp [joinLines]

theorem unlines_append (a b : List Bytes) : joinLines (a ++ b) [] = joinLines a [] ++ joinLines b [] := by simp [joinLines]

theorem unlines_map {α : Type} (f : α → Bytes) (l : List α) : joinLines (l.map f) [] = l.flatMap fun x => f x ++ [10] := by
  induction l with
  | nil => rfl
  | cons x l ih => rw [List.map_cons, unlines_cons, ih]; simp

theorem unlines_flatMap {α : Type} (f : α → List Bytes) (l : List α) : joinLines (l.flatMap f) [] = l.flatMap fun x => joinLines (f x) [] := by
  induction l with
  | nil => rfl
  | cons x l ih => rw [List.flatMap_cons, unlines_append, ih]; simp

theorem section_lines (p : Bytes × Proc) : lit "\n" ++ docsSection p.1 p.2.description p.2.configuration = joinLines (sectionLines p) [] := by
  have e1 : lit "\n\n| Option | Required | Optional | Type | Default | Description |\n|--------|----------|----------|------|---------|-------------|\n" =
    [10, 10] ++ tableRow [lit "Option", lit "Required", lit "Optional", lit "Type", lit "Default", lit "Description"] ++ [10] ++ lit "|--------|----------|----------|------|---------|-------------|" ++ [10] := by decide +kernel
  have e2 : lit "\n\n" = [10, 10] := by decide
  have e3 : lit "\n" = [10] := by decide
  have e4 : (fun o => docsRow o) = fun o => tableRow (docCells o) ++ [10] := funext docsRow_eq
  have e4' : docsRow = fun o => tableRow (docCells o) ++ [10] := e4
  unfold docsSection sectionLines
  rw [e1, e2, e3, e4', unlines_append, unlines_append, unlines_map]
  generalize tableRow [lit "Option", lit "Required", lit "Optional", lit "Type", lit "Default", lit "Description"] = h1
  generalize lit "|--------|----------|----------|------|---------|-------------|" = h2
  simp [joinLines]

/-- The text of the documentation is made of its lines. -/
theorem docs_text_lines (intro : Bytes) (ps : List (Bytes × Proc)) : docsText intro ps = intro ++ joinLines (docLines ps) [] := by
  have e1 : lit "## Processors\n" = lit "## Processors" ++ [10] := by decide
  have e2 : lit "\n\n" = [10, 10] := by decide
  have e3 : ∀ (a : Bytes), ps.flatMap (fun p => lit "\n- [" ++ p.1 ++ lit "](#" ++ p.1 ++ lit ")") ++ 10 :: a = 10 :: (ps.flatMap (fun p => (lit "- [" ++ p.1 ++ lit "](#" ++ p.1 ++ lit ")") ++ [10]) ++ a) := by
    intro a
    have e : lit "\n- [" = 10 :: lit "- [" := by decide
    rw [e]
    induction ps with
    | nil => rfl
    | cons p ps ih =>
      simp only [List.flatMap_cons, List.append_assoc, List.cons_append, List.nil_append] at ih ⊢
      rw [ih]
  have e5 : (fun p : Bytes × Proc => lit "\n" ++ docsSection p.1 p.2.description p.2.configuration) = fun p => joinLines (sectionLines p) [] := funext section_lines
  unfold docsText docLines
  rw [e1, e2, e5]
  rw [unlines_append, unlines_append, unlines_append, unlines_append, unlines_map, unlines_flatMap]
  simp only [List.append_assoc]
  congr 1
  have := e3 (10 :: (ps.flatMap (fun p => joinLines (sectionLines p) []) ++ [10, 10]))
  simp only [List.append_assoc, List.cons_append, List.nil_append] at this ⊢
  rw [this]
  generalize lit "## Processors" = h1
  simp [joinLines]

/-- A row of the table is one line, whatever the description, if name, type and default are. -/
theorem row_one_line {o : Opt} (hn : (10 : UInt8) ∉ o.name) (ht : (10 : UInt8) ∉ o.type) (hd : ∀ d, o.default = some d → (10 : UInt8) ∉ (match d with | .str s => s | .other t _ => t)) : (10 : UInt8) ∉ tableRow (docCells o) := by
  have hx : ∀ b : Bool, (10 : UInt8) ∉ (if b then lit "x" else []) := by decide
  have h1 : (10 : UInt8) ∉ lit "| " := by decide
  have h2 : (10 : UInt8) ∉ lit " | " := by decide
  have h3 : (10 : UInt8) ∉ lit " |" := by decide
  have h4 : (10 : UInt8) ∉ o.description.map (fun b => if b = 10 then 32 else b) := by
    intro hm
    obtain ⟨b, _, hb⟩ := List.mem_map.1 hm
    split at hb
    · exact absurd hb (by decide)
    · next h => exact h hb
  have h5 : (10 : UInt8) ∉ (match o.default with | none => [] | some (.str s) => s | some (.other t truthy) => if truthy then t else []) := by
    cases h : o.default with
    | none => simp
    | some d =>
      have := hd d h
      cases d with
      | str s => exact this
      | other t truthy =>
        cases truthy
        · simp
        · exact this
  simp only [tableRow, docCells, join, List.mem_append, not_or]
  exact ⟨⟨h1, ⟨⟨hn, h2⟩, ⟨⟨hx _, h2⟩, ⟨⟨hx _, h2⟩, ⟨⟨ht, h2⟩, ⟨⟨h5, h2⟩, h4⟩⟩⟩⟩⟩⟩, h3⟩

/-- **C78.** The documentation: of each map in the list, one processor, in the order of their names; a link and a section for each, whose table has a row for each of its options, in the order of their names. -/
theorem docs_contents {intro text : Bytes} {s : Schema} (h : Docs intro s text) :
    ∃ chosen shown ps, Rel2 (fun m c => c ∈ m) (s.filter fun m => !m.isEmpty) chosen ∧ Rel2 Shows chosen shown ∧ ps.Perm shown ∧ (ps.Pairwise fun a b => bLt b.1 a.1 = false) ∧ text = intro ++ joinLines (docLines ps) [] := by
  obtain ⟨ps, sorted, hp, hperm, hs, rfl⟩ := h
  rw [docs_text_lines]
  have : ∃ chosen, Rel2 (fun m c => c ∈ m) (s.filter fun m => !m.isEmpty) chosen ∧ Rel2 Shows chosen ps := by
    clear hperm hs
    induction hp with
    | nil => exact ⟨[], .nil, .nil⟩
    | empty _ ih => exact ih
    | @pick m name p shown s ps hm hsh _ ih =>
      obtain ⟨chosen, h1, h2⟩ := ih
      have hne : (!m.isEmpty) = true := by
        cases m with
        | nil => simp at hm
        | cons _ _ => rfl
      refine ⟨(name, p) :: chosen, ?_, .cons ⟨rfl, rfl, ?_⟩ h2⟩
      · rw [List.filter_cons, if_pos hne]
        exact .cons hm h1
      · obtain ⟨sorted, hso, rfl⟩ := hsh
        exact ⟨sorted, hso.1, hso.2, rfl⟩
  obtain ⟨chosen, h1, h2⟩ := this
  exact ⟨chosen, ps, sorted, h1, h2, hperm, hs, rfl⟩

theorem rel2_unique {α β : Type} {R : α → β → Prop} {as : List α} {bs cs : List β} (h : ∀ a ∈ as, ∀ b c, R a b → R a c → b = c) (h1 : Rel2 R as bs) (h2 : Rel2 R as cs) : bs = cs := by
  induction h1 generalizing cs with
  | nil => cases h2; rfl
  | cons hr _ ih =>
    cases h2 with
    | cons hr2 h2 =>
      rw [h _ (by simp) _ _ hr hr2, ih (fun a ha => h a (by simp [ha])) h2]

theorem rel2_mem {α β : Type} {R : α → β → Prop} {as : List α} {bs : List β} (h : Rel2 R as bs) : ∀ b ∈ bs, ∃ a ∈ as, R a b := by
  induction h with
  | nil => simp
  | cons hr _ ih =>
    intro b hb
    rcases List.mem_cons.1 hb with rfl | hb
    · exact ⟨_, by simp, hr⟩
    · obtain ⟨a, ha, h⟩ := ih b hb
      exact ⟨a, by simp [ha], h⟩

theorem shows_unique {c q q' : Bytes × Proc} (hn : (c.2.configuration.map (·.name)).Nodup) (h : Shows c q) (h' : Shows c q') : q = q' := by
  obtain ⟨e1, e2, o1, p1, s1, e3⟩ := h
  obtain ⟨f1, f2, o2, p2, s2, f3⟩ := h'
  have : o1 = o2 := sorted_unique hn ⟨p1, s1⟩ ⟨p2, s2⟩
  obtain ⟨qn, qd, qc⟩ := q
  obtain ⟨qn', qd', qc'⟩ := q'
  simp only at e1 e2 e3 f1 f2 f3
  subst e1 e2 e3 f1 f2 f3
  rw [this]

/-- **C78.** If every map has at most one processor, and names differ, the documentation is determined by processors.yml. -/
theorem docs_deterministic {intro : Bytes} {s : Schema} (h1 : ∀ m ∈ s, m.length ≤ 1) (hn : (s.flatten.map (·.1)).Nodup) (ho : ∀ x ∈ s.flatten, (x.2.configuration.map (·.name)).Nodup) {t1 t2 : Bytes} (hd1 : Docs intro s t1) (hd2 : Docs intro s t2) : t1 = t2 := by
  obtain ⟨c1, s1, p1, r1, q1, m1, o1, rfl⟩ := docs_contents hd1
  obtain ⟨c2, s2, p2, r2, q2, m2, o2, rfl⟩ := docs_contents hd2
  have hc : c1 = c2 := by
    refine rel2_unique ?_ r1 r2
    intro m hm b c hb hc
    have := h1 m (List.mem_filter.1 hm).1
    match m, this with
    | [x], _ =>
      simp only [List.mem_singleton] at hb hc
      rw [hb, hc]
    | x :: y :: m, hl => simp only [List.length_cons] at hl; omega
  subst hc
  have hmem : ∀ x ∈ c1, x ∈ s.flatten := by
    intro x hx
    obtain ⟨m, hm, hxm⟩ := rel2_mem r1 x hx
    exact List.mem_flatten.2 ⟨m, (List.mem_filter.1 hm).1, hxm⟩
  have hsh : s1 = s2 := rel2_unique (R := Shows) (fun c hc q q' h h' => shows_unique (ho c (hmem c hc)) h h') q1 q2
  subst hsh
  have hnames : (s1.map (·.1)).Nodup := by
    have e1 : s1.map (·.1) = c1.map (·.1) := by
      clear r1 r2 q2 hmem m1 m2
      induction q1 with
      | nil => rfl
      | cons h _ ih => rw [List.map_cons, List.map_cons, h.1, ih]
    have e2 : c1 = s.flatten := by
      clear q1 q2 e1 hmem m1 m2 o1 o2 r2 hd1 hd2 hn ho
      induction s generalizing c1 with
      | nil => cases r1; rfl
      | cons m s ih =>
        have hl := h1 m (by simp)
        match m, hl with
        | [], _ => exact ih (fun x hx => h1 x (by simp [hx])) _ r1
        | [x], _ =>
          rw [List.filter_cons, if_pos (by rfl)] at r1
          cases r1 with
          | cons hx r1 =>
            simp only [List.mem_singleton] at hx
            rw [hx, ih (fun x hx => h1 x (by simp [hx])) _ r1]
            rfl
        | x :: y :: m, hl => simp only [List.length_cons] at hl; omega
    rw [e1, e2]
    exact hn
  have : p1 = p2 := by
    refine List.Perm.eq_of_pairwise ?_ o1 o2 (m1.trans m2.symm)
    intro a b ha hb hab hba
    have inj : ∀ {l : List (Bytes × Proc)}, (l.map (·.1)).Nodup → ∀ a ∈ l, ∀ b ∈ l, a.1 = b.1 → a = b := by
      intro l
      induction l with
      | nil => simp
      | cons x l ih =>
        intro hn a ha b hb e
        simp only [List.map_cons, List.nodup_cons, List.mem_map, not_exists, not_and] at hn
        rcases List.mem_cons.1 ha with ha | ha
        · rcases List.mem_cons.1 hb with hb | hb
          · rw [ha, hb]
          · exact absurd (by rw [← e, ha]) (hn.1 b hb)
        · rcases List.mem_cons.1 hb with hb | hb
          · exact absurd (by rw [e, hb]) (hn.1 a ha)
          · exact ih hn.2 a ha b hb e
    refine inj hnames a (m1.mem_iff.1 ha) b (m2.mem_iff.1 hb) ?_
    rcases bLt_total a.1 b.1 with h | h | h
    · exact h
    · rw [h] at hba; exact absurd hba (by simp)
    · rw [h] at hab; exact absurd hab (by simp)
  rw [this]

end Gen
end Sawmill
