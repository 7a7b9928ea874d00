import Mathlib.Data.List.Basic
import Mathlib.Data.List.Nodup

/-!
# The texts of the options tables: names in LaTeX, links and tags in HTML
`src/Interfaces/BonRegisteredOptions.cpp:29-59, 197-218, 248-332`.  Strings are lists of characters.  Which options are listed, and in which order, is the subject of `Verif.Itf.RegOpts`; here the list is given.
-/
namespace Verif.Itf.OptDoc

/-- A string. -/
abbrev Str := List Char

/-- What is used of an option: its category, its name, the letter of its type and for which algorithms it is. -/
structure Opt where
  cat : Str
  name : Str
  type : Char
  marks : List Bool

/-! ## Model -/

/-- `makeLatex` (29-42): a backslash before `_` and `-`. -/
def makeLatex (s : Str) : Str := s.flatMap fun c => if c = '_' ∨ c = '-' then ['\\', c] else [c]

/-- `makeSpaceLess` (44-59): blanks, tabulators and underscores are left out. -/
def makeSpaceLess (s : Str) : Str := s.filter fun c => decide (c ≠ ' ' ∧ c ≠ '\t' ∧ c ≠ '_')

/-- HTML elements written; a link carries its target. -/
inductive Tag where
  | table | tr | td | th
  | a (href : Str)
deriving DecidableEq

/-- What is written in HTML: an opened element, a closed one, text. -/
inductive Tok where
  | op (t : Tag)
  | cl (t : Tag)
  | txt (s : Str)
deriving DecidableEq

/-- One cell. -/
def cell (s : Str) : List Tok := [.op .td, .txt s, .cl .td]

/-- The target of a link, and the anchor it is to meet (284, 328-329): `sec:` and the category without blanks. -/
def anchor (cat : Str) : Str := "sec:".toList ++ makeSpaceLess cat

/-- The first row (267-275). -/
def headRow : List Tok := .op .tr :: (["Option ", " type ", " B-BB", " B-OA", " B-QG", " B-Hyb"].flatMap fun s => cell s.toList) ++ [.cl .tr]

/-- The row of a category (280-287). -/
def catRow (cat : Str) : List Tok := [.op .tr, .op .th, .op (.a (anchor cat)), .txt cat, .cl (.a (anchor cat)), .cl .th, .cl .tr]

/-- The row of an option (289-297). -/
def optRow (o : Opt) : List Tok := .op .tr :: cell o.name ++ cell [o.type] ++ (o.marks.flatMap fun b => cell [if b then '+' else '-']) ++ [.cl .tr]

/-- The rows (276-298); `cur` is `registeringCategory`. -/
def body (cur : Str) : List Opt → List Tok
  | [] => []
  | o :: os => (if o.cat ≠ cur then catRow o.cat else []) ++ optRow o ++ body o.cat os

/-- `writeHtmlOptionsTable` on a list (263-302). -/
def html (os : List Opt) : List Tok := .op .table :: headRow ++ body [] os ++ [.cl .tr, .cl .table]

/-- `writeHtmlOptionsTable` on a kind of options (249-259): the table is opened here and again in the function called. -/
def htmlKind (os : List Opt) : List Tok := .op .table :: html os

/-- The sections of the documentation (`writeLatexHtmlDoc`, 320-331): title and anchor; `cur` is `registeringCategory`. -/
def sections (cur : Str) : List Opt → List (Str × Str)
  | [] => []
  | o :: os => (if o.cat ≠ cur then [(o.cat, anchor o.cat)] else []) ++ sections o.cat os

/-! ## Specification -/

/-- Characters with a meaning of their own in LaTeX. -/
def special (c : Char) : Bool := c ∈ ['\\', '_', '&', '%', '$', '#', '{', '}', '^', '~']

/-- What LaTeX prints: `\_` is an underscore, `\-` a place where a word may be broken, which prints nothing within a line; `none`: anything else than text. -/
def prints : Str → Option Str
  | [] => some []
  | '\\' :: '_' :: s => (prints s).map ('_' :: ·)
  | '\\' :: '-' :: s => prints s
  | c :: s => if special c then none else (prints s).map (c :: ·)

/-- Reading HTML: the elements open after the text, `none` when one is closed that is not the innermost open one. -/
def reading : List Tag → List Tok → Option (List Tag)
  | st, [] => some st
  | st, .op t :: r => reading (t :: st) r
  | st, .txt _ :: r => reading st r
  | [], .cl _ :: _ => none
  | s :: st, .cl t :: r => if s = t then reading st r else none

/-- All elements are closed, in order. -/
def Wellformed (l : List Tok) : Prop := reading [] l = some []

/-- The links in a text, with the text they show. -/
def links : List Tok → List (Str × Str)
  | .op (.a h) :: .txt s :: r => (h, s) :: links r
  | _ :: r => links r
  | [] => []

/-- Where a link leads: the first section with that anchor. -/
def leads (doc : List (Str × Str)) (href : Str) : Option Str := (doc.find? fun s => decide (s.2 = href)).map Prod.fst

/-! ## Names in LaTeX -/

theorem makeLatex_cons (c : Char) (s : Str) : makeLatex (c :: s) = (if c = '_' ∨ c = '-' then ['\\', c] else [c]) ++ makeLatex s := rfl

/-- **C321.** A name of characters that mean nothing else in LaTeX is printed without its hyphens. -/
theorem latex_exact (s : Str) (h : ∀ c ∈ s, special c = true → c = '_') : prints (makeLatex s) = some (s.filter fun c => decide (c ≠ '-')) := by
  induction s with
  | nil => rfl
  | cons c s ih =>
    have ih := ih fun d hd => h d (List.mem_cons_of_mem _ hd)
    rw [makeLatex_cons]
    by_cases h1 : c = '_'
    · subst h1
      simp [prints, ih]
    by_cases h2 : c = '-'
    · subst h2
      simp [prints, ih]
    · have hs : special c = false := by
        cases hc : special c with
        | false => rfl
        | true => exact absurd (h c List.mem_cons_self hc) h1
      have hb : c ≠ '\\' := by rintro rfl; exact absurd hs (by decide)
      have hp : ∀ r, prints (c :: r) = if special c then none else (prints r).map (c :: ·) := by
        intro r
        rw [prints]
        · rintro r' rfl; exact absurd rfl hb
        · rintro r' rfl; exact absurd rfl hb
      simp [h1, h2, hp, hs, ih]

/-- **C321.** It is printed as it is exactly if it has no hyphen. -/
theorem latex_name_iff (s : Str) (h : ∀ c ∈ s, special c = true → c = '_') : prints (makeLatex s) = some s ↔ '-' ∉ s := by
  rw [latex_exact s h]
  constructor
  · intro e hm
    have e' := Option.some.inj e
    rw [← e'] at hm
    simp at hm
  · intro hn
    rw [List.filter_eq_self.mpr]
    intro c hc
    refine decide_eq_true ?_
    rintro rfl
    exact hn hc

example : prints (makeLatex "oa_rhs_relax".toList) = some "oa_rhs_relax".toList ∧ makeLatex "oa_rhs_relax".toList = "oa\\_rhs\\_relax".toList := by decide +kernel

/-- **C321 (refuted).** A hyphen in a name disappears from the LaTeX table: `\-` is a place for a line break, not a hyphen. -/
theorem latex_hyphen_lost : prints (makeLatex "B-BB".toList) = some "BBB".toList := by decide +kernel

/-! ## Tags -/

theorem reading_append (l r : List Tok) : ∀ st, reading st (l ++ r) = (reading st l).bind fun t => reading t r := by
  induction l with
  | nil => intro st; simp [reading]
  | cons x l ih =>
    intro st
    cases x with
    | op t => simpa [reading] using ih (t :: st)
    | txt s => simpa [reading] using ih st
    | cl t =>
      cases st with
      | nil => simp [reading]
      | cons s st =>
        by_cases h : s = t
        · simpa [reading, h] using ih st
        · simp [reading, h]

theorem reading_cell (st : List Tag) (s : Str) : reading st (cell s) = some st := by simp [cell, reading]

theorem reading_cells (st : List Tag) : ∀ l : List Str, reading st (l.flatMap cell) = some st
  | [] => rfl
  | s :: l => by rw [List.flatMap_cons, reading_append, reading_cell]; exact reading_cells st l

theorem reading_head (st : List Tag) : reading st headRow = some st := by
  have := reading_cells (.tr :: st) (["Option ", " type ", " B-BB", " B-OA", " B-QG", " B-Hyb"].map String.toList)
  rw [List.flatMap_map] at this
  unfold headRow
  rw [List.cons_append, reading, reading_append, this]
  simp [reading]

theorem reading_cat (st : List Tag) (c : Str) : reading st (catRow c) = some st := by simp [catRow, reading]

theorem reading_opt (st : List Tag) (o : Opt) : reading st (optRow o) = some st := by
  have := reading_cells (.tr :: st) (o.marks.map fun b => [if b then '+' else '-'])
  rw [List.flatMap_map] at this
  unfold optRow
  rw [List.cons_append, List.cons_append, List.cons_append, reading, reading_append, reading_append, reading_append, reading_cell]
  simp only [Option.bind_some, reading_cell]
  rw [this]
  simp [reading]

theorem reading_body (st : List Tag) : ∀ (os : List Opt) (cur : Str), reading st (body cur os) = some st
  | [], _ => rfl
  | o :: os, cur => by
    rw [body, reading_append, reading_append]
    by_cases h : o.cat ≠ cur
    · rw [if_pos h, reading_cat]; simp only [Option.bind_some, reading_opt]; exact reading_body st os _
    · rw [if_neg h]; simp only [reading, Option.bind_some, reading_opt]; exact reading_body st os _

/-- **C321.** All rows of the HTML table are well formed; so would be the table without the last `</tr>`. -/
theorem html_rows_partial (os : List Opt) : Wellformed (.op .table :: headRow ++ body [] os ++ [.cl .table]) := by
  unfold Wellformed
  rw [List.cons_append, List.cons_append, reading, reading_append, reading_append, reading_head]
  simp only [Option.bind_some, reading_body]
  simp [reading]

/-- **C321 (refuted).** The HTML table is never well formed, whatever the options: a row is closed at its end that is not open (and `writeHtmlOptionsTable` on a kind of options opens the table twice). -/
theorem html_never_wellformed (os : List Opt) : ¬ Wellformed (html os) ∧ ¬ Wellformed (htmlKind os) := by
  have h : ∀ st, reading st (html os) = none := by
    intro st
    unfold html
    rw [List.cons_append, List.cons_append, reading, reading_append, reading_append, reading_head]
    simp only [Option.bind_some, reading_body]
    simp [reading]
  refine ⟨fun hw => ?_, fun hw => ?_⟩
  · rw [Wellformed, h] at hw
    cases hw
  · rw [Wellformed, htmlKind, reading, h] at hw
    cases hw

/-! ## Cells -/

/-- The texts of the cells. -/
def cells : List Tok → List Str
  | .op .td :: .txt s :: r => s :: cells r
  | _ :: r => cells r
  | [] => []

theorem cells_cell (s : Str) (r : List Tok) : cells (cell s ++ r) = s :: cells r := by simp [cell, cells]

theorem cells_flat (l : List Str) (r : List Tok) : cells (l.flatMap cell ++ r) = l ++ cells r := by
  induction l with
  | nil => rfl
  | cons s l ih => rw [List.flatMap_cons, List.append_assoc, cells_cell, ih]; rfl

theorem cells_opt (o : Opt) (r : List Tok) : cells (optRow o ++ r) = o.name :: [o.type] :: (o.marks.map fun b => [if b then '+' else '-']) ++ cells r := by
  have h := cells_flat (o.marks.map fun b => [if b then '+' else '-']) ([.cl .tr] ++ r)
  rw [List.flatMap_map] at h
  unfold optRow
  simp only [List.cons_append, List.append_assoc]
  rw [cells, cells_cell, cells_cell]
  · refine congrArg _ (congrArg _ (h.trans ?_))
    simp [cells]
  · intro s r' h'; cases h'

/-- **C321.** The cells of the rows, in order: for every option its name, the letter of its type, and a plus or minus for each algorithm; the rows of the categories have none. -/
theorem cells_exact (os : List Opt) : ∀ cur, cells (body cur os) = os.flatMap fun o => o.name :: [o.type] :: o.marks.map fun b => [if b then '+' else '-'] := by
  induction os with
  | nil => intro cur; rfl
  | cons o os ih =>
    intro cur
    rw [body, List.append_assoc, List.flatMap_cons]
    by_cases h : o.cat ≠ cur
    · rw [if_pos h]
      have : cells (catRow o.cat ++ (optRow o ++ body o.cat os)) = cells (optRow o ++ body o.cat os) := by simp [catRow, cells]
      rw [this, cells_opt, ih]
    · rw [if_neg h, List.nil_append, cells_opt, ih]

/-- **C321.** With four algorithms (B-BB, B-OA, B-QG, B-Hyb) the row of an option has as many cells as the first row. -/
theorem cells_as_header (o : Opt) (h : o.marks.length = 4) : (cells (optRow o)).length = (cells headRow).length ∧ cells headRow = ["Option ", " type ", " B-BB", " B-OA", " B-QG", " B-Hyb"].map String.toList := by
  have h1 : cells headRow = ["Option ", " type ", " B-BB", " B-OA", " B-QG", " B-Hyb"].map String.toList := by decide +kernel
  have h2 := cells_opt o []
  rw [List.append_nil] at h2
  refine ⟨?_, h1⟩
  rw [h2, h1]
  simp [h, cells]

example : cells (body [] [⟨"NLP interface".toList, "nlp_solver".toList, 'S', [true, true, true, false]⟩]) = ["nlp_solver", "S", "+", "+", "+", "-"].map String.toList := by decide +kernel

/-! ## Links -/

/-- **C321.** The links of the table are the sections of the documentation of the same options, in the same order, each with the anchor of its section. -/
theorem links_are_sections (os : List Opt) : ∀ cur, links (body cur os) = (sections cur os).map fun s => (s.2, s.1) := by
  have hcells : ∀ l : List Str, ∀ r, links (l.flatMap cell ++ r) = links r := by
    intro l
    induction l with
    | nil => intro r; rfl
    | cons s l ih => intro r; rw [List.flatMap_cons, List.append_assoc]; simp [cell, links, ih]
  have hopt : ∀ o r, links (optRow o ++ r) = links r := by
    intro o r
    have := hcells (o.marks.map fun b => [if b then '+' else '-']) ([.cl .tr] ++ r)
    rw [List.flatMap_map] at this
    simp only [optRow, cell, List.cons_append, List.append_assoc, List.nil_append, links] at this ⊢
    exact this
  induction os with
  | nil => intro cur; rfl
  | cons o os ih =>
    intro cur
    rw [body, sections, List.append_assoc]
    by_cases h : o.cat ≠ cur
    · rw [if_pos h, if_pos h, List.map_append, ← ih]
      simp [catRow, links, hopt]
    · rw [if_neg h, if_neg h, List.map_append, ← ih]
      simp [hopt]

theorem mem_sections {os : List Opt} : ∀ {cur : Str} {s : Str × Str}, s ∈ sections cur os → s.2 = anchor s.1 := by
  induction os with
  | nil => intro cur s h; cases h
  | cons o os ih =>
    intro cur s h
    rw [sections, List.mem_append] at h
    rcases h with h | h
    · by_cases hc : o.cat ≠ cur
      · rw [if_pos hc] at h; rw [List.mem_singleton.mp h]
      · rw [if_neg hc] at h; cases h
    · exact ih h

/-- **C321.** Blanks, tabulators and underscores are left out of an anchor, and nothing else. -/
theorem anchor_exact (cat : Str) (c : Char) : (makeSpaceLess cat).count c = (if c = ' ' ∨ c = '\t' ∨ c = '_' then 0 else cat.count c) ∧ (makeSpaceLess cat).Sublist cat := by
  refine ⟨?_, List.filter_sublist⟩
  unfold makeSpaceLess
  by_cases h : c = ' ' ∨ c = '\t' ∨ c = '_'
  · rw [if_pos h, List.count_eq_zero]
    intro hm
    have := List.of_mem_filter hm
    rcases h with rfl | rfl | rfl <;> simp at this
  · rw [if_neg h, List.count_filter]
    simpa [not_or] using h

theorem anchor_inj (a b : Str) : anchor a = anchor b ↔ makeSpaceLess a = makeSpaceLess b := by simp [anchor]

/-- **C321.** Every link leads to a section, whose category is the one the link shows up to blanks, tabulators and underscores. -/
theorem link_leads (os : List Opt) (l : Str × Str) (h : l ∈ links (body [] os)) : ∃ c, leads (sections [] os) l.1 = some c ∧ makeSpaceLess c = makeSpaceLess l.2 := by
  rw [links_are_sections] at h
  obtain ⟨s, hs, rfl⟩ := List.mem_map.mp h
  cases hf : (sections [] os).find? fun t => decide (t.2 = s.2) with
  | none => exact absurd (List.find?_eq_none.mp hf s hs) (by simp)
  | some t =>
    have ht := List.mem_of_find?_eq_some hf
    have he : t.2 = s.2 := by simpa using List.find?_some hf
    refine ⟨t.1, by simp [leads, hf], ?_⟩
    rw [mem_sections ht, mem_sections hs] at he
    exact (anchor_inj _ _).mp he

/-- **C321.** If no two categories differ only in blanks, tabulators and underscores, every link leads to the section it shows. -/
theorem link_leads_partial (os : List Opt) (hd : ∀ a ∈ sections [] os, ∀ b ∈ sections [] os, makeSpaceLess a.1 = makeSpaceLess b.1 → a.1 = b.1) (l : Str × Str) (h : l ∈ links (body [] os)) :
    leads (sections [] os) l.1 = some l.2 := by
  obtain ⟨c, h1, h2⟩ := link_leads os l h
  rw [links_are_sections] at h
  obtain ⟨s, hs, rfl⟩ := List.mem_map.mp h
  obtain ⟨t, ht, rfl⟩ := Option.map_eq_some_iff.mp h1
  rw [h1, hd t (List.mem_of_find?_eq_some ht) s hs h2]

/-- Two options of different categories. -/
def exOs (a b : String) : List Opt := [⟨a.toList, "x".toList, 'S', [true]⟩, ⟨b.toList, "y".toList, 'I', [false]⟩]

example : links (body [] (exOs "Algorithm choice" "Diving options")) = [("sec:Algorithmchoice".toList, "Algorithm choice".toList), ("sec:Divingoptions".toList, "Diving options".toList)] ∧
    leads (sections [] (exOs "Algorithm choice" "Diving options")) "sec:Divingoptions".toList = some "Diving options".toList := by decide +kernel

/-- **C321 (refuted).** Of two categories that differ only in blanks the link of the second leads to the section of the first. -/
theorem link_astray : ("sec:NLPinterface".toList, "NLP interface".toList) ∈ links (body [] (exOs "NLP  interface" "NLP interface")) ∧
    leads (sections [] (exOs "NLP  interface" "NLP interface")) "sec:NLPinterface".toList = some "NLP  interface".toList := by decide +kernel

/-- **C321 (refuted).** An option without a category that comes first is listed in the table without a row for its category, and the documentation has no section for it. -/
theorem no_category_no_section (o : Opt) (h : o.cat = []) : body [] [o] = optRow o ∧ sections [] [o] = [] := by simp [body, sections, h]

end Verif.Itf.OptDoc
