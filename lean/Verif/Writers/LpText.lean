import Verif.Writers.LpLemmas
/-
The text of the LP export: its lines, and reading a written row back.
-/
namespace Verif.Writers

open Verif.Text Verif.State

set_option linter.unusedSectionVars false

variable {K : Type} [Field K] [LinearOrder K]

theorem varName_noSpace (i : Nat) : ' ' ∉ varName i := by
  simp only [varName, List.mem_cons, not_or]
  exact ⟨by decide, not_mem_natStr i _ (by decide)⟩

theorem varName_noNewline (i : Nat) : '\n' ∉ varName i := by
  simp only [varName, List.mem_cons, not_or]
  exact ⟨by decide, not_mem_natStr i _ (by decide)⟩

theorem readVar_varName (i : Nat) : readVar (varName i) = some i := readNat_natStr i

/-- The terms joined by ` + `. -/
def bodyText (fmt : K → Str) (d : Dict Nat K) : List Nat → Str
  | [] => []
  | [x] => fmt (at' d x) ++ ' ' :: varName x
  | x :: y :: r => fmt (at' d x) ++ ' ' :: (varName x ++ ' ' :: ('+' :: ' ' :: bodyText fmt d (y :: r)))

theorem termsText_eq (fmt : K → Str) (d : Dict Nat K) (xs : List Nat) (h : xs ≠ []) :
    termsText fmt d xs = bodyText fmt d xs ++ " + ".toList := by
  induction xs with
  | nil => exact absurd rfl h
  | cons x xs ih =>
    cases xs with
    | nil => simp [termsText, bodyText]
    | cons y r =>
      have := ih (by simp)
      simp only [termsText, List.map_cons, List.flatten_cons] at this ⊢
      rw [this]
      simp [bodyText]

theorem termsText_eq_nil (fmt : K → Str) (d : Dict Nat K) (xs : List Nat) : termsText fmt d xs = [] ↔ xs = [] := by
  constructor
  · intro h
    by_contra hx
    rw [termsText_eq fmt d xs hx] at h
    simp at h
  · rintro rfl; rfl

theorem take_termsText (fmt : K → Str) (d : Dict Nat K) (xs : List Nat) (h : xs ≠ []) :
    (termsText fmt d xs).take ((termsText fmt d xs).length - 3) = bodyText fmt d xs := by
  rw [termsText_eq fmt d xs h]
  simp

theorem formatConstraint_eq_nil (fmt : K → Str) (ord : List Nat → List Nat) (known d : Dict Nat K) (kind : Kind) :
    formatConstraint fmt ord known d kind = [] ↔ unknownPart ord known d = [] := by
  unfold formatConstraint
  constructor
  · intro h
    by_contra hx
    have ht : termsText fmt d (unknownPart ord known d) ≠ [] := fun e => hx ((termsText_eq_nil _ _ _).1 e)
    simp only [ht, if_false] at h
    cases kind <;> simp at h
    exact ht h.1
  · intro h
    simp [h, termsText]

/-- The operator written for a constraint. -/
def opText : Bool → Str
  | true => "=".toList
  | false => ">=".toList

/-- The kind of a constraint row. -/
def kindOf : Bool → Kind
  | true => .eq
  | false => .ineq

theorem formatConstraint_row (fmt : K → Str) (ord : List Nat → List Nat) (known d : Dict Nat K) (e : Bool) (h : unknownPart ord known d ≠ []) :
    formatConstraint fmt ord known d (kindOf e)
      = bodyText fmt d (unknownPart ord known d) ++ ' ' :: (opText e ++ ' ' :: fmt (-constPart ord known d)) := by
  unfold formatConstraint
  have ht : termsText fmt d (unknownPart ord known d) ≠ [] := fun e => h ((termsText_eq_nil _ _ _).1 e)
  cases e
  · simp only [ht, if_false, kindOf, take_termsText fmt d _ h]
    simp [opText]
  · simp only [ht, if_false, kindOf, take_termsText fmt d _ h]
    simp [opText]

variable {fmt : K → Str} {num : Str → Option K}

theorem splitBody (hf : Faithful fmt num) (d : Dict Nat K) (x : Nat) (r : List Nat) (rest : Str) :
    splitAt ' ' (bodyText fmt d (x :: r) ++ ' ' :: rest)
      = fmt (at' d x) :: varName x :: ((r.map fun y => ["+".toList, fmt (at' d y), varName y]).flatten ++ splitAt ' ' rest) := by
  induction r generalizing x with
  | nil =>
    simp only [bodyText, List.append_assoc, List.cons_append]
    rw [splitAt_append _ _ _ (hf.noSpace _), splitAt_append _ _ _ (varName_noSpace x)]
    rfl
  | cons y r ih =>
    have e : bodyText fmt d (x :: y :: r) ++ ' ' :: rest
        = fmt (at' d x) ++ ' ' :: (varName x ++ ' ' :: (['+'] ++ ' ' :: (bodyText fmt d (y :: r) ++ ' ' :: rest))) := by
      simp [bodyText]
    rw [e, splitAt_append _ _ _ (hf.noSpace _), splitAt_append _ _ _ (varName_noSpace x), splitAt_append _ _ _ (by decide), ih y]
    rfl

theorem readTerms_tokens (hf : Faithful fmt num) (d : Dict Nat K) (x : Nat) (r : List Nat) (e : Bool) (b : K) :
    readTerms num (fmt (at' d x) :: varName x :: ((r.map fun y => ["+".toList, fmt (at' d y), varName y]).flatten ++ [opText e, fmt b]))
      = some ⟨(x :: r).map fun y => (at' d y, y), e, b⟩ := by
  induction r generalizing x with
  | nil =>
    cases e <;> simp [readTerms, opText, hf.read, readVar_varName]
  | cons y r ih =>
    have := ih y
    simp only [List.map_cons, List.flatten_cons, List.cons_append, List.nil_append]
    unfold readTerms
    rw [if_pos rfl, this]
    simp [hf.read, readVar_varName]

theorem bodyText_noNewline (hf : Faithful fmt num) (d : Dict Nat K) (xs : List Nat) : '\n' ∉ bodyText fmt d xs := by
  induction xs with
  | nil => simp [bodyText]
  | cons x r ih =>
    cases r with
    | nil => simp [bodyText, hf.noNewline, varName_noNewline]
    | cons y r => simp [bodyText, hf.noNewline, varName_noNewline, ih]

theorem format_noNewline (hf : Faithful fmt num) (ord : List Nat → List Nat) (known d : Dict Nat K) (e : Bool) :
    '\n' ∉ formatConstraint fmt ord known d (kindOf e) := by
  by_cases h : unknownPart ord known d = []
  · rw [(formatConstraint_eq_nil fmt ord known d _).2 h]; simp
  · rw [formatConstraint_row fmt ord known d e h]
    cases e <;> simp [bodyText_noNewline hf, opText, hf.noNewline]

theorem obj_noNewline (hf : Faithful fmt num) (ord : List Nat → List Nat) (known d : Dict Nat K) :
    '\n' ∉ formatConstraint fmt ord known d .obj := by
  by_cases h : unknownPart ord known d = []
  · rw [(formatConstraint_eq_nil fmt ord known d _).2 h]; simp
  · have ht : termsText fmt d (unknownPart ord known d) ≠ [] := fun e => h ((termsText_eq_nil _ _ _).1 e)
    unfold formatConstraint
    simp only [ht, if_false]
    rw [termsText_eq fmt d _ h]
    simp [bodyText_noNewline hf, hf.noNewline]

/-- The line of the `i`-th written row. -/
def rowLine (i : Nat) (s : Str) : Str := "c".toList ++ natStr i ++ ": ".toList ++ s

/-- The lines of the row section. -/
def rowLines : Nat → List Str → List Str
  | _, [] => []
  | i, s :: rows => if s = [] then rowLines i rows else rowLine i s :: rowLines (i + 1) rows

theorem splitAt_rows (rows : List Str) (h : ∀ s ∈ rows, '\n' ∉ s) (i : Nat) (rest : Str) :
    splitAt '\n' (writeRows i rows ++ rest) = rowLines i rows ++ splitAt '\n' rest := by
  induction rows generalizing i with
  | nil => rfl
  | cons s rows ih =>
    have ih := ih (fun t ht => h t (by simp [ht]))
    unfold writeRows rowLines
    split
    · exact ih i
    · have e : "c".toList ++ natStr i ++ ": ".toList ++ s ++ "\n".toList ++ writeRows (i + 1) rows ++ rest
          = rowLine i s ++ '\n' :: (writeRows (i + 1) rows ++ rest) := by
        simp [rowLine]
      rw [e, splitAt_append _ _ _ ?_, ih (i + 1)]
      · rfl
      · have := h s (by simp)
        simp [rowLine, this, not_mem_natStr i '\n' (by decide)]

/-- The constraint rows in the order they are written. -/
def rowTexts (fmt : K → Str) (ord : List Nat → List Nat) (p : Processed K) : List Str :=
  p.equalities.map (fun d => formatConstraint fmt ord p.known d .eq) ++ p.inequalities.map (fun d => formatConstraint fmt ord p.known d .ineq)

theorem rowTexts_noNewline (hf : Faithful fmt num) (ord : List Nat → List Nat) (p : Processed K) : ∀ s ∈ rowTexts fmt ord p, '\n' ∉ s := by
  intro s hs
  simp only [rowTexts, List.mem_append, List.mem_map] at hs
  rcases hs with ⟨d, _, rfl⟩ | ⟨d, _, rfl⟩
  · exact format_noNewline hf ord p.known d true
  · exact format_noNewline hf ord p.known d false

theorem boundsText_noNewline (hf : Faithful fmt num) (p : Processed K) : '\n' ∉ boundsText fmt p := by
  unfold boundsText
  simp only [List.mem_append, List.mem_flatten, List.mem_map, not_or]
  constructor
  · rintro ⟨s, ⟨t, _, rfl⟩, hs⟩
    simp [hf.noNewline, varName_noNewline] at hs
  · rintro ⟨s, ⟨t, _, rfl⟩, hs⟩
    simp [hf.noNewline, varName_noNewline] at hs

/-- The lines of the exported file. -/
theorem lines_of_file (hf : Faithful fmt num) (ord : List Nat → List Nat) (filename : Str) (hn : '\n' ∉ filename) (p : Processed K) :
    splitAt '\n' (writeToLp fmt ord filename p)
      = ["\\ File: ".toList ++ filename, "maximize".toList, "obj: ".toList ++ formatConstraint fmt ord p.known p.objective .obj, "subject to".toList]
        ++ (rowLines 0 (rowTexts fmt ord p) ++ ["bounds".toList, boundsText fmt p ++ "end".toList]) := by
  unfold writeToLp
  have e : ∀ X : Str, "\\ File: ".toList ++ filename ++ "\n".toList ++ X = ("\\ File: ".toList ++ filename) ++ '\n' :: X := by simp
  rw [e, splitAt_append _ _ _ (by simp [hn])]
  have e : ∀ X : Str, "maximize\n".toList ++ X = "maximize".toList ++ '\n' :: X := by simp
  rw [e, splitAt_append _ _ _ (by decide)]
  have e : ∀ Y X : Str, "obj: ".toList ++ Y ++ "\n".toList ++ X = ("obj: ".toList ++ Y) ++ '\n' :: X := by simp
  rw [e, splitAt_append _ _ _ (by simp [obj_noNewline hf])]
  have e : ∀ X : Str, "subject to\n".toList ++ X = "subject to".toList ++ '\n' :: X := by simp
  rw [e, splitAt_append _ _ _ (by decide)]
  have := splitAt_rows (rowTexts fmt ord p) (rowTexts_noNewline hf ord p) 0
    ("bounds\n".toList ++ (boundsText fmt p ++ "end".toList))
  unfold rowTexts at this
  rw [this]
  have e : ∀ X : Str, "bounds\n".toList ++ X = "bounds".toList ++ '\n' :: X := by simp
  rw [e, splitAt_append _ _ _ (by decide), splitAt_noSep _ _ (by simp [boundsText_noNewline hf])]
  simp [rowTexts]

theorem rowLine_ne (i : Nat) (s : Str) : rowLine i s ≠ "bounds".toList ∧ rowLine i s ≠ "subject to".toList := by
  constructor <;> simp [rowLine]

theorem rowLines_ne (i : Nat) (rows : List Str) : ∀ l ∈ rowLines i rows, l ≠ "bounds".toList := by
  induction rows generalizing i with
  | nil => simp [rowLines]
  | cons s rows ih =>
    intro l hl
    unfold rowLines at hl
    split at hl
    · exact ih i l hl
    · rcases List.mem_cons.1 hl with rfl | hl
      · exact (rowLine_ne i s).1
      · exact ih _ l hl

theorem takeWhile_append_stop {α : Type} (p : α → Bool) (l : List α) (a : α) (r : List α) (h : ∀ x ∈ l, p x = true) (ha : p a = false) :
    (l ++ a :: r).takeWhile p = l := by
  induction l with
  | nil => simp [ha]
  | cons x l ih => simp [h x (by simp), ih (fun y hy => h y (by simp [hy]))]

theorem dropWhile_append_stop {α : Type} (p : α → Bool) (l : List α) (a : α) (r : List α) (h : ∀ x ∈ l, p x = true) (ha : p a = false) :
    (l ++ a :: r).dropWhile p = a :: r := by
  induction l with
  | nil => simp [ha]
  | cons x l ih => simp [h x (by simp), ih (fun y hy => h y (by simp [hy]))]

/-- The row section consists of the row lines. -/
theorem section_rows (hf : Faithful fmt num) (ord : List Nat → List Nat) (filename : Str) (hn : '\n' ∉ filename) (p : Processed K) :
    section_ (splitAt '\n' (writeToLp fmt ord filename p)) "subject to".toList "bounds".toList = rowLines 0 (rowTexts fmt ord p) := by
  rw [lines_of_file hf ord filename hn p]
  unfold section_
  have e : (["\\ File: ".toList ++ filename, "maximize".toList, "obj: ".toList ++ formatConstraint fmt ord p.known p.objective .obj, "subject to".toList]
        ++ (rowLines 0 (rowTexts fmt ord p) ++ ["bounds".toList, boundsText fmt p ++ "end".toList]))
      = ["\\ File: ".toList ++ filename, "maximize".toList, "obj: ".toList ++ formatConstraint fmt ord p.known p.objective .obj]
        ++ "subject to".toList :: (rowLines 0 (rowTexts fmt ord p) ++ ["bounds".toList, boundsText fmt p ++ "end".toList]) := by simp
  rw [e, dropWhile_append_stop _ _ _ _ ?_ (by simp), List.tail_cons, takeWhile_append_stop _ _ _ _ ?_ (by simp)]
  · intro l hl
    simpa using rowLines_ne 0 _ l hl
  · intro l hl
    simp only [List.mem_cons, List.not_mem_nil, or_false] at hl
    rcases hl with h | h | h <;> rw [h] <;> simp

/-- The bound section. -/
theorem rest_bounds (hf : Faithful fmt num) (ord : List Nat → List Nat) (filename : Str) (hn : '\n' ∉ filename) (p : Processed K) :
    ((splitAt '\n' (writeToLp fmt ord filename p)).dropWhile (fun l => l ≠ "bounds".toList)).tail = [boundsText fmt p ++ "end".toList] := by
  rw [lines_of_file hf ord filename hn p]
  rw [← List.append_assoc, dropWhile_append_stop _ _ _ _ ?_ (by simp)]
  · rfl
  · intro l hl
    rcases List.mem_append.1 hl with hl | hl
    · simp only [List.mem_cons, List.not_mem_nil, or_false] at hl
      rcases hl with h | h | h | h <;> rw [h] <;> simp
    · simpa using rowLines_ne 0 _ l hl

theorem getLast_label (i : Nat) : (("c".toList ++ natStr i) ++ [':'] : Str).getLast? = some ':' := List.getLast?_concat

/-- Reading a written row line gives the row. -/
theorem readRow_line (hf : Faithful fmt num) (ord : List Nat → List Nat) (known d : Dict Nat K) (e : Bool) (i : Nat) (h : unknownPart ord known d ≠ []) :
    readRow num (rowLine i (formatConstraint fmt ord known d (kindOf e)))
      = some ⟨(unknownPart ord known d).map fun y => (at' d y, y), e, -constPart ord known d⟩ := by
  rw [formatConstraint_row fmt ord known d e h]
  obtain ⟨x, r, hxr⟩ := List.exists_cons_of_ne_nil h
  rw [hxr]
  have e1 : ∀ X : Str, rowLine i X = (("c".toList ++ natStr i) ++ [':']) ++ ' ' :: X := by intro X; simp [rowLine]
  unfold readRow
  rw [e1, splitAt_append _ _ _ (by simp [not_mem_natStr i ' ' (by decide)]), splitBody hf]
  have e2 : splitAt ' ' (opText e ++ ' ' :: fmt (-constPart ord known d)) = [opText e, fmt (-constPart ord known d)] := by
    rw [splitAt_append _ _ _ (by cases e <;> decide), splitAt_noSep _ _ (hf.noSpace _)]
  rw [e2]
  simp only [getLast_label, if_true]
  exact readTerms_tokens hf d x r e _

end Verif.Writers
