import Verif.Writers.MpsSpec
import Verif.Writers.LpText
import Verif.LpSolver.Dicts
/-
Reading the written MPS file back.
-/
namespace Verif.Writers

open Verif.Text Verif.State

set_option linter.unusedSectionVars false

theorem words_space (s : Str) : words (' ' :: s) = words s := by simp [words, splitAt]

theorem words_spaces (k : Nat) (s : Str) : words (List.replicate k ' ' ++ s) = words s := by
  induction k with
  | zero => rfl
  | succ k ih => rw [List.replicate_succ, List.cons_append, words_space, ih]

theorem words_cons (a s : Str) (ha : ' ' ∉ a) (hne : a ≠ []) : words (a ++ ' ' :: s) = a :: words s := by
  unfold words
  rw [splitAt_append _ _ _ ha, List.filter_cons]
  simp [hne]

theorem words_one (a : Str) (ha : ' ' ∉ a) (hne : a ≠ []) : words a = [a] := by
  unfold words
  rw [splitAt_noSep _ _ ha]
  simp [hne]

theorem words_nil : words [] = [] := by decide

theorem words_pad (a s : Str) (ha : ' ' ∉ a) (hne : a ≠ []) (hl : a.length < 10) : words (pad10 a ++ s) = a :: words s := by
  unfold pad10
  obtain ⟨k, hk⟩ : ∃ k, 10 - a.length = k + 1 := ⟨9 - a.length, by omega⟩
  rw [hk, List.replicate_succ, List.append_assoc, List.cons_append, words_cons a _ ha hne, words_spaces]

theorem words_pad_last (a : Str) (ha : ' ' ∉ a) (hne : a ≠ []) : words (pad10 a) = [a] := by
  unfold pad10
  rcases Nat.eq_zero_or_pos (10 - a.length) with h | h
  · rw [h]
    simpa using words_one a ha hne
  · obtain ⟨k, hk⟩ : ∃ k, 10 - a.length = k + 1 := ⟨10 - a.length - 1, by omega⟩
    rw [hk, List.replicate_succ, words_cons a _ ha hne]
    have := words_spaces k []
    rw [List.append_nil] at this
    rw [this, words_nil]

theorem natDigits_length (f n k : Nat) (h : n < 10 ^ k) (hk : 0 < k) : (natDigits f n).length ≤ k := by
  induction f generalizing n k with
  | zero => simp [natDigits]
  | succ f ih =>
    unfold natDigits
    split
    · simp; omega
    · obtain ⟨j, rfl⟩ : ∃ j, k = j + 1 := ⟨k - 1, by omega⟩
      have hj : 0 < j := by
        rcases Nat.eq_zero_or_pos j with rfl | h'
        · simp at h; omega
        · exact h'
      have : n / 10 < 10 ^ j := by
        rw [Nat.pow_succ] at h
        omega
      have := ih (n / 10) j this hj
      simp
      exact this

theorem natStr_length (n : Nat) (h : n < 10 ^ 8) : (natStr n).length ≤ 8 := by
  unfold natStr
  rw [List.length_map]
  exact natDigits_length _ n 8 h (by omega)

variable {K : Type} [Field K] [LinearOrder K]
variable {fmt4 : K → Str} {num : Str → Option K} {rd : K → K}

theorem varName_length (i : Nat) (h : i < 10 ^ 8) : (varName i).length < 10 := by
  have := natStr_length i h
  simp [varName]
  omega

theorem rowName_length (i : Nat) (h : i < 10 ^ 8) : (rowName i).length < 10 := by
  have := natStr_length i h
  simp [rowName]
  omega

theorem rowName_noSpace (i : Nat) : ' ' ∉ rowName i := by
  simp only [rowName, List.mem_cons, not_or]
  exact ⟨by decide, not_mem_natStr i _ (by decide)⟩

theorem rowName_noNewline (i : Nat) : '\n' ∉ rowName i := by
  simp only [rowName, List.mem_cons, not_or]
  exact ⟨by decide, not_mem_natStr i _ (by decide)⟩

/-- The name of a row or of the objective. -/
def rowIdName : Option Nat → Str
  | none => "obj".toList
  | some i => rowName i

theorem readRowId_name (r : Option Nat) : readRowId (rowIdName r) = some r := by
  cases r with
  | none => rfl
  | some i =>
    unfold readRowId rowIdName
    rw [if_neg (by simp [rowName])]
    simp [rowName, readNat_natStr]

/-- A row identifier that fits in its field. -/
def Fits : Option Nat → Prop
  | none => True
  | some i => i < 10 ^ 8

theorem rowIdName_ok (r : Option Nat) (h : Fits r) : ' ' ∉ rowIdName r ∧ rowIdName r ≠ [] ∧ (rowIdName r).length < 10 := by
  cases r with
  | none => exact ⟨by decide, by decide, by decide⟩
  | some i => exact ⟨rowName_noSpace i, by simp [rowIdName, rowName], rowName_length i h⟩

theorem words_data (hf : Rounds fmt4 num rd) (a : Str) (ha : ' ' ∉ a) (hne : a ≠ []) (hl : a.length < 10) (r : Option Nat) (hr : Fits r) (q : K) :
    words (dataLine fmt4 a (rowIdName r) q) = [a, rowIdName r, fmt4 q] := by
  obtain ⟨h1, h2, h3⟩ := rowIdName_ok r hr
  unfold dataLine
  have : "    ".toList = List.replicate 4 ' ' := by decide
  rw [this, words_spaces, words_pad a _ ha hne hl, words_pad _ _ h1 h2 h3, words_pad_last _ (hf.noSpace q) (hf.ne_nil q)]

theorem readEntry_data (hf : Rounds fmt4 num rd) (x : Nat) (hx : x < 10 ^ 8) (r : Option Nat) (hr : Fits r) (q : K) :
    readEntry num (dataLine fmt4 (varName x) (rowIdName r) q) = some (x, r, rd q) := by
  unfold readEntry
  rw [words_data hf _ (varName_noSpace x) (by simp [varName]) (varName_length x hx) r hr]
  simp [readVar_varName, readRowId_name, hf.read]

theorem readRhs_data (hf : Rounds fmt4 num rd) (r : Option Nat) (hr : Fits r) (q : K) :
    readRhs num (dataLine fmt4 "rhs".toList (rowIdName r) q) = some (r, rd q) := by
  unfold readRhs
  rw [words_data hf _ (by decide) (by decide) (by decide) r hr]
  simp [readRowId_name, hf.read]

theorem readBound_lo (hf : Rounds fmt4 num rd) (x : Nat) (hx : x < 10 ^ 8) (q : K) :
    readBound num (boundLine fmt4 "LO".toList (varName x) q) = some (true, x, rd q) := by
  unfold readBound
  have e : words (boundLine fmt4 "LO".toList (varName x) q) = ["LO".toList, "bound".toList, varName x, fmt4 q] := by
    have : boundLine fmt4 "LO".toList (varName x) q
        = ' ' :: ("LO".toList ++ ' ' :: (pad10 "bound".toList ++ (pad10 (varName x) ++ pad10 (fmt4 q)))) := by
      simp [boundLine]
    rw [this, words_space, words_cons _ _ (by decide) (by decide), words_pad _ _ (by decide) (by decide) (by decide),
      words_pad _ _ (varName_noSpace x) (by simp [varName]) (varName_length x hx), words_pad_last _ (hf.noSpace q) (hf.ne_nil q)]
  rw [e]
  simp [readVar_varName, hf.read]

theorem readBound_up (hf : Rounds fmt4 num rd) (x : Nat) (hx : x < 10 ^ 8) (q : K) :
    readBound num (boundLine fmt4 "UP".toList (varName x) q) = some (false, x, rd q) := by
  unfold readBound
  have e : words (boundLine fmt4 "UP".toList (varName x) q) = ["UP".toList, "bound".toList, varName x, fmt4 q] := by
    have : boundLine fmt4 "UP".toList (varName x) q
        = ' ' :: ("UP".toList ++ ' ' :: (pad10 "bound".toList ++ (pad10 (varName x) ++ pad10 (fmt4 q)))) := by
      simp [boundLine]
    rw [this, words_space, words_cons _ _ (by decide) (by decide), words_pad _ _ (by decide) (by decide) (by decide),
      words_pad _ _ (varName_noSpace x) (by simp [varName]) (varName_length x hx), words_pad_last _ (hf.noSpace q) (hf.ne_nil q)]
  rw [e]
  simp [readVar_varName, hf.read]

theorem readDecl_row (i : Nat) (e : Bool) : readDecl ((if e then " E  ".toList else " G  ".toList) ++ rowName i) = some [(e, i)] := by
  have hw : words ((if e then " E  ".toList else " G  ".toList) ++ rowName i) = [if e then "E".toList else "G".toList, rowName i] := by
    cases e
    · have : (if false = true then " E  ".toList else " G  ".toList) ++ rowName i = ' ' :: ("G".toList ++ ' ' :: (' ' :: rowName i)) := rfl
      rw [this, words_space, words_cons _ _ (by decide) (by decide), words_space, words_one _ (rowName_noSpace i) (by simp [rowName])]
      rfl
    · have : (if true = true then " E  ".toList else " G  ".toList) ++ rowName i = ' ' :: ("E".toList ++ ' ' :: (' ' :: rowName i)) := rfl
      rw [this, words_space, words_cons _ _ (by decide) (by decide), words_space, words_one _ (rowName_noSpace i) (by simp [rowName])]
      rfl
  unfold readDecl
  rw [hw]
  have := readRowId_name (some i)
  simp only [rowIdName] at this
  cases e <;> simp [this]

/-! ### The sections of the file -/

theorem splitAt_lines (lines : List Str) (h : ∀ l ∈ lines, '\n' ∉ l) (last : Str) (hl : '\n' ∉ last) :
    splitAt '\n' ((lines.map fun l => l ++ "\n".toList).flatten ++ last) = lines ++ [last] := by
  induction lines with
  | nil => simpa using splitAt_noSep '\n' last hl
  | cons l lines ih =>
    have e : ((l :: lines).map fun l => l ++ "\n".toList).flatten ++ last = l ++ '\n' :: ((lines.map fun l => l ++ "\n".toList).flatten ++ last) := by
      simp
    rw [e, splitAt_append _ _ _ (h l (by simp)), ih (fun t ht => h t (by simp [ht]))]
    rfl

theorem section_eq (pre mid post : List Str) (start upto : Str) (hpre : ∀ l ∈ pre, l ≠ start) (hmid : ∀ l ∈ mid, l ≠ upto) :
    section_ (pre ++ start :: (mid ++ upto :: post)) start upto = mid := by
  unfold section_
  rw [dropWhile_append_stop _ _ _ _ ?_ (by simp), List.tail_cons, takeWhile_append_stop _ _ _ _ ?_ (by simp)]
  · intro l hl; simpa using hmid l hl
  · intro l hl; simpa using hpre l hl

/-- A line that begins with a blank is not a section header. -/
theorem blank_ne (l : Str) (h : l.head? = some ' ') (u : Str) (hu : u.head? ≠ some ' ') : l ≠ u := by
  rintro rfl; exact hu h

theorem pad10_noNewline (a : Str) (h : '\n' ∉ a) : '\n' ∉ pad10 a := by
  unfold pad10
  simp [h]

theorem dataLine_noNewline (hf : Rounds fmt4 num rd) (a b : Str) (ha : '\n' ∉ a) (hb : '\n' ∉ b) (q : K) : '\n' ∉ dataLine fmt4 a b q := by
  unfold dataLine
  simp [pad10_noNewline a ha, pad10_noNewline b hb, pad10_noNewline _ (hf.noNewline q)]

theorem boundLine_noNewline (hf : Rounds fmt4 num rd) (tag b : Str) (ha : '\n' ∉ tag) (hb : '\n' ∉ b) (q : K) : '\n' ∉ boundLine fmt4 tag b q := by
  unfold boundLine
  simp [ha, pad10_noNewline b hb, pad10_noNewline _ (hf.noNewline q)]
  exact pad10_noNewline "bound".toList (by decide)

/-- Entry lines: each begins with a blank and has no line end. -/
def Indented (l : Str) : Prop := l.head? = some ' ' ∧ '\n' ∉ l

theorem indented_decls (l : List (Dict Nat K × Bool)) : ∀ s ∈ rowDecls l, Indented s := by
  intro s hs
  unfold rowDecls at hs
  rw [List.mem_mapIdx] at hs
  obtain ⟨i, h, rfl⟩ := hs
  split
  · exact ⟨rfl, by simp [rowName_noNewline]⟩
  · exact ⟨rfl, by simp [rowName_noNewline]⟩

theorem indented_data (hf : Rounds fmt4 num rd) (a b : Str) (ha : '\n' ∉ a) (hb : '\n' ∉ b) (q : K) : Indented (dataLine fmt4 a b q) :=
  ⟨rfl, dataLine_noNewline hf a b ha hb q⟩

theorem indented_column (hf : Rounds fmt4 num rd) (p : Processed K) (x : Nat) : ∀ s ∈ columnLines fmt4 p x, Indented s := by
  intro s hs
  unfold columnLines at hs
  rcases List.mem_append.1 hs with hs | hs
  · split at hs
    · rw [List.mem_singleton] at hs
      subst hs
      exact indented_data hf _ _ (varName_noNewline x) (by decide) _
    · simp at hs
  · obtain ⟨l, hl, hs⟩ := List.mem_flatten.1 hs
    rw [List.mem_mapIdx] at hl
    obtain ⟨i, h, rfl⟩ := hl
    split at hs
    · rw [List.mem_singleton] at hs
      subst hs
      exact indented_data hf _ _ (varName_noNewline x) (rowName_noNewline i) _
    · simp at hs

theorem indented_rhs (hf : Rounds fmt4 num rd) (ord : List Nat → List Nat) (p : Processed K) : ∀ s ∈ rhsLines fmt4 ord p, Indented s := by
  intro s hs
  unfold rhsLines at hs
  rcases List.mem_append.1 hs with hs | hs
  · split at hs
    · rw [List.mem_singleton] at hs
      subst hs
      exact indented_data hf _ _ (by decide) (by decide) _
    · simp at hs
  · obtain ⟨l, hl, hs⟩ := List.mem_flatten.1 hs
    rw [List.mem_mapIdx] at hl
    obtain ⟨i, h, rfl⟩ := hl
    split at hs
    · rw [List.mem_singleton] at hs
      subst hs
      exact indented_data hf _ _ (by decide) (rowName_noNewline i) _
    · simp at hs

theorem indented_bounds (hf : Rounds fmt4 num rd) (p : Processed K) : ∀ s ∈ boundLines' fmt4 p, Indented s := by
  intro s hs
  unfold boundLines' at hs
  rcases List.mem_append.1 hs with hs | hs
  · obtain ⟨t, -, rfl⟩ := List.mem_map.1 hs
    exact ⟨rfl, boundLine_noNewline hf _ _ (by decide) (varName_noNewline _) _⟩
  · obtain ⟨t, -, rfl⟩ := List.mem_map.1 hs
    exact ⟨rfl, boundLine_noNewline hf _ _ (by decide) (varName_noNewline _) _⟩

theorem indented_columns (hf : Rounds fmt4 num rd) (p : Processed K) : ∀ s ∈ (p.vars.map (columnLines fmt4 p)).flatten, Indented s := by
  intro s hs
  obtain ⟨l, hl, hs⟩ := List.mem_flatten.1 hs
  obtain ⟨x, -, rfl⟩ := List.mem_map.1 hl
  exact indented_column hf p x s hs

theorem splitAt_mem_noNewline (filename : Str) (hn : '\n' ∉ filename) : '\n' ∉ (splitAt '.' filename).headD [] := by
  induction filename with
  | nil => simp [splitAt]
  | cons c s ih =>
    simp only [List.mem_cons, not_or] at hn
    unfold splitAt
    split
    · simp
    · have := ih hn.2
      rcases h : splitAt '.' s with _ | ⟨w, ws⟩
      · simp [hn.1]
      · rw [h] at this
        simp only [List.headD_cons] at this
        simp [hn.1, this]

/-- The four sections of the written file. -/
theorem mps_sections (hf : Rounds fmt4 num rd) (ord : List Nat → List Nat) (filename : Str) (hn : '\n' ∉ filename) (p : Processed K) :
    let lines := splitAt '\n' (writeToMps fmt4 ord filename p)
    section_ lines "ROWS".toList "COLUMNS".toList = " N  obj".toList :: rowDecls (mpsRows p)
    ∧ section_ lines "COLUMNS".toList "RHS".toList = (p.vars.map (columnLines fmt4 p)).flatten
    ∧ section_ lines "RHS".toList "RANGES".toList = rhsLines fmt4 ord p
    ∧ section_ lines "BOUNDS".toList "ENDATA".toList = boundLines' fmt4 p := by
  have hA : ∀ s ∈ rowDecls (mpsRows p), Indented s := indented_decls _
  have hB := indented_columns hf p
  have hC := indented_rhs hf ord p
  have hD := indented_bounds hf p
  have hblank : ∀ (l : List Str), (∀ s ∈ l, Indented s) → ∀ u : Str, u.head? ≠ some ' ' → ∀ s ∈ l, s ≠ u :=
    fun l hl u hu s hs => blank_ne s (hl s hs).1 u hu
  have hfn := splitAt_mem_noNewline filename hn
  have hlines : splitAt '\n' (writeToMps fmt4 ord filename p) = mpsLines fmt4 ord filename p ++ ["ENDATA".toList] := by
    unfold writeToMps
    apply splitAt_lines _ _ _ (by decide)
    intro l hl
    unfold mpsLines at hl
    simp only [List.cons_append, List.nil_append, List.mem_cons, List.mem_append] at hl
    rcases hl with h | h | h | h | h | h | h | h | h | h | h | h | h | h
    · rw [h]; simp [hn]
    · rw [h]; simpa using hfn
    · rw [h]; decide
    · rw [h]; decide
    · rw [h]; decide
    · rw [h]; decide
    · exact (hA l h).2
    · rw [h]; decide
    · exact (hB l h).2
    · rw [h]; decide
    · exact (hC l h).2
    · rw [h]; decide
    · rw [h]; decide
    · exact (hD l h).2
  intro lines
  set H : List Str := ["* File: ".toList ++ filename, "NAME          ".toList ++ (splitAt '.' filename).headD [], "OBJSENSE".toList, "    MAX".toList] with hH
  have hHne : ∀ u : Str, u.head? ≠ some '*' → u.head? ≠ some 'N' → u ≠ "OBJSENSE".toList → u.head? ≠ some ' ' → ∀ s ∈ H, s ≠ u := by
    intro u h1 h2 h3 h4 s hs
    simp only [hH, List.mem_cons, List.not_mem_nil, or_false] at hs
    rcases hs with h | h | h | h
    · rintro rfl; rw [h] at h1; simp at h1
    · rintro rfl; rw [h] at h2; simp at h2
    · rintro rfl; exact h3 h
    · rintro rfl; rw [h] at h4; simp at h4
  have e0 : lines = H ++ "ROWS".toList :: ((" N  obj".toList :: rowDecls (mpsRows p)) ++ "COLUMNS".toList :: ((p.vars.map (columnLines fmt4 p)).flatten
      ++ "RHS".toList :: (rhsLines fmt4 ord p ++ "RANGES".toList :: ("BOUNDS".toList :: (boundLines' fmt4 p ++ "ENDATA".toList :: []))))) := by
    show splitAt '\n' (writeToMps fmt4 ord filename p) = _
    rw [hlines]
    simp [mpsLines, hH]
  have hdecl : ∀ s ∈ (" N  obj".toList :: rowDecls (mpsRows p)), Indented s := by
    intro s hs
    rcases List.mem_cons.1 hs with rfl | hs
    · exact ⟨rfl, by decide⟩
    · exact hA s hs
  refine ⟨?_, ?_, ?_, ?_⟩
  · rw [e0]
    exact section_eq H _ _ _ _ (hHne _ (by decide) (by decide) (by decide) (by decide)) (hblank _ hdecl _ (by decide))
  · have : lines = (H ++ "ROWS".toList :: (" N  obj".toList :: rowDecls (mpsRows p))) ++ "COLUMNS".toList :: ((p.vars.map (columnLines fmt4 p)).flatten
      ++ "RHS".toList :: (rhsLines fmt4 ord p ++ "RANGES".toList :: ("BOUNDS".toList :: (boundLines' fmt4 p ++ "ENDATA".toList :: [])))) := by
      rw [e0]; simp only [List.append_assoc, List.cons_append]
    rw [this]
    refine section_eq _ _ _ _ _ ?_ (hblank _ hB _ (by decide))
    intro s hs
    rcases List.mem_append.1 hs with hs | hs
    · exact hHne _ (by decide) (by decide) (by decide) (by decide) s hs
    · rcases List.mem_cons.1 hs with rfl | hs
      · decide
      · exact hblank _ hdecl _ (by decide) s hs
  · have : lines = ((H ++ "ROWS".toList :: (" N  obj".toList :: rowDecls (mpsRows p))) ++ "COLUMNS".toList :: (p.vars.map (columnLines fmt4 p)).flatten)
      ++ "RHS".toList :: (rhsLines fmt4 ord p ++ "RANGES".toList :: ("BOUNDS".toList :: (boundLines' fmt4 p ++ "ENDATA".toList :: []))) := by
      rw [e0]; simp only [List.append_assoc, List.cons_append]
    rw [this]
    refine section_eq _ _ _ _ _ ?_ (hblank _ hC _ (by decide))
    intro s hs
    rcases List.mem_append.1 hs with hs | hs
    · rcases List.mem_append.1 hs with hs | hs
      · exact hHne _ (by decide) (by decide) (by decide) (by decide) s hs
      · rcases List.mem_cons.1 hs with rfl | hs
        · decide
        · exact hblank _ hdecl _ (by decide) s hs
    · rcases List.mem_cons.1 hs with rfl | hs
      · decide
      · exact hblank _ hB _ (by decide) s hs
  · have : lines = (((H ++ "ROWS".toList :: (" N  obj".toList :: rowDecls (mpsRows p))) ++ "COLUMNS".toList :: (p.vars.map (columnLines fmt4 p)).flatten)
      ++ ("RHS".toList :: rhsLines fmt4 ord p ++ ["RANGES".toList])) ++ "BOUNDS".toList :: (boundLines' fmt4 p ++ "ENDATA".toList :: []) := by
      rw [e0]; simp only [List.append_assoc, List.cons_append, List.nil_append]
    rw [this]
    refine section_eq _ _ _ _ _ ?_ (hblank _ hD _ (by decide))
    intro s hs
    rcases List.mem_append.1 hs with hs | hs
    · rcases List.mem_append.1 hs with hs | hs
      · rcases List.mem_append.1 hs with hs | hs
        · exact hHne _ (by decide) (by decide) (by decide) (by decide) s hs
        · rcases List.mem_cons.1 hs with rfl | hs
          · decide
          · exact hblank _ hdecl _ (by decide) s hs
      · rcases List.mem_cons.1 hs with rfl | hs
        · decide
        · exact hblank _ hB _ (by decide) s hs
    · rcases List.mem_cons.1 hs with rfl | hs
      · decide
      · rcases List.mem_append.1 hs with hs | hs
        · exact hblank _ hC _ (by decide) s hs
        · rw [List.mem_singleton] at hs
          subst hs
          decide

end Verif.Writers
