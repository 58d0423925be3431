import Verif.SdpWriter.Value
import Verif.Writers.MpsText
/-
Reading the written file back gives its contents.
-/
namespace Verif.SdpWriter
open Verif.Text Verif.State Verif.SdpSolver Verif.Common Verif.Writers

set_option linter.unusedSectionVars false

variable {K : Type} {n : Nat} [Field K] [LinearOrder K]

theorem splitAt_lines (ls : List Str) (h : ∀ l ∈ ls, '\n' ∉ l) : splitAt '\n' ((ls.map fun l => l ++ ['\n']).flatten) = ls ++ [[]] := by
  induction ls with
  | nil => rfl
  | cons a l ih =>
    rw [List.map_cons, List.flatten_cons, List.append_assoc, List.singleton_append, splitAt_append _ _ _ (h a (by simp)),
      ih fun x hx => h x (by simp [hx])]
    rfl

/-- No separator in a text. -/
def Plain (s : Str) : Prop := ∀ c ∈ s, c ∉ [' ', '(', ')', '{', '}', ',', '\t', '\n']

theorem plain_nat (k : Nat) : Plain (natStr k) := by
  intro c hc
  have := natStr_digit k c hc
  simp only [List.mem_cons, List.not_mem_nil, or_false]
  rintro (rfl | rfl | rfl | rfl | rfl | rfl | rfl | rfl) <;> revert this <;> decide

theorem plain_int (z : Int) : Plain (intStr z) := by
  intro c hc
  unfold intStr at hc
  rw [List.mem_append] at hc
  rcases hc with hc | hc
  · split at hc
    · simp only [List.mem_singleton] at hc; subst hc; decide
    · cases hc
  · exact plain_nat _ c hc

theorem plain_not (s : Str) (h : Plain s) (c : Char) (hc : c ∈ [' ', '(', ')', '{', '}', ',', '\t', '\n']) : c ∉ s := fun hs => h c hs hc

theorem blank_append (s t : Str) : blank (s ++ t) = blank s ++ blank t := by simp [blank]

theorem blank_plain (s : Str) (h : Plain s) : blank s = s := by
  unfold blank
  conv_rhs => rw [← List.map_id s]
  apply List.map_congr_left
  intro c hc
  have := h c hc
  simp only [List.mem_cons, List.not_mem_nil, or_false, not_or] at this
  simp [this]

theorem intStr_ne_nil (z : Int) : intStr z ≠ [] := by
  unfold intStr
  intro h
  exact natStr_ne_nil z.natAbs (List.append_eq_nil_iff.1 h).2

theorem readInt_intStr (z : Int) : readInt (intStr z) = some z := by
  unfold intStr
  by_cases h : z < 0
  · rw [if_pos h]
    show (readNat (natStr z.natAbs)).map (fun (k : Nat) => -(k : Int)) = some z
    rw [readNat_natStr, Option.map_some]
    congr 1
    omega
  · rw [if_neg h, List.nil_append]
    rcases hs : natStr z.natAbs with _ | ⟨c, s⟩
    · exact absurd hs (natStr_ne_nil _)
    · have hc : c ≠ '-' := by
        rintro rfl
        exact not_mem_natStr z.natAbs '-' (by decide) (by simp [hs])
      have : readInt (c :: s) = (readNat (c :: s)).map fun (k : Nat) => (k : Int) := by
        unfold readInt
        split
        · rename_i s' heq
          exact absurd (List.cons.inj heq).1 hc
        · rfl
      rw [this, ← hs, readNat_natStr, Option.map_some]
      congr 1
      omega

/-- The words of a list joined by separators that read as blanks. -/
theorem words_joined (sep : Str) (k : Nat) (hsep : blank sep = List.replicate (k + 1) ' ') (ws : List Str) (h : ∀ w ∈ ws, Plain w ∧ w ≠ [])
    (rest : Str) : words (blank (joinWith sep ws) ++ ' ' :: rest) = ws ++ words rest := by
  induction ws with
  | nil => simp [joinWith, blank, words_space]
  | cons s l ih =>
    obtain ⟨hp, hne⟩ := h s (by simp)
    have hsp : ' ' ∉ s := plain_not s hp ' ' (by decide)
    cases l with
    | nil => simp only [joinWith, blank_plain s hp, words_cons s rest hsp hne, List.cons_append, List.nil_append]
    | cons t l =>
      have e : blank (joinWith sep (s :: t :: l)) ++ ' ' :: rest
          = s ++ ' ' :: (List.replicate k ' ' ++ (blank (joinWith sep (t :: l)) ++ ' ' :: rest)) := by
        simp only [joinWith, blank_append, blank_plain s hp, hsep, List.replicate_succ, List.append_assoc, List.cons_append]
      rw [e, words_cons s _ hsp hne, words_spaces, ih fun w hw => h w (by simp [hw])]
      rfl

theorem mem_join (sep : Str) (ws : List Str) (c : Char) (h : c ∈ joinWith sep ws) : c ∈ sep ∨ ∃ w ∈ ws, c ∈ w := by
  induction ws with
  | nil => cases h
  | cons s l ih =>
    cases l with
    | nil => exact Or.inr ⟨s, by simp, h⟩
    | cons t l =>
      simp only [joinWith, List.mem_append] at h
      rcases h with (h | h) | h
      · exact Or.inr ⟨s, by simp, h⟩
      · exact Or.inl h
      · rcases ih h with h | ⟨w, hw, h⟩
        · exact Or.inl h
        · exact Or.inr ⟨w, by simp [hw], h⟩

/-- A value that can be read. -/
def Readable : Tok K → Prop
  | .neg q => 0 ≤ q
  | _ => True

section
variable {fmt : K → Str} {num : Str → Option K} (hf : Prints fmt num)
include hf

theorem read_tok (t : Tok K) (h : Readable t) : num (tokStr fmt t) = some (tokVal t) := by
  cases t with
  | one => exact hf.one
  | negOne => exact hf.negOne
  | num q => exact hf.read q
  | neg q => exact hf.readNeg q h

theorem plain_tok (t : Tok K) : Plain (tokStr fmt t) := by
  cases t with
  | one => show ∀ c ∈ "1.0".toList, c ∉ [' ', '(', ')', '{', '}', ',', '\t', '\n']; decide
  | negOne => show ∀ c ∈ "-1.0".toList, c ∉ [' ', '(', ')', '{', '}', ',', '\t', '\n']; decide
  | num q => exact hf.sep q
  | neg q =>
    intro c hc
    rcases List.mem_cons.1 hc with rfl | hc
    · decide
    · exact hf.sep q c hc

theorem readLn_line (l : Ln K) (h : Readable l.val) : readLn num (lineStr fmt l) = some l.entry := by
  unfold readLn lineStr
  have hn : ∀ k, '\t' ∉ natStr k := fun k => plain_not _ (plain_nat k) '\t' (by decide)
  rw [splitAt_append _ _ _ (hn _), splitAt_append _ _ _ (hn _), splitAt_append _ _ _ (hn _), splitAt_append _ _ _ (hn _),
    splitAt_noSep _ _ (plain_not _ (plain_tok hf l.val) '\t' (by decide))]
  simp [readNat_natStr, read_tok hf l.val h, Ln.entry]

theorem line_noNewline (l : Ln K) : '\n' ∉ lineStr fmt l := by
  have hn : ∀ k, '\n' ∉ natStr k := fun k => plain_not _ (plain_nat k) '\n' (by decide)
  have ht := plain_not _ (plain_tok hf l.val) '\n' (by decide)
  unfold lineStr
  simp [hn, ht]

omit hf in
theorem mapM_map_some {α β γ : Type} (f : β → Option γ) (g : α → β) (e : α → γ) (l : List α) (h : ∀ a ∈ l, f (g a) = some (e a)) :
    (l.map g).mapM f = some (l.map e) := by
  induction l with
  | nil => rfl
  | cons a l ih =>
    rw [List.map_cons, List.mapM_cons, h a (by simp), ih fun b hb => h b (by simp [hb])]
    rfl

/-- The lines of the file contain no line end. -/
theorem fileLines_noNewline (tol : K) (filename : Str) (hn : '\n' ∉ filename) (f : File K) : ∀ l ∈ fileLines fmt tol filename f, '\n' ∉ l := by
  have hnat : ∀ k, '\n' ∉ natStr k := fun k => plain_not _ (plain_nat k) '\n' (by decide)
  intro l hl
  unfold fileLines at hl
  rcases List.mem_cons.1 hl with rfl | hl
  · simp only [List.mem_append, not_or]
    exact ⟨⟨by decide, hn⟩, by decide⟩
  · rcases List.mem_append.1 hl with hl | hl
    · split at hl
      · simp only [List.mem_singleton] at hl
        subst hl
        simp only [List.mem_append, not_or]
        exact ⟨⟨by decide, plain_not _ (hf.sep _) '\n' (by decide)⟩, by decide⟩
      · cases hl
    · rcases List.mem_cons.1 hl with rfl | hl
      · simp only [List.mem_append, not_or]
        exact ⟨hnat _, by decide⟩
      · rcases List.mem_cons.1 hl with rfl | hl
        · simp only [List.mem_append, not_or]
          exact ⟨hnat _, by decide⟩
        · rcases List.mem_cons.1 hl with rfl | hl
          · simp only [List.mem_cons, List.mem_append, not_or]
            refine ⟨by decide, ?_, by decide⟩
            intro hc
            rcases mem_join _ _ _ hc with h | ⟨w, hw, h⟩
            · exact absurd h (by decide)
            · obtain ⟨z, _, rfl⟩ := List.mem_map.1 hw
              exact plain_not _ (plain_int z) '\n' (by decide) h
          · rcases List.mem_cons.1 hl with rfl | hl
            · simp only [List.mem_cons, List.mem_append, not_or]
              refine ⟨by decide, ?_, by decide⟩
              intro hc
              rcases mem_join _ _ _ hc with h | ⟨w, hw, h⟩
              · exact absurd h (by decide)
              · obtain ⟨z, _, rfl⟩ := List.mem_map.1 hw
                exact plain_not _ (hf.sep z) '\n' (by decide) h
            · obtain ⟨l', _, rfl⟩ := List.mem_map.1 hl
              exact line_noNewline hf l'

omit hf in
theorem natStr_head (k : Nat) (s : Str) : ((natStr k ++ s).head? == some '"') = false := by
  rcases hs : natStr k with _ | ⟨c, r⟩
  · exact absurd hs (natStr_ne_nil _)
  · have hc : c ≠ '"' := by
      rintro rfl
      exact not_mem_natStr k '"' (by decide) (by simp [hs])
    simpa using hc

omit hf in
theorem headNat_line (k : Nat) (s : Str) : headNat (natStr k ++ ' ' :: s) = some k := by
  unfold headNat
  rw [words_cons _ _ (plain_not _ (plain_nat k) ' ' (by decide)) (natStr_ne_nil k)]
  simp [readNat_natStr]

/-- Reading the text of a file gives the program it stands for. -/
theorem read_file (tol : K) (filename : Str) (hn : '\n' ∉ filename) (f : File K) (hc : f.objective.length = f.nvars)
    (hr : ∀ l ∈ f.lines, Readable l.val) :
    readSdpa num ((fileLines fmt tol filename f).map fun l => l ++ ['\n']).flatten = some f.prog := by
  unfold readSdpa
  rw [splitAt_lines _ (fileLines_noNewline hf tol filename hn f)]
  have hne : ∀ l ∈ fileLines fmt tol filename f, (!l.isEmpty) = true := by
    intro l hl
    have : l ≠ [] := by
      unfold fileLines at hl
      rcases List.mem_cons.1 hl with rfl | hl
      · simp
      · rcases List.mem_append.1 hl with hl | hl
        · split at hl
          · simp only [List.mem_singleton] at hl
            subst hl
            simp
          · cases hl
        · rcases List.mem_cons.1 hl with rfl | hl
          · simp
          · rcases List.mem_cons.1 hl with rfl | hl
            · simp
            · rcases List.mem_cons.1 hl with rfl | hl
              · simp
              · rcases List.mem_cons.1 hl with rfl | hl
                · simp
                · obtain ⟨l', _, rfl⟩ := List.mem_map.1 hl
                  simp [lineStr, natStr_ne_nil]
    simpa using this
  have e1 : (fileLines fmt tol filename f ++ [[]]).filter (fun l => !l.isEmpty) = fileLines fmt tol filename f := by
    rw [List.filter_append, List.filter_eq_self.2 hne]
    simp
  rw [e1]
  have e2 : (fileLines fmt tol filename f).dropWhile (fun l => l.head? == some '"')
      = (natStr f.nvars ++ " = number of vars".toList)
        :: (natStr f.blocks.length ++ " = number of blocks".toList)
        :: ('(' :: (joinWith [','] (f.blocks.map intStr) ++ ") = BlockStructure".toList))
        :: ('{' :: (joinWith [',', ' '] (f.objective.map fmt) ++ ['}']))
        :: f.lines.map (lineStr fmt) := by
    unfold fileLines
    rw [List.dropWhile_cons_of_pos (by simp)]
    by_cases h : tol < |f.constant|
    · rw [if_pos h, List.singleton_append, List.dropWhile_cons_of_pos (by simp), List.dropWhile_cons_of_neg (by rw [natStr_head]; simp)]
    · rw [if_neg h, List.nil_append, List.dropWhile_cons_of_neg (by rw [natStr_head]; simp)]
  rw [e2]
  have e3 : headNat (natStr f.nvars ++ " = number of vars".toList) = some f.nvars := headNat_line f.nvars "= number of vars".toList
  have e4 : headNat (natStr f.blocks.length ++ " = number of blocks".toList) = some f.blocks.length := headNat_line _ "= number of blocks".toList
  have e5 : words (blank ('(' :: (joinWith [','] (f.blocks.map intStr) ++ ") = BlockStructure".toList)))
      = f.blocks.map intStr ++ ["=".toList, "BlockStructure".toList] := by
    have : blank ('(' :: (joinWith [','] (f.blocks.map intStr) ++ ") = BlockStructure".toList))
        = ' ' :: (blank (joinWith [','] (f.blocks.map intStr)) ++ ' ' :: " = BlockStructure".toList) := by
      have e0 : blank ('(' :: (joinWith [','] (f.blocks.map intStr) ++ ") = BlockStructure".toList))
          = ' ' :: blank (joinWith [','] (f.blocks.map intStr) ++ ") = BlockStructure".toList) := by simp [blank]
      rw [e0, blank_append]
      have : blank ") = BlockStructure".toList = ' ' :: " = BlockStructure".toList := by decide
      rw [this]
    rw [this, words_space, words_joined [','] 0 (by decide)]
    · congr 1
    · intro w hw
      obtain ⟨z, _, rfl⟩ := List.mem_map.1 hw
      exact ⟨plain_int z, intStr_ne_nil z⟩
  have e6 : words (blank ('{' :: (joinWith [',', ' '] (f.objective.map fmt) ++ ['}']))) = f.objective.map fmt := by
    have : blank ('{' :: (joinWith [',', ' '] (f.objective.map fmt) ++ ['}'])) = ' ' :: (blank (joinWith [',', ' '] (f.objective.map fmt)) ++ ' ' :: []) := by
      simp [blank]
    rw [this, words_space, words_joined [',', ' '] 1 (by decide), words_nil, List.append_nil]
    intro w hw
    obtain ⟨z, _, rfl⟩ := List.mem_map.1 hw
    exact ⟨hf.sep z, hf.ne_nil z⟩
  have e7 : ((words (blank ('(' :: (joinWith [','] (f.blocks.map intStr) ++ ") = BlockStructure".toList)))).take f.blocks.length).mapM readInt
      = some f.blocks := by
    rw [e5, List.take_left' (by simp), mapM_map_some readInt intStr id f.blocks fun z _ => readInt_intStr z, List.map_id]
  have e8 : ((words (blank ('{' :: (joinWith [',', ' '] (f.objective.map fmt) ++ ['}'])))).take f.nvars).mapM num = some f.objective := by
    rw [e6, List.take_of_length_le (by simp [hc]), mapM_map_some num fmt id f.objective fun z _ => hf.read z, List.map_id]
  have e9 : (f.lines.map (lineStr fmt)).mapM (readLn num) = some (f.lines.map Ln.entry) :=
    mapM_map_some _ _ _ f.lines fun l hl => readLn_line hf l (hr l hl)
  simp only [e3, e4, e9, Option.bind_eq_bind, Option.bind_some]
  rw [e7, e8]
  rfl

end

end Verif.SdpWriter
