import Verif.Names.Words
/-!
C74: `write_to_file` of linear and semidefinite programs: the format is the one the file name asks for.
-/
namespace Verif.Listings
open Verif.Common Verif.Text Verif.Names

/-! ### The model -/

/-- The extension and the file name, InflationLP.py 921-927, InflationSDP.py 1304-1309 (`default` is `lp` or `dat-s`). -/
def fileName (default f : Str) : Str × Str :=
  if 2 ≤ (splitAt '.' f).length then ((splitAt '.' f).getLast?.getD [], f) else (default, f ++ '.' :: default)

/-- The formats. -/
inductive Format
  | lp
  | mps
  | sdpa
  | csv
  | mat
deriving DecidableEq

/-- `InflationLP.write_to_file`, InflationLP.py 910-938: the writer that is called and the file; `none` is the exception. -/
def lpFile (f : Str) : Option (Format × Str) :=
  let (extension, name) := fileName "lp".toList f
  if extension = "lp".toList then some (.lp, name) else if extension = "mps".toList then some (.mps, name) else none

/-- `InflationSDP.write_to_file`, InflationSDP.py 1293-1322. -/
def sdpFile (f : Str) : Option (Format × Str) :=
  let (extension, name) := fileName "dat-s".toList f
  if extension = "dat-s".toList then some (.sdpa, name) else if extension = "csv".toList then some (.csv, name) else if extension = "mat".toList then some (.mat, name) else none

/-! ### Specification -/

/-- A path without file format: its last component, the text after the last slash, has no dot. -/
def NoFormat (f : Str) : Prop := ∃ dir base, f = dir ++ base ∧ (dir = [] ∨ dir.getLast? = some '/') ∧ '/' ∉ base ∧ '.' ∉ base

/-- A path with a file format: its last component ends in a dot and the format. -/
def HasFormat (f ext : Str) : Prop := ∃ stem, f = stem ++ '.' :: ext ∧ '.' ∉ ext ∧ '/' ∉ ext

/-! ### Lemmas -/

theorem splitAt_last (sep : Char) (u v : Str) (hv : sep ∉ v) : ∃ w, w ≠ [] ∧ splitAt sep (u ++ sep :: v) = w ++ [v] := by
  induction u with
  | nil =>
    refine ⟨[[]], by simp, ?_⟩
    have := splitAt_append sep [] v (by simp)
    rw [List.nil_append] at this
    rw [List.nil_append, this, splitAt_noSep sep v hv]
    rfl
  | cons c u ih =>
    obtain ⟨w, hw, e⟩ := ih
    obtain ⟨x, w', rfl⟩ := List.exists_cons_of_ne_nil hw
    rw [List.cons_append]
    unfold splitAt
    rw [e]
    split
    · exact ⟨[] :: x :: w', by simp, rfl⟩
    · exact ⟨(c :: x) :: w', by simp, rfl⟩

theorem fileName_ext (default stem ext : Str) (h : '.' ∉ ext) : fileName default (stem ++ '.' :: ext) = (ext, stem ++ '.' :: ext) := by
  obtain ⟨w, hw, e⟩ := splitAt_last '.' stem ext h
  obtain ⟨x, w', rfl⟩ := List.exists_cons_of_ne_nil hw
  unfold fileName
  rw [e, if_pos (by simp), List.getLast?_concat]
  rfl

theorem fileName_none (default f : Str) (h : '.' ∉ f) : fileName default f = (default, f ++ '.' :: default) := by
  unfold fileName
  rw [splitAt_noSep _ _ h, if_neg (by simp)]

/-- Every name has a last dot or none. -/
theorem last_dot (f : Str) : '.' ∉ f ∨ ∃ stem ext, f = stem ++ '.' :: ext ∧ '.' ∉ ext := by
  induction f with
  | nil => simp
  | cons c f ih =>
    rcases ih with h | ⟨stem, ext, rfl, h⟩
    · by_cases hc : c = '.'
      · exact .inr ⟨[], f, by rw [hc]; rfl, h⟩
      · exact .inl (by simp [h, Ne.symm hc])
    · exact .inr ⟨c :: stem, ext, rfl, h⟩

/-! ### The properties -/

/-- **C74, the formats**: a path with a file format is written in this format, and in no other, to the file of this name; formats which are not supported are refused. -/
theorem C74_formats (f ext : Str) (h : HasFormat f ext) :
    (ext = "lp".toList → lpFile f = some (.lp, f)) ∧ (ext = "mps".toList → lpFile f = some (.mps, f)) ∧ (ext ≠ "lp".toList → ext ≠ "mps".toList → lpFile f = none) ∧
    (ext = "dat-s".toList → sdpFile f = some (.sdpa, f)) ∧ (ext = "csv".toList → sdpFile f = some (.csv, f)) ∧ (ext = "mat".toList → sdpFile f = some (.mat, f)) ∧
    (ext ≠ "dat-s".toList → ext ≠ "csv".toList → ext ≠ "mat".toList → sdpFile f = none) := by
  obtain ⟨stem, rfl, hd, -⟩ := h
  unfold lpFile sdpFile
  rw [fileName_ext _ _ _ hd, fileName_ext _ _ _ hd]
  dsimp only
  refine ⟨?_, ?_, ?_, ?_, ?_, ?_, ?_⟩
  · rintro rfl
    rfl
  · rintro rfl
    rfl
  · intro h1 h2
    rw [if_neg h1, if_neg h2]
  · rintro rfl
    rfl
  · rintro rfl
    rfl
  · rintro rfl
    rfl
  · intro h1 h2 h3
    rw [if_neg h1, if_neg h2, if_neg h3]

/-- **C74, the default**: a path without file format is written in the default format, with the extension added, if no directory of it has a dot; otherwise the call fails. -/
theorem C74_default_partial (f : Str) (h : NoFormat f) :
    ('.' ∉ f → lpFile f = some (.lp, f ++ ".lp".toList) ∧ sdpFile f = some (.sdpa, f ++ ".dat-s".toList)) ∧ ('.' ∈ f → lpFile f = none ∧ sdpFile f = none) := by
  constructor
  · intro hd
    unfold lpFile sdpFile
    rw [fileName_none _ _ hd, fileName_none _ _ hd]
    exact ⟨rfl, rfl⟩
  · intro hd
    rcases last_dot f with h' | ⟨stem, ext, rfl, he⟩
    · exact absurd hd h'
    have hs : '/' ∈ ext := by
      obtain ⟨dir, base, e, hdir, -, hb⟩ := h
      rcases List.append_eq_append_iff.1 e with ⟨l, h1, h2⟩ | ⟨l, h1, h2⟩
      · cases l with
        | nil =>
          rw [List.nil_append] at h2
          rw [← h2] at hb
          simp at hb
        | cons c l =>
          rw [List.cons_append, List.cons.injEq] at h2
          rcases hdir with rfl | hdir
          · simp at h1
          · obtain ⟨rfl, h2⟩ := h2
            rw [h1, List.getLast?_append, List.getLast?_cons] at hdir
            cases l with
            | nil => simp at hdir
            | cons x l =>
              rw [h2, List.mem_append]
              left
              have : (x :: l).getLast? = some '/' := by
                rw [List.getLast?_eq_some_getLast (by simp)] at hdir ⊢
                simpa using hdir
              exact List.mem_of_getLast? this
      · rw [h2] at hb
        simp at hb
    have hne : ∀ t : Str, '/' ∉ t → ext ≠ t := fun t ht e => ht (e ▸ hs)
    unfold lpFile sdpFile
    rw [fileName_ext _ _ _ he, fileName_ext _ _ _ he]
    dsimp only
    rw [if_neg (hne _ (by decide)), if_neg (hne _ (by decide)), if_neg (hne _ (by decide)), if_neg (hne _ (by decide)), if_neg (hne _ (by decide))]
    exact ⟨rfl, rfl⟩

/-- **C74, the file**: what is written has the format of the name of the written file, which is the given name or the given name with the default extension. -/
theorem C74_written_file (f g : Str) (t : Format) : (lpFile f = some (t, g) → ∃ ext, ((t = .lp ∧ ext = "lp".toList) ∨ (t = .mps ∧ ext = "mps".toList)) ∧ HasFormat g ext ∧
      (g = f ∨ ('.' ∉ f ∧ g = f ++ ".lp".toList))) ∧
    (sdpFile f = some (t, g) → ∃ ext, ((t = .sdpa ∧ ext = "dat-s".toList) ∨ (t = .csv ∧ ext = "csv".toList) ∨ (t = .mat ∧ ext = "mat".toList)) ∧ HasFormat g ext ∧
      (g = f ∨ ('.' ∉ f ∧ g = f ++ ".dat-s".toList))) := by
  rcases last_dot f with h | ⟨stem, ext, rfl, he⟩
  · unfold lpFile sdpFile
    rw [fileName_none _ _ h, fileName_none _ _ h]
    constructor
    · intro e
      have e : some (Format.lp, f ++ '.' :: "lp".toList) = some (t, g) := e
      simp only [Option.some.injEq, Prod.mk.injEq] at e
      obtain ⟨rfl, rfl⟩ := e
      exact ⟨_, .inl ⟨rfl, rfl⟩, ⟨f, rfl, by decide, by decide⟩, .inr ⟨h, rfl⟩⟩
    · intro e
      have e : some (Format.sdpa, f ++ '.' :: "dat-s".toList) = some (t, g) := e
      simp only [Option.some.injEq, Prod.mk.injEq] at e
      obtain ⟨rfl, rfl⟩ := e
      exact ⟨_, .inl ⟨rfl, rfl⟩, ⟨f, rfl, by decide, by decide⟩, .inr ⟨h, rfl⟩⟩
  · unfold lpFile sdpFile
    rw [fileName_ext _ _ _ he, fileName_ext _ _ _ he]
    dsimp only
    constructor
    · intro e
      split at e
      · rename_i hx
        simp only [Option.some.injEq, Prod.mk.injEq] at e
        obtain ⟨rfl, rfl⟩ := e
        exact ⟨ext, .inl ⟨rfl, hx⟩, ⟨stem, rfl, he, by rw [hx]; decide⟩, .inl rfl⟩
      · split at e
        · rename_i hx
          simp only [Option.some.injEq, Prod.mk.injEq] at e
          obtain ⟨rfl, rfl⟩ := e
          exact ⟨ext, .inr ⟨rfl, hx⟩, ⟨stem, rfl, he, by rw [hx]; decide⟩, .inl rfl⟩
        · cases e
    · intro e
      split at e
      · rename_i hx
        simp only [Option.some.injEq, Prod.mk.injEq] at e
        obtain ⟨rfl, rfl⟩ := e
        exact ⟨ext, .inl ⟨rfl, hx⟩, ⟨stem, rfl, he, by rw [hx]; decide⟩, .inl rfl⟩
      · split at e
        · rename_i hx
          simp only [Option.some.injEq, Prod.mk.injEq] at e
          obtain ⟨rfl, rfl⟩ := e
          exact ⟨ext, .inr (.inl ⟨rfl, hx⟩), ⟨stem, rfl, he, by rw [hx]; decide⟩, .inl rfl⟩
        · split at e
          · rename_i hx
            simp only [Option.some.injEq, Prod.mk.injEq] at e
            obtain ⟨rfl, rfl⟩ := e
            exact ⟨ext, .inr (.inr ⟨rfl, hx⟩), ⟨stem, rfl, he, by rw [hx]; decide⟩, .inl rfl⟩
          · cases e

/-- **C74, refuted for paths with dots in directories**: `write_to_file("./program")` raises an exception, for linear and semidefinite programs. -/
theorem C74_false_default : ∃ f, NoFormat f ∧ lpFile f = none ∧ sdpFile f = none := by
  refine ⟨"./program".toList, ⟨"./".toList, "program".toList, rfl, .inr rfl, by decide, by decide⟩, ?_, ?_⟩ <;> decide +kernel

example : lpFile "program".toList = some (.lp, "program.lp".toList) ∧ lpFile "../a.b/program.v2.mps".toList = some (.mps, "../a.b/program.v2.mps".toList) ∧
    lpFile "program.txt".toList = none ∧ sdpFile "program".toList = some (.sdpa, "program.dat-s".toList) := by decide +kernel

end Verif.Listings
