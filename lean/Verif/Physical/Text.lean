import Verif.Physical.Props
import Verif.Common.Text
/-!
Generating sets named by strings, sdp/InflationSDP.py 1143-1245.
-/
namespace Verif.Physical
open Verif.Common Verif.Text Verif.Canon Verif.Scenario Verif.SdpEnd Verif.SdpNames Verif.Generate Verif.Moment
open Verif.Columns (npaSpecs localSpecs)
open Verif.EndToEnd (Input)

/-- What a string asks for. -/
inductive Request
  | npa (level : Nat)
  | loc (levels : List Nat)
  | physical (levels : List (Option Nat))
deriving DecidableEq

/-- `word in column_specification.lower()` (ASCII). -/
def mentions (word : String) (s : Str) : Bool := decide (word.toList <:+: s.map Char.toLower)

/-- The levels after the word, InflationSDP.py 1166-1178; `none` is an exception. Of Python's `int` only plain decimal digits are modelled. -/
def readLevels (n : Nat) (isLocal : Bool) (lengths : Str) : Option (List (Option Nat)) :=
  if lengths.length = 0 then if isLocal then none else some (List.replicate n none)
  else if lengths.length = n then lengths.mapM fun c => (readNat [c]).map some
  else (readNat lengths).map fun k => List.replicate n (some k)

/-- The string branch of `build_columns`, InflationSDP.py 1143-1245: the word is looked for in the string in lower case, but compared with `"local"` as written. -/
def readRequest (n : Nat) (s : Str) : Option Request :=
  if mentions "npa" s then (readNat (s.drop 3)).map .npa
  else if mentions "local" s || mentions "physical" s then
    let start := if mentions "local" s then 5 else 8
    let isLocal := decide (s.take start = "local".toList)
    (readLevels n isLocal (s.drop start)).map fun levels => if isLocal then .loc (levels.map fun l => l.getD 0) else .physical levels
  else none

/-- The columns, InflationSDP.py 1144-1239. -/
def requested (I : Input) (maxLen : Nat) : Request → List (List Nat)
  | .npa level => specCols I (npaSpecs I.scenario.nParties level maxLen)
  | .loc levels => specCols I (localSpecs I.scenario.nParties levels maxLen)
  | .physical levels => physicalCols I maxLen levels

theorem mapM_length {α β : Type} {f : α → Option β} {l : List α} {r : List β} (h : l.mapM f = some r) : r.length = l.length := by
  induction l generalizing r with
  | nil => simp at h; subst h; rfl
  | cons a l ih =>
    rw [List.mapM_cons] at h
    obtain ⟨b, _, h⟩ := Option.bind_eq_some_iff.1 h
    obtain ⟨r', hr', h⟩ := Option.bind_eq_some_iff.1 h
    have := Option.some.inj h
    subst this
    simp [ih hr']

theorem readLevels_length {n : Nat} {b : Bool} {t : Str} {l : List (Option Nat)} (h : readLevels n b t = some l) : l.length = n := by
  unfold readLevels at h
  split at h
  · split at h
    · simp at h
    · have := Option.some.inj h; subst this; simp
  · split at h
    · rw [mapM_length h]; assumption
    · obtain ⟨k, _, rfl⟩ := Option.map_eq_some_iff.1 h
      simp

/-- **C69, every string**: whatever string is understood, `generate_relaxation` returns (for problems with at most 254 copies in which parties with children have at least two
outcomes). -/
theorem C69_every_string {I : Input} (hout : HasOutcomes I) {ch : Choice} (hch : UsualChoice ch I) (name : Atom → String) (hS : copiesOf I.scenario ≤ 254) (ho : TwoOutcomes I)
    (maxLen : Nat) {s : Str} {r : Request} (h : readRequest I.scenario.nParties s = some r) : ∃ B, build I (requested I maxLen r) ch name = some B := by
  cases r with
  | npa level => exact C68_npa_level hch name hS ho level maxLen
  | physical levels => exact C69_relaxation_generated hout maxLen levels hch name hS ho
  | loc levels =>
    refine C68_local_level hch name hS ho levels ?_ maxLen
    unfold readRequest at h
    split at h
    · obtain ⟨_, _, e⟩ := Option.map_eq_some_iff.1 h
      simp at e
    · split at h
      · dsimp only at h
        obtain ⟨l, hl, e⟩ := Option.map_eq_some_iff.1 h
        have hlen := readLevels_length hl
        generalize decide (s.take _ = "local".toList) = b at e
        cases b with
        | false => simp at e
        | true =>
          rw [if_pos rfl] at e
          rw [← Request.loc.inj e, List.length_map, hlen]
      · simp at h

/-- Digits are not letters. -/
theorem lower_digit {c : Char} (h : c.toNat ≤ 57) : c.toLower = c := by
  unfold Char.toLower
  split
  · rename_i h'
    have : 65 ≤ c.toNat := by
      have := h'.1
      exact this
    omega
  · rfl

theorem mentions_iff {word : String} {s : Str} : mentions word s = true ↔ word.toList <:+: s.map Char.toLower := by simp [mentions]

theorem mentions_prefix {word : String} {t : Str} (h : word.toList.map Char.toLower = word.toList) : mentions word (word.toList ++ t) = true := by
  rw [mentions_iff, List.map_append, h]
  exact (List.prefix_append _ _).isInfix

/-- A word with a letter which does not occur is not mentioned. -/
theorem not_mentions {word : String} {c : Char} (hc : c ∈ word.toList) {u t : Str} (hu : c ∉ u.map Char.toLower) (hct : 57 < c.toNat) (ht : ∀ x ∈ t, x.toNat ≤ 57) :
    mentions word (u ++ t) = false := by
  rw [← Bool.not_eq_true, mentions_iff]
  intro h
  have := h.subset hc
  rw [List.map_append, List.mem_append] at this
  rcases this with h' | h'
  · exact hu h'
  · obtain ⟨x, hx, rfl⟩ := List.mem_map.1 h'
    rw [lower_digit (ht x hx)] at hct
    exact absurd (ht x hx) (by omega)

theorem natStr_small (k : Nat) : ∀ x ∈ natStr k, x.toNat ≤ 57 := fun x hx => (natStr_digit k x hx).2

theorem digits_small {ds : List Nat} (h : ∀ d ∈ ds, d < 10) : ∀ x ∈ ds.map digitChar, x.toNat ≤ 57 := by
  intro x hx
  obtain ⟨d, hd, rfl⟩ := List.mem_map.1 hx
  rw [digitChar_toNat d (h d hd)]
  have := h d hd
  omega

theorem mapM_digits {ds : List Nat} (h : ∀ d ∈ ds, d < 10) : (ds.map digitChar).mapM (fun c => (readNat [c]).map some) = some (ds.map some) := by
  induction ds with
  | nil => rfl
  | cons d ds ih =>
    rw [List.map_cons, List.mapM_cons, ih fun x hx => h x (by simp [hx])]
    have : readNat [digitChar d] = some d := by
      unfold readNat
      rw [if_neg (by simp)]
      have := readNatAux_digits [d] (by simpa using h d (by simp)) 0
      simpa using this
    rw [this]
    rfl

/-- **C69, `"npaN"`** is read as level `N`. -/
theorem C69_npa_string (n k : Nat) : readRequest n ("npa".toList ++ natStr k) = some (.npa k) := by
  unfold readRequest
  rw [if_pos (mentions_prefix (by decide))]
  show Option.map _ (readNat (natStr k)) = _
  rw [readNat_natStr]
  rfl

theorem read_local {n : Nat} {t : Str} (ht : ∀ x ∈ t, x.toNat ≤ 57) :
    readRequest n ("local".toList ++ t) = (readLevels n true t).map fun levels => .loc (levels.map fun l => l.getD 0) := by
  unfold readRequest
  rw [not_mentions (c := 'n') (by decide) (by decide) (by decide) ht, mentions_prefix (word := "local") (by decide)]
  simp only [Bool.false_eq_true, if_false, Bool.true_or, if_true]
  have h1 : ("local".toList ++ t).take 5 = "local".toList := by simp
  have h2 : ("local".toList ++ t).drop 5 = t := by simp
  rw [h1, h2]
  simp

theorem read_physical {n : Nat} {t : Str} (ht : ∀ x ∈ t, x.toNat ≤ 57) :
    readRequest n ("physical".toList ++ t) = (readLevels n false t).map .physical := by
  unfold readRequest
  rw [not_mentions (c := 'n') (by decide) (by decide) (by decide) ht, not_mentions (word := "local") (c := 'o') (by decide) (by decide) (by decide) ht,
    mentions_prefix (word := "physical") (by decide)]
  simp only [Bool.false_eq_true, if_false, Bool.false_or, if_true]
  have h1 : ("physical".toList ++ t).take 8 = "physical".toList := by simp
  have h2 : ("physical".toList ++ t).drop 8 = t := by simp
  rw [h1, h2, decide_eq_false (by decide)]
  simp

theorem levels_digits {n : Nat} {b : Bool} {ds : List Nat} (h : ∀ d ∈ ds, d < 10) (hn : ds.length = n) (h0 : ds ≠ []) : readLevels n b (ds.map digitChar) = some (ds.map some) := by
  unfold readLevels
  rw [if_neg (by simpa using h0), if_pos (by simpa using hn), mapM_digits h]

theorem levels_single {n : Nat} {b : Bool} {k : Nat} (h : (natStr k).length ≠ n) : readLevels n b (natStr k) = some (List.replicate n (some k)) := by
  unfold readLevels
  rw [if_neg (by simpa using natStr_ne_nil k), if_neg h, readNat_natStr]
  rfl

/-- **C69, one digit per party** (`"local012"`, `"physical012"`). -/
theorem C69_levels_per_party {n : Nat} {ds : List Nat} (h : ∀ d ∈ ds, d < 10) (hn : ds.length = n) (h0 : ds ≠ []) :
    readRequest n ("local".toList ++ ds.map digitChar) = some (.loc ds) ∧ readRequest n ("physical".toList ++ ds.map digitChar) = some (.physical (ds.map some)) := by
  rw [read_local (digits_small h), read_physical (digits_small h), levels_digits h hn h0, levels_digits h hn h0]
  simp [Function.comp_def]

/-- **C69, one level for all parties** (`"local1"`, `"physical2"`) is read as meant when the number does not have as many digits as there are parties; a bare `"physical"` has no
levels. -/
theorem C69_level_for_all_partial {n k : Nat} (h : (natStr k).length ≠ n) :
    readRequest n ("local".toList ++ natStr k) = some (.loc (List.replicate n k)) ∧ readRequest n ("physical".toList ++ natStr k) = some (.physical (List.replicate n (some k))) ∧
      readRequest n "physical".toList = some (.physical (List.replicate n none)) := by
  refine ⟨?_, ?_, ?_⟩
  · rw [read_local (natStr_small k), levels_single h]
    simp
  · rw [read_physical (natStr_small k), levels_single h]
    simp
  · have := read_physical (n := n) (t := []) (by simp)
    rw [List.append_nil] at this
    rw [this]
    rfl

/-- **C69, two-digit levels**: for two parties level 10 for all is read as levels 1 and 0. -/
theorem C69_two_digit_level_misread : readRequest 2 "local10".toList = some (.loc [1, 0]) ∧ readRequest 2 "physical10".toList = some (.physical [some 1, some 0]) := by decide +kernel

/-- **C69, capital letters**: `"Local1"` is accepted but gives the physical generating set; `"NPA1"` is read as meant. -/
theorem C69_capital_local : readRequest 2 "Local1".toList = some (.physical [some 1, some 1]) ∧ readRequest 2 "local1".toList = some (.loc [1, 1]) ∧
    readRequest 2 "Local".toList = some (.physical [none, none]) ∧ readRequest 2 "local".toList = none ∧ readRequest 2 "NPA1".toList = some (.npa 1) := by decide +kernel

end Verif.Physical
