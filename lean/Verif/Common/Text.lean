import Mathlib.Data.List.Basic
import Mathlib.Tactic.Ring
/-
Text as lists of characters: splitting at a separator, decimal numerals, words. These are the reading side used to state what a written file says; nothing here models the repository except `natStr`, which is Python's `str` on a natural number.
-/
namespace Verif.Text

abbrev Str := List Char

/-- Split at every occurrence of a separator (Python's `s.split(sep)` for a one-character separator). -/
def splitAt (sep : Char) : Str → List Str
  | [] => [[]]
  | c :: s => if c = sep then [] :: splitAt sep s else
      match splitAt sep s with
      | [] => [[c]]
      | w :: ws => (c :: w) :: ws

theorem splitAt_ne_nil (sep : Char) (s : Str) : splitAt sep s ≠ [] := by
  cases s with
  | nil => simp [splitAt]
  | cons c s =>
    unfold splitAt
    split
    · simp
    · split <;> simp

theorem splitAt_noSep (sep : Char) (s : Str) (h : sep ∉ s) : splitAt sep s = [s] := by
  induction s with
  | nil => rfl
  | cons c s ih =>
    simp only [List.mem_cons, not_or] at h
    have hc : ¬ c = sep := fun e => h.1 e.symm
    simp [splitAt, hc, ih h.2]

theorem splitAt_append (sep : Char) (s t : Str) (h : sep ∉ s) : splitAt sep (s ++ sep :: t) = s :: splitAt sep t := by
  induction s with
  | nil => simp [splitAt]
  | cons c s ih =>
    simp only [List.mem_cons, not_or] at h
    have hc : ¬ c = sep := fun e => h.1 e.symm
    simp [splitAt, hc, ih h.2]

/-- Non-empty pieces between spaces (Python's `s.split()` on a line with spaces only). -/
def words (s : Str) : List Str := (splitAt ' ' s).filter fun w => !w.isEmpty

/-- The decimal digits of `n`, most significant first, with enough fuel. -/
def natDigits : Nat → Nat → List Nat
  | 0, _ => []
  | f + 1, n => if n < 10 then [n] else natDigits f (n / 10) ++ [n % 10]

/-- A digit as a character. -/
def digitChar (d : Nat) : Char := Char.ofNat (48 + d)

/-- Python's `str(n)` for a natural number. -/
def natStr (n : Nat) : Str := (natDigits (n + 1) n).map digitChar

/-- Read a decimal numeral. -/
def readNatAux : Nat → Str → Option Nat
  | acc, [] => some acc
  | acc, c :: s => if 48 ≤ c.toNat ∧ c.toNat ≤ 57 then readNatAux (10 * acc + (c.toNat - 48)) s else none

def readNat (s : Str) : Option Nat := if s = [] then none else readNatAux 0 s

theorem digitChar_toNat (d : Nat) (h : d < 10) : (digitChar d).toNat = 48 + d := by
  have : d = 0 ∨ d = 1 ∨ d = 2 ∨ d = 3 ∨ d = 4 ∨ d = 5 ∨ d = 6 ∨ d = 7 ∨ d = 8 ∨ d = 9 := by omega
  rcases this with rfl|rfl|rfl|rfl|rfl|rfl|rfl|rfl|rfl|rfl <;> rfl

theorem natDigits_lt (f n : Nat) : ∀ d ∈ natDigits f n, d < 10 := by
  induction f generalizing n with
  | zero => simp [natDigits]
  | succ f ih =>
    intro d hd
    unfold natDigits at hd
    split at hd
    · simp at hd; omega
    · simp only [List.mem_append, List.mem_singleton] at hd
      rcases hd with hd | rfl
      · exact ih _ d hd
      · omega

theorem natDigits_value (f n : Nat) (h : n < f) : (natDigits f n).foldl (fun a d => 10 * a + d) 0 = n := by
  induction f generalizing n with
  | zero => omega
  | succ f ih =>
    unfold natDigits
    split
    · simp
    · rw [List.foldl_append, ih (n / 10) (by omega)]
      simp only [List.foldl_cons, List.foldl_nil]
      omega

theorem natDigits_ne_nil (f n : Nat) : natDigits (f + 1) n ≠ [] := by
  unfold natDigits
  split <;> simp

theorem natStr_ne_nil (n : Nat) : natStr n ≠ [] := by
  unfold natStr
  simpa using natDigits_ne_nil n n

theorem readNatAux_digits (ds : List Nat) (h : ∀ d ∈ ds, d < 10) (acc : Nat) :
    readNatAux acc (ds.map digitChar) = some (ds.foldl (fun a d => 10 * a + d) acc) := by
  induction ds generalizing acc with
  | nil => rfl
  | cons d ds ih =>
    have hd := h d (by simp)
    simp only [List.map_cons, readNatAux, digitChar_toNat d hd, List.foldl_cons]
    rw [if_pos (by omega), ih (fun d' hd' => h d' (by simp [hd']))]
    congr 3
    omega

/-- Reading back a printed number gives the number. -/
theorem readNat_natStr (n : Nat) : readNat (natStr n) = some n := by
  unfold readNat
  rw [if_neg (natStr_ne_nil n)]
  unfold natStr
  rw [readNatAux_digits _ (natDigits_lt _ _), natDigits_value _ _ (by omega)]

theorem natStr_inj {m n : Nat} (h : natStr m = natStr n) : m = n := by
  have := readNat_natStr m
  rw [h, readNat_natStr n] at this
  exact (Option.some.inj this).symm

/-- The characters of a numeral are digits. -/
theorem natStr_digit (n : Nat) (c : Char) (h : c ∈ natStr n) : 48 ≤ c.toNat ∧ c.toNat ≤ 57 := by
  simp only [natStr, List.mem_map] at h
  obtain ⟨d, hd, rfl⟩ := h
  have := natDigits_lt _ _ d hd
  rw [digitChar_toNat d this]
  omega

theorem not_mem_natStr (n : Nat) (c : Char) (h : ¬ (48 ≤ c.toNat ∧ c.toNat ≤ 57)) : c ∉ natStr n :=
  fun hc => h (natStr_digit n c hc)

example : natStr 0 = "0".toList := by decide
example : natStr 1207 = "1207".toList := by decide
example : splitAt ',' "a,bc,".toList = ["a".toList, "bc".toList, []] := by decide
example : words "  ab  c ".toList = ["ab".toList, "c".toList] := by decide

end Verif.Text
