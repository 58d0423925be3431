import Verif.SdpWriter.Mat
import Verif.Common.SortLemmas
/-
The human-readable export of a semidefinite program, `convert_to_human_readable`, inflation/sdp/writer_utils.py 14-121, which `write_to_csv` (124-153) writes to a file (C51).
Linear expressions are lists of terms, an entry of the table is a number, a multiple of a name, or a name: the step from there to characters (`str`, `"+"`, `"*"`) is not modelled.
-/
namespace Verif.SdpWriter
open Verif.Text Verif.State Verif.Common Verif.SdpSolver

variable {K : Type} {n : Nat} [Field K] [LinearOrder K]

/-- A summand of a linear expression: a number, or a number times a name. -/
inductive Term (K : Type)
  | const (q : K)
  | times (q : K) (s : Str)
deriving DecidableEq

/-- An entry of the table: a number, an index without name, or a multiple of a name. -/
inductive Entry (K : Type)
  | num (q : K)
  | index (k : Nat)
  | times (q : K) (s : Str)
  | name (s : Str)
deriving DecidableEq

/-- `name.replace(", ", ";")`. -/
def semicolons : Str → Str
  | ',' :: ' ' :: s => ';' :: semicolons s
  | c :: s => c :: semicolons s
  | [] => []

/-- What `convert_to_human_readable` returns. -/
structure Human (K : Type) (n : Nat) where
  objective : List (Term K)
  /-- the table; the entries below the diagonal are 0 -/
  table : Fin n → Fin n → Entry K
  bounds : List (Str × Option K × Option K)
  equalities : List (List (Term K))
  inequalities : List (List (Term K))

/-- `semiknown_replacer` and `known_replacer`, writer_utils.py 30-57: the text of a known value or of an index is read as a number and replaced by the name of the moment
with this index, if there is one. `nm` are the names and `moments` the indices of `problem.moments`. -/
def cell (nm : Nat → Str) (moments : List Nat) (p : Prob K n) (k : Nat) : Entry K :=
  match p.known.get k with
  | some q => match moments.find? fun m : Nat => decide ((m : K) = q) with
    | some m => .name (semicolons (nm m))
    | none => .num q
  | none => match p.semi.get k with
    | some (c, t) => .times c (semicolons (nm t))
    | none => if k ∈ moments then .name (semicolons (nm k)) else .index k

/-- `np.triu`, writer_utils.py 58. -/
def table (nm : Nat → Str) (moments : List Nat) (p : Prob K n) : Fin n → Fin n → Entry K :=
  fun i j => if i ≤ j then cell nm moments p (p.mm i j) else .num 0

/-- The objective, writer_utils.py 60-77. -/
def objectiveTerms (tol : K) (nm : Nat → Str) (p : Prob K n) : List (Term K) :=
  (match p.objective.get 1 with
    | some q => if tol < |q| then [.const q] else []
    | none => []) ++ (p.objective.filter fun t => decide (t.1 ≠ 1)).map fun t => .times t.2 (nm t.1)

/-- One summand of a linear constraint, writer_utils.py 93-101 and 108-116; `near` is `np.isclose(·, 1)`. -/
def summand (near : K → Bool) (nm : Nat → Str) (t : Nat × K) : Term K :=
  let sign : K := if 0 < t.2 then 1 else -1
  if t.1 = 1 then .const (sign * |t.2|) else if near |t.2| then .times sign (nm t.1) else .times (sign * |t.2|) (nm t.1)

/-- The text of a constraint; `equality[0]` of an empty text raises an `IndexError`, writer_utils.py 102 and 117. -/
def constraintTerms (near : K → Bool) (nm : Nat → Str) (d : Dict Nat K) : Option (List (Term K)) :=
  if d.isEmpty then none else some (d.map (summand near nm))

/-- The bounds, writer_utils.py 79-87; `le` is the order of the names. -/
def boundRows (le : Str → Str → Bool) (nm : Nat → Str) (p : Prob K n) : List (Str × Option K × Option K) :=
  (sortBy (fun a b => le (nm a) (nm b)) (dedupB (p.upper.keys ++ p.lower.keys))).map fun k => (nm k, p.lower.get k, p.upper.get k)

/-- `convert_to_human_readable`, writer_utils.py 14-121. -/
def readable (tol : K) (near : K → Bool) (le : Str → Str → Bool) (nm : Nat → Str) (moments : List Nat) (p : Prob K n) : Option (Human K n) := do
  let eqs ← p.eqs.mapM (constraintTerms near nm)
  let ineqs ← p.ineqs.mapM (constraintTerms near nm)
  return ⟨objectiveTerms tol nm p, table nm moments p, boundRows le nm p, eqs, ineqs⟩

/-! ### What the file says -/

/-- The value of a summand, if `x` gives the values of the names. -/
def Term.value (x : Str → K) : Term K → K
  | .const q => q
  | .times q s => q * x s

/-- The value of an entry; an index that is not replaced has no value. -/
def Entry.value (x : Str → K) : Entry K → Option K
  | .num q => some q
  | .times q s => some (q * x s)
  | .name s => some (x s)
  | .index _ => none

/-- The value of a linear expression. -/
def sumTerms (x : Str → K) (l : List (Term K)) : K := (l.map (Term.value x)).sum

/-- What the file says about the values of the names: the symmetric matrix with this upper triangle is positive semidefinite, and bounds, equalities and inequalities hold. -/
structure Human.Feasible (h : Human K n) (x : Str → K) : Prop where
  psd : ∃ m : Fin n → Fin n → K, PSD m ∧ ∀ i j, i ≤ j → (h.table i j).value x = some (m i j) ∧ m j i = m i j
  lower : ∀ r ∈ h.bounds, ∀ q, r.2.1 = some q → q ≤ x r.1
  upper : ∀ r ∈ h.bounds, ∀ q, r.2.2 = some q → x r.1 ≤ q
  equalities : ∀ l ∈ h.equalities, sumTerms x l = 0
  inequalities : ∀ l ∈ h.inequalities, 0 ≤ sumTerms x l

/-- Conditions under which the file is faithful. -/
structure Prob.Readable (tol : K) (near : K → Bool) (moments : List Nat) (p : Prob K n) : Prop where
  /-- every moment of the matrix is in the list of moments -/
  listed : ∀ i j, p.mm i j ∈ moments
  /-- no known value is the index of an unrelated moment: only 0 and 1 may be indices -/
  known : ∀ t ∈ p.known, ∀ m ∈ moments, (m : K) = t.2 → m ≤ 1
  /-- no coefficient of a constraint is almost but not exactly 1 or -1 -/
  coefficients : ∀ d ∈ p.eqs ++ p.ineqs, ∀ t ∈ d, t.1 ≠ 1 → near |t.2| = true → |t.2| = 1
  /-- a constant in the objective that is dropped is 0 -/
  constant : ∀ q, p.objective.get 1 = some q → q = 0 ∨ tol < |q|

/-- The values of the moments that the values of the names stand for: both spellings of a name mean the same; known values, proportionality and the constants, which the file does not list, are known. -/
structure Prob.Understood (p : Prob K n) (nm : Nat → Str) (x : Str → K) : Prop where
  spelling : ∀ s, x (semicolons s) = x s
  zero : x (nm 0) = 0
  one : x (nm 1) = 1
  known : ∀ t ∈ p.known, x (nm t.1) = t.2
  semi : ∀ t ∈ p.semi, x (nm t.1) = t.2.1 * x (nm t.2.2)

omit [LinearOrder K] in
theorem mapM_mem {α β} (f : α → Option β) {l : List α} {r : List β} (h : l.mapM f = some r) : (∀ a ∈ l, ∃ b ∈ r, f a = some b) ∧ ∀ b ∈ r, ∃ a ∈ l, f a = some b := by
  induction l generalizing r with
  | nil =>
    simp only [List.mapM_nil, Option.pure_def, Option.some.injEq] at h
    subst h
    simp
  | cons a l ih =>
    rw [List.mapM_cons] at h
    rcases ha : f a with _ | b
    · rw [ha] at h
      simp at h
    · rcases hl : l.mapM f with _ | r'
      · rw [ha, hl] at h
        simp at h
      · rw [ha, hl] at h
        simp only [Option.pure_def, Option.bind_eq_bind, Option.bind_some, Option.some.injEq] at h
        subst h
        obtain ⟨h1, h2⟩ := ih hl
        refine ⟨?_, ?_⟩
        · intro c hc
          rcases List.mem_cons.1 hc with rfl | hc
          · exact ⟨b, by simp, ha⟩
          · obtain ⟨d, hd, e⟩ := h1 c hc
            exact ⟨d, List.mem_cons_of_mem _ hd, e⟩
        · intro d hd
          rcases List.mem_cons.1 hd with rfl | hd
          · exact ⟨a, by simp, ha⟩
          · obtain ⟨c, hc, e⟩ := h2 d hd
            exact ⟨c, List.mem_cons_of_mem _ hc, e⟩

variable [IsStrictOrderedRing K]

omit [LinearOrder K] [IsStrictOrderedRing K] in
theorem get_keys {β} (d : Dict Nat β) (k : Nat) : k ∈ d.keys ↔ ∃ q, d.get k = some q := by
  rcases h : d.get k with _ | q
  · simp only [reduceCtorEq, exists_false, iff_false]
    exact (get_none d k).1 h
  · simp only [Option.some.injEq, exists_eq', iff_true]
    by_contra hn
    rw [(get_none d k).2 hn] at h
    cases h

theorem cell_value (nm : Nat → Str) (moments : List Nat) (p : Prob K n) (hp : p.Ok) (tol : K) (near : K → Bool) (hr : p.Readable tol near moments) (x : Str → K) (hx : p.Understood nm x)
    (i j : Fin n) : (cell nm moments p (p.mm i j)).value x = some (x (nm (p.mm i j))) := by
  unfold cell
  rcases hk : p.known.get (p.mm i j) with _ | q
  · dsimp only
    rcases hs : p.semi.get (p.mm i j) with _ | ⟨c, t⟩
    · dsimp only
      rw [if_pos (hr.listed i j)]
      simp only [Entry.value, hx.spelling]
    · dsimp only
      have := hx.semi _ ((get_of_mem p.semi hp.semi _ _).2 hs)
      simp only [Entry.value, hx.spelling, this]
  · dsimp only
    have hm := (get_of_mem p.known hp.known _ _).2 hk
    have hq := hx.known _ hm
    rcases hf : moments.find? (fun m : Nat => decide ((m : K) = q)) with _ | m
    · simp only [Entry.value, hq]
    · have h1 := List.find?_some hf
      have h2 := List.mem_of_find?_eq_some hf
      have h1 : (m : K) = q := by simpa using h1
      have h3 := hr.known _ hm m h2 h1
      simp only [Entry.value, hx.spelling, hq]
      have : m = 0 ∨ m = 1 := by omega
      rcases this with rfl | rfl
      · rw [hx.zero, ← h1]
        simp
      · rw [hx.one, ← h1]
        simp

theorem summand_value (near : K → Bool) (nm : Nat → Str) (x : Str → K) (h1 : x (nm 1) = 1) (t : Nat × K) (h : t.1 ≠ 1 → near |t.2| = true → |t.2| = 1) :
    (summand near nm t).value x = t.2 * x (nm t.1) := by
  have hs : (if 0 < t.2 then (1 : K) else -1) * |t.2| = t.2 := by
    by_cases hp : 0 < t.2
    · rw [if_pos hp, abs_of_pos hp, one_mul]
    · rw [if_neg hp, abs_of_nonpos (not_lt.1 hp)]
      ring
  unfold summand
  dsimp only
  by_cases ht : t.1 = 1
  · rw [if_pos ht]
    simp only [Term.value, ht, h1, mul_one]
    exact hs
  · rw [if_neg ht]
    by_cases hn : near |t.2| = true
    · rw [if_pos hn]
      simp only [Term.value]
      rw [h ht hn, mul_one] at hs
      rw [hs]
    · rw [if_neg hn]
      simp only [Term.value]
      rw [hs]

theorem total_constraint (near : K → Bool) (nm : Nat → Str) (x : Str → K) (h1 : x (nm 1) = 1) (d : Dict Nat K) (l : List (Term K)) (h : ∀ t ∈ d, t.1 ≠ 1 → near |t.2| = true → |t.2| = 1)
    (e : constraintTerms near nm d = some l) : sumTerms x l = lin d fun k => x (nm k) := by
  unfold constraintTerms at e
  split at e
  · cases e
  · rw [← Option.some.inj e]
    unfold sumTerms lin
    rw [List.map_map]
    congr 1
    exact List.map_congr_left fun t ht => summand_value near nm x h1 t (h t ht)

/-- **C51, human-readable, constraints**: for values of the names that agree with the known values and the proportional moments, what the file says is what the program says,
under the conditions `Prob.Readable`. -/
theorem C51_readable_partial (tol : K) (near : K → Bool) (le : Str → Str → Bool) (nm : Nat → Str) (moments : List Nat) (p : Prob K n) (hp : p.Ok) (hr : p.Readable tol near moments)
    (x : Str → K) (hx : p.Understood nm x) (f : Human K n) (e : readable tol near le nm moments p = some f) :
    f.Feasible x ↔ p.Feasible fun k => x (nm k) := by
  unfold readable at e
  rcases h1 : p.eqs.mapM (constraintTerms near nm) with _ | eqs
  · rw [h1] at e
    simp at e
  rcases h2 : p.ineqs.mapM (constraintTerms near nm) with _ | ineqs
  · rw [h1, h2] at e
    simp at e
  rw [h1, h2] at e
  simp only [Option.pure_def, Option.bind_eq_bind, Option.bind_some, Option.some.injEq] at e
  subst e
  have m1 := mapM_mem _ h1
  have m2 := mapM_mem _ h2
  have hb : ∀ k q, (p.lower.get k = some q → (nm k, p.lower.get k, p.upper.get k) ∈ boundRows le nm p) ∧ (p.upper.get k = some q → (nm k, p.lower.get k, p.upper.get k) ∈ boundRows le nm p) := by
    intro k q
    constructor <;> intro hq <;> unfold boundRows <;> refine List.mem_map.2 ⟨k, mem_sortBy.2 (mem_dedupB.2 ?_), rfl⟩
    · exact List.mem_append.2 (.inr ((get_keys _ _).2 ⟨q, hq⟩))
    · exact List.mem_append.2 (.inl ((get_keys _ _).2 ⟨q, hq⟩))
  constructor
  · intro h
    refine ⟨hx.zero, hx.one, hx.known, hx.semi, ?_, ?_, ?_, ?_, ?_⟩
    · obtain ⟨m, hm, hm2⟩ := h.psd
      have key : ∀ i j, i ≤ j → m i j = x (nm (p.mm i j)) := by
        intro i j hij
        have := (hm2 i j hij).1
        change (table nm moments p i j).value x = some (m i j) at this
        unfold table at this
        rw [if_pos hij, cell_value nm moments p hp tol near hr x hx] at this
        exact (Option.some.inj this).symm
      have : m = fun i j => x (nm (p.mm i j)) := by
        funext i j
        rcases le_total i j with hij | hij
        · exact key i j hij
        · rw [(hm2 j i hij).2, key j i hij, hp.symm]
      rw [← this]
      exact hm
    · intro t ht
      have hg := (get_of_mem p.upper hp.upper t.1 t.2).1 ht
      exact h.upper _ ((hb t.1 t.2).2 hg) t.2 hg
    · intro t ht
      have hg := (get_of_mem p.lower hp.lower t.1 t.2).1 ht
      exact h.lower _ ((hb t.1 t.2).1 hg) t.2 hg
    · intro d hd
      obtain ⟨l, hl, el⟩ := m1.1 d hd
      rw [← total_constraint near nm x hx.one d l (hr.coefficients d (List.mem_append_left _ hd)) el]
      exact h.equalities l hl
    · intro d hd
      obtain ⟨l, hl, el⟩ := m2.1 d hd
      rw [← total_constraint near nm x hx.one d l (hr.coefficients d (List.mem_append_right _ hd)) el]
      exact h.inequalities l hl
  · intro h
    refine ⟨⟨_, h.psd, ?_⟩, ?_, ?_, ?_, ?_⟩
    · intro i j hij
      refine ⟨?_, ?_⟩
      · show (table nm moments p i j).value x = _
        unfold table
        rw [if_pos hij, cell_value nm moments p hp tol near hr x hx]
      · show x (nm (p.mm j i)) = x (nm (p.mm i j))
        rw [hp.symm]
    · intro r hr' q hq
      obtain ⟨k, -, rfl⟩ := List.mem_map.1 hr'
      exact h.lower (k, q) ((get_of_mem p.lower hp.lower k q).2 hq)
    · intro r hr' q hq
      obtain ⟨k, -, rfl⟩ := List.mem_map.1 hr'
      exact h.upper (k, q) ((get_of_mem p.upper hp.upper k q).2 hq)
    · intro l hl
      obtain ⟨d, hd, el⟩ := m1.2 l hl
      rw [total_constraint near nm x hx.one d l (hr.coefficients d (List.mem_append_left _ hd)) el]
      exact h.eqs d hd
    · intro l hl
      obtain ⟨d, hd, el⟩ := m2.2 l hl
      rw [total_constraint near nm x hx.one d l (hr.coefficients d (List.mem_append_right _ hd)) el]
      exact h.ineqs d hd

omit [LinearOrder K] [IsStrictOrderedRing K] in
theorem lin_split (d : Dict Nat K) (hd : d.keys.Nodup) (v : Nat → K) (k : Nat) :
    lin d v = ((d.get k).getD 0) * v k + ((d.filter fun t => decide (t.1 ≠ k)).map fun t => t.2 * v t.1).sum := by
  unfold lin
  induction d with
  | nil => simp [Dict.get]
  | cons t d ih =>
    have hd' : (t.1 :: Dict.keys d).Nodup := hd
    have hn := List.nodup_cons.1 hd'
    have ih := ih hn.2
    rw [List.map_cons, List.sum_cons, get_cons]
    by_cases ht : t.1 = k
    · have hg : Dict.get d k = none := (get_none d k).2 (ht ▸ hn.1)
      rw [hg] at ih
      rw [ih, List.filter_cons_of_neg (by simpa using ht)]
      simp [ht]
    · rw [List.filter_cons_of_pos (by simpa using ht), List.map_cons, List.sum_cons, ih]
      simp only [ht, if_false]
      ring

/-- **C51, human-readable, objective**: the objective of the file is that of the program, if a constant of at most `tol` that is dropped is 0. -/
theorem C51_readable_objective (tol : K) (near : K → Bool) (le : Str → Str → Bool) (nm : Nat → Str) (moments : List Nat) (p : Prob K n) (hp : p.Ok) (hr : ∀ q, p.objective.get 1 = some q → q = 0 ∨ tol < |q|)
    (x : Str → K) (hx : x (nm 1) = 1) (f : Human K n) (e : readable tol near le nm moments p = some f) :
    sumTerms x f.objective = lin p.objective fun k => x (nm k) := by
  have ef : f.objective = objectiveTerms tol nm p := by
    unfold readable at e
    rcases h1 : p.eqs.mapM (constraintTerms near nm) with _ | eqs
    · rw [h1] at e
      simp at e
    rcases h2 : p.ineqs.mapM (constraintTerms near nm) with _ | ineqs
    · rw [h1, h2] at e
      simp at e
    rw [h1, h2] at e
    simp only [Option.pure_def, Option.bind_eq_bind, Option.bind_some, Option.some.injEq] at e
    subst e
    rfl
  rw [ef, lin_split p.objective hp.objective _ 1]
  unfold objectiveTerms sumTerms
  rw [List.map_append, List.sum_append, List.map_map]
  congr 1
  rcases hq : p.objective.get 1 with _ | q
  · simp
  · by_cases ht : tol < |q|
    · simp [ht, Term.value, hx]
    · rcases hr q hq with h0 | h0
      · dsimp only
        rw [if_neg ht, h0]
        simp
      · exact absurd h0 ht

omit [IsStrictOrderedRing K] in
/-- **C51, human-readable, when it fails**: the conversion raises an exception exactly when a linear constraint is empty. -/
theorem C51_readable_written (tol : K) (near : K → Bool) (le : Str → Str → Bool) (nm : Nat → Str) (moments : List Nat) (p : Prob K n) :
    readable tol near le nm moments p = none ↔ [] ∈ p.eqs ++ p.ineqs := by
  have key : ∀ l : List (Dict Nat K), (l.mapM (constraintTerms near nm) = none ↔ [] ∈ l) := by
    intro l
    induction l with
    | nil => simp
    | cons d l ih =>
      rw [List.mapM_cons]
      rcases d with _ | ⟨t, d⟩
      · simp [constraintTerms]
      · rcases hl : l.mapM (constraintTerms near nm) with _ | r
        · rw [hl] at ih
          have := ih.1 rfl
          simp [constraintTerms, this]
        · rw [hl] at ih
          have : [] ∉ l := fun h => by cases ih.2 h
          simp [constraintTerms, this]
  unfold readable
  rw [List.mem_append, ← key, ← key]
  rcases p.eqs.mapM (constraintTerms near nm) with _ | eqs
  · simp
  · rcases p.ineqs.mapM (constraintTerms near nm) with _ | ineqs <;> simp

end Verif.SdpWriter
