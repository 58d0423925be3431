import Verif.Writers.MpsText
/-
The contents of the written MPS file as data, and the arithmetic of its rows.
-/
namespace Verif.Writers

open Verif.Text Verif.State

set_option linter.unusedSectionVars false

variable {K : Type} [Field K] [LinearOrder K]
variable {fmt4 : K → Str} {num : Str → Option K} {rd : K → K}

theorem map_mapIdx' {α β γ : Type} (l : List α) (g : Nat → α → β) (f : β → γ) : (l.mapIdx g).map f = l.mapIdx fun i a => f (g i a) := by
  induction l generalizing g with
  | nil => rfl
  | cons a l ih => rw [List.mapIdx_cons, List.mapIdx_cons, List.map_cons, ih]

/-- Matrix entries before rounding. -/
def rawEntries (p : Processed K) : List (Nat × Option Nat × K) :=
  (p.vars.map fun x => (if occurs p.known p.objective x then [(x, none, at' p.objective x)] else [])
    ++ ((mpsRows p).mapIdx fun i t => if occurs p.known t.1 x then [(x, some i, at' t.1 x)] else []).flatten).flatten

/-- Right-hand sides before rounding. -/
def rawRhs (ord : List Nat → List Nat) (p : Processed K) : List (Option Nat × K) :=
  (if -constPart ord p.known p.objective ≠ 0 then [(none, -constPart ord p.known p.objective)] else [])
    ++ ((mpsRows p).mapIdx fun i t => if -constPart ord p.known t.1 ≠ 0 then [(some i, -constPart ord p.known t.1)] else []).flatten

/-- Bounds before rounding. -/
def rawBounds (p : Processed K) : List (Bool × Nat × K) := p.lower.map (fun t => (true, t.1, t.2)) ++ p.upper.map fun t => (false, t.1, t.2)

theorem columns_raw (fmt4 : K → Str) (p : Processed K) :
    (p.vars.map (columnLines fmt4 p)).flatten = (rawEntries p).map fun t => dataLine fmt4 (varName t.1) (rowIdName t.2.1) t.2.2 := by
  unfold rawEntries
  rw [List.map_flatten, List.map_map]
  congr 1
  apply List.map_congr_left
  intro x _
  simp only [Function.comp, columnLines, List.map_append, List.map_flatten]
  congr 1
  · split <;> rfl
  · congr 1
    rw [map_mapIdx']
    congr 1
    funext i t
    split <;> rfl

theorem rhs_raw (fmt4 : K → Str) (ord : List Nat → List Nat) (p : Processed K) :
    rhsLines fmt4 ord p = (rawRhs ord p).map fun t => dataLine fmt4 "rhs".toList (rowIdName t.1) t.2 := by
  unfold rawRhs rhsLines
  simp only [List.map_append, List.map_flatten]
  congr 1
  · split <;> rfl
  · congr 1
    rw [map_mapIdx']
    congr 1
    funext i t
    split <;> rfl

theorem bounds_raw (fmt4 : K → Str) (p : Processed K) :
    boundLines' fmt4 p = (rawBounds p).map fun t => boundLine fmt4 (if t.1 then "LO".toList else "UP".toList) (varName t.2.1) t.2.2 := by
  simp [rawBounds, boundLines', Function.comp_def]

theorem mapM_map_some {α β γ : Type} (l : List α) (g : α → β) (f : β → Option γ) (h : α → γ) (hl : ∀ a ∈ l, f (g a) = some (h a)) :
    (l.map g).mapM f = some (l.map h) := by
  induction l with
  | nil => rfl
  | cons a l ih =>
    rw [List.map_cons, List.mapM_cons, hl a (by simp), ih (fun b hb => hl b (by simp [hb]))]
    rfl

/-- The names fit in their fields. -/
structure Small (p : Processed K) : Prop where
  vars : ∀ x ∈ p.vars, x < 10 ^ 8
  lower : ∀ t ∈ p.lower, t.1 < 10 ^ 8
  upper : ∀ t ∈ p.upper, t.1 < 10 ^ 8
  rows : (mpsRows p).length ≤ 10 ^ 8

theorem rawEntries_mem (p : Processed K) (t : Nat × Option Nat × K) (h : t ∈ rawEntries p) :
    t.1 ∈ p.vars ∧ (t.2.1 = none ∨ ∃ i, t.2.1 = some i ∧ i < (mpsRows p).length) := by
  unfold rawEntries at h
  obtain ⟨l, hl, h⟩ := List.mem_flatten.1 h
  obtain ⟨x, hx, rfl⟩ := List.mem_map.1 hl
  rcases List.mem_append.1 h with h | h
  · split at h
    · rw [List.mem_singleton] at h
      subst h
      exact ⟨hx, Or.inl rfl⟩
    · simp at h
  · obtain ⟨l, hl, h⟩ := List.mem_flatten.1 h
    rw [List.mem_mapIdx] at hl
    obtain ⟨i, hi, rfl⟩ := hl
    split at h
    · rw [List.mem_singleton] at h
      subst h
      exact ⟨hx, Or.inr ⟨i, rfl, hi⟩⟩
    · simp at h

theorem rawRhs_mem (ord : List Nat → List Nat) (p : Processed K) (t : Option Nat × K) (h : t ∈ rawRhs ord p) :
    t.1 = none ∨ ∃ i, t.1 = some i ∧ i < (mpsRows p).length := by
  unfold rawRhs at h
  rcases List.mem_append.1 h with h | h
  · split at h
    · rw [List.mem_singleton] at h
      subst h
      exact Or.inl rfl
    · simp at h
  · obtain ⟨l, hl, h⟩ := List.mem_flatten.1 h
    rw [List.mem_mapIdx] at hl
    obtain ⟨i, hi, rfl⟩ := hl
    split at h
    · rw [List.mem_singleton] at h
      subst h
      exact Or.inr ⟨i, rfl, hi⟩
    · simp at h

theorem fits_of (p : Processed K) (hs : Small p) (r : Option Nat) (h : r = none ∨ ∃ i, r = some i ∧ i < (mpsRows p).length) : Fits r := by
  rcases h with rfl | ⟨i, rfl, hi⟩
  · trivial
  · have := hs.rows
    simp only [Fits]
    omega

theorem flatten_singletons {α β : Type} (l : List α) (f : Nat → α → β) : (l.mapIdx fun i t => [f i t]).flatten = l.mapIdx f := by
  induction l generalizing f with
  | nil => rfl
  | cons a l ih =>
    rw [List.mapIdx_cons, List.mapIdx_cons, List.flatten_cons, ih (fun i => f (i + 1))]
    rfl

theorem mapM_mapIdx {α β γ : Type} (l : List α) (g : Nat → α → β) (f : β → Option γ) (h : Nat → α → γ) (hl : ∀ i a, f (g i a) = some (h i a)) :
    (l.mapIdx g).mapM f = some (l.mapIdx h) := by
  induction l generalizing g h with
  | nil => rfl
  | cons a l ih =>
    rw [List.mapIdx_cons, List.mapIdx_cons, List.mapM_cons, hl, ih (fun i => g (i + 1)) (fun i => h (i + 1)) (fun i a => hl (i + 1) a)]
    rfl

/-- Reading the written file: rows in order, every entry, right-hand side and bound rounded. -/
theorem readMps_written (hf : Rounds fmt4 num rd) (ord : List Nat → List Nat) (filename : Str) (hn : '\n' ∉ filename) (p : Processed K) (hs : Small p) :
    readMps num (writeToMps fmt4 ord filename p) = some
      ⟨(mpsRows p).mapIdx (fun i t => (t.2, i)), (rawEntries p).map (fun t => (t.1, t.2.1, rd t.2.2)),
        (rawRhs ord p).map (fun t => (t.1, rd t.2)), (rawBounds p).map fun t => (t.1, t.2.1, rd t.2.2)⟩ := by
  obtain ⟨h1, h2, h3, h4⟩ := mps_sections hf ord filename hn p
  unfold readMps
  simp only [h1, h2, h3, h4]
  have r1 : (" N  obj".toList :: rowDecls (mpsRows p)).mapM readDecl = some ([] :: (mpsRows p).mapIdx fun i t => [(t.2, i)]) := by
    rw [List.mapM_cons]
    have e : readDecl " N  obj".toList = some [] := by decide
    rw [e]
    unfold rowDecls
    rw [mapM_mapIdx (mpsRows p) _ readDecl (fun i t => [(t.2, i)]) (fun i a => readDecl_row i a.2)]
    rfl
  have r2 : ((p.vars.map (columnLines fmt4 p)).flatten).mapM (readEntry num) = some ((rawEntries p).map fun t => (t.1, t.2.1, rd t.2.2)) := by
    rw [columns_raw]
    apply mapM_map_some
    intro t ht
    obtain ⟨hx, hr⟩ := rawEntries_mem p t ht
    exact readEntry_data hf t.1 (hs.vars _ hx) t.2.1 (fits_of p hs _ hr) t.2.2
  have r3 : (rhsLines fmt4 ord p).mapM (readRhs num) = some ((rawRhs ord p).map fun t => (t.1, rd t.2)) := by
    rw [rhs_raw]
    apply mapM_map_some
    intro t ht
    exact readRhs_data hf t.1 (fits_of p hs _ (rawRhs_mem ord p t ht)) t.2
  have r4 : (boundLines' fmt4 p).mapM (readBound num) = some ((rawBounds p).map fun t => (t.1, t.2.1, rd t.2.2)) := by
    rw [bounds_raw]
    apply mapM_map_some
    intro t ht
    simp only [rawBounds, List.mem_append, List.mem_map] at ht
    rcases ht with ⟨s, hs', rfl⟩ | ⟨s, hs', rfl⟩
    · exact readBound_lo hf s.1 (hs.lower s hs') s.2
    · exact readBound_up hf s.1 (hs.upper s hs') s.2
  rw [r1, r2, r3, r4]
  simp [flatten_singletons]

/-! ### Arithmetic -/

theorem sum_mapIdx_single {α : Type} (l : List α) (i : Nat) (f : α → K) (t : α) (h : l[i]? = some t) :
    (l.mapIdx fun j a => if j = i then f a else 0).sum = f t := by
  induction l generalizing i with
  | nil => simp at h
  | cons a l ih =>
    rw [List.mapIdx_cons, List.sum_cons]
    cases i with
    | zero =>
      simp only [List.getElem?_cons_zero, Option.some.injEq] at h
      subst h
      have : (l.mapIdx fun j a => if j + 1 = 0 then f a else (0 : K)) = l.mapIdx fun _ _ => (0 : K) := by
        congr 1
      rw [this]
      have hz : (l.mapIdx fun _ _ => (0 : K)).sum = 0 := by
        apply List.sum_eq_zero
        intro x hx
        rw [List.mem_mapIdx] at hx
        obtain ⟨_, _, rfl⟩ := hx
        rfl
      rw [hz]
      simp
    | succ i =>
      simp only [List.getElem?_cons_succ] at h
      have : (fun (j : Nat) (a : α) => if j + 1 = i + 1 then f a else (0 : K)) = fun j a => if j = i then f a else 0 := by
        funext j a
        simp
      rw [this, ih i h]
      simp

theorem sum_flatten_map {α : Type} (L : List (List α)) (f : α → K) : (L.flatten.map f).sum = (L.map fun l => (l.map f).sum).sum := by
  induction L with
  | nil => rfl
  | cons l L ih => rw [List.flatten_cons, List.map_append, List.sum_append, List.map_cons, List.sum_cons, ih]

theorem sum_mapIdx_flatten {α β : Type} (l : List α) (g : Nat → α → List β) (f : β → K) :
    ((l.mapIdx g).flatten.map f).sum = (l.mapIdx fun i a => ((g i a).map f).sum).sum := by
  rw [sum_flatten_map, map_mapIdx']

/-- The value of row `i` of the written file. -/
theorem value_row (p : Processed K) (m : Mps K) (hm : m.entries = (rawEntries p).map fun t => (t.1, t.2.1, rd t.2.2)) (i : Nat) (t : Dict Nat K × Bool)
    (ht : (mpsRows p)[i]? = some t) (v : Nat → K) :
    m.value (some i) v = (p.vars.map fun x => if occurs p.known t.1 x then rd (at' t.1 x) * v x else 0).sum := by
  unfold Mps.value
  rw [hm, List.map_map]
  unfold rawEntries
  rw [sum_flatten_map, List.map_map]
  congr 1
  apply List.map_congr_left
  intro x _
  simp only [Function.comp, List.map_append, List.sum_append]
  have h0 : ((if occurs p.known p.objective x then [(x, (none : Option Nat), at' p.objective x)] else []).map
      ((fun t => if t.2.1 = some i then t.2.2 * v t.1 else 0) ∘ fun t => (t.1, t.2.1, rd t.2.2))).sum = 0 := by
    split <;> simp
  rw [h0, zero_add, sum_mapIdx_flatten]
  rw [← sum_mapIdx_single (mpsRows p) i (fun t => if occurs p.known t.1 x then rd (at' t.1 x) * v x else 0) t ht]
  congr 1
  congr 1
  funext j a
  by_cases hj : j = i
  · subst hj
    split <;> simp
  · simp only [hj, if_false]
    split <;> simp [hj]

theorem value_obj (p : Processed K) (m : Mps K) (hm : m.entries = (rawEntries p).map fun t => (t.1, t.2.1, rd t.2.2)) (v : Nat → K) :
    m.value none v = (p.vars.map fun x => if occurs p.known p.objective x then rd (at' p.objective x) * v x else 0).sum := by
  unfold Mps.value
  rw [hm, List.map_map]
  unfold rawEntries
  rw [sum_flatten_map, List.map_map]
  congr 1
  apply List.map_congr_left
  intro x _
  simp only [Function.comp, List.map_append, List.sum_append]
  have h0 : (((mpsRows p).mapIdx fun i t => if occurs p.known t.1 x then [(x, some i, at' t.1 x)] else []).flatten.map
      ((fun t => if t.2.1 = none then t.2.2 * v t.1 else 0) ∘ fun t => (t.1, t.2.1, rd t.2.2))).sum = 0 := by
    rw [sum_mapIdx_flatten]
    apply List.sum_eq_zero
    intro y hy
    rw [List.mem_mapIdx] at hy
    obtain ⟨_, _, rfl⟩ := hy
    split <;> simp
  rw [h0, add_zero]
  split <;> simp

/-- The right-hand side of row `i` of the written file. -/
theorem rhs_row (ord : List Nat → List Nat) (p : Processed K) (m : Mps K) (hm : m.rhs = (rawRhs ord p).map fun t => (t.1, rd t.2)) (i : Nat)
    (t : Dict Nat K × Bool) (ht : (mpsRows p)[i]? = some t) :
    m.rhsOf (some i) = if -constPart ord p.known t.1 ≠ 0 then rd (-constPart ord p.known t.1) else 0 := by
  unfold Mps.rhsOf
  rw [hm, List.map_map]
  unfold rawRhs
  rw [List.map_append, List.sum_append]
  have h0 : ((if -constPart ord p.known p.objective ≠ 0 then [((none : Option Nat), -constPart ord p.known p.objective)] else []).map
      ((fun t => if t.1 = some i then t.2 else 0) ∘ fun t => (t.1, rd t.2))).sum = 0 := by
    split <;> simp
  rw [h0, zero_add, sum_mapIdx_flatten]
  rw [← sum_mapIdx_single (mpsRows p) i (fun t => if -constPart ord p.known t.1 ≠ 0 then rd (-constPart ord p.known t.1) else 0) t ht]
  congr 1
  congr 1
  funext j a
  by_cases hj : j = i
  · subst hj
    split <;> simp
  · simp only [hj, if_false]
    split <;> simp [hj]

theorem rhs_obj (ord : List Nat → List Nat) (p : Processed K) (m : Mps K) (hm : m.rhs = (rawRhs ord p).map fun t => (t.1, rd t.2)) :
    m.rhsOf none = if -constPart ord p.known p.objective ≠ 0 then rd (-constPart ord p.known p.objective) else 0 := by
  unfold Mps.rhsOf
  rw [hm, List.map_map]
  unfold rawRhs
  rw [List.map_append, List.sum_append]
  have h0 : (((mpsRows p).mapIdx fun i t => if -constPart ord p.known t.1 ≠ 0 then [(some i, -constPart ord p.known t.1)] else []).flatten.map
      ((fun t => if t.1 = none then t.2 else 0) ∘ fun t => (t.1, rd t.2))).sum = 0 := by
    rw [sum_mapIdx_flatten]
    apply List.sum_eq_zero
    intro y hy
    rw [List.mem_mapIdx] at hy
    obtain ⟨_, _, rfl⟩ := hy
    split <;> simp
  rw [h0, add_zero]
  split <;> simp

theorem sum_ite_filter (xs : List Nat) (q : Nat → Bool) (f : Nat → K) : (xs.map fun x => if q x then f x else 0).sum = ((xs.filter q).map f).sum := by
  induction xs with
  | nil => rfl
  | cons x xs ih =>
    by_cases h : q x = true <;> simp [h, ih]

/-- Summing over the declared variables is summing over the unknown variables of the constraint. -/
theorem sum_occurs (ord : List Nat → List Nat) (hord : ∀ l, (ord l).Perm l) (p : Processed K) (hv : p.vars.Nodup) (d : Dict Nat K) (hd : (Dict.keys d).Nodup)
    (hsub : ∀ x ∈ Dict.keys d, x ∈ p.vars) (f : Nat → K) :
    (p.vars.map fun x => if occurs p.known d x then f x else 0).sum = ((unknownPart ord p.known d).map f).sum := by
  rw [sum_ite_filter]
  apply List.Perm.sum_eq
  apply List.Perm.map
  unfold unknownPart
  refine List.Perm.trans ?_ (hord _).symm
  rw [List.perm_ext_iff_of_nodup (hv.filter _) (hd.filter _)]
  intro x
  simp only [List.mem_filter, occurs, Bool.and_eq_true, Option.isSome_iff_exists, ← mem_keys]
  constructor
  · rintro ⟨_, h1, h2⟩; exact ⟨h1, h2⟩
  · rintro ⟨h1, h2⟩; exact ⟨hsub x h1, h1, h2⟩

end Verif.Writers
