import Verif.Writers.LpText
import Verif.CollinsGisin.Rows
import Verif.LpSolver.Dicts
import Mathlib.Algebra.Order.Ring.Rat
/-
C39: what an exported LP file says.

* The row section has one readable row per constraint, and together the rows say exactly that every constraint with at least one unknown variable holds (`C39_rows_partial`).
* The objective line is the objective, constant included, provided some variable in it is unknown (`C39_objective_partial`).
* The bound section is never well formed when there is a bound: all bounds and the word `end` are on one line (`C39_bounds_on_one_line`, `C39_bounds_iff`).
* Constraints without unknown variables are not written, even if they are violated (`C39_violated_constraint_dropped`), and an objective without unknown variables is not written, whatever its value (`C39_constant_objective_dropped`).
-/
namespace Verif.Writers

open Verif.Text Verif.State

set_option linter.unusedSectionVars false

variable {V K : Type} [DecidableEq V] [Field K] [LinearOrder K] [IsStrictOrderedRing K]
variable {fmt : K → Str} {num : Str → Option K}

/-- The row of one constraint. -/
def rowOf (ord : List Nat → List Nat) (known : Dict Nat K) (t : Dict Nat K × Bool) : Row K :=
  ⟨(unknownPart ord known t.1).map fun y => (at' t.1 y, y), t.2, -constPart ord known t.1⟩

/-- The constraints in writing order, `true` for equalities. -/
def tagged (p : Processed K) : List (Dict Nat K × Bool) := p.equalities.map (·, true) ++ p.inequalities.map (·, false)

theorem rowTexts_tagged (fmt : K → Str) (ord : List Nat → List Nat) (p : Processed K) :
    rowTexts fmt ord p = (tagged p).map fun t => formatConstraint fmt ord p.known t.1 (kindOf t.2) := by
  simp [rowTexts, tagged, kindOf, Function.comp_def]

theorem mapM_rowLines (hf : Faithful fmt num) (ord : List Nat → List Nat) (known : Dict Nat K) (l : List (Dict Nat K × Bool)) (i : Nat) :
    (rowLines i (l.map fun t => formatConstraint fmt ord known t.1 (kindOf t.2))).mapM (readRow num)
      = some ((l.filter fun t => decide (unknownPart ord known t.1 ≠ [])).map (rowOf ord known)) := by
  induction l generalizing i with
  | nil => rfl
  | cons t l ih =>
    simp only [List.map_cons, rowLines]
    by_cases h : unknownPart ord known t.1 = []
    · rw [if_pos ((formatConstraint_eq_nil fmt ord known t.1 _).2 h), ih]
      simp [h]
    · rw [if_neg (fun e => h ((formatConstraint_eq_nil fmt ord known t.1 _).1 e)), List.mapM_cons, ih, readRow_line hf ord known t.1 t.2 i h]
      simp [h, rowOf]

theorem readRows_file (hf : Faithful fmt num) (ord : List Nat → List Nat) (filename : Str) (hn : '\n' ∉ filename) (p : Processed K) :
    readRows num (writeToLp fmt ord filename p)
      = some (((tagged p).filter fun t => decide (unknownPart ord p.known t.1 ≠ [])).map (rowOf ord p.known)) := by
  unfold readRows
  rw [section_rows hf ord filename hn p, rowTexts_tagged, mapM_rowLines hf]

theorem rowOf_holds (ord : List Nat → List Nat) (hord : ∀ l, (ord l).Perm l) (known d : Dict Nat K) (hd : (Dict.keys d).Nodup) (e : Bool)
    (v : Nat → K) (hk : ∀ x c, Dict.get known x = some c → v x = c) :
    (rowOf ord known (d, e)).holds v ↔ if e then lin d v = 0 else 0 ≤ lin d v := by
  have h := row_value ord hord known d hd v hk
  have e1 : ((rowOf ord known (d, e)).terms.map fun t => t.1 * v t.2) = (unknownPart ord known d).map fun x => at' d x * v x := by
    simp [rowOf, Function.comp_def]
  unfold Row.holds
  rw [e1, ← h]
  cases e
  · simp only [rowOf, Bool.false_eq_true, if_false]
    constructor <;> intro h <;> linarith
  · simp only [rowOf, if_true]
    constructor <;> intro h <;> linarith

/-! ### From the arguments to the processed arguments -/

/-- What `processArguments` returns, field by field. -/
theorem process_inv (a : WArgs V K) (p : Processed K) (hp : processArguments a = some p) :
    (a.equalities ++ a.semiknown.map semiRow).mapM (rename (varIdx a.vars)) = some p.equalities
    ∧ a.inequalities.mapM (rename (varIdx a.vars)) = some p.inequalities
    ∧ rename (varIdx a.vars) a.known = some p.known
    ∧ rename (varIdx a.vars) a.lower = some p.lower
    ∧ rename (varIdx a.vars) a.upper = some p.upper
    ∧ rename (varIdx a.vars) a.objective = some p.objective
    ∧ p.vars = (varIdx a.vars).map Prod.snd := by
  unfold processArguments at hp
  simp only [bind, Option.bind_eq_some_iff, pure, Option.some.injEq] at hp
  obtain ⟨e, he, i, hi, k, hk, l, hl, u, hu, o, ho, rfl⟩ := hp
  exact ⟨he, hi, hk, hl, hu, ho, rfl⟩

theorem semiRow_eq (t : V × K × V) (h : t.1 ≠ t.2.2) : semiRow t = [(t.1, 1), (t.2.2, -t.2.1)] := by
  simp [semiRow, Dict.set, h]

/-- A variable assignment of the file that gives every numbered variable the value it has in the problem. -/
def Agrees (a : WArgs V K) (w : V → K) (v : Nat → K) : Prop := ∀ x i, Dict.get (varIdx a.vars) x = some i → v i = w x

theorem keys_unknown (ix : Dict V Nat) (hinj : ∀ x y j, Dict.get ix x = some j → Dict.get ix y = some j → x = y)
    {known d : Dict V K} {known' d' : Dict Nat K} (hk : Renamed ix known known') (hd : Renamed ix d d') :
    (∃ i ∈ Dict.keys d', i ∉ Dict.keys known') ↔ ∃ x ∈ Dict.keys d, x ∉ Dict.keys known := by
  have hkk : ∀ x i, Dict.get ix x = some i → (i ∈ Dict.keys known' ↔ x ∈ Dict.keys known) := by
    intro x i hi
    rw [mem_keys, mem_keys, Renamed.get hinj hk x i hi]
  have h := hd.keys
  generalize Dict.keys d = xs at h
  generalize Dict.keys d' = ys at h
  induction h with
  | nil => simp
  | @cons x i xs ys hxi _ ih =>
    simp only [List.mem_cons, exists_eq_or_imp]
    exact or_congr (not_congr (hkk x i hxi)) ih

theorem unknown_ne_nil (ord : List Nat → List Nat) (hord : ∀ l, (ord l).Perm l) (known d : Dict Nat K) :
    unknownPart ord known d ≠ [] ↔ ∃ i ∈ Dict.keys d, i ∉ Dict.keys known := by
  rw [ne_eq, unknownPart_eq_nil ord hord]
  push Not
  rfl

theorem forall₂_iff {α β : Type} {R : α → β → Prop} {l : List α} {r : List β} (h : List.Forall₂ R l r) (P : α → Prop) (Q : β → Prop)
    (hPQ : ∀ a ∈ l, ∀ b, R a b → (P a ↔ Q b)) : (∀ b ∈ r, Q b) ↔ ∀ a ∈ l, P a := by
  induction h with
  | nil => simp
  | @cons a b l r h _ ih =>
    simp only [List.mem_cons, forall_eq_or_imp]
    rw [ih (fun a ha => hPQ a (by simp [ha])), hPQ a (by simp) b h]

/-- **C39 (rows).** Every line between `subject to` and `bounds` of the exported file reads as one row of a linear program, and an assignment with the known values satisfies all rows of the file exactly when it satisfies every equality, inequality and proportionality of the problem that involves some variable without a known value.

Missing for the full property: constraints all of whose variables are known are not in the file (`C39_violated_constraint_dropped`), and the bounds are unreadable (`C39_bounds_iff`). -/
theorem C39_rows_partial (hf : Faithful fmt num) (ord : List Nat → List Nat) (hord : ∀ l, (ord l).Perm l) (filename : Str) (hn : '\n' ∉ filename)
    (a : WArgs V K) (ha : WellFormed a) (p : Processed K) (hp : processArguments a = some p) :
    ∃ rows, readRows num (writeToLp fmt ord filename p) = some rows
      ∧ ∀ w v, MeetsKnown a w → Agrees a w v →
        ((∀ r ∈ rows, r.holds v) ↔ MeetsConstraints (HasUnknown a) a w) := by
  refine ⟨_, readRows_file hf ord filename hn p, ?_⟩
  intro w v hw hv
  obtain ⟨he, hi, hk, -, -, -, -⟩ := process_inv a p hp
  have hinj := varIdx_inj a.vars
  have rk := rename_renamed a.vars a.known p.known ha.known hk
  have hkv : ∀ x c, Dict.get p.known x = some c → v x = c := by
    intro i c hic
    have : (i, c) ∈ p.known := get_of_mem_pair p.known i c hic
    obtain ⟨t, ht, hti, htc⟩ := CollinsGisin.forall₂_right rk this
    simp only at hti htc
    rw [hv _ _ hti, hw t ht, htc]
  have key : ∀ d d', (Dict.keys d).Nodup → rename (varIdx a.vars) d = some d' → ∀ e : Bool,
      ((unknownPart ord p.known d' ≠ [] → (rowOf ord p.known (d', e)).holds v)
        ↔ (HasUnknown a (Dict.keys d) → if e then lin d w = 0 else 0 ≤ lin d w)) := by
    intro d d' hd h e
    have rd := rename_renamed a.vars d d' hd h
    rw [unknown_ne_nil ord hord, keys_unknown _ hinj rk rd, rowOf_holds ord hord p.known d' (rd.nodup hinj hd) e v hkv, rd.lin w v hv]
    rfl
  have hall : (∀ r ∈ ((tagged p).filter fun t => decide (unknownPart ord p.known t.1 ≠ [])).map (rowOf ord p.known), r.holds v)
      ↔ (∀ d ∈ p.equalities, unknownPart ord p.known d ≠ [] → (rowOf ord p.known (d, true)).holds v)
        ∧ ∀ d ∈ p.inequalities, unknownPart ord p.known d ≠ [] → (rowOf ord p.known (d, false)).holds v := by
    simp only [tagged, List.mem_map, List.mem_filter, List.mem_append, decide_eq_true_eq]
    constructor
    · intro h
      exact ⟨fun d hd hu => h _ ⟨(d, true), ⟨Or.inl ⟨d, hd, rfl⟩, hu⟩, rfl⟩, fun d hd hu => h _ ⟨(d, false), ⟨Or.inr ⟨d, hd, rfl⟩, hu⟩, rfl⟩⟩
    · rintro ⟨h1, h2⟩ r ⟨t, ⟨⟨d, hd, rfl⟩ | ⟨d, hd, rfl⟩, hu⟩, rfl⟩
      · exact h1 d hd hu
      · exact h2 d hd hu
  rw [hall]
  have hE := forall₂_iff (LpSolver.mapM_forall₂ he) (fun d => HasUnknown a (Dict.keys d) → lin d w = 0)
    (fun d' => unknownPart ord p.known d' ≠ [] → (rowOf ord p.known (d', true)).holds v) (by
      intro d hd d' h
      have hnd : (Dict.keys d).Nodup := by
        rcases List.mem_append.1 hd with hd | hd
        · exact ha.eqs d hd
        · obtain ⟨t, ht, rfl⟩ := List.mem_map.1 hd
          rw [semiRow_eq t (ha.semi t ht)]
          simp [Dict.keys, ha.semi t ht]
      exact (key d d' hnd h true).symm)
  have hI := forall₂_iff (LpSolver.mapM_forall₂ hi) (fun d => HasUnknown a (Dict.keys d) → 0 ≤ lin d w)
    (fun d' => unknownPart ord p.known d' ≠ [] → (rowOf ord p.known (d', false)).holds v) (by
      intro d hd d' h
      exact (key d d' (ha.ineqs d hd) h false).symm)
  rw [hE, hI]
  unfold MeetsConstraints
  rw [and_assoc.symm]
  refine and_congr ?_ Iff.rfl
  constructor
  · intro h
    refine ⟨fun d hd => h d (List.mem_append.2 (Or.inl hd)), fun t ht hu => ?_⟩
    have := h (semiRow t) (List.mem_append.2 (Or.inr (List.mem_map.2 ⟨t, ht, rfl⟩)))
    rw [semiRow_eq t (ha.semi t ht)] at this
    have := this (by simpa [Dict.keys] using hu)
    simp only [lin, List.map_cons, List.map_nil, List.sum_cons, List.sum_nil] at this
    linarith
  · rintro ⟨h1, h2⟩ d hd
    rcases List.mem_append.1 hd with hd | hd
    · exact h1 d hd
    · obtain ⟨t, ht, rfl⟩ := List.mem_map.1 hd
      rw [semiRow_eq t (ha.semi t ht)]
      intro hu
      have := h2 t ht (by simpa [Dict.keys] using hu)
      simp only [lin, List.map_cons, List.map_nil, List.sum_cons, List.sum_nil]
      linarith

/-- The problem's constraints are those written plus those without unknown variables: the two sets of assignments agree as soon as the constraints among known values are consistent. -/
theorem C39_feasible_set_partial (hf : Faithful fmt num) (ord : List Nat → List Nat) (hord : ∀ l, (ord l).Perm l) (filename : Str) (hn : '\n' ∉ filename)
    (a : WArgs V K) (ha : WellFormed a) (p : Processed K) (hp : processArguments a = some p)
    (w : V → K) (v : Nat → K) (hw : MeetsKnown a w) (hv : Agrees a w v) (hc : MeetsConstraints (fun xs => ¬ HasUnknown a xs) a w) :
    ∃ rows, readRows num (writeToLp fmt ord filename p) = some rows
      ∧ ((∀ r ∈ rows, r.holds v) ↔ MeetsConstraints (fun _ => True) a w) := by
  obtain ⟨rows, hr, h⟩ := C39_rows_partial hf ord hord filename hn a ha p hp
  refine ⟨rows, hr, (h w v hw hv).trans ?_⟩
  constructor
  · rintro ⟨h1, h2, h3⟩
    refine ⟨fun d hd _ => ?_, fun t ht _ => ?_, fun d hd _ => ?_⟩
    · by_cases hu : HasUnknown a (Dict.keys d)
      · exact h1 d hd hu
      · exact hc.1 d hd hu
    · by_cases hu : HasUnknown a [t.1, t.2.2]
      · exact h2 t ht hu
      · exact hc.2.1 t ht hu
    · by_cases hu : HasUnknown a (Dict.keys d)
      · exact h3 d hd hu
      · exact hc.2.2 d hd hu
  · rintro ⟨h1, h2, h3⟩
    exact ⟨fun d hd _ => h1 d hd trivial, fun t ht _ => h2 t ht trivial, fun d hd _ => h3 d hd trivial⟩

/-! ### Bounds -/

/-- The bound section reads as one line per bound, closed by a line `end`. -/
def BoundsOnOwnLines (file : Str) (n : Nat) : Prop := ∃ ls, boundLines file = some ls ∧ ls.length = n

/-- **C39 (bounds), the exact failure.** After the line `bounds` the exported file has exactly one more line, on which all bounds and the word `end` are concatenated without any separator. -/
theorem C39_bounds_on_one_line (hf : Faithful fmt num) (ord : List Nat → List Nat) (filename : Str) (hn : '\n' ∉ filename) (p : Processed K) :
    ((splitAt '\n' (writeToLp fmt ord filename p)).dropWhile (fun l => l ≠ "bounds".toList)).tail
      = [(p.lower.map fun t => fmt t.2 ++ " <= x".toList ++ natStr t.1).flatten
          ++ (p.upper.map fun t => "x".toList ++ natStr t.1 ++ " <= ".toList ++ fmt t.2).flatten ++ "end".toList] := by
  rw [rest_bounds hf ord filename hn p]
  simp [boundsText, varName]

theorem boundsText_eq_nil (fmt : K → Str) (p : Processed K) : boundsText fmt p = [] ↔ p.lower = [] ∧ p.upper = [] := by
  unfold boundsText
  constructor
  · intro h
    simp only [List.append_eq_nil_iff, List.flatten_eq_nil_iff, List.mem_map, forall_exists_index, and_imp, forall_apply_eq_imp_iff₂] at h
    constructor
    · rcases hl : p.lower with _ | ⟨t, l⟩
      · rfl
      · have := h.1 t (by simp [hl]); simp at this
    · rcases hl : p.upper with _ | ⟨t, l⟩
      · rfl
      · have := h.2 t (by simp [hl]); simp [varName] at this
  · rintro ⟨h1, h2⟩
    simp [h1, h2]

/-- **C39 (bounds), negation.** The bound section of the exported file is well formed exactly when there is no bound at all: with one bound or more, no bound is on a line of its own. -/
theorem C39_bounds_iff (hf : Faithful fmt num) (ord : List Nat → List Nat) (filename : Str) (hn : '\n' ∉ filename) (p : Processed K) :
    BoundsOnOwnLines (writeToLp fmt ord filename p) (p.lower.length + p.upper.length) ↔ p.lower = [] ∧ p.upper = [] := by
  unfold BoundsOnOwnLines boundLines
  rw [rest_bounds hf ord filename hn p]
  have hend : "end".toList ∈ [boundsText fmt p ++ "end".toList] ↔ boundsText fmt p = [] := by
    rw [List.mem_singleton]
    constructor
    · intro h
      have := congrArg List.length h
      rw [List.length_append] at this
      exact List.length_eq_zero_iff.1 (by omega)
    · intro h; rw [h]; rfl
  rw [boundsText_eq_nil] at hend
  constructor
  · rintro ⟨ls, h, -⟩
    by_contra hc
    rw [if_neg (fun e => hc (hend.1 e))] at h
    simp at h
  · intro h
    refine ⟨[], ?_, by simp [h.1, h.2]⟩
    simp only
    rw [if_pos (hend.2 h), (boundsText_eq_nil fmt p).2 h]
    simp

/-! ### Objective -/

/-- Read `c x + c x + ... + b` from its words: terms and constant. An empty objective is the zero objective. -/
def readObjTerms (num : Str → Option K) : List Str → Option (List (K × Nat) × K)
  | c :: x :: op :: rest =>
    if op = "+".toList then (num c).bind fun c => (readVar x).bind fun x => (readObjTerms num rest).map fun r => ((c, x) :: r.1, r.2) else none
  | [b] => (num b).map fun b => ([], b)
  | _ => none

/-- Read the objective: the third line, after its label. -/
def readObjective (num : Str → Option K) (file : Str) : Option (List (K × Nat) × K) :=
  match splitAt '\n' file with
  | _ :: _ :: line :: _ =>
    match splitAt ' ' line with
    | label :: toks => if label ≠ "obj:".toList then none else if toks = [[]] then some ([], 0) else readObjTerms num toks
    | [] => none
  | _ => none

theorem readObj_tokens (hf : Faithful fmt num) (d : Dict Nat K) (x : Nat) (r : List Nat) (b : K) :
    readObjTerms num (fmt (at' d x) :: varName x :: ((r.map fun y => ["+".toList, fmt (at' d y), varName y]).flatten ++ ["+".toList, fmt b]))
      = some ((x :: r).map (fun y => (at' d y, y)), b) := by
  induction r generalizing x with
  | nil => simp [readObjTerms, hf.read, readVar_varName]
  | cons y r ih =>
    have := ih y
    simp only [List.map_cons, List.flatten_cons, List.cons_append, List.nil_append]
    unfold readObjTerms
    rw [if_pos rfl, this]
    simp [hf.read, readVar_varName]

theorem formatObj (fmt : K → Str) (ord : List Nat → List Nat) (known d : Dict Nat K) (h : unknownPart ord known d ≠ []) :
    formatConstraint fmt ord known d .obj = bodyText fmt d (unknownPart ord known d) ++ ' ' :: (['+'] ++ ' ' :: fmt (constPart ord known d)) := by
  have ht : termsText fmt d (unknownPart ord known d) ≠ [] := fun e => h ((termsText_eq_nil _ _ _).1 e)
  unfold formatConstraint
  simp only [ht, if_false]
  rw [termsText_eq fmt d _ h]
  simp

/-- **C39 (objective).** If some variable of the objective has no known value, the objective line reads back as terms and a constant whose value at any assignment with the known values is the value of the problem's objective. -/
theorem C39_objective_partial (hf : Faithful fmt num) (ord : List Nat → List Nat) (hord : ∀ l, (ord l).Perm l) (filename : Str) (hn : '\n' ∉ filename)
    (a : WArgs V K) (ha : WellFormed a) (p : Processed K) (hp : processArguments a = some p) (hu : HasUnknown a (Dict.keys a.objective)) :
    ∃ terms c, readObjective num (writeToLp fmt ord filename p) = some (terms, c)
      ∧ ∀ w v, MeetsKnown a w → Agrees a w v → (terms.map fun t => t.1 * v t.2).sum + c = lin a.objective w := by
  obtain ⟨-, -, hk, -, -, ho, -⟩ := process_inv a p hp
  have hinj := varIdx_inj a.vars
  have rk := rename_renamed a.vars a.known p.known ha.known hk
  have ro := rename_renamed a.vars a.objective p.objective ha.objective ho
  have hne : unknownPart ord p.known p.objective ≠ [] := by
    rw [unknown_ne_nil ord hord, keys_unknown _ hinj rk ro]
    exact hu
  refine ⟨(unknownPart ord p.known p.objective).map (fun y => (at' p.objective y, y)), constPart ord p.known p.objective, ?_, ?_⟩
  · unfold readObjective
    rw [lines_of_file hf ord filename hn p, formatObj fmt ord p.known p.objective hne]
    obtain ⟨x, r, hxr⟩ := List.exists_cons_of_ne_nil hne
    rw [hxr]
    have e1 : ∀ X : Str, "obj: ".toList ++ X = "obj:".toList ++ ' ' :: X := by intro X; rfl
    simp only [List.cons_append, List.nil_append]
    rw [e1, splitAt_append _ _ _ (by decide)]
    rw [splitBody hf p.objective x r]
    have e2 : splitAt ' ' ("+".toList ++ ' ' :: fmt (constPart ord p.known p.objective)) = ["+".toList, fmt (constPart ord p.known p.objective)] := by
      rw [splitAt_append _ _ _ (by decide), splitAt_noSep _ _ (hf.noSpace _)]
    have e3 : ∀ X : Str, '+' :: X = "+".toList ++ X := by intro X; rfl
    rw [e3, e2]
    simp only [ne_eq, not_true_eq_false, if_false]
    rw [if_neg (by simp), readObj_tokens hf]
  · intro w v hw hv
    have hkv : ∀ x c, Dict.get p.known x = some c → v x = c := by
      intro i c hic
      have : (i, c) ∈ p.known := get_of_mem_pair p.known i c hic
      obtain ⟨t, ht, hti, htc⟩ := CollinsGisin.forall₂_right rk this
      simp only at hti htc
      rw [hv _ _ hti, hw t ht, htc]
    have := row_value ord hord p.known p.objective (ro.nodup hinj ha.objective) v hkv
    rw [ro.lin w v hv] at this
    rw [← this]
    simp [Function.comp_def]

/-- **C39 (objective), negation.** If all variables of the objective are known, the exported objective is the zero objective, whatever the value of the objective is. -/
theorem C39_constant_objective_dropped (hf : Faithful fmt num) (ord : List Nat → List Nat) (hord : ∀ l, (ord l).Perm l) (filename : Str) (hn : '\n' ∉ filename)
    (a : WArgs V K) (ha : WellFormed a) (p : Processed K) (hp : processArguments a = some p) (hu : ¬ HasUnknown a (Dict.keys a.objective)) :
    readObjective num (writeToLp fmt ord filename p) = some ([], 0) := by
  obtain ⟨-, -, hk, -, -, ho, -⟩ := process_inv a p hp
  have hinj := varIdx_inj a.vars
  have rk := rename_renamed a.vars a.known p.known ha.known hk
  have ro := rename_renamed a.vars a.objective p.objective ha.objective ho
  have hne : unknownPart ord p.known p.objective = [] := by
    by_contra hne
    rw [← ne_eq, unknown_ne_nil ord hord, keys_unknown _ hinj rk ro] at hne
    exact hu hne
  unfold readObjective
  rw [lines_of_file hf ord filename hn p, (formatConstraint_eq_nil fmt ord p.known p.objective _).2 hne]
  have e : splitAt ' ' ("obj: ".toList ++ []) = ["obj:".toList, []] := by decide
  simp only [List.cons_append, List.nil_append, e]
  simp

end Verif.Writers
