import Verif.State.LpTruth
import Mathlib.Order.Bounds.Basic
/-
C33, C35, C43, C44 for `InflationLP`, and the meaning of the arguments given to the solver (part of C29).
-/
namespace Verif.State
open Verif.Common Verif.Moment

variable {K : Type}

/-! ## C44 -/

theorem changes_resets (E : Env K) (solver : Args → SolverOut) (s : LpState) (c : Call K) (hc : c.changesProblem = true) : (step E solver s c).result = .notSolved := by
  cases c with
  | setValues v lpi o =>
    show (setValues E v lpi o s).result = .notSolved
    unfold setValues updateValues cleanup
    cases hv : v.isEmpty <;> cases o <;> cases hE : E.supports <;> simp [resetValues, resetSolution]
  | updateValues v lpi o =>
    show (updateValues E v lpi o s).result = .notSolved
    have hv : v.isEmpty = false := by simpa [Call.changesProblem] using hc
    unfold updateValues cleanup
    cases o <;> cases hE : E.supports <;> simp [resetSolution, hv]
  | setObjective o m => cases o <;> rfl
  | setLower b =>
    show (setLower E b s).result = .notSolved
    unfold setLower
    split
    · rfl
    · split <;> rfl
  | setUpper b =>
    show (setUpper E b s).result = .notSolved
    unfold setUpper
    split
    · rfl
    · split <;> rfl
  | reset w => cases w <;> rfl
  | setExtraEq l => simp [Call.changesProblem] at hc
  | setExtraIneq l => simp [Call.changesProblem] at hc
  | solve => simp [Call.changesProblem] at hc
  | readEqByName => simp [Call.changesProblem] at hc
  | readIneqByName => simp [Call.changesProblem] at hc
  | prepareArguments b => simp [Call.changesProblem] at hc

theorem step_upToDate (E : Env K) (solver : Args → SolverOut) (s : LpState) (c : Call K) (hc : c.setsExtra = false) (h : UpToDate E solver s) :
    UpToDate E solver (step E solver s c) := by
  by_cases hch : c.changesProblem = true
  · exact .inl (changes_resets E solver s c hch)
  · have keep : ∀ s' : LpState, s'.known = s.known → s'.semi = s.semi → s'.lower = s.lower → s'.upper = s.upper → s'.objective = s.objective → s'.extraEq = s.extraEq →
        s'.extraIneq = s.extraIneq → s'.maximize = s.maximize → s'.result = s.result → UpToDate E solver s' := by
      intro s' h1 h2 h3 h4 h5 h6 h7 h8 h9
      rcases h with h | ⟨a, ha, hr⟩
      · exact .inl (h9.trans h)
      · refine .inr ⟨a, ?_, ?_⟩
        · rw [solverArgs_congr E s' s h1 h2 h3 h4 h5 h6 h7]; exact ha
        · rw [h9, h8]; exact hr
    cases c with
    | setValues v lpi o => simp [Call.changesProblem] at hch
    | updateValues v lpi o =>
      have hv : v.isEmpty = true := by simpa [Call.changesProblem] using hch
      show UpToDate E solver (updateValues E v lpi o s)
      unfold updateValues
      rw [if_pos hv]
      exact h
    | setObjective o m => simp [Call.changesProblem] at hch
    | setLower b => simp [Call.changesProblem] at hch
    | setUpper b => simp [Call.changesProblem] at hch
    | reset w => simp [Call.changesProblem] at hch
    | setExtraEq l => simp [Call.setsExtra] at hc
    | setExtraIneq l => simp [Call.setsExtra] at hc
    | solve =>
      show UpToDate E solver (solve E solver s)
      unfold solve
      split
      · exact h
      · rename_i a ha
        refine .inr ⟨a, ?_, ?_⟩
        · exact (solverArgs_congr E _ s rfl rfl rfl rfl rfl rfl rfl).trans ha
        · simp [reported]
    | readEqByName =>
      obtain ⟨c, hc⟩ := eqByName_fst E s
      show UpToDate E solver (eqByName E s).2
      rw [hc]; exact keep _ rfl rfl rfl rfl rfl rfl rfl rfl rfl
    | readIneqByName =>
      obtain ⟨c, hc⟩ := ineqByName_fst E s
      show UpToDate E solver (ineqByName E s).2
      rw [hc]; exact keep _ rfl rfl rfl rfl rfl rfl rfl rfl rfl
    | prepareArguments b =>
      obtain ⟨c, c', hc⟩ := argsByName_fst E b s
      show UpToDate E solver (argsByName E b s).2.2
      rw [hc]; exact keep _ rfl rfl rfl rfl rfl rfl rfl rfl rfl

/-- **C44, partial.** Whatever happened before (`h`), after a call that changes the problem other than by extra constraints (`c`) and any further calls that do not set extra
constraints, a stored result is the answer of the solver to the problem as it is now. The same holds if extra constraints are never set. Missing: calls that set extra constraints, see below. -/
theorem C44_up_to_date_partial (E : Env K) (solver : Args → SolverOut) (h h' : List (Call K)) (hx : ∀ c ∈ h', c.setsExtra = false) :
    (∀ c : Call K, c.changesProblem = true → UpToDate E solver (run E solver (h ++ c :: h'))) ∧ UpToDate E solver (run E solver h') := by
  constructor
  · intro c hc
    rw [run_append, List.foldl_cons]
    exact fold_induction E solver (UpToDate E solver) (fun c => c.setsExtra = false) (fun s c hc hs => step_upToDate E solver s c hc hs) h' hx _
      (.inl (changes_resets E solver _ c hc))
  · exact fold_induction E solver (UpToDate E solver) (fun c => c.setsExtra = false) (fun s c hc hs => step_upToDate E solver s c hc hs) h' hx _
      (.inl (by
        show (setValues E [] false false _).result = .notSolved
        unfold setValues cleanup
        cases hE : E.supports <;> rfl))

/-- **C44 fails for extra constraints.** After solving and then setting an extra equality, the old result is still stored although solving the problem now gives another. -/
theorem C44_stale_after_extra :
    ∃ (E : Env Nat) (solver : Args → SolverOut) (h : List (Call Nat)), ¬ UpToDate E solver (run E solver h) := by
  refine ⟨⟨⟨fun _ => true, fun _ => false, fun _ => false, fun _ => "a"⟩, fun k => [[k]], [[], [[7]]], false, [], []⟩,
    fun a => ⟨true, "optimal", a.equalities.length⟩, [.solve, .setExtraEq [[(7, 1)]]], ?_⟩
  rintro (h | ⟨a, ha, hr⟩)
  · revert h; decide +kernel
  · have : ((solverArgs ⟨⟨fun _ => true, fun _ => false, fun _ => false, fun _ => "a"⟩, fun k => [[k]], [[], [[7]]], false, [], []⟩
      (run ⟨⟨fun _ => true, fun _ => false, fun _ => false, fun _ => "a"⟩, fun k => [[k]], [[], [[7]]], false, [], []⟩
        (fun a => ⟨true, "optimal", a.equalities.length⟩) [.solve, .setExtraEq [[(7, 1)]]])).map fun a => a.equalities.length) = some 1 := by decide +kernel
    rw [ha] at this
    simp only [Option.map_some, Option.some.injEq] at this
    simp only [reported, this] at hr
    revert hr
    decide +kernel

/-! ## Rows -/

theorem toIdx_some (E : Env K) (m : Mon) (i : Nat) (h : toIdx E m = some i) : E.monomials.getD i one = m := by
  unfold toIdx at h
  rw [List.findIdx?_eq_some_iff_getElem] at h
  obtain ⟨hi, h1, _⟩ := h
  rw [List.getD_eq_getElem _ _ hi]
  simpa using h1

theorem toRow_spec (E : Env K) (d : Dict Mon Rat) (r : Dict Nat Rat) (h : toRow E d = some r) (y : Mon → Rat) :
    dictVal r (columns E y) = dictVal d y ∧ (∀ P : Rat → Rat → Prop, (∀ t ∈ r, P (columns E y t.1) t.2) ↔ ∀ t ∈ d, P (y t.1) t.2) := by
  unfold toRow at h
  induction d generalizing r with
  | nil =>
    simp only [List.mapM_nil, Option.pure_def, Option.some.injEq] at h
    subst h
    simp [dictVal]
  | cons t d ih =>
    obtain ⟨m, v⟩ := t
    rw [List.mapM_cons] at h
    simp only [Option.bind_eq_bind, Option.bind_eq_some_iff, Option.pure_def, Option.some.injEq, Option.map_eq_some_iff] at h
    obtain ⟨p, ⟨i, hi, rfl⟩, r', hr', rfl⟩ := h
    obtain ⟨e1, e2⟩ := ih r' hr'
    have hm := toIdx_some E m i hi
    have hy : columns E y i = y m := by rw [columns, hm]
    constructor
    · have : dictVal ((i, v) :: r') (columns E y) = v * columns E y i + dictVal r' (columns E y) := by simp [dictVal]
      rw [this, e1, hy]
      simp [dictVal]
    · intro P
      simp only [List.mem_cons, forall_eq_or_imp, hy, e2 P]

theorem mapM_forall {α β : Type} (f : α → Option β) (l : List α) (r : List β) (h : l.mapM f = some r) (P : α → Prop) (Q : β → Prop)
    (hPQ : ∀ a ∈ l, ∀ b, f a = some b → (Q b ↔ P a)) : (∀ b ∈ r, Q b) ↔ ∀ a ∈ l, P a := by
  induction l generalizing r with
  | nil =>
    simp only [List.mapM_nil, Option.pure_def, Option.some.injEq] at h
    subst h; simp
  | cons t l ih =>
    rw [List.mapM_cons] at h
    simp only [Option.bind_eq_bind, Option.bind_eq_some_iff, Option.pure_def, Option.some.injEq] at h
    obtain ⟨b, hb, r', hr', rfl⟩ := h
    simp only [List.mem_cons, forall_eq_or_imp]
    rw [hPQ t (by simp) b hb, ih r' hr' (fun a ha => hPQ a (by simp [ha]))]

theorem mapM_mem {α β : Type} (f : α → Option β) (l : List α) (r : List β) (h : l.mapM f = some r) (a : α) (ha : a ∈ l) : ∃ b ∈ r, f a = some b := by
  induction l generalizing r with
  | nil => simp at ha
  | cons t l ih =>
    rw [List.mapM_cons] at h
    simp only [Option.bind_eq_bind, Option.bind_eq_some_iff, Option.pure_def, Option.some.injEq] at h
    obtain ⟨b, hb, r', hr', rfl⟩ := h
    rcases List.mem_cons.1 ha with rfl | ha
    · exact ⟨b, by simp, hb⟩
    · obtain ⟨b', h1, h2⟩ := ih r' hr' ha
      exact ⟨b', by simp [h1], h2⟩

/-- What the solver's arguments consist of. -/
theorem solverArgs_some (E : Env K) (s : LpState) (a : Args) (h : solverArgs E s = some a) :
    ∃ xe se xi, s.extraEq.mapM (toRow E) = some xe ∧ s.semi.mapM (semiRow E) = some se ∧ s.extraIneq.mapM (toRow E) = some xi ∧
      toRow E s.objective = some a.objective ∧ toRow E s.known = some a.known ∧ toRow E s.lower = some a.lower ∧ toRow E s.upper = some a.upper ∧
      a.equalities = (E.minEq ++ xe) ++ se ∧ a.inequalities = E.minIneq ++ xi := by
  unfold solverArgs sparseEq sparseIneq at h
  split at h
  · simp only [Option.bind_eq_bind, Option.bind_eq_some_iff, Option.map_eq_some_iff, Option.some.injEq] at h
    obtain ⟨_, ⟨xe, h1, rfl⟩, se, h2, _, ⟨xi, h3, rfl⟩, o, h4, k, h5, l, h6, u, h7, rfl⟩ := h
    exact ⟨xe, se, xi, h1, h2, h3, h4, h5, h6, h7, rfl, rfl⟩
  · simp at h

/-- **C29, the arguments of the solver.** In every reachable state, an assignment of values to moments satisfies the problem passed to the solver exactly when it satisfies the recorded values,
semi-known relations, generated and extra constraints and bounds. -/
theorem C29_arguments_faithful (E : Env K) (solver : Args → SolverOut) (h : List (Call K)) (a : Args) (ha : solverArgs E (run E solver h) = some a) (y : Mon → Rat) :
    a.Feasible (columns E y) ↔ Satisfies E (run E solver h) y := by
  have hg := run_good E solver h
  generalize run E solver h = s at *
  obtain ⟨xe, se, xi, h1, h2, h3, h4, h5, h6, h7, h8, h9⟩ := solverArgs_some E s a ha
  have kk : (∀ t ∈ a.known, columns E y t.1 = t.2) ↔ ∀ m v, s.known.get m = some v → y m = v := by
    rw [(toRow_spec E _ _ h5 y).2 (fun u v => u = v)]
    exact ⟨fun hh m v hm => hh (m, v) ((get_of_mem s.known hg.known m v).2 hm), fun hh t ht => hh t.1 t.2 ((get_of_mem s.known hg.known t.1 t.2).1 ht)⟩
  have kl : (∀ t ∈ a.lower, t.2 ≤ columns E y t.1) ↔ ∀ m v, s.lower.get m = some v → v ≤ y m := by
    rw [(toRow_spec E _ _ h6 y).2 (fun u v => v ≤ u)]
    exact ⟨fun hh m v hm => hh (m, v) ((get_of_mem s.lower hg.lower m v).2 hm), fun hh t ht => hh t.1 t.2 ((get_of_mem s.lower hg.lower t.1 t.2).1 ht)⟩
  have ku : (∀ t ∈ a.upper, columns E y t.1 ≤ t.2) ↔ ∀ m v, s.upper.get m = some v → y m ≤ v := by
    rw [(toRow_spec E _ _ h7 y).2 (fun u v => u ≤ v)]
    exact ⟨fun hh m v hm => hh (m, v) ((get_of_mem s.upper hg.upper m v).2 hm), fun hh t ht => hh t.1 t.2 ((get_of_mem s.upper hg.upper t.1 t.2).1 ht)⟩
  have ke : (∀ r ∈ xe, dictVal r (columns E y) = 0) ↔ ∀ d ∈ s.extraEq, dictVal d y = 0 :=
    mapM_forall (toRow E) _ _ h1 _ _ (fun d _ r hr => by rw [(toRow_spec E d r hr y).1])
  have ki : (∀ r ∈ xi, 0 ≤ dictVal r (columns E y)) ↔ ∀ d ∈ s.extraIneq, 0 ≤ dictVal d y :=
    mapM_forall (toRow E) _ _ h3 _ _ (fun d _ r hr => by rw [(toRow_spec E d r hr y).1])
  have ks : (∀ r ∈ se, dictVal r (columns E y) = 0) ↔ ∀ m c m2, s.semi.get m = some (c, m2) → y m = c * y m2 := by
    rw [mapM_forall (semiRow E) _ _ h2 (fun t => y t.1 = t.2.1 * y t.2.2) _ ?_]
    · exact ⟨fun hh m c m2 hm => hh (m, c, m2) ((get_of_mem s.semi hg.semi m (c, m2)).2 hm), fun hh t ht => hh t.1 t.2.1 t.2.2 ((get_of_mem s.semi hg.semi t.1 t.2).1 ht)⟩
    · intro t _ r hr
      unfold semiRow at hr
      simp only [Option.bind_eq_some_iff, Option.map_eq_some_iff] at hr
      obtain ⟨i, hi, j, hj, rfl⟩ := hr
      have e1 : columns E y i = y t.1 := by rw [columns, toIdx_some E _ i hi]
      have e2 : columns E y j = y t.2.2 := by rw [columns, toIdx_some E _ j hj]
      simp only [dictVal, List.map_cons, List.map_nil, List.sum_cons, List.sum_nil, e1, e2]
      constructor <;> intro hh <;> linarith
  constructor
  · intro hf
    have he := hf.eqs
    have hi := hf.ineqs
    rw [h8] at he
    rw [h9] at hi
    exact ⟨kk.1 hf.known, ks.1 fun r hr => he r (by simp [hr]), fun r hr => he r (by simp [hr]), fun r hr => hi r (by simp [hr]),
      ke.1 fun r hr => he r (by simp [hr]), ki.1 fun r hr => hi r (by simp [hr]), kl.1 hf.lower, ku.1 hf.upper⟩
  · intro hs
    refine ⟨kk.2 hs.known, ?_, ?_, kl.2 hs.lower, ku.2 hs.upper⟩
    · rw [h8]
      intro r hr
      rcases List.mem_append.1 hr with hr | hr
      · rcases List.mem_append.1 hr with hr | hr
        · exact hs.minEq r hr
        · exact ke.2 hs.extraEq r hr
      · exact ks.2 hs.semi r hr
    · rw [h9]
      intro r hr
      rcases List.mem_append.1 hr with hr | hr
      · exact hs.minIneq r hr
      · exact ki.2 hs.extraIneq r hr

/-! ## Dictionaries given by the user -/

theorem dictVal_set (d : Dict Mon Rat) (m : Mon) (v : Rat) (y : Mon → Rat) : dictVal (d.set m ((d.get m).getD 0 + v)) y = dictVal d y + v * y m := by
  induction d with
  | nil => simp [Dict.set, dictVal]
  | cons t d ih =>
    obtain ⟨a, b⟩ := t
    by_cases e : a = m
    · subst e
      simp only [Dict.set, if_true, get_cons, Option.getD_some, dictVal, List.map_cons, List.sum_cons]
      ring
    · simp only [Dict.set, e, if_false, get_cons]
      have h1 : ∀ (p : Mon × Rat) (l : Dict Mon Rat), dictVal (p :: l) y = p.2 * y p.1 + dictVal l y := fun p l => by simp [dictVal]
      rw [h1, h1, ih]
      ring

/-- Sanitising keeps the value, except for coefficients within 10⁻⁸ of zero, which are dropped. -/
theorem sanitise_val (E : Env K) (d : List (K × Rat)) (y : Mon → Rat) : dictVal (sanitiseDict E d) y = userVal E (d.filter fun t => !(isClose0 t.2)) y := by
  unfold sanitiseDict
  have key : ∀ out : Dict Mon Rat, dictVal (d.foldl (fun out t => if isClose0 t.2 then out else out.set (E.san t.1) ((out.get (E.san t.1)).getD 0 + t.2)) out) y =
      dictVal out y + userVal E (d.filter fun t => !(isClose0 t.2)) y := by
    induction d with
    | nil => intro out; simp [userVal]
    | cons t d ih =>
      intro out
      rw [List.foldl_cons, ih]
      by_cases h : isClose0 t.2 = true
      · simp [h]
      · simp only [h, Bool.false_eq_true, if_false, Bool.not_false, List.filter_cons_of_pos]
        rw [dictVal_set]
        simp only [userVal, List.map_cons, List.sum_cons]
        ring
  have := key []
  simpa [dictVal] using this

/-- **C43, sanitising.** Merging the user's coefficients changes the value of an expression by at most 10⁻⁸ times the absolute values of the moments, and not at all if no coefficient
lies strictly between 0 and 10⁻⁸ in absolute value. -/
theorem C43_sanitise (E : Env K) (d : List (K × Rat)) (y : Mon → Rat) :
    |dictVal (sanitiseDict E d) y - userVal E d y| ≤ 1 / 10 ^ 8 * (d.map fun t => |y (E.san t.1)|).sum ∧
    ((∀ t ∈ d, isClose0 t.2 = true → t.2 = 0) → dictVal (sanitiseDict E d) y = userVal E d y) := by
  rw [sanitise_val]
  constructor
  · induction d with
    | nil => simp [userVal]
    | cons t d ih =>
      by_cases h : isClose0 t.2 = true
      · have h' : |t.2| ≤ 1 / 10 ^ 8 := by
          unfold isClose0 at h
          have := of_decide_eq_true h
          norm_num at this ⊢
          exact this
        rw [List.filter_cons_of_neg (by simp [h])]
        simp only [userVal, List.map_cons, List.sum_cons] at ih ⊢
        have h2 : |t.2 * y (E.san t.1)| ≤ 1 / 10 ^ 8 * |y (E.san t.1)| := by
          rw [abs_mul]; exact mul_le_mul_of_nonneg_right h' (abs_nonneg _)
        rw [abs_le] at ih h2 ⊢
        rw [mul_add]
        constructor <;> linarith [ih.1, ih.2, h2.1, h2.2]
      · rw [List.filter_cons_of_pos (by simp [h])]
        simp only [userVal, List.map_cons, List.sum_cons] at ih ⊢
        have h2 : (0 : Rat) ≤ 1 / 10 ^ 8 * |y (E.san t.1)| := by positivity
        rw [abs_le] at ih ⊢
        rw [mul_add]
        constructor <;> linarith [ih.1, ih.2]
  · intro h0
    induction d with
    | nil => rfl
    | cons t d ih =>
      have ih := ih (fun u hu => h0 u (by simp [hu]))
      by_cases h : isClose0 t.2 = true
      · rw [List.filter_cons_of_neg (by simp [h]), ih]
        simp [userVal, h0 t (by simp) h]
      · rw [List.filter_cons_of_pos (by simp [h])]
        simp only [userVal, List.map_cons, List.sum_cons] at ih ⊢
        rw [ih]

/-! ## C33 and C35 -/

/-- Calls that keep the extra equalities. -/
def Call.keepsExtraEq : Call K → Bool
  | .setValues _ _ _ => false
  | .setExtraEq _ => false
  | .reset .values => false
  | .reset .all => false
  | _ => true

/-- Calls that keep the extra inequalities. -/
def Call.keepsExtraIneq : Call K → Bool
  | .setValues _ _ _ => false
  | .setExtraIneq _ => false
  | .reset .values => false
  | .reset .all => false
  | _ => true

theorem update_extra (E : Env K) (v : List (K × Option Rat)) (lpi o : Bool) (s : LpState) :
    (updateValues E v lpi o s).extraEq = s.extraEq ∧ (updateValues E v lpi o s).extraIneq = s.extraIneq := by
  unfold updateValues cleanup
  cases hv : v.isEmpty <;> cases o <;> cases hE : E.supports <;> simp [resetSolution]

theorem keeps_extra (E : Env K) (solver : Args → SolverOut) (s : LpState) (c : Call K) :
    (c.keepsExtraEq = true → (step E solver s c).extraEq = s.extraEq) ∧ (c.keepsExtraIneq = true → (step E solver s c).extraIneq = s.extraIneq) := by
  cases c with
  | setValues v lpi o => simp [Call.keepsExtraEq, Call.keepsExtraIneq]
  | updateValues v lpi o => exact ⟨fun _ => (update_extra E v lpi o s).1, fun _ => (update_extra E v lpi o s).2⟩
  | setObjective o m => cases o <;> exact ⟨fun _ => rfl, fun _ => rfl⟩
  | setLower b =>
    show (_ → (setLower E b s).extraEq = _) ∧ (_ → (setLower E b s).extraIneq = _)
    unfold setLower
    split
    · exact ⟨fun _ => rfl, fun _ => rfl⟩
    · split <;> exact ⟨fun _ => rfl, fun _ => rfl⟩
  | setUpper b =>
    show (_ → (setUpper E b s).extraEq = _) ∧ (_ → (setUpper E b s).extraIneq = _)
    unfold setUpper
    split
    · exact ⟨fun _ => rfl, fun _ => rfl⟩
    · split <;> exact ⟨fun _ => rfl, fun _ => rfl⟩
  | reset w => cases w <;> first | exact ⟨fun _ => rfl, fun _ => rfl⟩ | simp [Call.keepsExtraEq, Call.keepsExtraIneq]
  | setExtraEq l => exact ⟨fun h => by simp [Call.keepsExtraEq] at h, fun _ => rfl⟩
  | setExtraIneq l => exact ⟨fun _ => rfl, fun h => by simp [Call.keepsExtraIneq] at h⟩
  | solve =>
    show (_ → (solve E solver s).extraEq = _) ∧ (_ → (solve E solver s).extraIneq = _)
    unfold solve
    split <;> exact ⟨fun _ => rfl, fun _ => rfl⟩
  | readEqByName =>
    obtain ⟨c, hc⟩ := eqByName_fst E s
    show (_ → (eqByName E s).2.extraEq = _) ∧ (_ → (eqByName E s).2.extraIneq = _)
    rw [hc]; exact ⟨fun _ => rfl, fun _ => rfl⟩
  | readIneqByName =>
    obtain ⟨c, hc⟩ := ineqByName_fst E s
    show (_ → (ineqByName E s).2.extraEq = _) ∧ (_ → (ineqByName E s).2.extraIneq = _)
    rw [hc]; exact ⟨fun _ => rfl, fun _ => rfl⟩
  | prepareArguments b =>
    obtain ⟨c, c', hc⟩ := argsByName_fst E b s
    show (_ → (argsByName E b s).2.2.extraEq = _) ∧ (_ → (argsByName E b s).2.2.extraIneq = _)
    rw [hc]; exact ⟨fun _ => rfl, fun _ => rfl⟩

theorem extraEq_current (E : Env K) (solver : Args → SolverOut) (h h' : List (Call K)) (l : List (List (K × Rat))) (hk : ∀ c ∈ h', c.keepsExtraEq = true) :
    (run E solver (h ++ .setExtraEq l :: h')).extraEq = l.map (sanitiseDict E) := by
  rw [run_append, List.foldl_cons]
  exact fold_induction E solver (fun s => s.extraEq = l.map (sanitiseDict E)) (fun c => c.keepsExtraEq = true)
    (fun s c hc hs => ((keeps_extra E solver s c).1 hc).trans hs) h' hk _ rfl

theorem extraIneq_current (E : Env K) (solver : Args → SolverOut) (h h' : List (Call K)) (l : List (List (K × Rat))) (hk : ∀ c ∈ h', c.keepsExtraIneq = true) :
    (run E solver (h ++ .setExtraIneq l :: h')).extraIneq = l.map (sanitiseDict E) := by
  rw [run_append, List.foldl_cons]
  exact fold_induction E solver (fun s => s.extraIneq = l.map (sanitiseDict E)) (fun c => c.keepsExtraIneq = true)
    (fun s c hc hs => ((keeps_extra E solver s c).2 hc).trans hs) h' hk _ rfl

/-- **C33 for the LP.** Every extra equality and inequality set by the user, and not since replaced or cleared by setting or resetting values, is a row of the problem given to the solver, with the
value of the expression the user wrote (without coefficients within 10⁻⁸ of zero). -/
theorem C33_lp_extra_reach_solver (E : Env K) (solver : Args → SolverOut) (h h' : List (Call K)) (l : List (List (K × Rat))) (d : List (K × Rat)) (hd : d ∈ l) (a : Args) :
    ((∀ c ∈ h', c.keepsExtraEq = true) → solverArgs E (run E solver (h ++ .setExtraEq l :: h')) = some a →
      ∃ r ∈ a.equalities, ∀ y, dictVal r (columns E y) = userVal E (d.filter fun t => !(isClose0 t.2)) y) ∧
    ((∀ c ∈ h', c.keepsExtraIneq = true) → solverArgs E (run E solver (h ++ .setExtraIneq l :: h')) = some a →
      ∃ r ∈ a.inequalities, ∀ y, dictVal r (columns E y) = userVal E (d.filter fun t => !(isClose0 t.2)) y) := by
  constructor
  · intro hk ha
    obtain ⟨xe, se, xi, h1, _, _, _, _, _, _, h8, _⟩ := solverArgs_some E _ a ha
    rw [extraEq_current E solver h h' l hk] at h1
    obtain ⟨r, hr, hr'⟩ := mapM_mem (toRow E) _ _ h1 (sanitiseDict E d) (List.mem_map.2 ⟨d, hd, rfl⟩)
    refine ⟨r, by rw [h8]; simp [hr], fun y => ?_⟩
    rw [(toRow_spec E _ r hr' y).1, sanitise_val]
  · intro hk ha
    obtain ⟨xe, se, xi, _, _, h3, _, _, _, _, _, h9⟩ := solverArgs_some E _ a ha
    rw [extraIneq_current E solver h h' l hk] at h3
    obtain ⟨r, hr, hr'⟩ := mapM_mem (toRow E) _ _ h3 (sanitiseDict E d) (List.mem_map.2 ⟨d, hd, rfl⟩)
    refine ⟨r, by rw [h9]; simp [hr], fun y => ?_⟩
    rw [(toRow_spec E _ r hr' y).1, sanitise_val]

/-- **C35, partial.** The list of all equalities in matrix form always consists of the generated ones followed by the extra ones last set (if these have not been cleared since). -/
theorem C35_matrix_view_partial (E : Env K) (solver : Args → SolverOut) (h h' : List (Call K)) (l : List (List (K × Rat))) :
    ((∀ c ∈ h', c.keepsExtraEq = true) → sparseEq E (run E solver (h ++ .setExtraEq l :: h')) = ((l.map (sanitiseDict E)).mapM (toRow E)).map (E.minEq ++ ·)) ∧
    ((∀ c ∈ h', c.keepsExtraIneq = true) → sparseIneq E (run E solver (h ++ .setExtraIneq l :: h')) = ((l.map (sanitiseDict E)).mapM (toRow E)).map (E.minIneq ++ ·)) := by
  constructor
  · intro hk; unfold sparseEq; rw [extraEq_current E solver h h' l hk]
  · intro hk; unfold sparseIneq; rw [extraIneq_current E solver h h' l hk]

def staleEnv : Env Nat := ⟨⟨fun _ => true, fun _ => false, fun _ => false, fun a => if a = [7] then "p" else "q"⟩, fun k => [[k]], [[], [[7]]], false, [], []⟩

/-- **C35 fails for the view by name.** Reading the equalities by name before setting extra equalities makes the extra ones invisible in every later reading, although the matrix view (used by
`solve`) has them: a problem written to a file afterwards is not the problem that is solved. -/
theorem C35_view_by_name_stale (solver : Args → SolverOut) :
    (eqByName staleEnv (run staleEnv solver [.readEqByName, .setExtraEq [[(7, 1)]]])).1 = some [] ∧
    sparseEq staleEnv (run staleEnv solver [.readEqByName, .setExtraEq [[(7, 1)]]]) = some [[(1, 1)]] := by
  simp only [run, List.foldl, step]
  decide +kernel

/-- **C35 fails: preparing arguments changes what is read.** `_prepare_solver_arguments(separate_bounds=False)` appends the bounds to the cached list: a second call lists them twice, and they stay
after the bounds have been reset. -/
theorem C35_bounds_appended (solver : Args → SolverOut) :
    (argsByName staleEnv false (run staleEnv solver [.setUpper (some [(7, 1 / 2)])])).2.1 = some [[("p", -1), ("1", 1 / 2)]] ∧
    (argsByName staleEnv false (run staleEnv solver [.setUpper (some [(7, 1 / 2)]), .prepareArguments false])).2.1 =
      some [[("p", -1), ("1", 1 / 2)], [("p", -1), ("1", 1 / 2)]] ∧
    (ineqByName staleEnv (run staleEnv solver [.setUpper (some [(7, 1 / 2)]), .prepareArguments false, .reset .all])).1 = some [[("p", -1), ("1", 1 / 2)]] := by
  simp only [run, List.foldl, step]
  decide +kernel

/-! ## C43 -/

/-- **C43 for the LP.** If the solver returns the maximum of the objective it was given over the feasible points, the value reported to the user is the maximum, respectively the minimum, of the
objective the user wrote, over the assignments satisfying the user's problem. -/
theorem C43_lp_reported_optimum (E : Env K) (solver : Args → SolverOut) (h h' : List (Call K)) (d : List (K × Rat)) (maxi : Bool) (a : Args)
    (hd : ∀ t ∈ d, isClose0 t.2 = true → t.2 = 0)
    (hk : ∀ c ∈ h', ∀ o m, c ≠ Call.setObjective o m ∧ c ≠ .reset .objective ∧ c ≠ .reset .all)
    (ha : solverArgs E (run E solver (h ++ .setObjective (some d) maxi :: h')) = some a)
    (hok : (solver a).success = true)
    (hopt : IsGreatest {z | ∃ y, a.Feasible (columns E y) ∧ z = dictVal a.objective (columns E y)} (solver a).primal) :
    ∃ v, (run E solver (h ++ .setObjective (some d) maxi :: h' ++ [.solve])).result = .solved (solver a).status v ∧
      (if maxi then IsGreatest {z | ∃ y, Satisfies E (run E solver (h ++ .setObjective (some d) maxi :: h')) y ∧ z = userVal E d y} v
       else IsLeast {z | ∃ y, Satisfies E (run E solver (h ++ .setObjective (some d) maxi :: h')) y ∧ z = userVal E d y} v) := by
  have hfeas := C29_arguments_faithful E solver (h ++ .setObjective (some d) maxi :: h') a ha
  have hobj : (run E solver (h ++ .setObjective (some d) maxi :: h')).objective = (sanitiseDict E d).map (fun t => (t.1, (if maxi then 1 else -1) * t.2)) ∧
      (run E solver (h ++ .setObjective (some d) maxi :: h')).maximize = maxi := by
    rw [run_append, List.foldl_cons]
    refine fold_induction E solver (fun s => s.objective = (sanitiseDict E d).map (fun t => (t.1, (if maxi then 1 else -1) * t.2)) ∧ s.maximize = maxi)
      (fun c => ∀ o m, c ≠ Call.setObjective o m ∧ c ≠ .reset .objective ∧ c ≠ .reset .all) ?_ h' hk _ ⟨rfl, rfl⟩
    intro s c hc hs
    have : (step E solver s c).objective = s.objective ∧ (step E solver s c).maximize = s.maximize := by
      cases c with
      | setValues v lpi o =>
        show (setValues E v lpi o s).objective = _ ∧ (setValues E v lpi o s).maximize = _
        unfold setValues updateValues cleanup
        cases hv : v.isEmpty <;> cases o <;> cases hE : E.supports <;> simp [resetValues, resetSolution]
      | updateValues v lpi o =>
        show (updateValues E v lpi o s).objective = _ ∧ (updateValues E v lpi o s).maximize = _
        unfold updateValues cleanup
        cases hv : v.isEmpty <;> cases o <;> cases hE : E.supports <;> simp [resetSolution]
      | setObjective o m => exact absurd rfl (hc o m).1
      | setLower b =>
        show (setLower E b s).objective = _ ∧ (setLower E b s).maximize = _
        unfold setLower
        split
        · exact ⟨rfl, rfl⟩
        · split <;> exact ⟨rfl, rfl⟩
      | setUpper b =>
        show (setUpper E b s).objective = _ ∧ (setUpper E b s).maximize = _
        unfold setUpper
        split
        · exact ⟨rfl, rfl⟩
        · split <;> exact ⟨rfl, rfl⟩
      | setExtraEq l => exact ⟨rfl, rfl⟩
      | setExtraIneq l => exact ⟨rfl, rfl⟩
      | reset w =>
        cases w with
        | all => exact absurd rfl (hc none true).2.2
        | objective => exact absurd rfl (hc none true).2.1
        | bounds => exact ⟨rfl, rfl⟩
        | lowerbounds => exact ⟨rfl, rfl⟩
        | upperbounds => exact ⟨rfl, rfl⟩
        | values => exact ⟨rfl, rfl⟩
      | solve =>
        show (solve E solver s).objective = _ ∧ (solve E solver s).maximize = _
        unfold solve
        split <;> exact ⟨rfl, rfl⟩
      | readEqByName =>
        obtain ⟨c, hc⟩ := eqByName_fst E s
        show (eqByName E s).2.objective = _ ∧ (eqByName E s).2.maximize = _
        rw [hc]; exact ⟨rfl, rfl⟩
      | readIneqByName =>
        obtain ⟨c, hc⟩ := ineqByName_fst E s
        show (ineqByName E s).2.objective = _ ∧ (ineqByName E s).2.maximize = _
        rw [hc]; exact ⟨rfl, rfl⟩
      | prepareArguments b =>
        obtain ⟨c, c', hc⟩ := argsByName_fst E b s
        show (argsByName E b s).2.2.objective = _ ∧ (argsByName E b s).2.2.maximize = _
        rw [hc]; exact ⟨rfl, rfl⟩
    rw [this.1, this.2]
    exact hs
  have hval : ∀ y, dictVal a.objective (columns E y) = (if maxi then 1 else -1) * userVal E d y := by
    intro y
    obtain ⟨_, _, _, _, _, _, h4, _⟩ := solverArgs_some E _ a ha
    rw [(toRow_spec E _ _ h4 y).1, hobj.1, ← (C43_sanitise E d y).2 hd]
    unfold dictVal
    induction sanitiseDict E d with
    | nil => simp
    | cons t l ih =>
      simp only [List.map_cons, List.sum_cons, mul_add] at ih ⊢
      rw [ih, mul_assoc]
  refine ⟨(solver a).primal * (if maxi then 1 else -1), ?_, ?_⟩
  · rw [run_append]
    show (solve E solver (run E solver (h ++ .setObjective (some d) maxi :: h'))).result = _
    unfold solve
    rw [ha]
    simp [hok, hobj.2]
  · obtain ⟨⟨y0, hf0, h0⟩, hub⟩ := hopt
    cases maxi with
    | true =>
      simp only [if_true, mul_one, one_mul] at hval ⊢
      refine ⟨⟨y0, (hfeas y0).1 hf0, by rw [h0, hval]⟩, ?_⟩
      rintro z ⟨y, hy, rfl⟩
      have := hub ⟨y, (hfeas y).2 hy, rfl⟩
      rwa [hval] at this
    | false =>
      simp only [Bool.false_eq_true, if_false, mul_neg, mul_one, neg_mul, one_mul] at hval ⊢
      refine ⟨⟨y0, (hfeas y0).1 hf0, by rw [h0, hval]; ring⟩, ?_⟩
      rintro z ⟨y, hy, rfl⟩
      have := hub ⟨y, (hfeas y).2 hy, rfl⟩
      rw [hval] at this
      linarith

/-! Non-vacuity -/
example : ((solverArgs exEnv (run exEnv (fun _ => ⟨true, "optimal", 0⟩) [.setValues [(1, some (1 / 2))] true false, .setExtraEq [[(1, 2), (1, 1)]], .setUpper (some [(2, 1)])])).map
    fun a => (a.known, a.equalities, a.upper)) =
    some ([(0, 1), (1, 1 / 2), (3, 1 / 4)], [[(1, 3)], [(4, 1), (2, -(1 / 2))]], [(2, 1)]) := by decide +kernel

/-- A problem with the unit and one more moment. -/
def optEnv : Env Nat :=
  ⟨⟨fun _ => true, fun _ => false, fun _ => false, fun a => "P" ++ toString a⟩, fun k => if k = 0 then [] else [[k]], [[], [[7]]], false, [], []⟩

def optArgs : Args := ⟨[(1, -2)], [(0, 1)], [], [], [(1, 1 / 4)], []⟩

/-- The hypotheses of `C43_lp_reported_optimum` are met: minimise `2 p` subject to `p ≥ 1/4`; the solver maximises `-2 p` and returns `-1/2`. -/
example : solverArgs optEnv (run optEnv (fun _ => ⟨true, "optimal", -1 / 2⟩) ([.setLower (some [(7, 1 / 4)])] ++ .setObjective (some [(7, 2)]) false :: [])) = some optArgs ∧
    IsGreatest {z | ∃ y, optArgs.Feasible (columns optEnv y) ∧ z = dictVal optArgs.objective (columns optEnv y)} (-1 / 2) := by
  refine ⟨by decide +kernel, ⟨fun m => if m = [] then 1 else 1 / 4, ⟨?_, ?_, ?_, ?_, ?_⟩, ?_⟩, ?_⟩
  · simp [optArgs, columns, optEnv]
  · simp [optArgs]
  · simp [optArgs]
  · simp [optArgs, columns, optEnv]
  · simp [optArgs]
  · simp [optArgs, columns, optEnv, dictVal]; norm_num
  · rintro z ⟨y, hf, rfl⟩
    have := hf.lower (1, 1 / 4) (by simp [optArgs])
    simp only [optArgs, columns, optEnv, dictVal, List.map_cons, List.map_nil, List.sum_cons, List.sum_nil] at this ⊢
    linarith

end Verif.State
