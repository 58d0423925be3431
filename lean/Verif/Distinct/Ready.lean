import Verif.State.LpTruth
import Verif.Moment.Props
/-!
When only moments of the problem are mentioned, the arguments of the solver can always be prepared.
-/
namespace Verif.Distinct
open Verif.Common Verif.Moment Verif.State

variable {K : Type}

/-- The moments a call mentions. -/
def mentions (E : Env K) : Call K → List Mon
  | .setValues v _ _ => v.map fun t => E.san t.1
  | .updateValues v _ _ => v.map fun t => E.san t.1
  | .setObjective (some d) _ => d.map fun t => E.san t.1
  | .setLower (some d) => d.map fun t => E.san t.1
  | .setUpper (some d) => d.map fun t => E.san t.1
  | .setExtraEq l => l.flatten.map fun t => E.san t.1
  | .setExtraIneq l => l.flatten.map fun t => E.san t.1
  | _ => []

/-- All moments recorded are variables of the problem. -/
structure Ready (E : Env K) (s : LpState) : Prop where
  known : ∀ m x, s.known.get m = some x → m ∈ E.monomials
  semi : ∀ m x m2, s.semi.get m = some (x, m2) → m ∈ E.monomials ∧ m2 ∈ E.monomials
  lower : ∀ t ∈ s.lower, t.1 ∈ E.monomials
  upper : ∀ t ∈ s.upper, t.1 ∈ E.monomials
  objective : ∀ t ∈ s.objective, t.1 ∈ E.monomials
  extraEq : ∀ d ∈ s.extraEq, ∀ t ∈ d, t.1 ∈ E.monomials
  extraIneq : ∀ d ∈ s.extraIneq, ∀ t ∈ d, t.1 ∈ E.monomials

theorem toIdx_of_mem {E : Env K} {m : Mon} (h : m ∈ E.monomials) : ∃ i, toIdx E m = some i := by
  unfold toIdx
  rcases hf : E.monomials.findIdx? (fun x => decide (x = m)) with _ | i
  · rw [List.findIdx?_eq_none_iff] at hf
    have := hf m h
    simp at this
  · exact ⟨i, rfl⟩

theorem mapM_exists {α β : Type} {f : α → Option β} : ∀ {l : List α}, (∀ a ∈ l, ∃ b, f a = some b) → ∃ r, l.mapM f = some r := by
  intro l
  induction l with
  | nil => exact fun _ => ⟨[], rfl⟩
  | cons a l ih =>
    intro h
    obtain ⟨b, hb⟩ := h a (List.mem_cons_self ..)
    obtain ⟨r, hr⟩ := ih fun x hx => h x (List.mem_cons_of_mem _ hx)
    exact ⟨b :: r, by rw [List.mapM_cons, hb, hr]; rfl⟩

theorem toRow_of_mem {E : Env K} {d : Dict Mon Rat} (h : ∀ t ∈ d, t.1 ∈ E.monomials) : ∃ r, toRow E d = some r := by
  apply mapM_exists
  intro t ht
  obtain ⟨i, hi⟩ := toIdx_of_mem (h t ht)
  exact ⟨_, by rw [hi]; rfl⟩

/-- A ready problem can be handed to the solver. -/
theorem Ready.solverArgs {E : Env K} {s : LpState} (hg : Good s) (h : Ready E s) : ∃ a, solverArgs E s = some a := by
  have hk : ∀ t ∈ s.known, t.1 ∈ E.monomials := fun t ht => h.known t.1 t.2 ((get_of_mem s.known hg.known t.1 t.2).1 ht)
  unfold State.solverArgs
  rw [if_pos (by
    rw [List.all_eq_true]
    intro m hm
    obtain ⟨x, hx⟩ := (mem_keys s.known m).1 hm
    simpa using h.known m x hx)]
  obtain ⟨e1, h1⟩ := mapM_exists (f := toRow E) (l := s.extraEq) fun d hd => toRow_of_mem (h.extraEq d hd)
  obtain ⟨e2, h2⟩ := mapM_exists (f := toRow E) (l := s.extraIneq) fun d hd => toRow_of_mem (h.extraIneq d hd)
  obtain ⟨e3, h3⟩ := mapM_exists (f := semiRow E) (l := s.semi) (by
    rintro ⟨m, x, m2⟩ ht
    obtain ⟨g1, g2⟩ := h.semi m x m2 ((get_of_mem s.semi hg.semi m (x, m2)).1 ht)
    obtain ⟨i, hi⟩ := toIdx_of_mem g1
    obtain ⟨j, hj⟩ := toIdx_of_mem g2
    exact ⟨_, by unfold semiRow; rw [hi]; simp only [Option.bind_some, hj]; rfl⟩)
  obtain ⟨r1, q1⟩ := toRow_of_mem h.objective
  obtain ⟨r2, q2⟩ := toRow_of_mem hk
  obtain ⟨r3, q3⟩ := toRow_of_mem h.lower
  obtain ⟨r4, q4⟩ := toRow_of_mem h.upper
  unfold sparseEq sparseIneq
  rw [h1, h2, h3, q1, q2, q3, q4]
  exact ⟨_, rfl⟩

/-- The unknown factors that `evaluate` returns are factors of the moment. -/
theorem evaluate_subperm (A : AtomInfo) (m : Mon) (known : Atom → Option Rat) (lpi : Bool) : (evaluate (compound A m) known lpi).2.1.Subperm m := by
  exact (evaluate_eq A m known lpi).2.subperm.trans List.filter_sublist.subperm

theorem set_mem {d : Dict Mon Rat} {k : Mon} {v : Rat} {P : Mon → Prop} (hd : ∀ t ∈ d, P t.1) (hk : P k) : ∀ t ∈ d.set k v, P t.1 := by
  intro t ht
  have : t.1 ∈ (d.set k v).keys := List.mem_map.2 ⟨t, ht, rfl⟩
  rcases (mem_set_keys d k v t.1).1 this with e | e
  · rw [e]; exact hk
  · obtain ⟨u, hu, e⟩ := List.mem_map.1 e
    rw [← e]; exact hd u hu

theorem sanitiseDict_mem {E : Env K} {P : Mon → Prop} {l : List (K × Rat)} (hl : ∀ t ∈ l, P (E.san t.1)) : ∀ t ∈ sanitiseDict E l, P t.1 := by
  unfold sanitiseDict
  have key : ∀ (l : List (K × Rat)) (d : Dict Mon Rat), (∀ t ∈ l, P (E.san t.1)) → (∀ t ∈ d, P t.1) →
      ∀ t ∈ l.foldl (fun out t => if isClose0 t.2 then out else out.set (E.san t.1) ((out.get (E.san t.1)).getD 0 + t.2)) d, P t.1 := by
    intro l
    induction l with
    | nil => exact fun d _ hd => hd
    | cons u l ih =>
      intro d hl hd
      rw [List.foldl_cons]
      apply ih _ fun t ht => hl t (List.mem_cons_of_mem _ ht)
      split
      · exact hd
      · exact set_mem hd (hl u (List.mem_cons_self ..))
  exact key l [] hl (by simp)

theorem sanitiseBounds_mem {E : Env K} {P : Mon → Prop} : ∀ {l : List (K × Rat)} {d d' : Dict Mon Rat}, (∀ t ∈ l, P (E.san t.1)) → (∀ t ∈ d, P t.1) →
    sanitiseBounds E l d = some d' → ∀ t ∈ d', P t.1 := by
  intro l
  induction l with
  | nil =>
    intro d d' _ hd e
    simp only [sanitiseBounds, Option.some.injEq] at e
    rw [← e]; exact hd
  | cons t l ih =>
    obtain ⟨k, v⟩ := t
    intro d d' hl hd e
    unfold sanitiseBounds at e
    have hl' : ∀ t ∈ l, P (E.san t.1) := fun t ht => hl t (List.mem_cons_of_mem _ ht)
    split at e
    · exact ih hl' (set_mem hd (hl (k, v) (List.mem_cons_self ..))) e
    · split at e
      · exact ih hl' hd e
      · simp at e

/-- The variables are closed under taking some of the factors. -/
structure ClosedEnv (E : Env K) : Prop where
  supports : E.supports = false
  one : one ∈ E.monomials
  closed : ∀ m ∈ E.monomials, ∀ l : Mon, l.Subperm m → sortBy atomLe l ∈ E.monomials

variable {E : Env K}

theorem reset_ready (hE : ClosedEnv E) {s : LpState} (h : Ready E s) : Ready E (resetValues s) where
  known := by
    intro m x hx
    rw [show (resetValues s).known = [(State.one, 1)] from rfl, get_cons] at hx
    split at hx
    · rename_i e; rw [← e]; exact hE.one
    · simp at hx
  semi := by intro m x m2 hx; simp [resetValues] at hx
  lower := h.lower
  upper := h.upper
  objective := h.objective
  extraEq := by intro d hd; simp [resetValues] at hd
  extraIneq := by intro d hd; simp [resetValues] at hd

theorem update_lower (hE : E.supports = false) (v : List (K × Option Rat)) (lpi o : Bool) (s : LpState) : (updateValues E v lpi o s).lower = s.lower ∧
    (updateValues E v lpi o s).upper = s.upper ∧ (updateValues E v lpi o s).objective = s.objective ∧ (updateValues E v lpi o s).extraEq = s.extraEq ∧
    (updateValues E v lpi o s).extraIneq = s.extraIneq := by
  unfold updateValues
  split
  · exact ⟨rfl, rfl, rfl, rfl, rfl⟩
  · dsimp only
    split <;> (unfold cleanup; rw [hE]; exact ⟨rfl, rfl, rfl, rfl, rfl⟩)

theorem update_ready (hE : ClosedEnv E) {s : LpState} (hg : Good s) (h : Ready E s) {v : List (K × Option Rat)} (hv : ∀ t ∈ v, E.san t.1 ∈ E.monomials) (lpi o : Bool) :
    Ready E (updateValues E v lpi o s) := by
  obtain ⟨e1, e2, e3, e4, e5⟩ := update_lower hE.supports v lpi o s
  refine ⟨?_, ?_, by rw [e1]; exact h.lower, by rw [e2]; exact h.upper, by rw [e3]; exact h.objective, by rw [e4]; exact h.extraEq, by rw [e5]; exact h.extraIneq⟩
  · intro m x hx
    rcases update_known E hE.supports v lpi o s hg m x hx with (h1 | ⟨t, ht, e, -⟩) | ⟨-, h2, -⟩
    · exact h.known m x h1
    · rw [← e]; exact hv t ht
    · exact h2
  · intro m x m2 hx
    rcases update_semi E hE.supports v lpi o s hg m x m2 hx with h1 | ⟨h1, -, -, e⟩
    · exact h.semi m x m2 h1
    · exact ⟨h1, by rw [e]; exact hE.closed m h1 _ (evaluate_subperm _ _ _ _)⟩

theorem cleanup_ready (hE : ClosedEnv E) {s : LpState} (hg : Good s) (h : Ready E s) : Ready E (cleanup E s) := by
  have e : cleanup E s = { s with semi := s.semi.filter fun t => !(decide (t.1 ∈ s.known.keys)) } := by
    unfold cleanup
    rw [hE.supports]
    rfl
  rw [e]
  refine ⟨h.known, ?_, h.lower, h.upper, h.objective, h.extraEq, h.extraIneq⟩
  intro m x m2 hx
  exact h.semi m x m2 ((get_filter s.semi _ hg.semi m (x, m2)).1 hx).1

theorem setValues_ready (hE : ClosedEnv E) {s : LpState} (hg : Good s) (h : Ready E s) {v : List (K × Option Rat)} (hv : ∀ t ∈ v, E.san t.1 ∈ E.monomials) (lpi o : Bool) :
    Ready E (setValues E v lpi o s) := by
  unfold setValues
  dsimp only
  split
  · exact cleanup_ready hE (resetValues_good s hg) (reset_ready hE h)
  · exact update_ready hE (resetValues_good s hg) (reset_ready hE h) hv lpi o

theorem step_ready (hE : ClosedEnv E) (solver : Args → SolverOut) {s : LpState} (hg : Good s) (h : Ready E s) {c : Call K} (hc : ∀ m ∈ mentions E c, m ∈ E.monomials) :
    Ready E (step E solver s c) := by
  cases c with
  | setValues v lpi o => exact setValues_ready hE hg h (fun t ht => hc _ (List.mem_map.2 ⟨t, ht, rfl⟩)) lpi o
  | updateValues v lpi o => exact update_ready hE hg h (fun t ht => hc _ (List.mem_map.2 ⟨t, ht, rfl⟩)) lpi o
  | setObjective o m =>
    cases o with
    | none => exact ⟨h.known, h.semi, h.lower, h.upper, by intro t ht; simp [step, setObjective, resetObjective] at ht, h.extraEq, h.extraIneq⟩
    | some d =>
      refine ⟨h.known, h.semi, h.lower, h.upper, ?_, h.extraEq, h.extraIneq⟩
      intro t ht
      obtain ⟨u, hu, rfl⟩ := List.mem_map.1 (show t ∈ (sanitiseDict E d).map fun t => (t.1, (if m then 1 else -1) * t.2) from ht)
      exact sanitiseDict_mem (P := fun m => m ∈ E.monomials) (fun t ht => hc _ (List.mem_map.2 ⟨t, ht, rfl⟩)) u hu
  | setLower b =>
    show Ready E (setLower E b s)
    unfold setLower
    have h0 : Ready E (resetLower s) := ⟨h.known, h.semi, by intro t ht; simp [resetLower] at ht, h.upper, h.objective, h.extraEq, h.extraIneq⟩
    split
    · exact h0
    · rename_i l
      split
      · rename_i d hd
        refine ⟨h.known, h.semi, ?_, h.upper, h.objective, h.extraEq, h.extraIneq⟩
        exact sanitiseBounds_mem (P := fun m => m ∈ E.monomials) (fun t ht => hc _ (List.mem_map.2 ⟨t, ht, rfl⟩)) (by simp) hd
      · exact h0
  | setUpper b =>
    show Ready E (setUpper E b s)
    unfold setUpper
    have h0 : Ready E (resetUpper s) := ⟨h.known, h.semi, h.lower, by intro t ht; simp [resetUpper] at ht, h.objective, h.extraEq, h.extraIneq⟩
    split
    · exact h0
    · rename_i l
      split
      · rename_i d hd
        refine ⟨h.known, h.semi, h.lower, ?_, h.objective, h.extraEq, h.extraIneq⟩
        exact sanitiseBounds_mem (P := fun m => m ∈ E.monomials) (fun t ht => hc _ (List.mem_map.2 ⟨t, ht, rfl⟩)) (by simp) hd
      · exact h0
  | setExtraEq l =>
    refine ⟨h.known, h.semi, h.lower, h.upper, h.objective, ?_, h.extraIneq⟩
    intro d hd
    obtain ⟨u, hu, rfl⟩ := List.mem_map.1 (show d ∈ l.map (sanitiseDict E) from hd)
    exact sanitiseDict_mem (P := fun m => m ∈ E.monomials) fun t ht => hc _ (List.mem_map.2 ⟨t, List.mem_flatten.2 ⟨u, hu, ht⟩, rfl⟩)
  | setExtraIneq l =>
    refine ⟨h.known, h.semi, h.lower, h.upper, h.objective, h.extraEq, ?_⟩
    intro d hd
    obtain ⟨u, hu, rfl⟩ := List.mem_map.1 (show d ∈ l.map (sanitiseDict E) from hd)
    exact sanitiseDict_mem (P := fun m => m ∈ E.monomials) fun t ht => hc _ (List.mem_map.2 ⟨t, List.mem_flatten.2 ⟨u, hu, ht⟩, rfl⟩)
  | reset w =>
    have l0 : ∀ {s : LpState}, Ready E s → Ready E (resetLower s) := fun h => ⟨h.known, h.semi, by intro t ht; simp [resetLower] at ht, h.upper, h.objective, h.extraEq, h.extraIneq⟩
    have u0 : ∀ {s : LpState}, Ready E s → Ready E (resetUpper s) := fun h => ⟨h.known, h.semi, h.lower, by intro t ht; simp [resetUpper] at ht, h.objective, h.extraEq, h.extraIneq⟩
    have o0 : ∀ {s : LpState}, Ready E s → Ready E (resetObjective s) := fun h =>
      ⟨h.known, h.semi, h.lower, h.upper, by intro t ht; simp [resetObjective] at ht, h.extraEq, h.extraIneq⟩
    cases w with
    | all => exact reset_ready hE (o0 (u0 (l0 h)))
    | bounds => exact u0 (l0 h)
    | lowerbounds => exact l0 h
    | upperbounds => exact u0 h
    | objective => exact o0 h
    | values => exact reset_ready hE h
  | solve =>
    show Ready E (solve E solver s)
    unfold solve
    split
    · exact h
    · exact ⟨h.known, h.semi, h.lower, h.upper, h.objective, h.extraEq, h.extraIneq⟩
  | readEqByName =>
    obtain ⟨c, e⟩ := eqByName_fst E s
    show Ready E (eqByName E s).2
    rw [e]
    exact ⟨h.known, h.semi, h.lower, h.upper, h.objective, h.extraEq, h.extraIneq⟩
  | readIneqByName =>
    obtain ⟨c, e⟩ := ineqByName_fst E s
    show Ready E (ineqByName E s).2
    rw [e]
    exact ⟨h.known, h.semi, h.lower, h.upper, h.objective, h.extraEq, h.extraIneq⟩
  | prepareArguments b =>
    obtain ⟨c, c', e⟩ := argsByName_fst E b s
    show Ready E (argsByName E b s).2.2
    rw [e]
    exact ⟨h.known, h.semi, h.lower, h.upper, h.objective, h.extraEq, h.extraIneq⟩

theorem init_ready (hE : ClosedEnv E) : Ready E (init E) := by
  unfold init
  apply setValues_ready hE
  · exact ⟨by simp [setObjective, setUpper, setLower, resetObjective, resetUpper, resetLower, resetSolution, Dict.keys],
      by simp [setObjective, setUpper, setLower, resetObjective, resetUpper, resetLower, resetSolution, Dict.keys],
      by simp [setObjective, setUpper, setLower, resetObjective, resetUpper, resetLower, resetSolution, Dict.keys],
      by simp [setObjective, setUpper, setLower, resetObjective, resetUpper, resetLower, resetSolution, Dict.keys]⟩
  · constructor <;> simp [setObjective, setUpper, setLower, resetObjective, resetUpper, resetLower, resetSolution]
  · simp

/-- After any history that mentions only variables of the problem, the solver's arguments can be prepared. -/
theorem run_ready (hE : ClosedEnv E) (solver : Args → SolverOut) (h : List (Call K)) (hh : ∀ c ∈ h, ∀ m ∈ mentions E c, m ∈ E.monomials) : Ready E (run E solver h) := by
  have key : ∀ (h : List (Call K)) (s : LpState), Good s → Ready E s → (∀ c ∈ h, ∀ m ∈ mentions E c, m ∈ E.monomials) → Ready E (h.foldl (step E solver) s) := by
    intro h
    induction h with
    | nil => exact fun s _ hs _ => hs
    | cons c h ih =>
      intro s hg hs hc
      exact ih _ (step_good E solver s c hg) (step_ready hE solver hg hs (hc c (List.mem_cons_self ..))) fun c hc' => hc c (List.mem_cons_of_mem _ hc')
  exact key h _ (init_good E) (init_ready hE) hh

end Verif.Distinct
