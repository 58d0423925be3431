import Verif.Distinct.Ready
import Verif.Distinct.Rows
import Verif.EndToEnd.Solver
import Verif.Theory.Known
/-!
The task passed to the solver exists when no user constraint is empty.
-/
namespace Verif.Distinct
open Verif.Common Verif.Moment Verif.State Verif.EndToEnd Verif.Scenario Verif.Orbits Verif.CollinsGisin
open Verif.SdpEnd (copiesOf)
open Verif.Symmetry (lexorderSymmetries)

variable {K : Type}

/-- The constraints given by a call each have a coefficient that is not rounded to zero (`abs(coefficient) > 1e-8`). -/
def NoEmpty : Call K → Prop
  | .setExtraEq l => ∀ d ∈ l, ∃ t ∈ d, isClose0 t.2 = false
  | .setExtraIneq l => ∀ d ∈ l, ∃ t ∈ d, isClose0 t.2 = false
  | _ => True

/-- No recorded user constraint is empty. -/
structure Solid (s : LpState) : Prop where
  eq : ∀ d ∈ s.extraEq, d ≠ []
  ineq : ∀ d ∈ s.extraIneq, d ≠ []

theorem set_ne {α β : Type} [DecidableEq α] (d : Dict α β) (k : α) (v : β) : d.set k v ≠ [] := by
  intro e
  have := (mem_set_keys d k v k).2 (Or.inl rfl)
  rw [e] at this
  simp [Dict.keys] at this

theorem sanitiseDict_ne (E : Env K) {l : List (K × Rat)} (h : ∃ t ∈ l, isClose0 t.2 = false) : sanitiseDict E l ≠ [] := by
  unfold sanitiseDict
  have key : ∀ (l : List (K × Rat)) (d : Dict Mon Rat), (d ≠ [] ∨ ∃ t ∈ l, isClose0 t.2 = false) →
      l.foldl (fun out t => if isClose0 t.2 then out else out.set (E.san t.1) ((out.get (E.san t.1)).getD 0 + t.2)) d ≠ [] := by
    intro l
    induction l with
    | nil => rintro d (h | ⟨t, ht, _⟩); exact h; simp at ht
    | cons u l ih =>
      intro d h
      rw [List.foldl_cons]
      apply ih
      by_cases hu : isClose0 u.2 = true
      · rw [if_pos hu]
        rcases h with h | ⟨t, ht, h⟩
        · exact Or.inl h
        · rcases List.mem_cons.1 ht with rfl | ht
          · rw [hu] at h; simp at h
          · exact Or.inr ⟨t, ht, h⟩
      · rw [if_neg hu]
        exact Or.inl (set_ne _ _ _)
  exact key l [] (Or.inr h)

theorem cleanup_extra (E : Env K) (s : LpState) : (cleanup E s).extraEq = s.extraEq ∧ (cleanup E s).extraIneq = s.extraIneq := by
  unfold cleanup
  dsimp only
  split <;> exact ⟨rfl, rfl⟩

theorem update_extra (E : Env K) (v : List (K × Option Rat)) (lpi o : Bool) (s : LpState) :
    (updateValues E v lpi o s).extraEq = s.extraEq ∧ (updateValues E v lpi o s).extraIneq = s.extraIneq := by
  unfold updateValues
  split
  · exact ⟨rfl, rfl⟩
  · dsimp only
    split
    · exact cleanup_extra E _
    · exact cleanup_extra E _

theorem solid_of_eq {s s' : LpState} (h : Solid s) (h1 : s'.extraEq = s.extraEq) (h2 : s'.extraIneq = s.extraIneq) : Solid s' :=
  ⟨by rw [h1]; exact h.eq, by rw [h2]; exact h.ineq⟩

theorem solid_nil {s : LpState} (h1 : s.extraEq = []) (h2 : s.extraIneq = []) : Solid s := ⟨by simp [h1], by simp [h2]⟩

theorem setValues_solid (E : Env K) (v : List (K × Option Rat)) (lpi o : Bool) (s : LpState) : Solid (setValues E v lpi o s) := by
  have h0 : Solid (resetValues s) := solid_nil rfl rfl
  unfold setValues
  dsimp only
  split
  · exact solid_of_eq h0 (cleanup_extra E _).1 (cleanup_extra E _).2
  · exact solid_of_eq h0 (update_extra E v lpi o _).1 (update_extra E v lpi o _).2

theorem step_solid (E : Env K) (solver : Args → SolverOut) {s : LpState} (h : Solid s) {c : Call K} (hc : NoEmpty c) : Solid (step E solver s c) := by
  cases c with
  | setValues v lpi o => exact setValues_solid E v lpi o s
  | updateValues v lpi o => exact solid_of_eq h (update_extra E v lpi o s).1 (update_extra E v lpi o s).2
  | setObjective o m => cases o <;> exact solid_of_eq h rfl rfl
  | setLower b =>
    show Solid (setLower E b s)
    unfold setLower
    split
    · exact solid_of_eq h rfl rfl
    · split <;> exact solid_of_eq h rfl rfl
  | setUpper b =>
    show Solid (setUpper E b s)
    unfold setUpper
    split
    · exact solid_of_eq h rfl rfl
    · split <;> exact solid_of_eq h rfl rfl
  | setExtraEq l =>
    refine ⟨?_, h.ineq⟩
    intro d hd
    obtain ⟨u, hu, rfl⟩ := List.mem_map.1 (show d ∈ l.map (sanitiseDict E) from hd)
    exact sanitiseDict_ne E (hc u hu)
  | setExtraIneq l =>
    refine ⟨h.eq, ?_⟩
    intro d hd
    obtain ⟨u, hu, rfl⟩ := List.mem_map.1 (show d ∈ l.map (sanitiseDict E) from hd)
    exact sanitiseDict_ne E (hc u hu)
  | reset w =>
    cases w with
    | all => exact solid_nil rfl rfl
    | values => exact solid_nil rfl rfl
    | _ => exact solid_of_eq h rfl rfl
  | solve =>
    show Solid (solve E solver s)
    unfold solve
    split
    · exact h
    · exact solid_of_eq h rfl rfl
  | readEqByName =>
    obtain ⟨c, e⟩ := eqByName_fst E s
    show Solid (eqByName E s).2
    rw [e]
    exact solid_of_eq h rfl rfl
  | readIneqByName =>
    obtain ⟨c, e⟩ := ineqByName_fst E s
    show Solid (ineqByName E s).2
    rw [e]
    exact solid_of_eq h rfl rfl
  | prepareArguments b =>
    obtain ⟨c, c', e⟩ := argsByName_fst E b s
    show Solid (argsByName E b s).2.2
    rw [e]
    exact solid_of_eq h rfl rfl

theorem run_solid (E : Env K) (solver : Args → SolverOut) (h : List (Call K)) (hh : ∀ c ∈ h, NoEmpty c) : Solid (run E solver h) := by
  have key : ∀ (h : List (Call K)) (s : LpState), Solid s → (∀ c ∈ h, NoEmpty c) → Solid (h.foldl (step E solver) s) := by
    intro h
    induction h with
    | nil => exact fun s hs _ => hs
    | cons c h ih =>
      intro s hs hc
      exact ih _ (step_solid E solver hs (hc c (List.mem_cons_self ..))) fun c hc' => hc c (List.mem_cons_of_mem _ hc')
  refine key h _ ?_ hh
  unfold init
  exact setValues_solid E _ _ _ _

theorem toRow_ne {E : Env K} {d : Dict Mon Rat} {r : Dict Nat Rat} (h : toRow E d = some r) (hd : d ≠ []) : r ≠ [] := by
  have := mapM_length h
  intro e
  rw [e] at this
  exact hd (List.eq_nil_of_length_eq_zero this.symm)

theorem rows_ne {E : Env K} {l : List (Dict Mon Rat)} {r : List (Dict Nat Rat)} (h : l.mapM (toRow E) = some r) (hl : ∀ d ∈ l, d ≠ []) : ∀ x ∈ r, x ≠ [] := by
  intro x hx
  have hf := List.forall₂_iff_get.1 (Verif.LpSolver.mapM_forall₂ h)
  obtain ⟨i, hi, rfl⟩ := List.getElem_of_mem hx
  exact toRow_ne (hf.2 i (by rw [hf.1]; exact hi) hi) (hl _ (List.getElem_mem _))

theorem semi_ne {E : Env K} {l : List (Mon × Rat × Mon)} {r : List (Dict Nat Rat)} (h : l.mapM (semiRow E) = some r) : ∀ x ∈ r, x ≠ [] := by
  intro x hx
  have hf := List.forall₂_iff_get.1 (Verif.LpSolver.mapM_forall₂ h)
  obtain ⟨i, hi, rfl⟩ := List.getElem_of_mem hx
  have h2 := hf.2 i (by rw [hf.1]; exact hi) hi
  unfold semiRow at h2
  obtain ⟨a, _, h3⟩ := Option.bind_eq_some_iff.1 h2
  obtain ⟨b, _, h4⟩ := Option.map_eq_some_iff.1 h3
  intro e
  rw [show r[i] = r.get ⟨i, hi⟩ from rfl] at e
  rw [e] at h4
  simp at h4

variable {I : Input} {F : Type} [Field F] [LinearOrder F] [IsStrictOrderedRing F]

theorem toMat_entry {n : Nat} {rows : List (Dict Nat Rat)} (h : ∀ r ∈ rows, r ≠ []) : ∀ i, i < (toMat n rows : LpSolver.Coo F).rows → ∃ e ∈ (toMat n rows : LpSolver.Coo F).ents, e.1 = i := by
  intro i hi
  rw [toMat_rows] at hi
  obtain ⟨t, rest, e⟩ : ∃ t rest, rows[i] = t :: rest := by
    rcases hr : rows[i] with _ | ⟨t, rest⟩
    · exact absurd hr (h _ (List.getElem_mem hi))
    · exact ⟨t, rest, rfl⟩
  refine ⟨(i, t.1, ((t.2 : Rat) : F)), ?_, rfl⟩
  unfold toMat LpSolver.rowsMat
  rw [List.mem_flatten]
  refine ⟨(rows[i].map fun t => (t.1, ((t.2 : Rat) : F))).map fun t => (i, t.1, t.2), ?_, ?_⟩
  · rw [List.mem_mapIdx]
    exact ⟨i, by simpa using hi, by simp⟩
  · rw [e]; simp

theorem minimal_rows (hI : I.Accepted) {name : Atom → String} {E : Env Mon} (hE : I.lpEnv name = some E) :
    (∀ r ∈ E.minEq, r ≠ []) ∧ (∀ r ∈ E.minIneq, r ≠ []) ∧ 0 < E.minIneq.length := by
  obtain ⟨eqs, ineqs, e1, e2, e3, _, rfl⟩ := lpEnv_some hE
  have hB : BlocksOk I.scenario.lexorder.length (blocksOf (groupsOf I.scenario I.hasChildren I.allOutcomes)) := blocksOk_groupsOf I.scenario hI.out_pos I.hasChildren I.allOutcomes
  have hs := templateAdj_symm (S := I.scenario) I.D I.anyNonclassical
  have hG : I.symmetrize = true → IsGroup I.scenario.lexorder.length (lexorderSymmetries I.scenario) := fun _ => symmetries_isGroup _
  have hrow : ∀ {rows : List (List (Int × Nat))}, (∀ row ∈ rows, row ≠ []) → ∀ r ∈ Input.sparseRows rows, r ≠ [] := by
    intro rows h r hr
    obtain ⟨u, hu, rfl⟩ := List.mem_map.1 hr
    simpa using h u hu
  refine ⟨hrow (equalities_ne e1), hrow (inequalities_ne (groups_ne hI) hB hs e2), ?_⟩
  simpa [Input.sparseRows] using inequalities_pos (groups_ne hI) hB hs hG e2

end Verif.Distinct
