import Verif.Views.Semi
/-
**C62.** The views of the program by moment and by name, and the dictionary of arguments handed to the writers, describe the same problem as the matrices handed to the solver.
-/
namespace Verif.Views
open Verif.Common Verif.Moment Verif.State Verif.Writers

variable {K : Type}

/-- The by-name views stored in the state, if any, are those of the present constraints (see `C35_view_by_name_stale` for how this can fail). -/
def FreshViews (E : Env K) (s : LpState) : Prop :=
  (∀ c, s.cachedEq = some c → (sparseEq E s).map (·.map (rowByName E)) = some c) ∧ (∀ c, s.cachedIneq = some c → (sparseIneq E s).map (·.map (rowByName E)) = some c)

/-- A point, given by the names of the variables, satisfies everything in the dictionary. -/
def NamedFeasible (A : WArgs String Rat) (z : String → Rat) : Prop := MeetsKnown A z ∧ MeetsConstraints (fun _ => True) A z ∧ MeetsBounds A z

theorem mapM_right {α β : Type} {f : α → Option β} {l : List α} {r : List β} (h : l.mapM f = some r) {b : β} (hb : b ∈ r) : ∃ a ∈ l, f a = some b := by
  induction l generalizing r with
  | nil =>
    simp only [List.mapM_nil, Option.pure_def, Option.some.injEq] at h
    subst h
    simp at hb
  | cons t l ih =>
    rw [List.mapM_cons] at h
    simp only [Option.bind_eq_bind, Option.bind_eq_some_iff, Option.pure_def, Option.some.injEq] at h
    obtain ⟨b', hb', r', hr', rfl⟩ := h
    rcases List.mem_cons.1 hb with rfl | hb
    · exact ⟨t, by simp, hb'⟩
    · obtain ⟨a, h1, h2⟩ := ih hr' hb
      exact ⟨a, by simp [h1], h2⟩

theorem sparseEq_inRange {E : Env K} (hE : EnvOk E) {s : LpState} {rows : List (Dict Nat Rat)} (h : sparseEq E s = some rows) : ∀ r ∈ rows, InRange E r := by
  unfold sparseEq at h
  obtain ⟨x, hx, rfl⟩ := Option.map_eq_some_iff.1 h
  intro r hr
  rcases List.mem_append.1 hr with hr | hr
  · exact hE.minEq r hr
  · obtain ⟨d, -, hd⟩ := mapM_right hx hr
    exact toRow_inRange hd

theorem sparseIneq_inRange {E : Env K} (hE : EnvOk E) {s : LpState} {rows : List (Dict Nat Rat)} (h : sparseIneq E s = some rows) : ∀ r ∈ rows, InRange E r := by
  unfold sparseIneq at h
  obtain ⟨x, hx, rfl⟩ := Option.map_eq_some_iff.1 h
  intro r hr
  rcases List.mem_append.1 hr with hr | hr
  · exact hE.minIneq r hr
  · obtain ⟨d, -, hd⟩ := mapM_right hx hr
    exact toRow_inRange hd

theorem forall₂_map_self {α β : Type} {R : α → β → Prop} (f : α → β) (l : List α) (h : ∀ a ∈ l, R a (f a)) : List.Forall₂ R l (l.map f) := by
  induction l with
  | nil => exact .nil
  | cons a l ih => exact .cons (h a (by simp)) (ih fun a ha => h a (by simp [ha]))

/-- **C62 (views by moment).** `moment_equalities` has one dictionary per row of the matrix of equalities; its keys are different variables of the program and its value, at any assignment of
values to moments, is that of the row. -/
theorem C62_equalities_by_moment {E : Env K} (hE : EnvOk E) {s : LpState} {rows : List (Dict Nat Rat)} (h : sparseEq E s = some rows) :
    ∃ L, equalitiesByMoment E s = some L ∧
      List.Forall₂ (fun r d => (Dict.keys d).Nodup ∧ (∀ m ∈ Dict.keys d, m ∈ E.monomials) ∧ ∀ y, dictVal d y = dictVal r (columns E y)) rows L := by
  refine ⟨rows.map (rowByMon E), by rw [equalitiesByMoment, h]; rfl, forall₂_map_self _ _ fun r hr => ?_⟩
  have hir := sparseEq_inRange hE h r hr
  exact ⟨rowByMon_keys_nodup hE hir, rowByMon_keys_mem hE hir, fun y => rowByMon_val hE hir y⟩

/-- **C62 (views by moment).** The same for `moment_inequalities`. -/
theorem C62_inequalities_by_moment {E : Env K} (hE : EnvOk E) {s : LpState} {rows : List (Dict Nat Rat)} (h : sparseIneq E s = some rows) :
    ∃ L, inequalitiesByMoment E s = some L ∧
      List.Forall₂ (fun r d => (Dict.keys d).Nodup ∧ (∀ m ∈ Dict.keys d, m ∈ E.monomials) ∧ ∀ y, dictVal d y = dictVal r (columns E y)) rows L := by
  refine ⟨rows.map (rowByMon E), by rw [inequalitiesByMoment, h]; rfl, forall₂_map_self _ _ fun r hr => ?_⟩
  have hir := sparseIneq_inRange hE h r hr
  exact ⟨rowByMon_keys_nodup hE hir, rowByMon_keys_mem hE hir, fun y => rowByMon_val hE hir y⟩

/-! ### The dictionary of arguments -/

theorem rename_exists (vars : List String) (d : Dict String Rat) (h : ∀ x ∈ Dict.keys d, x ∈ vars) : ∃ d', rename (varIdx vars) d = some d' := by
  unfold rename
  have : ∀ (l : Dict String Rat) (acc : Dict Nat Rat), (∀ x ∈ Dict.keys l, x ∈ vars) →
      ∃ d', l.foldl (fun acc t => acc.bind fun a => (Dict.get (varIdx vars) t.1).map fun i => a.set i t.2) (some acc) = some d' := by
    intro l
    induction l with
    | nil => intro acc _; exact ⟨acc, rfl⟩
    | cons t l ih =>
      intro acc hl
      obtain ⟨j, hj⟩ := varIdx_some vars t.1 (hl t.1 (by simp [Dict.keys]))
      rw [List.foldl_cons]
      simp only [Option.bind_some, hj, Option.map_some]
      exact ih _ (fun x hx => hl x (by simp only [Dict.keys, List.map_cons, List.mem_cons]; exact .inr hx))
  exact this d [] h

theorem eqByName_fresh {E : Env K} {s : LpState} (hv : FreshViews E s) {rows : List (Dict Nat Rat)} (h : sparseEq E s = some rows) :
    ∃ c, eqByName E s = (some (rows.map (rowByName E)), { s with cachedEq := c }) := by
  unfold eqByName
  cases hc : s.cachedEq with
  | some c =>
    have := hv.1 c hc
    rw [h] at this
    refine ⟨some c, ?_⟩
    simp only [Option.map_some, Option.some.injEq] at this
    simp only [this]
    congr 1
    cases s
    simp_all
  | none =>
    simp only [h]
    exact ⟨_, rfl⟩

theorem ineqByName_fresh {E : Env K} {s : LpState} (hv : FreshViews E s) {rows : List (Dict Nat Rat)} (h : sparseIneq E s = some rows) :
    ∃ c, ineqByName E s = (some (rows.map (rowByName E)), { s with cachedIneq := c }) := by
  unfold ineqByName
  cases hc : s.cachedIneq with
  | some c =>
    have := hv.2 c hc
    rw [h] at this
    refine ⟨some c, ?_⟩
    simp only [Option.map_some, Option.some.injEq] at this
    simp only [this]
    congr 1
    cases s
    simp_all
  | none =>
    simp only [h]
    exact ⟨_, rfl⟩

/-- What the dictionary consists of. -/
theorem prepare_eq {E : Env K} {s : LpState} (hv : FreshViews E s) {a : Args} (ha : solverArgs E s = some a) :
    ∃ rows irows c c', sparseEq E s = some rows ∧ sparseIneq E s = some irows ∧
      prepareByName E true s = (some ⟨variableNames E (rowByName E a.known), rows.map (rowByName E), semiByName E s, irows.map (rowByName E), rowByName E a.known, rowByName E a.objective,
        rowByName E a.lower, rowByName E a.upper⟩, { s with cachedEq := c, cachedIneq := c' }) := by
  obtain ⟨xe, se, xi, h1, h2, h3, h4, h5, h6, h7, h8, h9⟩ := solverArgs_some E s a ha
  have e1 : sparseEq E s = some (E.minEq ++ xe) := by rw [sparseEq, h1]; rfl
  have e2 : sparseIneq E s = some (E.minIneq ++ xi) := by rw [sparseIneq, h3]; rfl
  obtain ⟨c, hc⟩ := eqByName_fresh hv e1
  have hv' : FreshViews E { s with cachedEq := c } := by
    refine ⟨fun q hq => ?_, hv.2⟩
    have hh := hc
    unfold eqByName at hh
    cases hs : s.cachedEq with
    | some c0 =>
      simp only [hs] at hh
      have h5 : s.cachedEq = c := by
        have := congrArg (fun p => p.2.cachedEq) hh
        exact this
      exact hv.1 q (h5.trans hq)
    | none =>
      simp only [hs, e1] at hh
      have h5 : some ((E.minEq ++ xe).map (rowByName E)) = c := by
        have := congrArg (fun p => p.2.cachedEq) hh
        exact this
      have h6 : some q = some ((E.minEq ++ xe).map (rowByName E)) := hq.symm.trans h5.symm
      show (sparseEq E s).map (·.map (rowByName E)) = some q
      rw [h6, e1]
      rfl
  obtain ⟨c', hc'⟩ := ineqByName_fresh hv' (rows := E.minIneq ++ xi) e2
  refine ⟨_, _, c, c', e1, e2, ?_⟩
  have hk : (s.known.keys.all fun m => decide (m ∈ E.monomials)) = true := by
    rw [List.all_eq_true]
    intro m hm
    exact decide_eq_true (toRow_mem h5 hm)
  unfold prepareByName
  rw [if_pos hk]
  simp only [byName, h4, h5, Option.map_some, hc, hc', h6, h7, if_true]
  rfl

theorem variableNames_mem {E : Env K} {kn : NameRow} {x : String} (h : x ∈ monomialNames E) : x ∈ variableNames E kn := by
  unfold variableNames
  split
  · exact h
  · split
    · exact h
    · exact List.mem_append_left _ h

theorem semi_mem {E : Env K} {s : LpState} {se : List (Dict Nat Rat)} (h : s.semi.mapM (semiRow E) = some se) {t : Mon × Rat × Mon} (ht : t ∈ s.semi) :
    t.1 ∈ E.monomials ∧ t.2.2 ∈ E.monomials := by
  obtain ⟨r, -, hr⟩ := mapM_mem _ _ _ h t ht
  unfold State.semiRow at hr
  simp only [Option.bind_eq_some_iff, Option.map_eq_some_iff] at hr
  obtain ⟨i, hi, j, hj, -⟩ := hr
  rw [← toIdx_some E _ i hi, ← toIdx_some E _ j hj]
  exact ⟨getD_mem (toIdx_lt E hi), getD_mem (toIdx_lt E hj)⟩

theorem semiByName_eq {E : Env K} (hE : EnvOk E) {s : LpState} (hg : s.semi.keys.Nodup) (hm : ∀ t ∈ s.semi, t.1 ∈ E.monomials) :
    semiByName E s = s.semi.map fun t => (nameOf E t.1, t.2.1, nameOf E t.2.2) := by
  have h := foldl_set_eq (fun t : Mon × Rat × Mon => nameOf E t.1) (fun t => (t.2.1, nameOf E t.2.2)) s.semi [] (by
    simp only [Dict.keys, List.map_nil, List.nil_append]
    have e : (s.semi.map fun t => nameOf E t.1) = s.semi.keys.map (nameOf E) := by simp [Dict.keys, Function.comp_def]
    rw [e]
    refine List.Nodup.map_on ?_ hg
    intro x hx y hy exy
    obtain ⟨t, ht, rfl⟩ := List.mem_map.1 hx
    obtain ⟨t', ht', rfl⟩ := List.mem_map.1 hy
    exact hE.names _ (hm t ht) _ (hm t' ht') exy)
  rw [List.nil_append] at h
  exact h

theorem forall_map_iff {α β : Type} (f : α → β) (l : List α) (P : β → Prop) : (∀ b ∈ l.map f, P b) ↔ ∀ a ∈ l, P (f a) := by simp

theorem named_iff {E : Env K} (hE : EnvOk E) {s : LpState} (hg : Good s) {a : Args} (ha : solverArgs E s = some a) {rows irows : List (Dict Nat Rat)} (he : sparseEq E s = some rows)
    (hi : sparseIneq E s = some irows) (vars : List String) (z : String → Rat) :
    NamedFeasible ⟨vars, rows.map (rowByName E), semiByName E s, irows.map (rowByName E), rowByName E a.known, rowByName E a.objective, rowByName E a.lower, rowByName E a.upper⟩ z ↔
      a.Feasible (columns E fun m => z (nameOf E m)) := by
  obtain ⟨xe, se, xi, h1, h2, h3, h4, h5, h6, h7, h8, h9⟩ := solverArgs_some E s a ha
  have e1 : rows = E.minEq ++ xe := by rw [sparseEq, h1] at he; exact (Option.some.inj he).symm
  have e2 : irows = E.minIneq ++ xi := by rw [sparseIneq, h3] at hi; exact (Option.some.inj hi).symm
  have hm : ∀ t ∈ s.semi, t.1 ∈ E.monomials := fun t ht => (semi_mem h2 ht).1
  have kk : (∀ t ∈ rowByName E a.known, z t.1 = t.2) ↔ ∀ t ∈ a.known, columns E (fun m => z (nameOf E m)) t.1 = t.2 :=
    (byName_forall hE h5 hg.known z (fun u v => u = v)).trans ((toRow_spec E _ _ h5 fun m => z (nameOf E m)).2 (fun u v => u = v)).symm
  have kl : (∀ t ∈ rowByName E a.lower, t.2 ≤ z t.1) ↔ ∀ t ∈ a.lower, t.2 ≤ columns E (fun m => z (nameOf E m)) t.1 :=
    (byName_forall hE h6 hg.lower z (fun u v => v ≤ u)).trans ((toRow_spec E _ _ h6 fun m => z (nameOf E m)).2 (fun u v => v ≤ u)).symm
  have ku : (∀ t ∈ rowByName E a.upper, z t.1 ≤ t.2) ↔ ∀ t ∈ a.upper, columns E (fun m => z (nameOf E m)) t.1 ≤ t.2 :=
    (byName_forall hE h7 hg.upper z (fun u v => u ≤ v)).trans ((toRow_spec E _ _ h7 fun m => z (nameOf E m)).2 (fun u v => u ≤ v)).symm
  have ke : (∀ d ∈ rows.map (rowByName E), lin d z = 0) ↔ ∀ r ∈ rows, dictVal r (columns E fun m => z (nameOf E m)) = 0 := by
    rw [forall_map_iff]
    exact forall₂_congr fun r hr => by rw [rowByName_val hE (sparseEq_inRange hE he r hr)]
  have ki : (∀ d ∈ irows.map (rowByName E), 0 ≤ lin d z) ↔ ∀ r ∈ irows, 0 ≤ dictVal r (columns E fun m => z (nameOf E m)) := by
    rw [forall_map_iff]
    exact forall₂_congr fun r hr => by rw [rowByName_val hE (sparseIneq_inRange hE hi r hr)]
  have ks : (∀ t ∈ semiByName E s, z t.1 = t.2.1 * z t.2.2) ↔ ∀ r ∈ se, dictVal r (columns E fun m => z (nameOf E m)) = 0 := by
    rw [semiByName_eq hE hg.semi hm, forall_map_iff, mapM_forall (State.semiRow E) _ _ h2 (fun t => z (nameOf E t.1) = t.2.1 * z (nameOf E t.2.2)) _ ?_]
    intro t _ r hr
    unfold State.semiRow at hr
    simp only [Option.bind_eq_some_iff, Option.map_eq_some_iff] at hr
    obtain ⟨i, hi, j, hj, rfl⟩ := hr
    simp only [dictVal, List.map_cons, List.map_nil, List.sum_cons, List.sum_nil, columns, toIdx_some E _ i hi, toIdx_some E _ j hj]
    constructor <;> intro hh <;> linarith
  constructor
  · rintro ⟨f1, ⟨f2, f3, f4⟩, f5, f6⟩
    have g2 := ke.1 fun d hd => f2 d hd trivial
    have g3 := ks.1 fun d hd => f3 d hd trivial
    have g4 := ki.1 fun d hd => f4 d hd trivial
    refine ⟨kk.1 f1, ?_, ?_, kl.1 f5, ku.1 f6⟩
    · intro r hr
      rw [h8] at hr
      rcases List.mem_append.1 hr with hr | hr
      · exact g2 r (by rw [e1]; exact hr)
      · exact g3 r hr
    · intro r hr
      rw [h9] at hr
      exact g4 r (by rw [e2]; exact hr)
  · intro hf
    refine ⟨kk.2 hf.known, ⟨fun d hd _ => ke.2 (fun r hr => hf.eqs r ?_) d hd, fun t ht _ => ks.2 (fun r hr => hf.eqs r ?_) t ht, fun d hd _ => ki.2 (fun r hr => hf.ineqs r ?_) d hd⟩,
      kl.2 hf.lower, ku.2 hf.upper⟩
    · rw [h8, ← e1]; exact List.mem_append_left _ hr
    · rw [h8]; exact List.mem_append_right _ hr
    · rw [h9, ← e2]; exact hr

theorem variableNames_at {E : Env K} {kn : NameRow} {i : Nat} (h : i < E.monomials.length) : (variableNames E kn)[i]? = some (nameOf E (E.monomials.getD i one)) := by
  have h0 : (monomialNames E)[i]? = some (nameOf E (E.monomials.getD i one)) := by
    rw [List.getD_eq_getElem _ _ h, monomialNames, List.getElem?_map, List.getElem?_eq_getElem h]
    rfl
  unfold variableNames
  split
  · exact h0
  · split
    · exact h0
    · rw [List.getElem?_append_left (by simpa [monomialNames] using h)]
      exact h0

/-- **C62 (the exported problem).** After any history of calls whose stored views are up to date, and whenever the arguments of the solver can be prepared, so can the dictionary handed to the
writers; each of its dictionaries has every key once; all its variables are declared, the `i`-th one being the `i`-th moment; a point satisfies everything in it exactly when it satisfies the recorded
values, relations, constraints and bounds; and its objective is the recorded one. Preparing it does not change the problem. -/
theorem C62_named_problem {E : Env K} (hE : EnvOk E) (solver : Args → SolverOut) (h : List (Call K)) (hv : FreshViews E (run E solver h)) {a : Args}
    (ha : solverArgs E (run E solver h) = some a) :
    ∃ A s', prepareByName E true (run E solver h) = (some A, s') ∧ WellFormed A ∧ (∃ p, processArguments A = some p) ∧
      (∀ i, i < E.monomials.length → A.vars[i]? = some (nameOf E (E.monomials.getD i one))) ∧
      (∀ z, NamedFeasible A z ↔ Satisfies E (run E solver h) fun m => z (nameOf E m)) ∧
      (∀ z, lin A.objective z = dictVal (run E solver h).objective fun m => z (nameOf E m)) ∧
      solverArgs E s' = some a := by
  have hf := fun z : String → Rat => C29_arguments_faithful E solver h a ha (fun m => z (nameOf E m))
  have hg := run_good E solver h
  have hs := run_short E solver h
  generalize run E solver h = s at *
  obtain ⟨xe, se, xi, h1, h2, h3, h4, h5, h6, h7, h8, h9⟩ := solverArgs_some E s a ha
  obtain ⟨rows, irows, c, c', e1, e2, e3⟩ := prepare_eq hv ha
  have hm := fun (t : Mon × Rat × Mon) (ht : t ∈ s.semi) => semi_mem h2 ht
  have er := sparseEq_inRange hE e1
  have ir := sparseIneq_inRange hE e2
  have r5 := toRow_inRange h5
  have r4 := toRow_inRange h4
  have r6 := toRow_inRange h6
  have r7 := toRow_inRange h7
  refine ⟨_, _, e3, ?_, ?_, fun i hi => variableNames_at hi, fun z => (named_iff hE hg ha e1 e2 _ z).trans (hf z), fun z => ?_, ?_⟩
  · refine ⟨?_, ?_, rowByName_keys_nodup hE r5, rowByName_keys_nodup hE r4, rowByName_keys_nodup hE r6, rowByName_keys_nodup hE r7, ?_⟩
    · intro d hd
      obtain ⟨r, hr, rfl⟩ := List.mem_map.1 hd
      exact rowByName_keys_nodup hE (er r hr)
    · intro d hd
      obtain ⟨r, hr, rfl⟩ := List.mem_map.1 hd
      exact rowByName_keys_nodup hE (ir r hr)
    · intro t ht
      rw [semiByName_eq hE hg.semi (fun t ht => (hm t ht).1)] at ht
      obtain ⟨q, hq, rfl⟩ := List.mem_map.1 ht
      intro e
      have := hE.names _ (hm q hq).1 _ (hm q hq).2 e
      have hl := hs q hq
      rw [this] at hl
      exact lt_irrefl _ hl
  · have hin : ∀ {r : Dict Nat Rat}, InRange E r → ∀ x ∈ Dict.keys (rowByName E r), x ∈ variableNames E (rowByName E a.known) :=
      fun hr x hx => variableNames_mem (rowByName_keys_mem hE hr x hx)
    obtain ⟨q1, hq1⟩ := Distinct.mapM_exists (f := rename (varIdx (variableNames E (rowByName E a.known)))) (l := rows.map (rowByName E) ++ (semiByName E s).map Writers.semiRow) (by
      intro d hd
      apply rename_exists
      intro x hx
      rcases List.mem_append.1 hd with hd | hd
      · obtain ⟨r, hr, rfl⟩ := List.mem_map.1 hd
        exact hin (er r hr) x hx
      · obtain ⟨t, ht, rfl⟩ := List.mem_map.1 hd
        rw [semiByName_eq hE hg.semi (fun t ht => (hm t ht).1)] at ht
        obtain ⟨q, hq, rfl⟩ := List.mem_map.1 ht
        unfold Writers.semiRow at hx
        rw [mem_set_keys] at hx
        refine variableNames_mem ?_
        rcases hx with rfl | hx
        · exact List.mem_map_of_mem (hm q hq).2
        · simp only [Dict.keys, List.map_cons, List.map_nil, List.mem_singleton] at hx
          rw [hx]
          exact List.mem_map_of_mem (hm q hq).1)
    obtain ⟨q2, hq2⟩ := Distinct.mapM_exists (f := rename (varIdx (variableNames E (rowByName E a.known)))) (l := irows.map (rowByName E)) (by
      intro d hd
      obtain ⟨r, hr, rfl⟩ := List.mem_map.1 hd
      exact rename_exists _ _ (hin (ir r hr)))
    obtain ⟨q3, hq3⟩ := rename_exists _ _ (hin r5)
    obtain ⟨q4, hq4⟩ := rename_exists _ _ (hin r6)
    obtain ⟨q5, hq5⟩ := rename_exists _ _ (hin r7)
    obtain ⟨q6, hq6⟩ := rename_exists _ _ (hin r4)
    unfold processArguments
    simp only [hq1, hq2, hq3, hq4, hq5, hq6, Option.bind_eq_bind, Option.bind_some]
    exact ⟨_, rfl⟩
  · show lin (rowByName E a.objective) z = _
    rw [rowByName_val hE r4, (toRow_spec E _ _ h4 _).1]
  · rw [← ha]
    exact solverArgs_congr E _ _ rfl rfl rfl rfl rfl rfl rfl

end Verif.Views
