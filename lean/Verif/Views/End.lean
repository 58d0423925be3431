import Verif.Views.Fresh
import Verif.Distinct.Props
import Verif.Sanitise.Props
/-
**C62** and **C39** for every accepted problem: the exported file, read back, against the moments of the program.
-/
namespace Verif.Views
open Verif.Common Verif.Moment Verif.State Verif.Writers Verif.Text Verif.EndToEnd Verif.Distinct Verif.Sanitise Verif.SdpEnd

/-- The names of the atoms of the program. -/
def atomName (I : Input) (names : List Str) (a : Atom) : String := String.ofList (atomText I names a)

variable {I : Input} {names : List Str}

theorem nameOf_text {E : Env Mon} (hE : I.lpEnv (atomName I names) = some E) {m : Mon} (hm : m ∈ I.monomials) : nameOf E m = String.ofList (momentText I names m) := by
  obtain ⟨eqs, ineqs, -, -, -, -, hEE⟩ := lpEnv_some hE
  have hs : sortBy atomLe m = m := columnMoments_sorted _ _ m hm
  have hn : E.info.name = atomName I names := by rw [hEE]
  show joinNames ((sortBy atomLe m).map E.info.name) = _
  rw [hs, hn]
  unfold joinNames momentText
  congr 2
  rw [List.map_map]
  apply List.map_congr_left
  intro a _
  simp [atomName]

/-- The construction guarantees what the views need. -/
theorem env_ok (hI : I.Accepted) (hN : NamesOk I names) {E : Env Mon} (hE : I.lpEnv (atomName I names) = some E) : EnvOk E := by
  obtain ⟨eqs, ineqs, e1, e2, e3, e4, hEE⟩ := lpEnv_some hE
  have hmon : E.monomials = I.monomials := by rw [hEE]
  have hmin : ∀ rows : List (List (Int × Nat)), (∀ row ∈ rows, ∀ t ∈ row, t.2 < I.columns.length) → ∀ r ∈ Input.sparseRows rows, ∀ t ∈ r, t.1 < E.monomials.length := by
    intro rows hr r hrr t ht
    obtain ⟨row, hrow, rfl⟩ := List.mem_map.1 hrr
    obtain ⟨u, hu, rfl⟩ := List.mem_map.1 ht
    rw [hmon, monomials_length]
    exact hr row hrow u hu
  refine ⟨by rw [hmon]; exact e4, ?_, ?_, ?_, by rw [hmon]; exact e3⟩
  · intro m hm m' hm' e
    rw [hmon] at hm hm'
    rw [nameOf_text hE hm, nameOf_text hE hm'] at e
    have hr : Reachable I names [] (generated I names) := .refl
    exact C60_names_differ hI hN hr (C60_monomials_in_table hI hN hr hm) (C60_monomials_in_table hI hN hr hm') (by simpa using congrArg String.toList e)
  · intro r hr
    have : E.minEq = Input.sparseRows eqs := by rw [hEE]
    rw [this] at hr
    exact hmin eqs (Verif.CollinsGisin.equalities_columns e1) r hr
  · intro r hr
    have : E.minIneq = Input.sparseRows ineqs := by rw [hEE]
    rw [this] at hr
    exact hmin ineqs (Verif.CollinsGisin.inequalities_columns e2) r hr

/-- **C62 (for every accepted problem).** For every accepted problem with at most 254 copies of sources and ordinary party names, after every history of calls that mention only moments of the
program and whose stored views are up to date, the dictionary handed to the writers can be prepared, all its variables are declared, the `i`-th being the `i`-th moment, and it has the recorded objective
and the solutions of the recorded problem. -/
theorem C62_export (hI : I.Accepted) (hS : copiesOf I.scenario ≤ 254) (hN : NamesOk I names) {E : Env Mon} (hE : I.lpEnv (atomName I names) = some E) (solver : Args → SolverOut)
    (h : List (Call Mon)) (hh : ∀ c ∈ h, Safe I E c) (hv : FreshViews E (run E solver h)) :
    ∃ A s', prepareByName E true (run E solver h) = (some A, s') ∧ WellFormed A ∧ (∃ p, processArguments A = some p) ∧
      (∀ i, i < I.monomials.length → A.vars[i]? = some (String.ofList (momentText I names (I.monomials.getD i one)))) ∧
      (∀ z, NamedFeasible A z ↔ Satisfies E (run E solver h) fun m => z (nameOf E m)) ∧
      (∀ z, lin A.objective z = dictVal (run E solver h).objective fun m => z (nameOf E m)) := by
  obtain ⟨a, ha, -⟩ := C61_solve_reaches_solver (F := Rat) hI hS hE solver h hh
  obtain ⟨A, s', h1, h2, h3, h4, h5, h6, -⟩ := C62_named_problem (env_ok hI hN hE) solver h hv ha
  have hmon : E.monomials = I.monomials := by
    obtain ⟨eqs, ineqs, -, -, -, -, hEE⟩ := lpEnv_some hE
    rw [hEE]
  refine ⟨A, s', h1, h2, h3, fun i hi => ?_, h5, h6⟩
  rw [h4 i (by rw [hmon]; exact hi), hmon, nameOf_text hE]
  rw [List.getD_eq_getElem _ _ hi]
  exact List.getElem_mem _

/-! ### The file -/

theorem varIdxAux_at {V : Type} [DecidableEq V] (xs : List V) : ∀ (all : List V) (i : Nat) (d : Dict V Nat), (∀ x j, Dict.get d x = some j → all[j]? = some x) → (∀ k, xs[k]? = all[i + k]?) →
    ∀ x j, Dict.get (varIdxAux i d xs) x = some j → all[j]? = some x := by
  induction xs with
  | nil => intro all i d hd _ x j h; exact hd x j h
  | cons a xs ih =>
    intro all i d hd hx x j h
    refine ih all (i + 1) (d.set a i) ?_ ?_ x j h
    · intro x j h
      rw [get_set] at h
      split at h
      · rename_i e
        subst e
        obtain rfl := Option.some.inj h
        have := hx 0
        simpa using this.symm
      · exact hd x j h
    · intro k
      have := hx (k + 1)
      rw [List.getElem?_cons_succ] at this
      rw [this]
      congr 1
      omega

theorem varIdx_at {V : Type} [DecidableEq V] (vars : List V) (x : V) (j : Nat) (h : Dict.get (varIdx vars) x = some j) : vars[j]? = some x :=
  varIdxAux_at vars vars 0 [] (by simp) (by simp) x j h

/-- An assignment to names, from one to moments. -/
def byNames {K : Type} (E : Env K) (y : Mon → Rat) (x : String) : Rat := y ((E.monomials.find? fun m => decide (nameOf E m = x)).getD one)

theorem byNames_spec {K : Type} {E : Env K} (hE : EnvOk E) (y : Mon → Rat) {m : Mon} (hm : m ∈ E.monomials) : byNames E y (nameOf E m) = y m := by
  unfold byNames
  rcases hf : (E.monomials.find? fun m' => decide (nameOf E m' = nameOf E m)) with _ | m'
  · have := List.find?_eq_none.1 hf m hm
    simp at this
  · have h1 := List.mem_of_find?_eq_some hf
    have h2 := List.find?_some hf
    rw [hE.names m' h1 m hm (by simpa using h2)]
    rfl

theorem byNames_constant {K : Type} {E : Env K} (y : Mon → Rat) (h : constantTerm ∉ monomialNames E) : byNames E y constantTerm = y one := by
  unfold byNames
  rw [List.find?_eq_none.2]
  · rfl
  · intro m hm
    simp only [decide_eq_true_eq]
    intro e
    exact h (List.mem_map.2 ⟨m, hm, e⟩)

theorem mem_keys_iff_get {α β : Type} [DecidableEq α] (d : Dict α β) (k : α) : k ∉ Dict.keys d ↔ d.get k = none := by
  rw [get_none]

theorem columns_agree {K : Type} {E : Env K} (hE : EnvOk E) (kn : NameRow) (y : Mon → Rat) (A : WArgs String Rat) (hA : A.vars = variableNames E kn) : Agrees A (byNames E y) (columns E y) := by
  intro x i hx
  rw [hA] at hx
  have hat := varIdx_at _ x i hx
  by_cases hi : i < E.monomials.length
  · rw [variableNames_at hi] at hat
    obtain rfl := Option.some.inj hat
    rw [byNames_spec hE y (getD_mem hi)]
    rfl
  · have hx2 : x = constantTerm ∧ constantTerm ∉ monomialNames E := by
      unfold variableNames at hat
      have hlen : (monomialNames E).length = E.monomials.length := by simp [monomialNames]
      split at hat
      · rw [List.getElem?_eq_none (by omega)] at hat; cases hat
      · split at hat
        · rw [List.getElem?_eq_none (by omega)] at hat; cases hat
        · rename_i hc
          refine ⟨?_, hc⟩
          rw [List.getElem?_append_right (by omega)] at hat
          rcases hk : i - (monomialNames E).length with _ | k
          · rw [hk] at hat
            simpa using hat.symm
          · rw [hk] at hat
            simp at hat
    rw [hx2.1, byNames_constant y hx2.2, columns, List.getD_eq_default _ _ (by omega)]

/-- What the rows of the file say about the moments: the equalities, the proportionalities and the inequalities that involve some moment without a recorded value. -/
structure Written (s : LpState) (eqs ineqs : List (Dict Mon Rat)) (y : Mon → Rat) : Prop where
  eqs : ∀ d ∈ eqs, (∃ m ∈ Dict.keys d, s.known.get m = none) → dictVal d y = 0
  semi : ∀ m c m2, s.semi.get m = some (c, m2) → s.known.get m = none ∨ s.known.get m2 = none → y m = c * y m2
  ineqs : ∀ d ∈ ineqs, (∃ m ∈ Dict.keys d, s.known.get m = none) → 0 ≤ dictVal d y

theorem known_name {K : Type} {E : Env K} (hE : EnvOk E) {d : Dict Mon Rat} {r : Dict Nat Rat} (h : toRow E d = some r) {m : Mon} (hm : m ∈ E.monomials) :
    nameOf E m ∈ Dict.keys (rowByName E r) ↔ m ∈ d.keys := by
  have hir := toRow_inRange h
  have hf := toRow_forall₂ h
  rw [rowByName_eq hE hir]
  simp only [Dict.keys, List.map_map, List.mem_map, Function.comp_def]
  constructor
  · rintro ⟨t, ht, e⟩
    obtain ⟨t', ht', e'⟩ := mem_lilRow_fst ht
    have hm' := hE.names _ (getD_mem (lil_inRange hir t ht)) m hm e
    obtain ⟨q, hq, hqt⟩ := mapM_right (f := fun t : Mon × Rat => (toIdx E t.1).map fun i => (i, t.2)) h ht'
    obtain ⟨i, hi, hit⟩ := Option.map_eq_some_iff.1 hqt
    refine ⟨q, hq, ?_⟩
    have h1 := toIdx_some E _ i hi
    have h2 : i = t.1 := by rw [← e', ← hit]
    rw [← h1, h2]
    exact hm'
  · rintro ⟨q, hq, rfl⟩
    obtain ⟨t, ht, hqt⟩ := mapM_mem _ _ _ h q hq
    obtain ⟨i, hi, hit⟩ := Option.map_eq_some_iff.1 hqt
    have : i ∈ (lilRow r).map Prod.fst := by
      rw [lilRow_keys]
      exact mem_npUnique.2 (List.mem_map.2 ⟨t, ht, by rw [← hit]⟩)
    obtain ⟨u, hu, hui⟩ := List.mem_map.1 this
    exact ⟨u, hu, by rw [hui, toIdx_some E _ i hi]⟩

theorem row_unknown {K : Type} {E : Env K} (hE : EnvOk E) {known : Dict Mon Rat} {kr : Dict Nat Rat} (hk : toRow E known = some kr) {r : Dict Nat Rat} (hr : InRange E r) :
    (∃ x ∈ Dict.keys (rowByName E r), x ∉ Dict.keys (rowByName E kr)) ↔ ∃ m ∈ Dict.keys (rowByMon E r), known.get m = none := by
  rw [rowByName_eq hE hr, rowByMon_eq hE hr]
  simp only [Dict.keys, List.map_map, List.mem_map, Function.comp_def, exists_exists_and_eq_and]
  refine exists_congr fun t => and_congr_right fun ht => ?_
  rw [get_none]
  have := known_name hE hk (getD_mem (lil_inRange hr t ht))
  simp only [Dict.keys, List.mem_map] at this ⊢
  exact not_congr this

/-- **C62 (the file).** Read back, the rows of the exported file hold of the values of the moments, the variable `x{i}` standing for the `i`-th moment of the program, exactly when these values
satisfy every equality, proportionality and inequality of the program that involves some moment without a recorded value.

Missing for the full property: the constraints among recorded values and the bounds, which are not in the file in readable form (C39). -/
theorem C62_file_rows_partial {K : Type} {E : Env K} (hE : EnvOk E) (solver : Args → SolverOut) (h : List (Call K)) (hv : FreshViews E (run E solver h)) {a : Args}
    (ha : solverArgs E (run E solver h) = some a) {fmt : Rat → Str} {num : Str → Option Rat} (hf : Faithful fmt num) (ord : List Nat → List Nat) (hord : ∀ l, (ord l).Perm l)
    (filename : Str) (hn : '\n' ∉ filename) :
    ∃ A s' p rows eqs ineqs, prepareByName E true (run E solver h) = (some A, s') ∧ processArguments A = some p ∧ readRows num (writeToLp fmt ord filename p) = some rows ∧
      equalitiesByMoment E (run E solver h) = some eqs ∧ inequalitiesByMoment E (run E solver h) = some ineqs ∧
      ∀ y : Mon → Rat, (∀ m v, (run E solver h).known.get m = some v → y m = v) → ((∀ r ∈ rows, r.holds (columns E y)) ↔ Written (run E solver h) eqs ineqs y) := by
  obtain ⟨A, s', e0, hwf, ⟨p, hp⟩, -, -, -, -⟩ := C62_named_problem hE solver h hv ha
  have hg := run_good E solver h
  generalize run E solver h = s at *
  obtain ⟨rows, hrows, hiff⟩ := C39_rows_partial hf ord hord filename hn A hwf p hp
  obtain ⟨er, ir, c, c', e1, e2, e3⟩ := prepare_eq hv ha
  obtain ⟨xe, se, xi, h1, h2, h3, h4, h5, h6, h7, h8, h9⟩ := solverArgs_some E s a ha
  have hA : A = ⟨variableNames E (rowByName E a.known), er.map (rowByName E), semiByName E s, ir.map (rowByName E), rowByName E a.known, rowByName E a.objective, rowByName E a.lower,
      rowByName E a.upper⟩ := Option.some.inj (congrArg Prod.fst (e0.symm.trans e3))
  refine ⟨A, s', p, rows, er.map (rowByMon E), ir.map (rowByMon E), e0, hp, hrows, by rw [equalitiesByMoment, e1]; rfl, by rw [inequalitiesByMoment, e2]; rfl, fun y hy => ?_⟩
  have hm := fun (t : Mon × Rat × Mon) (ht : t ∈ s.semi) => semi_mem h2 ht
  have hval : ∀ {r : Dict Nat Rat}, InRange E r → lin (rowByName E r) (byNames E y) = dictVal (rowByMon E r) y := by
    intro r hr
    rw [rowByName_val hE hr, rowByMon_val hE hr]
    unfold dictVal
    congr 1
    apply List.map_congr_left
    intro t ht
    show _ * byNames E y (nameOf E _) = _
    rw [byNames_spec hE y (getD_mem (hr t ht))]
    rfl
  have hw : MeetsKnown A (byNames E y) := by
    rw [hA]
    refine (byName_forall hE h5 hg.known (byNames E y) (fun u v => u = v)).2 fun t ht => ?_
    rw [byNames_spec hE y (toRow_mem h5 (List.mem_map_of_mem ht))]
    exact hy t.1 t.2 ((get_of_mem s.known hg.known t.1 t.2).1 ht)
  rw [hiff (byNames E y) (columns E y) hw (columns_agree hE (rowByName E a.known) y A (by rw [hA]))]
  have kn := fun {r : Dict Nat Rat} (hr : InRange E r) => row_unknown hE h5 hr
  have ks : (∀ t ∈ semiByName E s, (∃ x ∈ [t.1, t.2.2], x ∉ Dict.keys (rowByName E a.known)) → byNames E y t.1 = t.2.1 * byNames E y t.2.2) ↔
      ∀ m c m2, s.semi.get m = some (c, m2) → s.known.get m = none ∨ s.known.get m2 = none → y m = c * y m2 := by
    rw [semiByName_eq hE hg.semi (fun t ht => (hm t ht).1), forall_map_iff]
    have key : ∀ t ∈ s.semi, (((∃ x ∈ [nameOf E t.1, nameOf E t.2.2], x ∉ Dict.keys (rowByName E a.known)) → byNames E y (nameOf E t.1) = t.2.1 * byNames E y (nameOf E t.2.2)) ↔
        (s.known.get t.1 = none ∨ s.known.get t.2.2 = none → y t.1 = t.2.1 * y t.2.2)) := by
      intro t ht
      rw [byNames_spec hE y (hm t ht).1, byNames_spec hE y (hm t ht).2, get_none, get_none]
      simp only [List.mem_cons, List.not_mem_nil, or_false, exists_eq_or_imp, exists_eq_left]
      rw [not_congr (known_name hE h5 (hm t ht).1), not_congr (known_name hE h5 (hm t ht).2)]
    constructor
    · intro hh m c m2 hmc
      have ht := (get_of_mem s.semi hg.semi m (c, m2)).2 hmc
      exact (key _ ht).1 (hh _ ht)
    · intro hh t ht
      exact (key t ht).2 (hh t.1 t.2.1 t.2.2 ((get_of_mem s.semi hg.semi t.1 t.2).1 ht))
  constructor
  · rintro ⟨f1, f2, f3⟩
    rw [hA] at f1 f2 f3
    refine ⟨?_, ks.1 f2, ?_⟩
    · intro d hd hu
      obtain ⟨r, hr, rfl⟩ := List.mem_map.1 hd
      have hir := sparseEq_inRange hE e1 r hr
      rw [← hval hir]
      exact f1 _ (List.mem_map_of_mem hr) (by rw [HasUnknown]; exact (kn hir).2 hu)
    · intro d hd hu
      obtain ⟨r, hr, rfl⟩ := List.mem_map.1 hd
      have hir := sparseIneq_inRange hE e2 r hr
      rw [← hval hir]
      exact f3 _ (List.mem_map_of_mem hr) (by rw [HasUnknown]; exact (kn hir).2 hu)
  · rintro ⟨f1, f2, f3⟩
    rw [hA]
    refine ⟨?_, ks.2 f2, ?_⟩
    · intro d hd hu
      obtain ⟨r, hr, rfl⟩ := List.mem_map.1 hd
      have hir := sparseEq_inRange hE e1 r hr
      rw [hval hir]
      exact f1 _ (List.mem_map_of_mem hr) ((kn hir).1 hu)
    · intro d hd hu
      obtain ⟨r, hr, rfl⟩ := List.mem_map.1 hd
      have hir := sparseIneq_inRange hE e2 r hr
      rw [hval hir]
      exact f3 _ (List.mem_map_of_mem hr) ((kn hir).1 hu)

/-- Every point of the problem satisfies the rows of the file. -/
theorem Written.of_satisfies {K : Type} {E : Env K} (hE : EnvOk E) {s : LpState} {eqs ineqs : List (Dict Mon Rat)} (he : equalitiesByMoment E s = some eqs)
    (hi : inequalitiesByMoment E s = some ineqs) {y : Mon → Rat} (h : Satisfies E s y) : Written s eqs ineqs y := by
  obtain ⟨er, h1, rfl⟩ := Option.map_eq_some_iff.1 he
  obtain ⟨ir, h2, rfl⟩ := Option.map_eq_some_iff.1 hi
  refine ⟨?_, fun m c m2 hm _ => h.semi m c m2 hm, ?_⟩
  · intro d hd _
    obtain ⟨r, hr, rfl⟩ := List.mem_map.1 hd
    rw [rowByMon_val hE (sparseEq_inRange hE h1 r hr)]
    unfold sparseEq at h1
    obtain ⟨xe, hx, rfl⟩ := Option.map_eq_some_iff.1 h1
    rcases List.mem_append.1 hr with hr | hr
    · exact h.minEq r hr
    · obtain ⟨d, hd, hdr⟩ := mapM_right hx hr
      rw [(toRow_spec E d r hdr y).1]
      exact h.extraEq d hd
  · intro d hd _
    obtain ⟨r, hr, rfl⟩ := List.mem_map.1 hd
    rw [rowByMon_val hE (sparseIneq_inRange hE h2 r hr)]
    unfold sparseIneq at h2
    obtain ⟨xi, hx, rfl⟩ := Option.map_eq_some_iff.1 h2
    rcases List.mem_append.1 hr with hr | hr
    · exact h.minIneq r hr
    · obtain ⟨d, hd, hdr⟩ := mapM_right hx hr
      rw [(toRow_spec E d r hdr y).1]
      exact h.extraIneq d hd

/-- **C62 (the file, for every accepted problem).** -/
theorem C62_file_of_accepted_partial (hI : I.Accepted) (hS : copiesOf I.scenario ≤ 254) (hN : NamesOk I names) {E : Env Mon} (hE : I.lpEnv (atomName I names) = some E)
    (solver : Args → SolverOut) (h : List (Call Mon)) (hh : ∀ c ∈ h, Safe I E c) (hv : FreshViews E (run E solver h)) {fmt : Rat → Str} {num : Str → Option Rat} (hf : Faithful fmt num)
    (ord : List Nat → List Nat) (hord : ∀ l, (ord l).Perm l) (filename : Str) (hn : '\n' ∉ filename) :
    ∃ A s' p rows eqs ineqs, prepareByName E true (run E solver h) = (some A, s') ∧ processArguments A = some p ∧ readRows num (writeToLp fmt ord filename p) = some rows ∧
      equalitiesByMoment E (run E solver h) = some eqs ∧ inequalitiesByMoment E (run E solver h) = some ineqs ∧
      (∀ y : Mon → Rat, (∀ m v, (run E solver h).known.get m = some v → y m = v) → ((∀ r ∈ rows, r.holds (columns E y)) ↔ Written (run E solver h) eqs ineqs y)) ∧
      ∀ y : Mon → Rat, Satisfies E (run E solver h) y → ∀ r ∈ rows, r.holds (columns E y) := by
  obtain ⟨a, ha, -⟩ := C61_solve_reaches_solver (F := Rat) hI hS hE solver h hh
  obtain ⟨A, s', p, rows, eqs, ineqs, h1, h2, h3, h4, h5, h6⟩ := C62_file_rows_partial (env_ok hI hN hE) solver h hv ha hf ord hord filename hn
  exact ⟨A, s', p, rows, eqs, ineqs, h1, h2, h3, h4, h5, h6, fun y hy => (h6 y hy.known).2 (Written.of_satisfies (env_ok hI hN hE) h4 h5 hy)⟩

/-- The name `constant_term` is not that of a moment. -/
theorem no_constant (hI : I.Accepted) (hN : NamesOk I names) {E : Env Mon} (hE : I.lpEnv (atomName I names) = some E) : constantTerm ∉ monomialNames E := by
  intro hc
  obtain ⟨m, hm, e⟩ := List.mem_map.1 hc
  have hmon : E.monomials = I.monomials := by
    obtain ⟨eqs, ineqs, -, -, -, -, hEE⟩ := lpEnv_some hE
    rw [hEE]
  rw [hmon] at hm
  rw [nameOf_text hE hm] at e
  have hr : Reachable I names [] (generated I names) := .refl
  obtain ⟨i1, -⟩ := reachable_inv hI hN hr
  have h1 := i1.text m (C60_monomials_in_table hI hN hr hm)
  have e' : momentText I names m = constantName := by
    have h2 := congrArg String.toList e
    have h3 : constantTerm.toList = constantName := by decide
    rw [h3] at h2
    simpa using h2
  rw [e', i1.constant] at h1
  obtain rfl := (Option.some.inj h1).symm
  rw [momentText_nil] at e'
  revert e'
  decide

/-- **C62 (the rectification has no effect).** The lines of `_prepare_solver_arguments` meant for problems without a known unit add a variable `constant_term` to every exported problem, and nothing
else: it has no value, and no constraint, bound or objective mentions it. -/
theorem C62_rectification_adds_free_variable (hI : I.Accepted) (hN : NamesOk I names) {E : Env Mon} (hE : I.lpEnv (atomName I names) = some E) {s : LpState} (hv : FreshViews E s) {a : Args}
    (ha : solverArgs E s = some a) {A : WArgs String Rat} {s' : LpState} (hA : prepareByName E true s = (some A, s')) :
    A.vars = monomialNames E ++ [constantTerm] ∧ constantTerm ∉ Dict.keys A.known ∧ constantTerm ∉ Dict.keys A.objective ∧ constantTerm ∉ Dict.keys A.lower ∧
      constantTerm ∉ Dict.keys A.upper ∧ (∀ d ∈ A.equalities, constantTerm ∉ Dict.keys d) ∧ ∀ d ∈ A.inequalities, constantTerm ∉ Dict.keys d := by
  have hO := env_ok hI hN hE
  have hc := no_constant hI hN hE
  obtain ⟨er, ir, c, c', e1, e2, e3⟩ := prepare_eq hv ha
  obtain ⟨xe, se, xi, h1, h2, h3, h4, h5, h6, h7, h8, h9⟩ := solverArgs_some E s a ha
  obtain rfl := Option.some.inj (congrArg Prod.fst (hA.symm.trans e3))
  have key : ∀ {r : Dict Nat Rat}, InRange E r → constantTerm ∉ Dict.keys (rowByName E r) := fun hr hm => hc (rowByName_keys_mem hO hr _ hm)
  refine ⟨?_, key (toRow_inRange h5), key (toRow_inRange h4), key (toRow_inRange h6), key (toRow_inRange h7), ?_, ?_⟩
  · show variableNames E _ = _
    unfold variableNames
    rw [if_neg (key (toRow_inRange h5)), if_neg hc]
  · intro d hd
    obtain ⟨r, hr, rfl⟩ := List.mem_map.1 hd
    exact key (sparseEq_inRange hO e1 r hr)
  · intro d hd
    obtain ⟨r, hr, rfl⟩ := List.mem_map.1 hd
    exact key (sparseIneq_inRange hO e2 r hr)

/-! ### Bounds absorbed into the inequalities, by name -/

/-- The bounded moments other than the unit: the by-name inequality says the bound. -/
theorem absorbed_row {K : Type} (E : Env K) (m : Mon) (hm : nameOf E m ≠ "1") (sign v : Rat) (z : String → Rat) (hz : z "1" = 1) :
    lin (Dict.set [(nameOf E m, sign)] "1" (-sign * v)) z = sign * (z (nameOf E m) - v) := by
  have : Dict.set [(nameOf E m, sign)] "1" (-sign * v) = [(nameOf E m, sign), ("1", -sign * v)] := by
    simp [Dict.set, hm]
  rw [this]
  simp only [lin, List.map_cons, List.map_nil, List.sum_cons, List.sum_nil, hz]
  ring

/-- **C62 (absorbed bounds, by name).** With `separate_bounds=False`, if no bound is on the unit moment, the dictionary by name has the solutions of the recorded problem among the points giving 1 to
the unit.

Missing for the full property: bounds on the unit, for which it is false (`C62_false_absorbed_unit_bound`). -/
theorem C62_absorbed_bounds_by_name_partial {K : Type} {E : Env K} (hE : EnvOk E) (solver : Args → SolverOut) (h : List (Call K)) (hv : FreshViews E (run E solver h)) {a : Args}
    (ha : solverArgs E (run E solver h) = some a) (hl : one ∉ (run E solver h).lower.keys) (hu : one ∉ (run E solver h).upper.keys) :
    ∃ A s', prepareByName E false (run E solver h) = (some A, s') ∧
      ∀ z : String → Rat, z "1" = 1 → (NamedFeasible A z ↔ Satisfies E (run E solver h) fun m => z (nameOf E m)) := by
  have hf := fun z : String → Rat => C29_arguments_faithful E solver h a ha (fun m => z (nameOf E m))
  have hg := run_good E solver h
  generalize run E solver h = s at *
  obtain ⟨er, ir, c, c', e1, e2, e3⟩ := prepare_eq hv ha
  obtain ⟨xe, se, xi, h1, h2, h3, h4, h5, h6, h7, h8, h9⟩ := solverArgs_some E s a ha
  have hagree := prepare_agrees E true s e3
  have hq : prepareByName E false s = (some ⟨variableNames E (rowByName E a.known), er.map (rowByName E), semiByName E s,
      ir.map (rowByName E) ++ (s.lower.map fun t => Dict.set [(nameOf E t.1, (1 : Rat))] "1" (-t.2)) ++ (s.upper.map fun t => Dict.set [(nameOf E t.1, (-1 : Rat))] "1" t.2),
      rowByName E a.known, rowByName E a.objective, [], []⟩,
      { s with cachedEq := c, cachedIneq := some (ir.map (rowByName E) ++ (s.lower.map fun t => Dict.set [(nameOf E t.1, (1 : Rat))] "1" (-t.2)) ++
        (s.upper.map fun t => Dict.set [(nameOf E t.1, (-1 : Rat))] "1" t.2)) }) := by
    have hk : (s.known.keys.all fun m => decide (m ∈ E.monomials)) = true := by
      rw [List.all_eq_true]
      intro m hm
      exact decide_eq_true (toRow_mem h5 hm)
    unfold argsByName at hagree
    rcases he : eqByName E s with ⟨o1, s1⟩
    rw [he] at hagree
    simp only [if_true, Prod.mk.injEq] at hagree
    obtain ⟨g1, g2, g3⟩ := hagree
    have hi : ineqByName E s1 = (some (ir.map (rowByName E)), { s with cachedEq := c, cachedIneq := c' }) := Prod.ext g2 g3
    unfold prepareByName
    rw [if_pos hk]
    simp only [byName, h4, h5, Option.map_some, he, g1, hi, Bool.false_eq_true, if_false]
    rfl
  refine ⟨_, _, hq, fun z hz => ?_⟩
  rw [← hf z, ← named_iff hE hg ha e1 e2 (variableNames E (rowByName E a.known)) z]
  have hone : one ∈ E.monomials := List.mem_of_head? hE.unit
  have n1 : nameOf E one = "1" := by
    show joinNames [] = "1"
    decide
  have ne : ∀ {d : Dict Mon Rat} {r : Dict Nat Rat}, toRow E d = some r → one ∉ d.keys → ∀ t ∈ d, nameOf E t.1 ≠ "1" := by
    intro d r hr ho t ht e
    have := hE.names _ (toRow_mem hr (List.mem_map_of_mem ht)) one hone (e.trans n1.symm)
    exact ho (this ▸ List.mem_map_of_mem ht)
  have kl : (∀ d ∈ (s.lower.map fun t => Dict.set [(nameOf E t.1, (1 : Rat))] "1" (-t.2)), 0 ≤ lin d z) ↔ ∀ t ∈ rowByName E a.lower, t.2 ≤ z t.1 := by
    rw [forall_map_iff, byName_forall hE h6 hg.lower z (fun u v => v ≤ u)]
    refine forall₂_congr fun t ht => ?_
    have := absorbed_row E t.1 (ne h6 hl t ht) 1 t.2 z hz
    rw [neg_one_mul] at this
    rw [this]
    constructor <;> intro h <;> linarith
  have ku : (∀ d ∈ (s.upper.map fun t => Dict.set [(nameOf E t.1, (-1 : Rat))] "1" t.2), 0 ≤ lin d z) ↔ ∀ t ∈ rowByName E a.upper, z t.1 ≤ t.2 := by
    rw [forall_map_iff, byName_forall hE h7 hg.upper z (fun u v => u ≤ v)]
    refine forall₂_congr fun t ht => ?_
    have := absorbed_row E t.1 (ne h7 hu t ht) (-1) t.2 z hz
    rw [neg_neg, one_mul] at this
    rw [this]
    constructor <;> intro h <;> linarith
  constructor
  · rintro ⟨f1, ⟨f2, f3, f4⟩, -, -⟩
    refine ⟨f1, ⟨f2, f3, fun d hd _ => f4 d (by simp only [List.mem_append]; exact .inl (.inl hd)) trivial⟩, kl.1 fun d hd => f4 d ?_ trivial, ku.1 fun d hd => f4 d ?_ trivial⟩
    · simp only [List.mem_append]; exact .inl (.inr hd)
    · simp only [List.mem_append]; exact .inr hd
  · rintro ⟨f1, ⟨f2, f3, f4⟩, f5, f6⟩
    refine ⟨f1, ⟨f2, f3, fun d hd _ => ?_⟩, by intro t ht; simp at ht, by intro t ht; simp at ht⟩
    simp only [List.mem_append] at hd
    rcases hd with (hd | hd) | hd
    · exact f4 d hd trivial
    · exact kl.2 f5 d hd
    · exact ku.2 f6 d hd

end Verif.Views
