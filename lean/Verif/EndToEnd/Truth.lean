import Verif.EndToEnd.TruthSpec
/-!
If everything a user says is true of some assignment of values, that assignment satisfies the problem given to the solver.
-/
namespace Verif.EndToEnd
open Verif.Common Verif.Moment Verif.State

variable {K F : Type} [Field F] [LinearOrder F] [IsStrictOrderedRing F]

omit [LinearOrder F] [IsStrictOrderedRing F] in
theorem valF_perm (val : Atom → F) {m m' : Mon} (h : m.Perm m') : valF val m = valF val m' := (h.map val).prod_eq

theorem prod_splitF (l : List Atom) (p : Atom → Bool) (val : Atom → F) :
    (l.map val).prod = ((l.filter p).map val).prod * ((l.filter fun a => !p a).map val).prod := by
  induction l with
  | nil => simp
  | cons a l ih =>
    cases h : p a with
    | true => simp [h, ih, mul_assoc]
    | false => simp [h, ih, mul_left_comm]

/-- The returned value is the product of the known factors, and the moment is that times the remainder. -/
theorem evaluate_soundF (I : AtomInfo) (ms : List Atom) (known : Atom → Option Rat) (lpi : Bool) (val : Atom → F) (h : ∀ f v, known f = some v → val f = ((v : Rat) : F)) :
    (((evaluate (compound I ms) known lpi).1 : Rat) : F) = valF val (ms.filter fun f => (known f).isSome) ∧
    valF val ms = (((evaluate (compound I ms) known lpi).1 : Rat) : F) * valF val (evaluate (compound I ms) known lpi).2.1 := by
  obtain ⟨e1, e2⟩ := evaluate_eq I ms known lpi
  have h1 : (((evaluate (compound I ms) known lpi).1 : Rat) : F) = valF val (ms.filter fun f => (known f).isSome) := by
    rw [e1]
    unfold valF
    have : ∀ l : List Atom, (∀ f ∈ l, (known f).isSome = true) → ((((l.map fun f => (known f).getD 0).prod : Rat)) : F) = (l.map val).prod := by
      intro l
      induction l with
      | nil => intro _; simp
      | cons f l ih =>
        intro hl
        obtain ⟨v, hv⟩ := Option.isSome_iff_exists.1 (hl f (List.mem_cons_self ..))
        rw [List.map_cons, List.prod_cons, List.map_cons, List.prod_cons, Rat.cast_mul, ih fun g hg => hl g (List.mem_cons_of_mem _ hg), h f v hv, hv]
        rfl
    exact this _ fun f hf => (List.mem_filter.1 hf).2
  refine ⟨h1, ?_⟩
  rw [h1, valF_perm val e2]
  have := prod_splitF ms (fun f => (known f).isSome) val
  unfold valF
  rw [this]
  congr 3
  apply List.filter_congr
  intro f _
  cases known f <;> rfl

/-- Everything recorded is true. -/
structure Holds (val : Atom → F) (s : LpState) : Prop where
  known : ∀ m v, s.known.get m = some v → valF val m = ((v : Rat) : F)
  semi : ∀ m c m2, s.semi.get m = some (c, m2) → valF val m = ((c : Rat) : F) * valF val m2
  lower : ∀ m v, s.lower.get m = some v → ((v : Rat) : F) ≤ valF val m
  upper : ∀ m v, s.upper.get m = some v → valF val m ≤ ((v : Rat) : F)
  extraEq : ∀ d ∈ s.extraEq, dictValF d (valF val) = 0
  extraIneq : ∀ d ∈ s.extraIneq, 0 ≤ dictValF d (valF val)

omit [IsStrictOrderedRing F] in
theorem Holds.congr {val : Atom → F} {s s' : LpState} (h : Holds val s) (h1 : s'.known = s.known) (h2 : s'.semi = s.semi) (h3 : s'.lower = s.lower) (h4 : s'.upper = s.upper)
    (h5 : s'.extraEq = s.extraEq) (h6 : s'.extraIneq = s.extraIneq) : Holds val s' :=
  ⟨by rw [h1]; exact h.known, by rw [h2]; exact h.semi, by rw [h3]; exact h.lower, by rw [h4]; exact h.upper, by rw [h5]; exact h.extraEq, by rw [h6]; exact h.extraIneq⟩

theorem update_bounds (E : Env K) (hE : E.supports = false) (v : List (K × Option Rat)) (lpi o : Bool) (s : LpState) :
    (updateValues E v lpi o s).lower = s.lower ∧ (updateValues E v lpi o s).upper = s.upper := by
  unfold updateValues cleanup
  cases hv : v.isEmpty <;> cases o <;> simp [resetSolution, hE]

theorem update_holds (E : Env K) (hE : E.supports = false) (val : Atom → F) (s : LpState) (v : List (K × Option Rat)) (lpi o : Bool) (hg : Good s) (hs : Holds val s)
    (hv : ∀ t ∈ v, ∀ x, t.2 = some x → valF val (E.san t.1) = ((x : Rat) : F)) (hl : lpi = true → NoTiny E val) : Holds val (updateValues E v lpi o s) := by
  have hat : ∀ a x, (assignValues E v s.known).get [a] = some x → val a = ((x : Rat) : F) := by
    intro a x hx
    rw [assign_get] at hx
    rcases hlv : lastValue E v [a] with _ | z
    · rw [hlv] at hx
      have := hs.known [a] x (by simpa using hx)
      simpa [valF] using this
    · rw [hlv] at hx
      have : z = x := by simpa using hx
      subst this
      obtain ⟨t, ht, e1, e2⟩ := lastValue_some E v [a] z hlv
      have := hv t ht z e2
      rw [e1] at this
      simpa [valF] using this
  refine ⟨?_, ?_, ?_, ?_, ?_, ?_⟩
  · intro m x hx
    rcases update_known E hE v lpi o s hg m x hx with (h1 | ⟨t, ht, e1, e2⟩) | ⟨_, hm, hk, rfl⟩
    · exact hs.known m x h1
    · have := hv t ht x e2
      rwa [e1] at this
    · obtain ⟨e1, e2⟩ := evaluate_soundF E.info m (fun a => (assignValues E v s.known).get [a]) lpi val hat
      rcases (C25_status E.info m (fun a => (assignValues E v s.known).get [a]) lpi).1.1 hk with h4 | ⟨h4, _, h5⟩
      · rw [e1]
        congr 1
        exact (List.filter_eq_self.2 h4).symm
      · have hz : (((evaluate (compound E.info m) (fun a => (assignValues E v s.known).get [a]) lpi).1 : Rat) : F) = 0 := by
          rw [e1]
          apply hl h4 m hm _ List.filter_sublist
          rw [← e1, ← Rat.cast_abs]
          exact Rat.cast_le.2 h5.2
        rw [e2, hz, zero_mul]
  · intro m x m2 hx
    rcases update_semi E hE v lpi o s hg m x m2 hx with h1 | ⟨_, _, rfl, rfl⟩
    · exact hs.semi m x m2 h1
    · rw [valF_perm val (sortBy_perm atomLe _)]
      exact (evaluate_soundF E.info m _ lpi val hat).2
  · rw [(update_bounds E hE v lpi o s).1]; exact hs.lower
  · rw [(update_bounds E hE v lpi o s).2]; exact hs.upper
  · rw [(update_extra E v lpi o s).1]; exact hs.extraEq
  · rw [(update_extra E v lpi o s).2]; exact hs.extraIneq

omit [IsStrictOrderedRing F] in
theorem resetValues_holds (val : Atom → F) (s : LpState) (hs : Holds val s) : Holds val (resetValues s) := by
  refine ⟨?_, ?_, hs.lower, hs.upper, ?_, ?_⟩
  · intro m x hx
    simp only [resetValues, get_cons, get_nil] at hx
    split at hx
    · rename_i hm
      simp only [Option.some.injEq] at hx
      subst hx
      rw [← hm]
      simp [valF, one]
    · simp at hx
  · intro m c m2 hx
    simp [resetValues] at hx
  · intro d hd
    simp [resetValues] at hd
  · intro d hd
    simp [resetValues] at hd

omit [IsStrictOrderedRing F] in
theorem cleanup_holds (E : Env K) (hE : E.supports = false) (val : Atom → F) (s : LpState) (hg : Good s) (hs : Holds val s) : Holds val (cleanup E s) := by
  refine ⟨?_, ?_, ?_, ?_, ?_, ?_⟩
  · rw [cleanup_known_ns E hE]; exact hs.known
  · intro m c m2 hx
    rw [cleanup_semi_get E hE s hg.semi] at hx
    split at hx
    · simp at hx
    · exact hs.semi m c m2 hx
  · have : (cleanup E s).lower = s.lower := by simp [cleanup, hE]
    rw [this]; exact hs.lower
  · have : (cleanup E s).upper = s.upper := by simp [cleanup, hE]
    rw [this]; exact hs.upper
  · have : (cleanup E s).extraEq = s.extraEq := by simp [cleanup, hE]
    rw [this]; exact hs.extraEq
  · have : (cleanup E s).extraIneq = s.extraIneq := by simp [cleanup, hE]
    rw [this]; exact hs.extraIneq

theorem setValues_holds (E : Env K) (hE : E.supports = false) (val : Atom → F) (s : LpState) (v : List (K × Option Rat)) (lpi o : Bool) (hg : Good s) (hs : Holds val s)
    (hv : ∀ t ∈ v, ∀ x, t.2 = some x → valF val (E.san t.1) = ((x : Rat) : F)) (hl : lpi = true → NoTiny E val) : Holds val (setValues E v lpi o s) := by
  unfold setValues
  dsimp only
  split
  · exact cleanup_holds E hE val _ (resetValues_good s hg) (resetValues_holds val s hs)
  · exact update_holds E hE val _ v lpi o (resetValues_good s hg) (resetValues_holds val s hs) hv hl

omit [Field F] [LinearOrder F] [IsStrictOrderedRing F] in
theorem sanitiseBounds_all (E : Env K) (P : Mon → Rat → Prop) (l : List (K × Rat)) (d d' : Dict Mon Rat) (hl : ∀ t ∈ l, P (E.san t.1) t.2) (hd : ∀ m v, d.get m = some v → P m v)
    (hs : sanitiseBounds E l d = some d') : ∀ m v, d'.get m = some v → P m v := by
  induction l generalizing d with
  | nil => simp only [sanitiseBounds, Option.some.injEq] at hs; rw [← hs]; exact hd
  | cons t l ih =>
    obtain ⟨k, w⟩ := t
    unfold sanitiseBounds at hs
    split at hs
    · refine ih _ (fun t ht => hl t (List.mem_cons_of_mem _ ht)) ?_ hs
      intro m v hm
      rw [get_set] at hm
      split at hm
      · rename_i e
        simp only [Option.some.injEq] at hm
        rw [← e, ← hm]
        exact hl _ (List.mem_cons_self ..)
      · exact hd m v hm
    · split at hs
      · exact ih _ (fun t ht => hl t (List.mem_cons_of_mem _ ht)) hd hs
      · simp at hs

omit [LinearOrder F] [IsStrictOrderedRing F] in
theorem dictValF_set [CharZero F] (d : Dict Mon Rat) (m : Mon) (v : Rat) (y : Mon → F) :
    dictValF (d.set m ((d.get m).getD 0 + v)) y = dictValF d y + ((v : Rat) : F) * y m := by
  have hc : ∀ (p : Mon × Rat) (l : Dict Mon Rat), dictValF (p :: l) y = ((p.2 : Rat) : F) * y p.1 + dictValF l y := fun p l => by simp [dictValF]
  induction d with
  | nil => simp [Dict.set, dictValF]
  | cons t d ih =>
    obtain ⟨a, b⟩ := t
    by_cases e : a = m
    · subst e
      simp only [Dict.set, if_true, get_cons, Option.getD_some]
      rw [hc, hc]
      push_cast
      ring
    · simp only [Dict.set, e, if_false, get_cons]
      rw [hc, hc, ih]
      ring

theorem sanitise_valF (E : Env K) (d : List (K × Rat)) (y : Mon → F) (h0 : ∀ t ∈ d, isClose0 t.2 = true → t.2 = 0) : dictValF (sanitiseDict E d) y = userValF E d y := by
  unfold sanitiseDict
  have key : ∀ out : Dict Mon Rat, dictValF (d.foldl (fun out t => if isClose0 t.2 then out else out.set (E.san t.1) ((out.get (E.san t.1)).getD 0 + t.2)) out) y =
      dictValF out y + userValF E d y := by
    induction d with
    | nil => intro out; simp [userValF]
    | cons t d ih =>
      intro out
      rw [List.foldl_cons, ih fun t ht => h0 t (List.mem_cons_of_mem _ ht)]
      have hu : userValF E (t :: d) y = ((t.2 : Rat) : F) * y (E.san t.1) + userValF E d y := by simp [userValF]
      rw [hu]
      by_cases h : isClose0 t.2 = true
      · rw [if_pos h, h0 t (List.mem_cons_self ..) h]
        simp
      · rw [if_neg h, dictValF_set, add_assoc]
  have := key []
  simpa [dictValF] using this

theorem step_holds (E : Env K) (hE : E.supports = false) (solver : Args → SolverOut) (val : Atom → F) (s : LpState) (c : Call K) (hc : CallTrue E val c) (hg : Good s)
    (hs : Holds val s) : Holds val (step E solver s c) := by
  cases c with
  | setValues v lpi o => exact setValues_holds E hE val s v lpi o hg hs hc.1 hc.2
  | updateValues v lpi o => exact update_holds E hE val s v lpi o hg hs hc.1 hc.2
  | setObjective o m => cases o <;> exact hs.congr rfl rfl rfl rfl rfl rfl
  | setLower b =>
    have hr : Holds val (resetLower s) := ⟨hs.known, hs.semi, by intro m v h; simp [resetLower] at h, hs.upper, hs.extraEq, hs.extraIneq⟩
    show Holds val (setLower E b s)
    unfold setLower
    split
    · exact hr
    · rename_i l
      split
      · rename_i d hd
        exact ⟨hs.known, hs.semi, sanitiseBounds_all E (fun m v => ((v : Rat) : F) ≤ valF val m) l [] d hc (by simp) hd, hs.upper, hs.extraEq, hs.extraIneq⟩
      · exact hr
  | setUpper b =>
    have hr : Holds val (resetUpper s) := ⟨hs.known, hs.semi, hs.lower, by intro m v h; simp [resetUpper] at h, hs.extraEq, hs.extraIneq⟩
    show Holds val (setUpper E b s)
    unfold setUpper
    split
    · exact hr
    · rename_i l
      split
      · rename_i d hd
        exact ⟨hs.known, hs.semi, hs.lower, sanitiseBounds_all E (fun m v => valF val m ≤ ((v : Rat) : F)) l [] d hc (by simp) hd, hs.extraEq, hs.extraIneq⟩
      · exact hr
  | setExtraEq l =>
    refine ⟨hs.known, hs.semi, hs.lower, hs.upper, ?_, hs.extraIneq⟩
    intro d hd
    obtain ⟨u, hu, rfl⟩ := List.mem_map.1 hd
    rw [sanitise_valF E u _ (hc u hu).2]
    exact (hc u hu).1
  | setExtraIneq l =>
    refine ⟨hs.known, hs.semi, hs.lower, hs.upper, hs.extraEq, ?_⟩
    intro d hd
    obtain ⟨u, hu, rfl⟩ := List.mem_map.1 hd
    rw [sanitise_valF E u _ (hc u hu).2]
    exact (hc u hu).1
  | reset w =>
    have hlo : ∀ m v, Dict.get ([] : Dict Mon Rat) m = some v → ((v : Rat) : F) ≤ valF val m := by intro m v h; simp at h
    have hup : ∀ m v, Dict.get ([] : Dict Mon Rat) m = some v → valF val m ≤ ((v : Rat) : F) := by intro m v h; simp at h
    cases w with
    | all =>
      have := resetValues_holds val s hs
      exact ⟨this.known, this.semi, hlo, hup, this.extraEq, this.extraIneq⟩
    | bounds => exact ⟨hs.known, hs.semi, hlo, hup, hs.extraEq, hs.extraIneq⟩
    | lowerbounds => exact ⟨hs.known, hs.semi, hlo, hs.upper, hs.extraEq, hs.extraIneq⟩
    | upperbounds => exact ⟨hs.known, hs.semi, hs.lower, hup, hs.extraEq, hs.extraIneq⟩
    | objective => exact hs.congr rfl rfl rfl rfl rfl rfl
    | values => exact resetValues_holds val s hs
  | solve =>
    show Holds val (solve E solver s)
    unfold solve
    split
    · exact hs
    · exact hs.congr rfl rfl rfl rfl rfl rfl
  | readEqByName =>
    obtain ⟨c, hc⟩ := eqByName_fst E s
    show Holds val (eqByName E s).2
    rw [hc]; exact hs.congr rfl rfl rfl rfl rfl rfl
  | readIneqByName =>
    obtain ⟨c, hc⟩ := ineqByName_fst E s
    show Holds val (ineqByName E s).2
    rw [hc]; exact hs.congr rfl rfl rfl rfl rfl rfl
  | prepareArguments b =>
    obtain ⟨c, c', hc⟩ := argsByName_fst E b s
    show Holds val (argsByName E b s).2.2
    rw [hc]; exact hs.congr rfl rfl rfl rfl rfl rfl

theorem run_holds (E : Env K) (hE : E.supports = false) (solver : Args → SolverOut) (val : Atom → F) (h : List (Call K)) (hc : ∀ c ∈ h, CallTrue E val c) :
    Holds val (run E solver h) := by
  have key := fold_induction E solver (fun s => Good s ∧ Holds val s) (fun c => CallTrue E val c) ?_ h hc (init E) ?_
  · exact key.2
  · rintro s c hq ⟨hg, hs⟩
    exact ⟨step_good E solver s c hg, step_holds E hE solver val s c hq hg hs⟩
  · refine ⟨init_good E, setValues_holds E hE val _ [] false false ?_ ?_ (by simp) (by simp)⟩
    · exact ⟨by simp [setObjective, resetObjective, resetSolution, setUpper, resetUpper, setLower, resetLower, Dict.keys],
      by simp [setObjective, resetObjective, resetSolution, setUpper, resetUpper, setLower, resetLower, Dict.keys],
      by simp [setObjective, resetObjective, resetSolution, setUpper, resetUpper, setLower, resetLower, Dict.keys],
      by simp [setObjective, resetObjective, resetSolution, setUpper, resetUpper, setLower, resetLower, Dict.keys]⟩
    · refine ⟨?_, ?_, ?_, ?_, ?_, ?_⟩ <;> simp [setObjective, resetObjective, resetSolution, setUpper, resetUpper, setLower, resetLower]

/-- The values of the variables. -/
def columnsF (E : Env K) (y : Mon → F) (i : Nat) : F := y (E.monomials.getD i one)

omit [LinearOrder F] [IsStrictOrderedRing F] in
theorem toRow_specF (E : Env K) (d : Dict Mon Rat) (r : Dict Nat Rat) (h : toRow E d = some r) (y : Mon → F) :
    dictValF r (columnsF E y) = dictValF d y ∧ (∀ P : F → Rat → Prop, (∀ t ∈ r, P (columnsF E y t.1) t.2) ↔ ∀ t ∈ d, P (y t.1) t.2) := by
  unfold toRow at h
  induction d generalizing r with
  | nil =>
    simp only [List.mapM_nil, Option.pure_def, Option.some.injEq] at h
    subst h
    simp [dictValF]
  | cons t d ih =>
    obtain ⟨m, v⟩ := t
    rw [List.mapM_cons] at h
    simp only [Option.bind_eq_bind, Option.bind_eq_some_iff, Option.pure_def, Option.some.injEq, Option.map_eq_some_iff] at h
    obtain ⟨p, ⟨i, hi, rfl⟩, r', hr', rfl⟩ := h
    obtain ⟨e1, e2⟩ := ih r' hr'
    have hm := toIdx_some E m i hi
    have hy : columnsF E y i = y m := by rw [columnsF, hm]
    constructor
    · have : dictValF ((i, v) :: r') (columnsF E y) = ((v : Rat) : F) * columnsF E y i + dictValF r' (columnsF E y) := by simp [dictValF]
      rw [this, e1, hy]
      simp [dictValF]
    · intro P
      simp only [List.mem_cons, forall_eq_or_imp, hy, e2 P]

/-- If the recorded data and the generated rows hold for the values `val`, they solve the problem given to the solver. -/
theorem args_feasible (E : Env K) (s : LpState) (hg : Good s) (val : Atom → F) (hs : Holds val s) (a : Args) (ha : solverArgs E s = some a)
    (hme : ∀ r ∈ E.minEq, dictValF r (columnsF E (valF val)) = 0) (hmi : ∀ r ∈ E.minIneq, 0 ≤ dictValF r (columnsF E (valF val))) :
    FeasibleIn a (columnsF E (valF val)) := by
  obtain ⟨xe, se, xi, h1, h2, h3, _, h5, h6, h7, h8, h9⟩ := solverArgs_some E s a ha
  refine ⟨?_, ?_, ?_, ?_, ?_⟩
  · rw [(toRow_specF E _ _ h5 (valF val)).2 (fun u v => u = ((v : Rat) : F))]
    exact fun t ht => hs.known t.1 t.2 ((get_of_mem s.known hg.known t.1 t.2).1 ht)
  · rw [h8]
    intro r hr
    rcases List.mem_append.1 hr with hr | hr
    · rcases List.mem_append.1 hr with hr | hr
      · exact hme r hr
      · exact (mapM_forall (toRow E) _ _ h1 (fun d => dictValF d (valF val) = 0) (fun r => dictValF r (columnsF E (valF val)) = 0)
          (fun d _ r hr => by rw [(toRow_specF E d r hr (valF val)).1])).2 hs.extraEq r hr
    · refine (mapM_forall (semiRow E) _ _ h2 (fun t => valF val t.1 = ((t.2.1 : Rat) : F) * valF val t.2.2) (fun r => dictValF r (columnsF E (valF val)) = 0) ?_).2
        (fun t ht => hs.semi t.1 t.2.1 t.2.2 ((get_of_mem s.semi hg.semi t.1 t.2).1 ht)) r hr
      intro t _ r hr
      unfold semiRow at hr
      simp only [Option.bind_eq_some_iff, Option.map_eq_some_iff] at hr
      obtain ⟨i, hi, j, hj, rfl⟩ := hr
      have e1 : columnsF E (valF val) i = valF val t.1 := by rw [columnsF, toIdx_some E _ i hi]
      have e2 : columnsF E (valF val) j = valF val t.2.2 := by rw [columnsF, toIdx_some E _ j hj]
      simp only [dictValF, List.map_cons, List.map_nil, List.sum_cons, List.sum_nil, e1, e2]
      push_cast
      constructor <;> intro hh <;> linarith
  · rw [h9]
    intro r hr
    rcases List.mem_append.1 hr with hr | hr
    · exact hmi r hr
    · exact (mapM_forall (toRow E) _ _ h3 (fun d => 0 ≤ dictValF d (valF val)) (fun r => 0 ≤ dictValF r (columnsF E (valF val)))
        (fun d _ r hr => by rw [(toRow_specF E d r hr (valF val)).1])).2 hs.extraIneq r hr
  · rw [(toRow_specF E _ _ h6 (valF val)).2 (fun u v => ((v : Rat) : F) ≤ u)]
    exact fun t ht => hs.lower t.1 t.2 ((get_of_mem s.lower hg.lower t.1 t.2).1 ht)
  · rw [(toRow_specF E _ _ h7 (valF val)).2 (fun u v => u ≤ ((v : Rat) : F))]
    exact fun t ht => hs.upper t.1 t.2 ((get_of_mem s.upper hg.upper t.1 t.2).1 ht)

end Verif.EndToEnd
