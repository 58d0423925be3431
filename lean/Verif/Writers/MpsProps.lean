import Verif.Writers.MpsRead
import Verif.Writers.LpProps
/-
C39 for the MPS export: reading the file back gives the problem, when all numbers have at most four decimals.
-/
namespace Verif.Writers

open Verif.Text Verif.State

set_option linter.unusedSectionVars false

variable {V K : Type} [DecidableEq V] [Field K] [LinearOrder K] [IsStrictOrderedRing K]
variable {fmt4 : K → Str} {num : Str → Option K} {rd : K → K}

/-- All linear constraints of the problem as dictionaries, with the proportionalities `x - c y = 0`. -/
def allConstraints (a : WArgs V K) : List (Dict V K) :=
  a.equalities ++ a.semiknown.map (fun t => [(t.1, 1), (t.2.2, -t.2.1)]) ++ a.inequalities

/-- The part of a linear expression contributed by the known values. -/
def knownConst (a : WArgs V K) (d : Dict V K) : K := (d.map fun t => t.2 * (Dict.get a.known t.1).getD 0).sum

/-- Every number the file has to carry survives rounding. -/
structure Representable (rd : K → K) (a : WArgs V K) : Prop where
  coeffs : ∀ d ∈ allConstraints a, (∀ t ∈ d, rd t.2 = t.2) ∧ rd (-knownConst a d) = -knownConst a d
  objective : (∀ t ∈ a.objective, rd t.2 = t.2) ∧ rd (-knownConst a a.objective) = -knownConst a a.objective
  lower : ∀ t ∈ a.lower, rd t.2 = t.2
  upper : ∀ t ∈ a.upper, rd t.2 = t.2

/-! ### Declared variables -/

theorem varIdxAux_lt (xs : List V) (i : Nat) (d : Dict V Nat) (hlt : ∀ t ∈ d, t.2 < i) : ∀ t ∈ varIdxAux i d xs, t.2 < i + xs.length := by
  induction xs generalizing i d with
  | nil => simpa [varIdxAux] using hlt
  | cons x xs ih =>
    intro t ht
    have := ih (i + 1) (d.set x i) (by
      intro t ht
      rcases mem_set_cases d x i t ht with h | h
      · subst h; exact Nat.lt_succ_self i
      · have := hlt t h; omega) t ht
    simp only [List.length_cons]
    omega

theorem varIdxAux_nodup (xs : List V) (i : Nat) (d : Dict V Nat) (hd : (Dict.keys d).Nodup) : (Dict.keys (varIdxAux i d xs)).Nodup := by
  induction xs generalizing i d with
  | nil => exact hd
  | cons x xs ih => exact ih (i + 1) _ (nodup_set d x i hd)

theorem vars_nodup (xs : List V) : ((varIdx xs).map Prod.snd).Nodup := by
  have hk : (Dict.keys (varIdx xs)).Nodup := varIdxAux_nodup xs 0 [] (by simp [Dict.keys])
  apply List.Nodup.map_on _ (List.Nodup.of_map Prod.fst hk)
  intro s hs t ht h
  have h1 := get_of_nodup_mem (varIdx xs) hk s hs
  have h2 := get_of_nodup_mem (varIdx xs) hk t ht
  rw [h] at h1
  exact Prod.ext (varIdx_inj xs s.1 t.1 t.2 h1 h2) h

theorem mem_vars_of_get (xs : List V) (x : V) (i : Nat) (h : Dict.get (varIdx xs) x = some i) : i ∈ (varIdx xs).map Prod.snd :=
  List.mem_map.2 ⟨(x, i), get_of_mem_pair _ _ _ h, rfl⟩

theorem renamed_keys_vars {xs : List V} {d : Dict V K} {d' : Dict Nat K} (h : Renamed (varIdx xs) d d') : ∀ i ∈ Dict.keys d', i ∈ (varIdx xs).map Prod.snd := by
  intro i hi
  obtain ⟨t', ht', rfl⟩ := List.mem_map.1 hi
  obtain ⟨t, _, h1, _⟩ := CollinsGisin.forall₂_right h ht'
  exact mem_vars_of_get xs t.1 t'.1 h1

theorem renamed_known_const {xs : List V} {known d : Dict V K} {known' d' : Dict Nat K} (hk : Renamed (varIdx xs) known known') (h : Renamed (varIdx xs) d d')
    (hd : (Dict.keys d).Nodup) (ord : List Nat → List Nat) (hord : ∀ l, (ord l).Perm l) :
    constPart ord known' d' = (d.map fun t => t.2 * (Dict.get known t.1).getD 0).sum := by
  have hinj := varIdx_inj xs
  have hd' := h.nodup hinj hd
  have e1 : constPart ord known' d' = lin d' (fun i => (Dict.get known' i).getD 0) := by
    rw [lin_keys d' hd', ← sum_filter_split (Dict.keys d') (fun x => (Dict.get known' x).isSome)]
    unfold constPart knownPart
    rw [((hord _).map _).sum_eq]
    have hz : ((List.filter (fun x => !(Dict.get known' x).isSome) (Dict.keys d')).map fun x => at' d' x * (Dict.get known' x).getD 0).sum = 0 := by
      apply List.sum_eq_zero
      intro y hy
      obtain ⟨x, hx, rfl⟩ := List.mem_map.1 hy
      have := (List.mem_filter.1 hx).2
      simp at this
      simp [this]
    rw [hz, add_zero]
    rfl
  rw [e1]
  unfold lin
  clear e1 hd' hd
  induction h with
  | nil => rfl
  | cons h _ ih =>
    simp only [List.map_cons, List.sum_cons]
    rw [ih, h.2, Renamed.get hinj hk _ _ h.1]

theorem at_of_renamed {xs : List V} {d : Dict V K} {d' : Dict Nat K} (h : Renamed (varIdx xs) d d') (hd : (Dict.keys d).Nodup)
    (hr : ∀ t ∈ d, rd t.2 = t.2) (i : Nat) (hi : i ∈ Dict.keys d') : rd (at' d' i) = at' d' i := by
  obtain ⟨t', ht', rfl⟩ := List.mem_map.1 hi
  obtain ⟨t, ht, h1, h2⟩ := CollinsGisin.forall₂_right h ht'
  have := get_of_nodup_mem d' (h.nodup (varIdx_inj xs) hd) t' ht'
  unfold at'
  rw [this]
  simp only [Option.getD_some]
  rw [h2, hr t ht]

theorem mem_unknownPart (ord : List Nat → List Nat) (hord : ∀ l, (ord l).Perm l) (known d : Dict Nat K) (x : Nat) (h : x ∈ unknownPart ord known d) :
    x ∈ Dict.keys d := by
  unfold unknownPart at h
  exact (List.mem_filter.1 ((hord _).mem_iff.1 h)).1

/-- One row of the file, in terms of the constraint it was written from. -/
theorem mps_row_value (ord : List Nat → List Nat) (hord : ∀ l, (ord l).Perm l) (a : WArgs V K) (p : Processed K) (hvars : p.vars = (varIdx a.vars).map Prod.snd)
    (rk : Renamed (varIdx a.vars) a.known p.known) (d : Dict V K) (d' : Dict Nat K) (hd : (Dict.keys d).Nodup) (h : Renamed (varIdx a.vars) d d')
    (hr : (∀ t ∈ d, rd t.2 = t.2) ∧ rd (-knownConst a d) = -knownConst a d)
    (w : V → K) (v : Nat → K) (hv : Agrees a w v) (hkv : ∀ x c, Dict.get p.known x = some c → v x = c) :
    (p.vars.map fun x => if occurs p.known d' x then rd (at' d' x) * v x else 0).sum
      - (if -constPart ord p.known d' ≠ 0 then rd (-constPart ord p.known d') else 0) = lin d w := by
  have hinj := varIdx_inj a.vars
  have hd' := h.nodup hinj hd
  rw [sum_occurs ord hord p (by rw [hvars]; exact vars_nodup a.vars) d' hd' (by rw [hvars]; exact renamed_keys_vars h)]
  have e1 : (unknownPart ord p.known d').map (fun x => rd (at' d' x) * v x) = (unknownPart ord p.known d').map fun x => at' d' x * v x := by
    apply List.map_congr_left
    intro x hx
    rw [at_of_renamed h hd hr.1 x (mem_unknownPart ord hord _ _ x hx)]
  have e2 : (if -constPart ord p.known d' ≠ 0 then rd (-constPart ord p.known d') else 0) = -constPart ord p.known d' := by
    split
    · rw [renamed_known_const rk h hd ord hord]; exact hr.2
    · rename_i hz
      push Not at hz
      exact hz.symm
  rw [e1, e2, sub_neg_eq_add, row_value ord hord p.known d' hd' v hkv, h.lin w v hv]

/-- **C39 (MPS).** When every coefficient, bound and row constant of the problem survives printing with four decimals, the exported MPS file reads back as a linear program whose rows hold exactly when all constraints with an unknown variable hold, whose bounds are the problem's bounds, and whose objective is the problem's objective including its constant.

Missing for the full property: constraints without unknown variables are dropped; numbers with more decimals are changed (`C39_mps_rounding_changes_problem`); a variable without lower bound becomes non-negative by the default of the format (`C39_mps_negative_excluded`). -/
theorem C39_mps_partial (hf : Rounds fmt4 num rd) (ord : List Nat → List Nat) (hord : ∀ l, (ord l).Perm l) (filename : Str) (hn : '\n' ∉ filename)
    (a : WArgs V K) (ha : WellFormed a) (hr : Representable rd a) (hsize : a.vars.length ≤ 10 ^ 8 ∧ (allConstraints a).length ≤ 10 ^ 8)
    (p : Processed K) (hp : processArguments a = some p) :
    ∃ m, readMps num (writeToMps fmt4 ord filename p) = some m
      ∧ ∀ w v, MeetsKnown a w → Agrees a w v →
        (m.rowsHold v ↔ MeetsConstraints (HasUnknown a) a w) ∧ (m.boundsHold v ↔ MeetsBounds a w) ∧ m.objective v = lin a.objective w := by
  obtain ⟨he, hi, hk, hl, hu, ho, hvars⟩ := process_inv a p hp
  have hinj := varIdx_inj a.vars
  have rk := rename_renamed a.vars a.known p.known ha.known hk
  have ro := rename_renamed a.vars a.objective p.objective ha.objective ho
  have rl := rename_renamed a.vars a.lower p.lower ha.lower hl
  have ru := rename_renamed a.vars a.upper p.upper ha.upper hu
  have hvlt : ∀ x ∈ p.vars, x < 10 ^ 8 := by
    intro x hx
    rw [hvars] at hx
    obtain ⟨t, ht, rfl⟩ := List.mem_map.1 hx
    have := varIdxAux_lt a.vars 0 [] (by simp) t ht
    omega
  have hkeyvars : ∀ {d : Dict V K} {d' : Dict Nat K}, Renamed (varIdx a.vars) d d' → ∀ t ∈ d', t.1 < 10 ^ 8 := by
    intro d d' h t ht
    apply hvlt
    rw [hvars]
    exact renamed_keys_vars h t.1 (List.mem_map.2 ⟨t, ht, rfl⟩)
  have fE := LpSolver.mapM_forall₂ he
  have fI := LpSolver.mapM_forall₂ hi
  have hsmall : Small p := by
    refine ⟨hvlt, hkeyvars rl, hkeyvars ru, ?_⟩
    have h1 := fE.length_eq
    have h2 := fI.length_eq
    have h3 : (mpsRows p).length ≤ p.equalities.length + p.inequalities.length := by
      simp only [mpsRows, List.length_append, List.length_map, withUnknown]
      exact Nat.add_le_add (List.length_filter_le _ _) (List.length_filter_le _ _)
    have h4 := hsize.2
    simp only [allConstraints, List.length_append, List.length_map] at h1 h4
    omega
  refine ⟨_, readMps_written hf ord filename hn p hsmall, ?_⟩
  intro w v hw hv
  have hkv : ∀ x c, Dict.get p.known x = some c → v x = c := by
    intro i c hic
    have : (i, c) ∈ p.known := get_of_mem_pair p.known i c hic
    obtain ⟨t, ht, hti, htc⟩ := CollinsGisin.forall₂_right rk this
    simp only at hti htc
    rw [hv _ _ hti, hw t ht, htc]
  set m : Mps K := ⟨(mpsRows p).mapIdx (fun i t => (t.2, i)), (rawEntries p).map (fun t => (t.1, t.2.1, rd t.2.2)),
        (rawRhs ord p).map (fun t => (t.1, rd t.2)), (rawBounds p).map fun t => (t.1, t.2.1, rd t.2.2)⟩ with hm
  refine ⟨?_, ?_, ?_⟩
  · -- rows
    have hrow : ∀ i (hi : i < (mpsRows p).length), ∀ d, (Dict.keys d).Nodup → Renamed (varIdx a.vars) d (mpsRows p)[i].1 →
        ((∀ t ∈ d, rd t.2 = t.2) ∧ rd (-knownConst a d) = -knownConst a d) → m.value (some i) v - m.rhsOf (some i) = lin d w := by
      intro i hi d hd h hr
      have hget : (mpsRows p)[i]? = some (mpsRows p)[i] := List.getElem?_eq_getElem hi
      rw [value_row p m rfl i _ hget, rhs_row ord p m rfl i _ hget]
      exact mps_row_value ord hord a p hvars rk d _ hd h hr w v hv hkv
    have hrows : m.rowsHold v ↔ ∀ i (hi : i < (mpsRows p).length),
        if (mpsRows p)[i].2 then m.value (some i) v - m.rhsOf (some i) = 0 else 0 ≤ m.value (some i) v - m.rhsOf (some i) := by
      unfold Mps.rowsHold
      constructor
      · intro h i hi
        have := h ((mpsRows p)[i].2, i) (List.mem_mapIdx.2 ⟨i, hi, rfl⟩)
        simp only at this
        split
        · rename_i hb; rw [if_pos hb] at this; rw [this, sub_self]
        · rename_i hb; rw [if_neg hb] at this; exact sub_nonneg.2 this
      · intro h t ht
        rw [List.mem_mapIdx] at ht
        obtain ⟨i, hi, rfl⟩ := ht
        have := h i hi
        simp only
        split
        · rename_i hb; rw [if_pos hb] at this; exact sub_eq_zero.1 this
        · rename_i hb; rw [if_neg hb] at this; exact sub_nonneg.1 this
    have hunk : ∀ (d : Dict V K) (d' : Dict Nat K), Renamed (varIdx a.vars) d d' →
        (((Dict.keys d').any fun x => !(Dict.get p.known x).isSome) = true ↔ HasUnknown a (Dict.keys d)) := by
      intro d d' h
      rw [HasUnknown, ← keys_unknown _ hinj rk h, List.any_eq_true]
      apply exists_congr
      intro x
      apply and_congr Iff.rfl
      rw [mem_keys, ← Option.isSome_iff_exists]
      cases (Dict.get p.known x) <;> simp
    -- every source constraint with its renamed form
    have srcE : ∀ d' ∈ p.equalities, ∃ d ∈ a.equalities ++ a.semiknown.map semiRow, (Dict.keys d).Nodup ∧ Renamed (varIdx a.vars) d d'
        ∧ ((∀ t ∈ d, rd t.2 = t.2) ∧ rd (-knownConst a d) = -knownConst a d) := by
      intro d' hd'
      obtain ⟨d, hd, h⟩ := CollinsGisin.forall₂_right fE hd'
      have hnd : (Dict.keys d).Nodup ∧ d ∈ allConstraints a := by
        rcases List.mem_append.1 hd with hd | hd
        · exact ⟨ha.eqs d hd, List.mem_append.2 (Or.inl (List.mem_append.2 (Or.inl hd)))⟩
        · obtain ⟨t, ht, rfl⟩ := List.mem_map.1 hd
          rw [semiRow_eq t (ha.semi t ht)]
          exact ⟨by simp [Dict.keys, ha.semi t ht], List.mem_append.2 (Or.inl (List.mem_append.2 (Or.inr (List.mem_map.2 ⟨t, ht, rfl⟩))))⟩
      exact ⟨d, hd, hnd.1, rename_renamed a.vars d d' hnd.1 h, hr.coeffs d hnd.2⟩
    have srcI : ∀ d' ∈ p.inequalities, ∃ d ∈ a.inequalities, (Dict.keys d).Nodup ∧ Renamed (varIdx a.vars) d d'
        ∧ ((∀ t ∈ d, rd t.2 = t.2) ∧ rd (-knownConst a d) = -knownConst a d) := by
      intro d' hd'
      obtain ⟨d, hd, h⟩ := CollinsGisin.forall₂_right fI hd'
      exact ⟨d, hd, ha.ineqs d hd, rename_renamed a.vars d d' (ha.ineqs d hd) h, hr.coeffs d (List.mem_append.2 (Or.inr hd))⟩
    have mpsMem : ∀ d' e, (d', e) ∈ mpsRows p → ∃ d, (d ∈ a.equalities ++ a.semiknown.map semiRow ∧ e = true ∨ d ∈ a.inequalities ∧ e = false)
        ∧ HasUnknown a (Dict.keys d) ∧ (Dict.keys d).Nodup ∧ Renamed (varIdx a.vars) d d' ∧ ((∀ t ∈ d, rd t.2 = t.2) ∧ rd (-knownConst a d) = -knownConst a d) := by
      intro d' e hmem
      simp only [mpsRows, withUnknown, List.mem_append, List.mem_map, List.mem_filter, Prod.mk.injEq] at hmem
      rcases hmem with ⟨d0, ⟨hd0, hu⟩, rfl, rfl⟩ | ⟨d0, ⟨hd0, hu⟩, rfl, rfl⟩
      · obtain ⟨d, hd, h1, h2, h3⟩ := srcE d0 hd0
        exact ⟨d, Or.inl ⟨by simpa using hd, rfl⟩, (hunk d d0 h2).1 hu, h1, h2, h3⟩
      · obtain ⟨d, hd, h1, h2, h3⟩ := srcI d0 hd0
        exact ⟨d, Or.inr ⟨hd, rfl⟩, (hunk d d0 h2).1 hu, h1, h2, h3⟩
    have mpsIdx : ∀ d' e, (d', e) ∈ mpsRows p → ∃ i, ∃ hi : i < (mpsRows p).length, (mpsRows p)[i] = (d', e) := by
      intro d' e h
      obtain ⟨i, hi, h⟩ := List.mem_iff_getElem.1 h
      exact ⟨i, hi, h⟩
    rw [hrows]
    constructor
    · intro h
      have toLin : ∀ d d' e, (d', e) ∈ mpsRows p → (Dict.keys d).Nodup → Renamed (varIdx a.vars) d d' →
          ((∀ t ∈ d, rd t.2 = t.2) ∧ rd (-knownConst a d) = -knownConst a d) → if e then lin d w = 0 else 0 ≤ lin d w := by
        intro d d' e hmem hnd hren hrep
        obtain ⟨i, hi, hie⟩ := mpsIdx d' e hmem
        have h1 := h i hi
        have h2 := hrow i hi d hnd (by rw [hie]; exact hren) hrep
        rw [hie, h2] at h1
        exact h1
      have eqCase : ∀ d ∈ a.equalities ++ a.semiknown.map semiRow, HasUnknown a (Dict.keys d) → lin d w = 0 := by
        intro d hd hun
        obtain ⟨d', hd', h⟩ := forall₂_left fE hd
        have hnd : (Dict.keys d).Nodup ∧ d ∈ allConstraints a := by
          rcases List.mem_append.1 hd with hd | hd
          · exact ⟨ha.eqs d hd, List.mem_append.2 (Or.inl (List.mem_append.2 (Or.inl hd)))⟩
          · obtain ⟨t, ht, rfl⟩ := List.mem_map.1 hd
            rw [semiRow_eq t (ha.semi t ht)]
            exact ⟨by simp [Dict.keys, ha.semi t ht], List.mem_append.2 (Or.inl (List.mem_append.2 (Or.inr (List.mem_map.2 ⟨t, ht, rfl⟩))))⟩
        have hren := rename_renamed a.vars d d' hnd.1 h
        refine toLin d d' true ?_ hnd.1 hren (hr.coeffs d hnd.2)
        simp only [mpsRows, withUnknown, List.mem_append, List.mem_map, List.mem_filter]
        exact Or.inl ⟨d', ⟨hd', (hunk d d' hren).2 hun⟩, rfl⟩
      refine ⟨fun d hd => eqCase d (List.mem_append.2 (Or.inl hd)), fun t ht hun => ?_, fun d hd hun => ?_⟩
      · have := eqCase (semiRow t) (List.mem_append.2 (Or.inr (List.mem_map.2 ⟨t, ht, rfl⟩)))
        rw [semiRow_eq t (ha.semi t ht)] at this
        have := this (by simpa [Dict.keys] using hun)
        simp only [lin, List.map_cons, List.map_nil, List.sum_cons, List.sum_nil] at this
        linarith
      · obtain ⟨d', hd', h⟩ := forall₂_left fI hd
        have hren := rename_renamed a.vars d d' (ha.ineqs d hd) h
        refine toLin d d' false ?_ (ha.ineqs d hd) hren (hr.coeffs d (List.mem_append.2 (Or.inr hd)))
        simp only [mpsRows, withUnknown, List.mem_append, List.mem_map, List.mem_filter]
        exact Or.inr ⟨d', ⟨hd', (hunk d d' hren).2 hun⟩, rfl⟩
    · rintro ⟨c1, c2, c3⟩ i hi
      obtain ⟨d, hsrc, hun, hnd, hren, hrep⟩ := mpsMem (mpsRows p)[i].1 (mpsRows p)[i].2 (by simpa using List.getElem_mem hi)
      rw [hrow i hi d hnd hren hrep]
      rcases hsrc with ⟨hd, hb⟩ | ⟨hd, hb⟩
      · rw [hb, if_pos rfl]
        rcases List.mem_append.1 hd with hd | hd
        · exact c1 d hd hun
        · obtain ⟨t, ht, rfl⟩ := List.mem_map.1 hd
          rw [semiRow_eq t (ha.semi t ht)] at hun ⊢
          have := c2 t ht (by simpa [Dict.keys] using hun)
          simp only [lin, List.map_cons, List.map_nil, List.sum_cons, List.sum_nil]
          linarith
      · rw [hb]
        exact c3 d hd hun
  · -- bounds
    unfold Mps.boundsHold MeetsBounds
    have hb : m.bounds = (p.lower.map fun t => (true, t.1, rd t.2)) ++ p.upper.map fun t => (false, t.1, rd t.2) := by
      simp [hm, rawBounds, Function.comp_def]
    rw [hb]
    have e1 := forall₂_iff rl (fun t => t.2 ≤ w t.1) (fun t => rd t.2 ≤ v t.1) (by
      intro t ht t' h
      rw [h.2, hr.lower t ht, hv _ _ h.1])
    have e2 := forall₂_iff ru (fun t => w t.1 ≤ t.2) (fun t => v t.1 ≤ rd t.2) (by
      intro t ht t' h
      rw [h.2, hr.upper t ht, hv _ _ h.1])
    rw [← e1, ← e2]
    constructor
    · intro h
      refine ⟨fun t ht => ?_, fun t ht => ?_⟩
      · exact h (true, t.1, rd t.2) (List.mem_append.2 (Or.inl (List.mem_map.2 ⟨t, ht, rfl⟩)))
      · exact h (false, t.1, rd t.2) (List.mem_append.2 (Or.inr (List.mem_map.2 ⟨t, ht, rfl⟩)))
    · rintro ⟨h1, h2⟩ t ht
      rcases List.mem_append.1 ht with ht | ht
      · obtain ⟨s, hs, rfl⟩ := List.mem_map.1 ht
        exact h1 s hs
      · obtain ⟨s, hs, rfl⟩ := List.mem_map.1 ht
        exact h2 s hs
  · unfold Mps.objective
    rw [value_obj p m rfl, rhs_obj ord p m rfl]
    exact mps_row_value ord hord a p hvars rk a.objective p.objective ha.objective ro hr.objective w v hv hkv

end Verif.Writers
