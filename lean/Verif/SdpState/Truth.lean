import Verif.SdpState.Objective
import Verif.Moment.Props
/-
C27 (unit), C29 (bounds set by the user), C43 (reported value) and C48 for `InflationSDP`.
-/
namespace Verif.SdpState
open Verif.Common Verif.Moment
open Verif.State (Dict Mon dictVal valM get_set get_cons get_nil get_filter mem_keys get_none mem_set_keys nodup_set nodup_filter get_of_mem fold_set_nodup dictVal_set)

variable {K : Type}

/-! ## Values after a call -/

theorem cleanup_values (E : Env K) (hE : E.supports = false) (s : St) (hg : Good s) :
    (cleanup E s).1.known = s.known ∧ ∀ m x, (cleanup E s).1.semi.get m = some x → s.semi.get m = some x := by
  have hss : supportsStep E s = s := by unfold supportsStep; rw [hE]; simp
  obtain ⟨lo, up, pr, se, q1, _, _, _, _, q6, _⟩ := cleanup_eq E s (by rw [hss]; exact hg)
  rw [q1]
  rw [hss] at q6 ⊢
  refine ⟨rfl, ?_⟩
  intro m x hx
  have hx : se.get m = some x := hx
  rcases q6 with q6 | q6
  · rw [q6] at hx; exact hx
  · rw [q6, get_filter _ _ hg.semi] at hx
    exact hx.1

/-- A property of the recorded values holds over all histories if it holds after a reset and is preserved by `update_values`. -/
theorem values_induction (E : Env K) (hE : E.supports = false) (solver : Args → SolverOut) (P : Dict Mon Rat → Dict Mon (Rat × Mon) → Prop) (Q : Call K → Prop)
    (hmono : ∀ k e e', (∀ m x, Dict.get e' m = some x → Dict.get e m = some x) → P k e → P k e')
    (h0 : P ((match E.zero with | some z => Dict.set [] z 0 | none => ([] : Dict Mon Rat)).set one 1) [])
    (hup : ∀ (s : St) v lpi o, Good s → v ≠ [] → (Q (.setValues v lpi o) ∧ s.known = (match E.zero with | some z => Dict.set [] z 0 | none => ([] : Dict Mon Rat)).set one 1 ∨ Q (.updateValues v lpi o)) → P s.known s.semi → P (preUpdate E v lpi o s).known (preUpdate E v lpi o s).semi)
    (h : List (Call K)) (hq : ∀ c ∈ h, Q c) : P (run E solver h).known (run E solver h).semi := by
  have hnil : ∀ v : List (K × Option Rat), ¬ v.isEmpty = true → v ≠ [] := by intro v hv e; subst e; simp at hv
  have hset : ∀ (s : St) v lpi o, Good s → (v ≠ [] → Q (.setValues v lpi o)) → P (setValues E v lpi o s).1.known (setValues E v lpi o s).1.semi := by
    intro s v lpi o hg hQ
    have hgr := resetValues_good E s hg
    unfold setValues
    dsimp only
    split
    · obtain ⟨e1, e2⟩ := cleanup_values E hE _ hgr
      rw [e1]
      exact hmono _ _ _ e2 h0
    · rename_i hv
      unfold updateValues
      rw [if_neg hv]
      obtain ⟨e1, e2⟩ := cleanup_values E hE _ (pre_good E v lpi o _ hgr)
      rw [e1]
      exact hmono _ _ _ e2 (hup _ v lpi o hgr (hnil v hv) (.inl ⟨hQ (hnil v hv), rfl⟩) h0)
  have key : Good (run E solver h) ∧ P (run E solver h).known (run E solver h).semi := by
    refine fold_induction E solver (fun s => Good s ∧ P s.known s.semi) Q ?_ h hq _ ⟨init_good E, ?_⟩
    · intro s c hc ⟨hg, hs⟩
      refine ⟨call_good E solver s c hg, ?_⟩
      by_cases h1 : ∃ v lpi o, c = .setValues v lpi o
      · obtain ⟨v, lpi, o, rfl⟩ := h1
        exact hset s v lpi o hg (fun _ => hc)
      · by_cases h2 : ∃ v lpi o, c = .updateValues v lpi o
        · obtain ⟨v, lpi, o, rfl⟩ := h2
          show P (updateValues E v lpi o s).1.known (updateValues E v lpi o s).1.semi
          unfold updateValues
          split
          · exact hs
          · rename_i hv
            obtain ⟨e1, e2⟩ := cleanup_values E hE _ (pre_good E v lpi o _ hg)
            rw [e1]
            exact hmono _ _ _ e2 (hup s v lpi o hg (hnil v hv) (.inr hc) hs)
        · rcases values_same E solver s c (fun v lpi o e => h1 ⟨v, lpi, o, e⟩) (fun v lpi o e => h2 ⟨v, lpi, o, e⟩) with ⟨e1, e2⟩ | ⟨e1, e2⟩
          · rw [e1, e2]; exact hs
          · rw [e1, e2]; exact h0
    · exact hset _ _ _ _ (setObjective_good E none true _ (blank_good E)) (fun h => absurd rfl h)
  exact key.2

theorem assign_get_of (E : Env K) (values : List (K × Option Rat)) (d : Dict Mon Rat) (m : Mon) (x : Rat) (h : (assignValues E values d).get m = some x) :
    (∃ t ∈ values, E.san t.1 = m ∧ t.2 = some x) ∨ d.get m = some x := by
  unfold assignValues at h
  induction values generalizing d with
  | nil => exact .inr h
  | cons t values ih =>
    rw [List.foldl_cons] at h
    rcases ih _ h with ⟨u, hu, h1⟩ | h1
    · exact .inl ⟨u, by simp [hu], h1⟩
    · rcases ht : t.2 with _ | v
      · rw [ht] at h1; exact .inr h1
      · rw [ht] at h1
        simp only at h1
        rw [get_set] at h1
        split at h1
        · rename_i e
          exact .inl ⟨t, by simp, e, by rw [ht]; exact h1⟩
        · exact .inr h1

theorem assign_get_keep (E : Env K) (values : List (K × Option Rat)) (d : Dict Mon Rat) (m : Mon) (x : Rat) (h : d.get m = some x) (hv : ∀ t ∈ values, E.san t.1 ≠ m) :
    (assignValues E values d).get m = some x := by
  unfold assignValues
  induction values generalizing d with
  | nil => exact h
  | cons t values ih =>
    rw [List.foldl_cons]
    apply ih
    · rcases ht : t.2 with _ | v
      · exact h
      · simp only
        rw [get_set, if_neg (hv t (by simp))]
        exact h
    · exact fun u hu => hv u (by simp [hu])

/-- The evaluation loop only adds evaluations of moments of the problem with at least two factors. -/
theorem evalLoop_of (E : Env K) (at' : Dict Atom Rat) (lpi : Bool) (ms : List Mon) (st : Dict Mon Rat × Dict Mon (Rat × Mon)) :
    (∀ m x, (ms.foldl (evalMon E at' lpi) st).1.get m = some x → st.1.get m = some x ∨
      (m ∈ ms ∧ (evaluate (compoundSDP E.info E.dagger m) at'.get lpi).2.2 = .known ∧ x = (evaluate (compoundSDP E.info E.dagger m) at'.get lpi).1)) ∧
    (∀ m x, (ms.foldl (evalMon E at' lpi) st).2.get m = some x → st.2.get m = some x ∨
      (m ∈ ms ∧ (evaluate (compoundSDP E.info E.dagger m) at'.get lpi).2.2 = .semi ∧
        x = ((evaluate (compoundSDP E.info E.dagger m) at'.get lpi).1, monFromAtoms E (evaluate (compoundSDP E.info E.dagger m) at'.get lpi).2.1))) ∧
    (∀ m x, m ∉ ms → st.1.get m = some x → (ms.foldl (evalMon E at' lpi) st).1.get m = some x) := by
  induction ms generalizing st with
  | nil => exact ⟨fun m x h => .inl h, fun m x h => .inl h, fun m x _ h => h⟩
  | cons n ms ih =>
    rw [List.foldl_cons]
    obtain ⟨i1, i2, i3⟩ := ih (evalMon E at' lpi st n)
    have s1 : ∀ m x, (evalMon E at' lpi st n).1.get m = some x → st.1.get m = some x ∨
        (m = n ∧ (evaluate (compoundSDP E.info E.dagger m) at'.get lpi).2.2 = .known ∧ x = (evaluate (compoundSDP E.info E.dagger m) at'.get lpi).1) := by
      intro m x h
      unfold evalMon at h
      rcases hst : (evaluate (compoundSDP E.info E.dagger n) at'.get lpi).2.2 with _ | _ | _
      · simp only [hst] at h
        rw [get_set] at h
        split at h
        · rename_i e
          subst e
          simp only [Option.some.injEq] at h
          exact .inr ⟨rfl, hst, h.symm⟩
        · exact .inl h
      · simp only [hst] at h
        split at h <;> exact .inl h
      · simp only [hst] at h
        exact .inl h
    have s2 : ∀ m x, (evalMon E at' lpi st n).2.get m = some x → st.2.get m = some x ∨
        (m = n ∧ (evaluate (compoundSDP E.info E.dagger m) at'.get lpi).2.2 = .semi ∧
          x = ((evaluate (compoundSDP E.info E.dagger m) at'.get lpi).1, monFromAtoms E (evaluate (compoundSDP E.info E.dagger m) at'.get lpi).2.1)) := by
      intro m x h
      unfold evalMon at h
      rcases hst : (evaluate (compoundSDP E.info E.dagger n) at'.get lpi).2.2 with _ | _ | _
      · simp only [hst] at h; exact .inl h
      · simp only [hst] at h
        split at h
        · rw [get_set] at h
          split at h
          · rename_i e
            subst e
            simp only [Option.some.injEq] at h
            exact .inr ⟨rfl, hst, h.symm⟩
          · exact .inl h
        · exact .inl h
      · simp only [hst] at h; exact .inl h
    refine ⟨?_, ?_, ?_⟩
    · intro m x h
      rcases i1 m x h with h1 | ⟨h1, h2⟩
      · rcases s1 m x h1 with h3 | ⟨h3, h4⟩
        · exact .inl h3
        · exact .inr ⟨by simp [h3], h4⟩
      · exact .inr ⟨by simp [h1], h2⟩
    · intro m x h
      rcases i2 m x h with h1 | ⟨h1, h2⟩
      · rcases s2 m x h1 with h3 | ⟨h3, h4⟩
        · exact .inl h3
        · exact .inr ⟨by simp [h3], h4⟩
      · exact .inr ⟨by simp [h1], h2⟩
    · intro m x hm h
      have hm' : m ≠ n ∧ m ∉ ms := by simpa using hm
      apply i3 m x hm'.2
      unfold evalMon
      dsimp only
      split
      · rw [get_set, if_neg (fun e => hm'.1 e.symm)]; exact h
      · split <;> exact h
      · exact h

theorem remaining_of (E : Env K) (at' : Dict Atom Rat) (lpi : Bool) (m : Mon) (h : m ∈ remainingMons E at' lpi) : m ∈ E.moments ∧ 2 ≤ m.length := by
  have hatm : (compoundSDP E.info E.dagger m).isAtomic = decide (m.length ≤ 1) := by
    unfold compoundSDP
    dsimp only
    split
    · show decide ((sortBy atomLe (sortBy atomLe m)).length ≤ 1) = _
      rw [(sortBy_perm atomLe _).length_eq, (sortBy_perm atomLe _).length_eq]
    · show decide ((sortBy atomLe (sortBy atomLe (m.map E.dagger))).length ≤ 1) = _
      rw [(sortBy_perm atomLe _).length_eq, (sortBy_perm atomLe _).length_eq, List.length_map]
  unfold remainingMons at h
  split at h
  · split at h
    · rw [List.mem_filter] at h
      simp only [Bool.and_eq_true, hatm, Bool.not_eq_true', decide_eq_false_iff_not] at h
      exact ⟨h.1, by omega⟩
    · rw [List.mem_filter] at h
      simp only [Bool.and_eq_true, hatm, Bool.not_eq_true', decide_eq_false_iff_not] at h
      exact ⟨h.1, by omega⟩
  · rw [List.mem_filter] at h
    simp only [hatm, Bool.not_eq_true', decide_eq_false_iff_not] at h
    exact ⟨h.1, by omega⟩

/-! ## The unit moment -/

/-- **C27, SDP, the unit.** For problems that are not about supports and contain the unit moment, it is known to be 1 after every history, including calls that raise, that gives it no other value. -/
theorem C27_sdp_unit_known (E : Env K) (hE : E.supports = false) (hone : one ∈ E.moments) (solver : Args → SolverOut) (h : List (Call K)) (hq : ∀ c ∈ h, c.touchesOne E = false) :
    (run E solver h).known.get one = some 1 := by
  refine values_induction E hE solver (fun k _ => k.get one = some 1) (fun c => c.touchesOne E = false) (fun k e e' _ h => h) ?_ ?_ h hq
  · rw [get_set, if_pos rfl]
  · intro s v lpi o hg _ hQ hs
    have hv : ∀ t ∈ v, E.san t.1 ≠ one := by
      intro t ht e
      have : (v.any fun t => decide (E.san t.1 = one)) = false := by
        rcases hQ with ⟨hQ, -⟩ | hQ <;> exact hQ
      have := List.any_eq_false.1 this t ht
      simp [e] at this
    have hk := assign_get_keep E v s.known one 1 hs hv
    unfold preUpdate
    cases o with
    | true => exact hk
    | false =>
      apply (evalLoop_of E _ lpi _ _).2.2
      · intro hm
        have := (remaining_of E _ lpi _ hm).2
        simp [one] at this
      · rw [get_filter _ _ (assign_nodup E v _ hg.known)]
        exact ⟨hk, by simpa using hone⟩

/-! ## Truth -/

theorem valM_monFromAtoms (E : Env K) (val : Atom → Rat) (hd : ∀ a, val (E.dagger a) = val a) (h1 : val [] = 1) (hz : ∀ a, E.info.zero a = true → val a = 0) (l : List Atom) :
    valM val (monFromAtoms E l) = (l.map val).prod := by
  unfold monFromAtoms
  have hprod : ∀ l' : List Atom, valM val (sortBy atomLe l') = (l'.map val).prod := fun l' => ((sortBy_perm atomLe l').map val).prod_eq
  have hdag : ∀ l' : List Atom, ((l'.map E.dagger).map val).prod = (l'.map val).prod := by
    intro l'
    rw [List.map_map]
    congr 1
    exact List.map_congr_left fun a _ => hd a
  have main : ∀ l' : List Atom, valM val (if tupleLe (sortBy atomLe l') (sortBy atomLe ((sortBy atomLe l').map E.dagger)) then sortBy atomLe l'
      else sortBy atomLe ((sortBy atomLe l').map E.dagger)) = (l'.map val).prod := by
    intro l'
    split
    · exact hprod l'
    · rw [hprod, hdag]; exact hprod l'
  dsimp only
  rw [main]
  rcases hf : l.find? E.info.zero with _ | z
  · simp only
    have : ∀ l : List Atom, ((l.filter fun a => !a.isEmpty).map val).prod = (l.map val).prod := by
      intro l
      induction l with
      | nil => rfl
      | cons a l ih =>
        by_cases ha : a.isEmpty = true
        · rw [List.filter_cons_of_neg (by simp [ha]), ih]
          have : a = [] := by simpa using ha
          simp [this, h1]
        · rw [List.filter_cons_of_pos (by simp [ha])]
          simp [ih]
    exact this l
  · simp only [List.map_cons, List.map_nil, List.prod_cons, List.prod_nil, mul_one]
    have hz1 : E.info.zero z = true := List.find?_some hf
    have hz2 : z ∈ l := List.mem_of_find?_eq_some hf
    rw [hz z hz1]
    symm
    apply List.prod_eq_zero
    exact List.mem_map.2 ⟨z, hz2, hz z hz1⟩

theorem atomicKnowns_of (E : Env K) (known : Dict Mon Rat) (val : Atom → Rat) (hd : ∀ a, val (E.dagger a) = val a)
    (hk : ∀ a x, ([a], x) ∈ known → val a = x) (a : Atom) (x : Rat) (h : (atomicKnowns E known).get a = some x) : val a = x := by
  unfold atomicKnowns at h
  have hl : ∀ t ∈ (known.filterMap fun t => match t.1 with | [a] => some (a, t.2) | _ => none : Dict Atom Rat), val t.1 = t.2 := by
    intro t ht
    obtain ⟨⟨m, v⟩, hu, h2⟩ := List.mem_filterMap.1 ht
    rcases m with _ | ⟨b, _ | ⟨c, m⟩⟩
    · simp at h2
    · simp only [Option.some.injEq] at h2
      subst h2
      exact hk b v hu
    · simp at h2
  generalize (known.filterMap fun t => match t.1 with | [a] => some (a, t.2) | _ => none : Dict Atom Rat) = l at h hl
  have get_mem : ∀ (d : Dict Atom Rat) a x, d.get a = some x → (a, x) ∈ d := by
    intro d a x hg
    induction d with
    | nil => simp at hg
    | cons t d ih =>
      obtain ⟨b, w⟩ := t
      rw [get_cons] at hg
      split at hg
      · rename_i e
        simp only [Option.some.injEq] at hg
        simp [e, hg]
      · exact List.mem_cons_of_mem _ (ih hg)
  have key : ∀ (l d : Dict Atom Rat), (∀ t ∈ l, val t.1 = t.2) → (∀ a x, d.get a = some x → val a = x) →
      ∀ a x, (l.foldl (fun d t => d.set (E.dagger t.1) t.2) d).get a = some x → val a = x := by
    intro l
    induction l with
    | nil => intro d _ h2 a x h3; exact h2 a x h3
    | cons t l ih =>
      intro d h1 h2 a x h3
      rw [List.foldl_cons] at h3
      refine ih _ (fun u hu => h1 u (by simp [hu])) ?_ a x h3
      intro b w hb
      rw [get_set] at hb
      split at hb
      · rename_i e
        simp only [Option.some.injEq] at hb
        rw [← e, hd, h1 t (by simp), hb]
      · exact h2 b w hb
  exact key l l hl (fun a x hg => hl (a, x) (get_mem l a x hg)) a x h

/-- **C48, SDP.** Let `val` be the true values of the atomic moments, between 0 and 1, equal for adjoint atoms, 1 for the unit and 0 for atoms that vanish. If every value the user ever sets is true,
then after any history, including calls that raise, every known moment has its true value (up to 10⁻⁸ if linearised constraints are used, exactly otherwise and for atoms), and every
semi-known relation holds for the true values. -/
theorem C48_sdp_truth_preserved (E : Env K) (hE : E.supports = false) (solver : Args → SolverOut) (val : Atom → Rat) (h01 : ∀ a, 0 ≤ val a ∧ val a ≤ 1)
    (hd : ∀ a, val (E.dagger a) = val a) (h1 : val [] = 1) (hz : ∀ a, E.info.zero a = true → val a = 0) (hzero : ∀ z, E.zero = some z → ∃ a, z = [a] ∧ val a = 0)
    (ε : Rat) (hε : 0 ≤ ε) (h : List (Call K)) (hc : ∀ c ∈ h, c.Agrees E val ε) : Truthful val ε (run E solver h) := by
  refine values_induction E hE solver (fun k e => (∀ m v, k.get m = some v → |valM val m - v| ≤ ε ∧ (m.length ≤ 1 → valM val m = v)) ∧
    (∀ m c m2, e.get m = some (c, m2) → valM val m = c * valM val m2)) (fun c => c.Agrees E val ε) ?_ ?_ ?_ h hc
  · intro k e e' hee' ⟨p1, p2⟩
    exact ⟨p1, fun m c m2 hm => p2 m c m2 (hee' m _ hm)⟩
  · refine ⟨?_, fun m c m2 hm => by simp at hm⟩
    intro m v hm
    have hmv : valM val m = v := by
      rw [get_set] at hm
      split at hm
      · rename_i e
        simp only [Option.some.injEq] at hm
        subst e; subst hm
        simp [valM, one]
      · rcases hzz : E.zero with _ | z
        · rw [hzz] at hm; simp at hm
        · rw [hzz] at hm
          simp only [Dict.set, get_cons] at hm
          split at hm
          · rename_i e
            obtain ⟨a, ha, ha0⟩ := hzero z hzz
            simp only [Option.some.injEq] at hm
            subst e; subst hm; subst ha
            simp [valM, ha0]
          · simp at hm
    exact ⟨by rw [hmv]; simpa using hε, fun _ => hmv⟩
  · intro s v lpi o hg _ hQ ⟨p1, p2⟩
    have hagree : (∀ t ∈ v, ∀ x, t.2 = some x → valM val (E.san t.1) = x) ∧ (lpi = true → 1 / 10 ^ 8 ≤ ε) := by
      rcases hQ with ⟨hQ, -⟩ | hQ <;> exact hQ
    have hk : ∀ m x, (assignValues E v s.known).get m = some x → |valM val m - x| ≤ ε ∧ (m.length ≤ 1 → valM val m = x) := by
      intro m x hm
      rcases assign_get_of E v s.known m x hm with ⟨t, ht, e1, e2⟩ | hm
      · have := hagree.1 t ht x e2
        rw [e1] at this
        exact ⟨by rw [this]; simpa using hε, fun _ => this⟩
      · exact p1 m x hm
    unfold preUpdate
    cases o with
    | true => exact ⟨hk, p2⟩
    | false =>
      have hat : ∀ a x, (atomicKnowns E (assignValues E v s.known)).get a = some x → val a = x := by
        intro a x ha
        refine atomicKnowns_of E _ val hd ?_ a x ha
        intro b w hb
        have := (hk [b] w ((get_of_mem _ (assign_nodup E v _ hg.known) _ _).1 hb)).2 (by simp)
        simpa [valM] using this
      obtain ⟨l1, l2, _⟩ := evalLoop_of E (atomicKnowns E (assignValues E v s.known)) lpi (remainingMons E (atomicKnowns E (assignValues E v s.known)) lpi) ((assignValues E v s.known).filter fun t => decide (t.1 ∈ E.moments), s.semi)
      have hcomp : ∀ m : Mon, ∃ m' : List Atom, compoundSDP E.info E.dagger m = compound E.info m' ∧ (m'.map val).prod = valM val m := by
        intro m
        unfold compoundSDP
        dsimp only
        split
        · exact ⟨_, rfl, ((sortBy_perm atomLe m).map val).prod_eq⟩
        · refine ⟨_, rfl, ?_⟩
          rw [((sortBy_perm atomLe (m.map E.dagger)).map val).prod_eq, List.map_map]
          show _ = (m.map val).prod
          congr 1
          exact List.map_congr_left fun a _ => hd a
      refine ⟨?_, ?_⟩
      · intro m x hm
        rcases l1 m x hm with hm | ⟨hmem, hst, hx⟩
        · rw [get_filter _ _ (assign_nodup E v _ hg.known)] at hm
          exact hk m x hm.1
        · have hlen := (remaining_of E (atomicKnowns E (assignValues E v s.known)) lpi m hmem).2
          refine ⟨?_, fun hl => absurd hl (by omega)⟩
          obtain ⟨m', e1, e2⟩ := hcomp m
          rw [e1] at hst hx
          have hp := C25_known_precision E.info m' (atomicKnowns E (assignValues E v s.known)).get lpi val (fun f x hf => hat f x hf) (fun f _ => h01 f) hst
          rw [e2, ← hx] at hp
          by_cases hl : lpi = true
          · exact le_trans hp.1 (hagree.2 hl)
          · have hstat := (C25_status E.info m' (atomicKnowns E (assignValues E v s.known)).get lpi).1.1 hst
            rcases hstat with hall | ⟨hl', _⟩
            · rw [hp.2 hall]; simpa using hε
            · exact absurd hl' hl
      · intro m c m2 hm
        rcases l2 m (c, m2) hm with hm | ⟨hmem, hst, hx⟩
        · exact p2 m c m2 hm
        · obtain ⟨m', e1, e2⟩ := hcomp m
          rw [e1] at hx
          simp only [Prod.mk.injEq] at hx
          rw [hx.1, hx.2, valM_monFromAtoms E val hd h1 hz, ← e2]
          exact C25_evaluate_sound E.info m' (atomicKnowns E (assignValues E v s.known)).get lpi val (fun f x hf => hat f x hf)

/-! ## Bounds given by the user -/

theorem sanitiseBounds_of (E : Env K) (l : List (K × Rat)) (hl : (l.map fun t => E.san t.1).Nodup) (d d' : Dict Mon Rat) (hd : ∀ t ∈ l, E.san t.1 ∉ d.keys) (hs : sanitiseBounds E l d = some d') :
    ∀ m x, d'.get m = some x ↔ d.get m = some x ∨ ∃ t ∈ l, E.san t.1 = m ∧ t.2 = x := by
  induction l generalizing d with
  | nil =>
    simp only [sanitiseBounds, Option.some.injEq] at hs
    subst hs
    simp
  | cons t l ih =>
    obtain ⟨k, v⟩ := t
    have hl' : E.san k ∉ (l.map fun t => E.san t.1) ∧ (l.map fun t => E.san t.1).Nodup := by simpa using hl
    have hk := hd (k, v) (by simp)
    unfold sanitiseBounds at hs
    rw [(get_none d (E.san k)).2 hk] at hs
    simp only at hs
    intro m x
    rw [ih hl'.2 _ ?_ hs, get_set]
    · by_cases e : E.san k = m
      · subst e
        have h1 : d.get (E.san k) = none := (get_none d _).2 hk
        have h2 : ∀ t ∈ l, E.san t.1 ≠ E.san k := fun t ht e => hl'.1 (List.mem_map.2 ⟨t, ht, e⟩)
        rw [if_pos rfl, h1]
        constructor
        · rintro (h | ⟨t, ht, e, _⟩)
          · exact .inr ⟨(k, v), by simp, rfl, by simpa using h⟩
          · exact absurd e (h2 t ht)
        · rintro (h | ⟨t, ht, e, e2⟩)
          · simp at h
          · rcases List.mem_cons.1 ht with rfl | ht
            · left; simpa using e2
            · exact absurd e (h2 t ht)
      · rw [if_neg e]
        constructor
        · rintro (h | ⟨t, ht, h⟩)
          · exact .inl h
          · exact .inr ⟨t, by simp [ht], h⟩
        · rintro (h | ⟨t, ht, h⟩)
          · exact .inl h
          · rcases List.mem_cons.1 ht with rfl | ht
            · exact absurd h.1 e
            · exact .inr ⟨t, ht, h⟩
    · intro t ht
      rw [mem_set_keys]
      rintro (h | h)
      · exact hl'.1 (List.mem_map.2 ⟨t, ht, h⟩)
      · exact hd t (by simp [ht]) h

theorem fold_set_get (l : Dict Mon Rat) (hl : l.keys.Nodup) (d : Dict Mon Rat) (m : Mon) : (l.foldl (fun b t => b.set t.1 t.2) d).get m = (l.get m).or (d.get m) := by
  induction l generalizing d with
  | nil => simp
  | cons t l ih =>
    obtain ⟨a, v⟩ := t
    have hl' : a ∉ Dict.keys l ∧ (Dict.keys l).Nodup := by simpa [Dict.keys] using hl
    rw [List.foldl_cons, ih hl'.2, get_set, get_cons]
    by_cases e : a = m
    · subst e
      rw [(get_none _ _).2 hl'.1]
      simp
    · simp [e]

theorem defaultLower_get (E : Env K) (m : Mon) : (defaultLower E).get m = if m ∈ E.hermitian then some 0 else none := by
  unfold defaultLower
  have : ∀ (l : List Mon) (d : Dict Mon Rat), (l.foldl (fun d m => d.set m 0) d).get m = if m ∈ l then some 0 else d.get m := by
    intro l
    induction l with
    | nil => intro d; simp
    | cons a l ih =>
      intro d
      rw [List.foldl_cons, ih, get_set]
      by_cases e1 : m ∈ l
      · simp [e1]
      · by_cases e2 : a = m
        · subst e2; simp
        · have : ¬ m = a := fun e => e2 e.symm
          simp [e1, e2, this]
  rw [this]; rfl

/-- **C29, SDP, upper bounds.** If setting upper bounds (one per moment) does not raise, then on the points that agree with the known values the upper bounds in force are exactly the ones given. -/
theorem C29_sdp_set_upper (E : Env K) (solver : Args → SolverOut) (h : List (Call K)) (l : List (K × Rat)) (hl : (l.map fun t => E.san t.1).Nodup)
    (hok : (call E solver (run E solver h) (.setUpper (some l))).2 = none) (y : Mon → Rat)
    (hy : ∀ m x, (run E solver h).known.get m = some x → y m = x) :
    (∀ m x, (run E solver (h ++ [.setUpper (some l)])).upper.get m = some x → y m ≤ x) ↔ ∀ t ∈ l, y (E.san t.1) ≤ t.2 := by
  rw [run_snoc]
  have hg := run_good E solver h
  generalize run E solver h = s at *
  have hok : (setUpper E (some l) s).2 = none := hok
  show (∀ m x, (setUpper E (some l) s).1.upper.get m = some x → y m ≤ x) ↔ _
  unfold setUpper at hok ⊢
  dsimp only at hok ⊢
  rcases hsb : sanitiseBounds E l [] with _ | d
  · rw [hsb] at hok; simp at hok
  · rw [hsb] at hok
    have hd := sanitiseBounds_of E l hl [] d (by simp [Dict.keys]) hsb
    have hn := sanitiseBounds_nodup E l [] d (by simp [Dict.keys]) hsb
    simp only [resetUpper, andThen] at hok ⊢
    obtain ⟨b, r, e1, _, _, e4⟩ := updateUpper_eq { resetSolution s with upper := d } hn
    rw [e1] at hok ⊢
    obtain ⟨z1, z2⟩ := e4 hok hg.known
    have z1 : ∀ m, b.get m = if m ∈ s.known.keys then none else d.get m := z1
    have z2 : ∀ m v x, s.known.get m = some v → d.get m = some x → v ≤ x := z2
    show (∀ m x, b.get m = some x → y m ≤ x) ↔ _
    constructor
    · intro hh t ht
      have hdt : d.get (E.san t.1) = some t.2 := (hd _ _).2 (.inr ⟨t, ht, rfl, rfl⟩)
      by_cases hm : E.san t.1 ∈ s.known.keys
      · obtain ⟨w, hw⟩ := (mem_keys _ _).1 hm
        rw [hy _ w hw]
        exact z2 _ w _ hw hdt
      · exact hh _ _ (by rw [z1, if_neg hm]; exact hdt)
    · intro hh m x hx
      rw [z1] at hx
      split at hx
      · simp at hx
      · rcases (hd m x).1 hx with h1 | ⟨t, ht, rfl, rfl⟩
        · simp at h1
        · exact hh t ht

/-- **C29, SDP, lower bounds.** If setting lower bounds (one per moment) does not raise, then on the points that agree with the known values the lower bounds in force are the ones given, and
non-negativity for the other hermitian moments. -/
theorem C29_sdp_set_lower (E : Env K) (solver : Args → SolverOut) (h : List (Call K)) (l : List (K × Rat)) (hl : (l.map fun t => E.san t.1).Nodup)
    (hok : (call E solver (run E solver h) (.setLower (some l))).2 = none) (y : Mon → Rat)
    (hy : ∀ m x, (run E solver h).known.get m = some x → y m = x) :
    (∀ m x, (run E solver (h ++ [.setLower (some l)])).lower.get m = some x → x ≤ y m) ↔
      (∀ t ∈ l, t.2 ≤ y (E.san t.1)) ∧ ∀ m ∈ E.hermitian, (∀ t ∈ l, E.san t.1 ≠ m) → 0 ≤ y m := by
  rw [run_snoc]
  have hg := run_good E solver h
  generalize run E solver h = s at *
  have hok : (setLower E (some l) s).2 = none := hok
  show (∀ m x, (setLower E (some l) s).1.lower.get m = some x → x ≤ y m) ↔ _
  unfold setLower at hok ⊢
  dsimp only at hok ⊢
  rcases hsb : sanitiseBounds E l [] with _ | d
  · rw [hsb] at hok; simp at hok
  · rw [hsb] at hok
    have hd := sanitiseBounds_of E l hl [] d (by simp [Dict.keys]) hsb
    have hn := sanitiseBounds_nodup E l [] d (by simp [Dict.keys]) hsb
    simp only [resetLower] at hok ⊢
    obtain ⟨b0, r0, f1, f2, _, f4⟩ := updateLower_eq { resetSolution s with lower := defaultLower E } (defaultLower_nodup E)
    rw [f1] at hok ⊢
    rcases r0 with _ | er
    · obtain ⟨w1, w2⟩ := f4 rfl hg.known
      have w1 : ∀ m, b0.get m = if m ∈ s.known.keys then none else (defaultLower E).get m := w1
      have w2 : ∀ m v x, s.known.get m = some v → (defaultLower E).get m = some x → x ≤ v := w2
      simp only [andThen] at hok ⊢
      obtain ⟨b, r, e1, _, _, e4⟩ := updateLower_eq { resetSolution s with lower := d.foldl (fun b t => b.set t.1 t.2) b0 } (fold_set_nodup _ _ _ _ f2)
      have e1' : updateLower { ({ resetSolution s with lower := b0 } : St) with lower := d.foldl (fun b t => b.set t.1 t.2) ({ resetSolution s with lower := b0 } : St).lower } = _ := e1
      rw [e1'] at hok ⊢
      obtain ⟨z1, z2⟩ := e4 hok hg.known
      have z1 : ∀ m, b.get m = if m ∈ s.known.keys then none else (d.foldl (fun b t => b.set t.1 t.2) b0).get m := z1
      have z2 : ∀ m v x, s.known.get m = some v → (d.foldl (fun b t => b.set t.1 t.2) b0).get m = some x → x ≤ v := z2
      show (∀ m x, b.get m = some x → x ≤ y m) ↔ _
      constructor
      · intro hh
        constructor
        · intro t ht
          have hdt : d.get (E.san t.1) = some t.2 := (hd _ _).2 (.inr ⟨t, ht, rfl, rfl⟩)
          have hft : (d.foldl (fun b t => b.set t.1 t.2) b0).get (E.san t.1) = some t.2 := by rw [fold_set_get d hn, hdt]; rfl
          by_cases hm : E.san t.1 ∈ s.known.keys
          · obtain ⟨w, hw⟩ := (mem_keys _ _).1 hm
            rw [hy _ w hw]
            exact z2 _ w _ hw hft
          · exact hh _ _ (by rw [z1, if_neg hm]; exact hft)
        · intro m hm hnl
          have hdm : d.get m = none := by
            rcases hx : d.get m with _ | x
            · rfl
            · rcases (hd m x).1 hx with h1 | ⟨t, ht, e, _⟩
              · simp at h1
              · exact absurd e (hnl t ht)
          have hdef : (defaultLower E).get m = some 0 := by rw [defaultLower_get, if_pos hm]
          by_cases hmk : m ∈ s.known.keys
          · obtain ⟨w, hw⟩ := (mem_keys _ _).1 hmk
            rw [hy _ w hw]
            exact w2 m w 0 hw hdef
          · refine hh m 0 ?_
            rw [z1, if_neg hmk, fold_set_get d hn, hdm, w1, if_neg hmk, hdef]; rfl
      · rintro ⟨h1, h2⟩ m x hx
        rw [z1] at hx
        split at hx
        · simp at hx
        · rename_i hmk
          rw [fold_set_get d hn] at hx
          rcases hdm : d.get m with _ | w
          · rw [hdm, Option.none_or, w1, if_neg hmk, defaultLower_get] at hx
            split at hx
            · rename_i hmh
              simp only [Option.some.injEq] at hx
              subst hx
              refine h2 m hmh ?_
              intro t ht e
              have := (hd m t.2).2 (.inr ⟨t, ht, e, rfl⟩)
              rw [hdm] at this; simp at this
            · simp at hx
          · rw [hdm] at hx
            simp only [Option.some_or, Option.some.injEq] at hx
            subst hx
            rcases (hd m w).1 hdm with h3 | ⟨t, ht, rfl, rfl⟩
            · simp at h3
            · exact h1 t ht
    · simp [andThen] at hok

/-! ## The reported value -/

theorem newObjective_val (E : Env K) (d : List (K × Rat)) (mx : Bool) (y : Mon → Rat) :
    dictVal (newObjective E d mx) y = (if mx then 1 else -1) * dictVal (sanitiseDict E d) y := by
  have h1 : ∀ c : Rat, dictVal ((sanitiseDict E d).map fun t => (t.1, c * t.2)) y = c * dictVal (sanitiseDict E d) y := by
    intro c
    unfold dictVal
    induction sanitiseDict E d with
    | nil => simp
    | cons t l ih =>
      simp only [List.map_cons, List.sum_cons] at ih ⊢
      rw [ih]; ring
  unfold newObjective
  generalize (if mx then (1 : Rat) else -1) = c at *
  unfold setDefault
  split
  · exact h1 _
  · rename_i hs
    have hnone : Dict.get ((sanitiseDict E d).map fun t => (t.1, c * t.2)) one = none := by simpa using hs
    have := dictVal_set ((sanitiseDict E d).map fun t => (t.1, c * t.2)) one 0 y
    rw [hnone] at this
    simp only [Option.getD_none, add_zero, zero_mul] at this
    rw [this]; exact h1 _

/-- Calls that leave the objective of the user alone. -/
theorem objective_kept (E : Env K) (solver : Args → SolverOut) (s : St) (c : Call K) (hg : Good s) (h1 : ∀ o m, c ≠ .setObjective o m) (h2 : c ≠ .reset .objective) (h3 : c ≠ .reset .all) :
    (call E solver s c).1.objective = s.objective ∧ (call E solver s c).1.maximize = s.maximize := by
  have hcl : ∀ s : St, Good s → (cleanup E s).1.objective = s.objective ∧ (cleanup E s).1.maximize = s.maximize := by
    intro s hg
    obtain ⟨lo, up, pr, se, q1, _⟩ := cleanup_eq E s (supportsStep_good E s hg)
    rw [q1]
    show (supportsStep E s).objective = _ ∧ (supportsStep E s).maximize = _
    unfold supportsStep; split <;> exact ⟨rfl, rfl⟩
  cases c with
  | setValues v lpi o =>
    show (setValues E v lpi o s).1.objective = _ ∧ (setValues E v lpi o s).1.maximize = _
    unfold setValues
    dsimp only
    split
    · exact hcl _ (resetValues_good E s hg)
    · unfold updateValues
      split
      · exact ⟨rfl, rfl⟩
      · exact hcl _ (pre_good E v lpi o _ (resetValues_good E s hg))
  | updateValues v lpi o =>
    show (updateValues E v lpi o s).1.objective = _ ∧ (updateValues E v lpi o s).1.maximize = _
    unfold updateValues
    split
    · exact ⟨rfl, rfl⟩
    · exact hcl _ (pre_good E v lpi o s hg)
  | setObjective o m => exact absurd rfl (h1 o m)
  | setLower b => obtain ⟨_, e2, _, e4⟩ := other_calls E solver s (.setLower b) (by simp); exact ⟨e2, e4⟩
  | setUpper b => obtain ⟨_, e2, _, e4⟩ := other_calls E solver s (.setUpper b) (by simp); exact ⟨e2, e4⟩
  | setExtraEq l => exact ⟨rfl, rfl⟩
  | setExtraIneq l => exact ⟨rfl, rfl⟩
  | reset w =>
    cases w with
    | all => exact absurd rfl h3
    | bounds => obtain ⟨_, e2, _, e4⟩ := other_calls E solver s (.reset .bounds) (by simp); exact ⟨e2, e4⟩
    | lowerbounds => obtain ⟨_, e2, _, e4⟩ := other_calls E solver s (.reset .lowerbounds) (by simp); exact ⟨e2, e4⟩
    | upperbounds => obtain ⟨_, e2, _, e4⟩ := other_calls E solver s (.reset .upperbounds) (by simp); exact ⟨e2, e4⟩
    | objective => exact absurd rfl h2
    | values => exact ⟨rfl, rfl⟩
  | solve => obtain ⟨_, e2, _, e4⟩ := other_calls E solver s .solve (by simp); exact ⟨e2, e4⟩

/-- **C43, SDP, the reported value, partial.** Take any history without exceptions in which the objective `d` (no coefficient strictly between 0 and 10⁻⁸) is set at some point and neither objective nor values are reset
afterwards with `reset`. If the solver maximises its objective exactly over the points satisfying its linear constraints and any further condition `S` (positivity of the moment matrix), then `solve`
reports the maximum, or for minimisation the minimum, of the user's objective over the points satisfying the user's constraints and `S`. -/
theorem C43_sdp_reported_optimum_partial (E : Env K) (solver : Args → SolverOut) (h h' : List (Call K)) (d : List (K × Rat)) (maxi : Bool) (S : (Mon → Rat) → Prop)
    (hS : ∀ y, S y → y one = 1) (hd : ∀ t ∈ d, isClose0 t.2 = true → t.2 = 0)
    (hok : Ok E solver (h ++ .setObjective (some d) maxi :: h'))
    (hv : ∀ c ∈ h ++ .setObjective (some d) maxi :: h', c ≠ .reset .values)
    (hk : ∀ c ∈ h', (∀ o m, c ≠ .setObjective o m) ∧ c ≠ .reset .objective ∧ c ≠ .reset .all)
    (a : Args) (ha : solverArgs E (run E solver (h ++ .setObjective (some d) maxi :: h')) = some a)
    (hfeas : (solver a).status = "feasible")
    (hlo : ∀ m v, (run E solver (h ++ .setObjective (some d) maxi :: h')).lower.get m = some v → isClose0 v = true → v = 0)
    (hup : ∀ m v, (run E solver (h ++ .setObjective (some d) maxi :: h')).upper.get m = some v → isClose0 v = true → v = 0)
    (hopt : IsGreatest {z | ∃ y, a.Feasible (withConst y) ∧ S y ∧ z = dictVal a.objective y} (solver a).primal) :
    ∃ val, (run E solver (h ++ .setObjective (some d) maxi :: h' ++ [.solve])).result = .solved val ∧
      (if maxi then IsGreatest {z | ∃ y, Satisfies E (run E solver (h ++ .setObjective (some d) maxi :: h')) y ∧ S y ∧ z = userVal E d y} val
       else IsLeast {z | ∃ y, Satisfies E (run E solver (h ++ .setObjective (some d) maxi :: h')) y ∧ S y ∧ z = userVal E d y} val) := by
  have hf := fun y => C29_sdp_arguments_faithful E solver _ a ha y hlo hup
  have hof := C43_sdp_objective_partial E solver _ hok hv
  have hobj : (run E solver (h ++ .setObjective (some d) maxi :: h')).objective = newObjective E d maxi ∧ (run E solver (h ++ .setObjective (some d) maxi :: h')).maximize = maxi := by
    rw [run_append, List.foldl_cons]
    have hok1 : (setObjective E (some d) maxi (run E solver h)).2 = none := hok h _ h' rfl
    have hb : (setObjective E (some d) maxi (run E solver h)).1.objective = newObjective E d maxi ∧ (setObjective E (some d) maxi (run E solver h)).1.maximize = maxi := by
      unfold setObjective at hok1 ⊢
      by_cases hE : (E.supports && (some d).isSome) = true
      · rw [if_pos hE] at hok1; simp at hok1
      · rw [if_neg hE]
        dsimp only
        split <;> exact ⟨rfl, rfl⟩
    have hgb : Good (setObjective E (some d) maxi (run E solver h)).1 := setObjective_good E _ _ _ (run_good E solver h)
    refine (fold_induction E solver (fun s => Good s ∧ s.objective = newObjective E d maxi ∧ s.maximize = maxi)
      (fun c => (∀ o m, c ≠ .setObjective o m) ∧ c ≠ .reset .objective ∧ c ≠ .reset .all) ?_ h' hk _ ⟨hgb, hb⟩).2
    rintro s c ⟨c1, c2, c3⟩ ⟨hg, hs1, hs2⟩
    obtain ⟨e1, e2⟩ := objective_kept E solver s c hg c1 c2 c3
    exact ⟨call_good E solver s c hg, by rw [e1]; exact hs1, by rw [e2]; exact hs2⟩
  generalize hrun : run E solver (h ++ .setObjective (some d) maxi :: h') = s at *
  have hargs : a.objective = s.processed := by
    unfold solverArgs at ha
    split at ha
    · simp only [Option.some.injEq] at ha
      subst ha; rfl
    · simp at ha
  have hsan : ∀ y, dictVal (sanitiseDict E d) y = userVal E d y := by
    intro y
    let E' : Verif.State.Env K := ⟨E.info, E.san, E.moments, false, [], []⟩
    exact (Verif.State.C43_sanitise E' d y).2 hd
  have hval : ∀ y, Satisfies E s y → S y → dictVal a.objective y = (if maxi then 1 else -1) * userVal E d y := by
    intro y hy hSy
    rw [hargs, hof y (hS y hSy) hy.known, hobj.1, newObjective_val, hsan]
  refine ⟨(solver a).primal * (if maxi then 1 else -1), ?_, ?_⟩
  · rw [run_snoc, hrun]
    show (solve E solver s).1.result = _
    unfold solve
    rw [ha]
    simp [hfeas, hobj.2]
  · obtain ⟨⟨y0, hf0, hS0, h0⟩, hub⟩ := hopt
    cases maxi with
    | true =>
      simp only [if_true, mul_one, one_mul] at hval ⊢
      refine ⟨⟨y0, (hf y0).1 hf0, hS0, by rw [h0, hval y0 ((hf y0).1 hf0) hS0]⟩, ?_⟩
      rintro z ⟨y, hy, hSy, rfl⟩
      have := hub ⟨y, (hf y).2 hy, hSy, rfl⟩
      rwa [hval y hy hSy] at this
    | false =>
      simp only [Bool.false_eq_true, if_false, mul_neg, mul_one, neg_mul, one_mul] at hval ⊢
      refine ⟨⟨y0, (hf y0).1 hf0, hS0, by rw [h0, hval y0 ((hf y0).1 hf0) hS0]; ring⟩, ?_⟩
      rintro z ⟨y, hy, hSy, rfl⟩
      have := hub ⟨y, (hf y).2 hy, hSy, rfl⟩
      rw [hval y hy hSy] at this
      linarith

/-! ## Non-vacuity -/

/-- A history with values, bounds and an objective that raises nothing; what the solver is given. -/
example : solverArgs exEnv (run exEnv (fun _ => ⟨"feasible", 0⟩) [.setObjective (some [(2, 3), (1, 1)]) false, .setValues [(1, some (1 / 2))] true false, .setUpper (some [(2, 1)])]) =
    some ⟨[([[2]], -3), (one, -1 / 2)], [(some [], 1), (some [[1]], 1 / 2), (none, 1)], [([[1], [2]], 1 / 2, [[2]])], [],
      [[(some [[2]], 1)], [(some [[1], [2]], 1)], [(some [[2]], -1), (none, 1)]]⟩ := by decide +kernel

/-- The call that raises nothing, needed by the hypotheses on single calls above. -/
example : (call exEnv (fun _ => ⟨"feasible", 0⟩) (run exEnv (fun _ => ⟨"feasible", 0⟩) [.setValues [(1, some (1 / 2))] true false]) (.setLower (some [(2, 1 / 4)]))).2 = none := by decide +kernel

/-- The hypotheses of `C43_sdp_reported_optimum_partial` are met: minimise `P[2]` given `P[1] = 1/2`, the moments being non-negative; the solver maximises `-P[2]` and returns 0. -/
example : ∃ a, solverArgs exEnv (run exEnv (fun _ => ⟨"feasible", 0⟩) ([.setValues [(1, some (1 / 2))] true false] ++ .setObjective (some [(2, 1)]) false :: [])) = some a ∧
    (call exEnv (fun _ => ⟨"feasible", 0⟩) (run exEnv (fun _ => ⟨"feasible", 0⟩) [.setValues [(1, some (1 / 2))] true false]) (.setObjective (some [(2, 1)]) false)).2 = none ∧
    (call exEnv (fun _ => ⟨"feasible", 0⟩) (run exEnv (fun _ => ⟨"feasible", 0⟩) []) (.setValues [(1, some (1 / 2))] true false)).2 = none ∧
    IsGreatest {z | ∃ y : Mon → Rat, a.Feasible (withConst y) ∧ y one = 1 ∧ z = dictVal a.objective y} 0 := by
  refine ⟨⟨[([[2]], -1), (one, 0)], [(some [], 1), (some [[1]], 1 / 2), (none, 1)], [([[1], [2]], 1 / 2, [[2]])], [],
      [[(some [[2]], 1)], [(some [[1], [2]], 1)]]⟩, by decide +kernel, by decide +kernel, by decide +kernel, ⟨fun m => if m = [] then 1 else if m = [[1]] then 1 / 2 else 0, ⟨?_, ?_, ?_, ?_⟩, ?_, ?_⟩, ?_⟩
  · simp [withConst]
  · simp [withConst]
  · simp
  · simp [withConst, dictVal]
  · simp [one]
  · simp [dictVal]
  · rintro z ⟨y, hf, _, rfl⟩
    have := hf.ineqs [(some [[2]], 1)] (by simp)
    simp only [dictVal, withConst, List.map_cons, List.map_nil, List.sum_cons, List.sum_nil] at this ⊢
    linarith

end Verif.SdpState
